import Verif.Clobber.Model

/-!
# What redirections do to files: proofs
-/
namespace Ksh.Clobber

/-- Every name of a regular file has an inode that exists. -/
def WF (fs : FS) : Prop := ∀ n i, fs.ents n = some (.reg i) → i < fs.next

theorem resolve_reg {fs : FS} : ∀ {k n m : Nat} {e : Option Ent},
    resolve fs k n = some (m, e) → fs.ents m = e ∧ ∀ t, e ≠ some (.link t)
  | 0, _, _, _, h => by cases h
  | k + 1, n, m, e, h => by
    simp only [resolve] at h
    split at h
    · exact resolve_reg h
    · rename_i hl
      simp only [Option.some.injEq, Prod.mk.injEq] at h
      obtain ⟨rfl, rfl⟩ := h
      exact ⟨rfl, fun t => hl t⟩

/-! ## noclobber -/

/-- With noclobber `>` does not change the contents of any file there is, whatever others do
between the two system calls, provided that the name was not that of a device, a fifo or a
directory when the shell asked.  If it succeeds, the name was free, and the file is new and
empty. -/
theorem noclobber_partial (deny : Bool) (n : Nat) (others : FS → FS) (fs : FS)
    (hst : special (stat fs n) = false) :
    (∀ i, i < (others fs).next →
      (redirect true deny (.write false) n others fs).2.data i = (others fs).data i) ∧
    (∀ m, m ≠ n → (redirect true deny (.write false) n others fs).2.ents m = (others fs).ents m) ∧
    (∀ f, (redirect true deny (.write false) n others fs).1 = some f →
      (others fs).ents n = none ∧ ∃ i, f = .reg i false ∧ (others fs).next ≤ i ∧
      (redirect true deny (.write false) n others fs).2.ents n = some (.reg i) ∧
      (redirect true deny (.write false) n others fs).2.data i = []) := by
  simp only [redirect, flags, hst, openf, Bool.not_false, Bool.and_self, if_true]
  cases deny with
  | true => simp
  | false =>
    simp only [Bool.false_eq_true, if_false]
    cases he : (others fs).ents n with
    | some e => simp
    | none =>
      refine ⟨fun i hi => ?_, fun m hm => ?_, fun f hf => ?_⟩
      · have : ¬ i = (others fs).next := by omega
        simp [create, this]
      · simp [create, hm]
      · simp only [Option.some.injEq] at hf
        exact ⟨rfl, _, hf.symm, Nat.le_refl _, by simp [create], by simp [create]⟩

/-- With nobody else about, noclobber `>` never changes the contents of a file, and succeeds only
if the name is free or not that of a regular file. -/
theorem noclobber_alone (deny : Bool) (n : Nat) (fs : FS) (i : Nat) (hi : i < fs.next) :
    (redirect true deny (.write false) n id fs).2.data i = fs.data i ∧
    (stat fs n = some (.reg i) → (redirect true deny (.write false) n id fs).1 = none) := by
  cases hst : special (stat fs n) with
  | false =>
    obtain ⟨h1, _, h3⟩ := noclobber_partial deny n id fs hst
    refine ⟨h1 i hi, fun hs => ?_⟩
    cases hr : (redirect true deny (.write false) n id fs).1 with
    | none => rfl
    | some f =>
      have hn := (h3 f hr).1
      simp only [id_eq] at hn
      simp [stat, resolve, hops, hn] at hs
  | true =>
    refine ⟨?_, fun hs => by simp [hs, special] at hst⟩
    simp only [redirect, flags, hst, openf, Bool.not_true, Bool.and_false, id_eq]
    cases deny with
    | true => simp
    | false =>
      simp only [Bool.false_eq_true, if_false]
      simp only [stat] at hst
      cases hr : resolve fs hops n with
      | none => simp [hr, special] at hst
      | some v =>
        obtain ⟨m, e⟩ := v
        simp only [hr, Option.bind_some] at hst
        cases e with
        | none => simp [special] at hst
        | some e => cases e <;> simp_all [special]

/-- The race: a fifo is replaced by a regular file between the two system calls, and the file is
emptied in spite of noclobber. -/
theorem noclobber_race : ∃ (fs : FS) (others : FS → FS),
    (others fs).ents 0 = some (.reg 0) ∧ (others fs).data 0 = [1, 2, 3] ∧ 0 < (others fs).next ∧
    (redirect true false (.write false) 0 others fs).2.data 0 = [] :=
  ⟨⟨fun _ => some .dev, fun _ => [1, 2, 3], 1⟩,
   fun fs => { fs with ents := fun _ => some (.reg 0) }, by decide⟩

/-! ## The others -/

/-- `>|`, and `>` without noclobber, empty the file and no other. -/
theorem write_empties (nc clob : Bool) (hc : (nc && !clob) = false) (n : Nat) (others : FS → FS)
    (fs : FS) (m i : Nat) (hr : resolve (others fs) hops n = some (m, some (.reg i))) :
    (redirect nc false (.write clob) n others fs).1 = some (.reg i false) ∧
    (redirect nc false (.write clob) n others fs).2.data i = [] ∧
    (redirect nc false (.write clob) n others fs).2.ents = (others fs).ents ∧
    ∀ j, j ≠ i → (redirect nc false (.write clob) n others fs).2.data j = (others fs).data j := by
  have : (nc && !clob && !special (stat fs n)) = false := by rw [hc]; rfl
  simp only [redirect, flags, this, openf, hr]
  refine ⟨by simp, by simp [truncate], by simp [truncate], fun j hj => by simp [truncate, hj]⟩

/-- `<` changes nothing. -/
theorem read_pure (nc deny : Bool) (n : Nat) (others : FS → FS) (fs : FS) :
    (redirect nc deny .read n others fs).2 = others fs := by
  simp only [redirect, flags, openf]
  cases deny with
  | true => rfl
  | false =>
    simp only [Bool.false_eq_true, if_false, Bool.and_self]
    split <;> simp

/-- `>>` and `<>` change the contents of no file there is; they make a file if there was none. -/
theorem keeps (nc deny : Bool) (io : Io) (hio : io = .cat ∨ io = .rdwr) (n : Nat)
    (others : FS → FS) (fs : FS) :
    (∀ i, i < (others fs).next → (redirect nc deny io n others fs).2.data i = (others fs).data i) ∧
    (∀ m e, (others fs).ents m = some e → (redirect nc deny io n others fs).2.ents m = some e) ∧
    (deny = false → ∀ m, resolve (others fs) hops n = some (m, none) →
      (redirect nc deny io n others fs).2.ents m = some (.reg (others fs).next) ∧
      (redirect nc deny io n others fs).1 = some (.reg (others fs).next (io = .cat))) := by
  have key : ∀ f : Flags, f.excl = false → f.trunc = false → f.creat = true →
      (∀ i, i < (others fs).next → (openf deny f n (others fs)).2.data i = (others fs).data i) ∧
      (∀ m e, (others fs).ents m = some e → (openf deny f n (others fs)).2.ents m = some e) ∧
      (deny = false → ∀ m, resolve (others fs) hops n = some (m, none) →
      (openf deny f n (others fs)).2.ents m = some (.reg (others fs).next) ∧
      (openf deny f n (others fs)).1 = some (.reg (others fs).next f.append)) := by
    intro f h1 h2 h3
    simp only [openf, h1, h2, h3]
    cases deny with
    | true => simp
    | false =>
      simp only [Bool.false_eq_true, if_false, Bool.and_false, if_true]
      cases hr : resolve (others fs) hops n with
      | none => simp
      | some v =>
        obtain ⟨m', e⟩ := v
        cases e with
        | some e =>
          cases e with
          | reg i => simp
          | link t => simp
          | dir => cases f.write <;> simp
          | dev => simp
        | none =>
          have hm := (resolve_reg hr).1
          refine ⟨fun i hi => ?_, fun m e he => ?_, fun _ m hm' => ?_⟩
          · have : ¬ i = (others fs).next := by omega
            simp [create, this]
          · have : ¬ m = m' := fun e' => by rw [e', hm] at he; cases he
            simp [create, this, he]
          · simp only [Option.some.injEq, Prod.mk.injEq, and_true] at hm'
            subst hm'
            simp [create]
  rcases hio with rfl | rfl
  · exact key _ rfl rfl rfl
  · exact key _ rfl rfl rfl

/-- Writes of any number of processes to one file. -/
def writes (i : Nat) : List Bytes → FS → FS
  | [], fs => fs
  | b :: bs, fs => writes i bs (writef i true 0 b fs)

/-- What is written through `>>` by any number of processes in any order comes after what the file
had, complete and in the order of the writes. -/
theorem append_all (nc : Bool) (n : Nat) (others : FS → FS) (fs : FS) (m i : Nat)
    (hwf : WF (others fs)) (hr : resolve (others fs) hops n = some (m, some (.reg i)))
    (bs : List Bytes) :
    (redirect nc false .cat n others fs).1 = some (.reg i true) ∧
    (writes i bs (redirect nc false .cat n others fs).2).data i =
      (others fs).data i ++ bs.flatten := by
  have hi : i < (others fs).next := hwf m i (resolve_reg hr).1
  have hk := (keeps nc false .cat (Or.inl rfl) n others fs).1 i hi
  have : ∀ (bs : List Bytes) (fs : FS), (writes i bs fs).data i = fs.data i ++ bs.flatten := by
    intro bs
    induction bs with
    | nil => intro fs; simp [writes]
    | cons b bs ih => intro fs; simp [writes, ih, writef]
  refine ⟨by simp [redirect, flags, openf, hr], ?_⟩
  rw [this, hk]

/-- Without O_APPEND two writers at the same offset overwrite each other. -/
example : (writef 0 false 0 [3] (writef 0 false 0 [1, 2] ⟨fun _ => none, fun _ => [], 1⟩)).data 0 =
    [3, 2] := by decide

/-! ## The lock -/

/-- Somebody has the lock just if the name is there, nobody else has it, and who is about to open
will not open what is there. -/
structure Inv (s : Sys) : Prop where
  one : ∀ j k, s.pc j = .holds → s.pc k = .holds → j = k
  name : (∃ k, s.pc k = .holds) ↔ s.fs.ents 0 ≠ none
  reg : s.fs.ents 0 = none ∨ ∃ i, s.fs.ents 0 = some (.reg i)
  excl : ∀ k f, s.pc k = .between f → f.creat = true ∧ f.excl = true

theorem Inv.step {s : Sys} (h : Inv s) (k : Nat) : Inv (Clobber.step true s k) := by
  cases hk : s.pc k with
  | idle =>
    have hs : special (stat s.fs 0) = false := by
      rcases h.reg with e | ⟨i, e⟩ <;> simp [stat, resolve, hops, e, special]
    have e1 : Clobber.step true s k =
        ⟨setPc s k (.between (flags true (stat s.fs 0) (.write false))), s.fs⟩ := by
      simp only [Clobber.step, hk]
    rw [e1]
    have hh : ∀ j, setPc s k (.between (flags true (stat s.fs 0) (.write false))) j = .holds ↔
        s.pc j = .holds := by
      intro j
      simp only [setPc]
      by_cases e : j = k
      · simp [e, hk]
      · simp [e]
    refine ⟨fun j j' h1 h2 => h.one j j' ((hh j).1 h1) ((hh j').1 h2), ?_, h.reg, fun j f hf => ?_⟩
    · rw [← h.name]
      exact ⟨fun ⟨j, hj⟩ => ⟨j, (hh j).1 hj⟩, fun ⟨j, hj⟩ => ⟨j, (hh j).2 hj⟩⟩
    · simp only [setPc] at hf
      by_cases e : j = k
      · simp only [e, if_true, Pc.between.injEq] at hf
        subst hf
        simp [flags, hs]
      · simp only [e, if_false] at hf
        exact h.excl j f hf
  | between f =>
    obtain ⟨f1, f2⟩ := h.excl k f hk
    cases he : s.fs.ents 0 with
    | some e =>
      have e1 : Clobber.step true s k = ⟨setPc s k .idle, s.fs⟩ := by
        simp [Clobber.step, hk, openf, f1, f2, he]
      rw [e1]
      have hh : ∀ j, setPc s k .idle j = .holds ↔ s.pc j = .holds := by
        intro j
        simp only [setPc]
        by_cases e : j = k
        · simp [e, hk]
        · simp [e]
      refine ⟨fun j j' h1 h2 => h.one j j' ((hh j).1 h1) ((hh j').1 h2), ?_, h.reg, fun j f hf => ?_⟩
      · rw [← h.name]
        exact ⟨fun ⟨j, hj⟩ => ⟨j, (hh j).1 hj⟩, fun ⟨j, hj⟩ => ⟨j, (hh j).2 hj⟩⟩
      · simp only [setPc] at hf
        by_cases e : j = k
        · simp [e] at hf
        · simp only [e, if_false] at hf
          exact h.excl j f hf
    | none =>
      have e1 : Clobber.step true s k = ⟨setPc s k .holds, create s.fs 0⟩ := by
        simp [Clobber.step, hk, openf, f1, f2, he]
      rw [e1]
      have no : ∀ j, s.pc j ≠ .holds := fun j hj => h.name.1 ⟨j, hj⟩ he
      have hh : ∀ j, setPc s k .holds j = .holds ↔ j = k := by
        intro j
        simp only [setPc]
        by_cases e : j = k
        · simp [e]
        · simp [e, no j]
      refine ⟨fun j j' h1 h2 => ((hh j).1 h1).trans ((hh j').1 h2).symm, ?_,
        Or.inr ⟨s.fs.next, by simp [create]⟩, fun j f hf => ?_⟩
      · simp [create, hh]
      · simp only [setPc] at hf
        by_cases e : j = k
        · simp [e] at hf
        · simp only [e, if_false] at hf
          exact h.excl j f hf
  | holds =>
    have e1 : Clobber.step true s k = ⟨setPc s k .idle, remove s.fs 0⟩ := by
      simp only [Clobber.step, hk]
    rw [e1]
    have hh : ∀ j, setPc s k .idle j ≠ .holds := by
      intro j
      simp only [setPc]
      by_cases e : j = k
      · simp [e]
      · simp only [e, if_false]
        exact fun hj => e (h.one j k hj hk)
    refine ⟨fun j j' h1 h2 => absurd h1 (hh j), ?_, Or.inl (by simp [remove]), fun j f hf => ?_⟩
    · simp [hh, remove]
    · simp only [setPc] at hf
      by_cases e : j = k
      · simp [e] at hf
      · simp only [e, if_false] at hf
        exact h.excl j f hf

theorem Inv.run {s : Sys} (h : Inv s) (ks : List Nat) : Inv (Clobber.run true s ks) := by
  induction ks generalizing s with
  | nil => exact h
  | cons k ks ih => exact ih (h.step k)

/-- The lock is free and every shell is at the beginning. -/
def fresh (fs : FS) : Sys := ⟨fun _ => .idle, fs⟩

/-- Any number of shells, in whatever order their system calls come: `set -C; > lock` lets at most
one of them at a time have the lock, and it is taken just while the file is there. -/
theorem mutual_exclusion (fs : FS) (h0 : fs.ents 0 = none) (ks : List Nat) :
    (∀ j k, (run true (fresh fs) ks).pc j = .holds → (run true (fresh fs) ks).pc k = .holds → j = k) ∧
    ((∃ k, (run true (fresh fs) ks).pc k = .holds) ↔ (run true (fresh fs) ks).fs.ents 0 ≠ none) := by
  have : Inv (fresh fs) := by
    refine ⟨fun j k h => ?_, ?_, Or.inl h0, fun k f h => ?_⟩
    · simp [fresh] at h
    · simp [fresh, h0]
    · simp [fresh] at h
  have := this.run ks
  exact ⟨this.one, this.name⟩

/-- A free lock is got by the first who opens it. -/
theorem lock_got (fs : FS) (h0 : fs.ents 0 = none) (ks : List Nat) (k : Nat) (f : Flags)
    (hf : (run true (fresh fs) ks).fs.ents 0 = none)
    (hk : (run true (fresh fs) ks).pc k = .between f) :
    (step true (run true (fresh fs) ks) k).pc k = .holds := by
  have : Inv (fresh fs) := by
    refine ⟨fun j k h => ?_, ?_, Or.inl h0, fun k f h => ?_⟩
    · simp [fresh] at h
    · simp [fresh, h0]
    · simp [fresh] at h
  obtain ⟨f1, f2⟩ := (this.run ks).excl k f hk
  simp [step, hk, openf, f1, f2, hf, setPc]

/-- Three shells: the second takes the lock, the others do not get it until it is removed. -/
example : (run true (fresh ⟨fun _ => none, fun _ => [], 0⟩) [0, 1, 1, 0, 2, 2]).pc 1 = .holds ∧
    (run true (fresh ⟨fun _ => none, fun _ => [], 0⟩) [0, 1, 1, 0, 2, 2]).pc 0 = .idle ∧
    (run true (fresh ⟨fun _ => none, fun _ => [], 0⟩) [0, 1, 1, 0, 2, 2, 1, 2, 2]).pc 2 = .holds := by
  decide

/-- Without noclobber the same shells have it at the same time. -/
example : (run false (fresh ⟨fun _ => none, fun _ => [], 0⟩) [0, 1, 1, 0]).pc 1 = .holds ∧
    (run false (fresh ⟨fun _ => none, fun _ => [], 0⟩) [0, 1, 1, 0]).pc 0 = .holds := by decide

/-- Nor does it work with a name that is a link to nothing: nobody ever gets that lock. -/
theorem dangling_never (nc : Bool) (deny : Bool) (fs : FS) (t : Nat) (h : fs.ents 0 = some (.link t))
    (h2 : stat fs 0 = none) (hn : nc = true) : (redirect nc deny (.write false) 0 id fs).1 = none := by
  subst hn
  simp only [redirect, flags, h2, special, openf, id_eq, h]
  cases deny <;> simp

end Ksh.Clobber
