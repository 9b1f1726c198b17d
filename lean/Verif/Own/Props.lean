import Verif.Own.Model

/-!
# C150: descriptors of buffered files are closed once
-/
namespace Ksh.Own

/-- What holds from before to after: nothing that was open has been closed, nothing has been closed twice,
what is new is out of the range the user can name. -/
structure Keeps (s t : St) : Prop where
  keep : ∀ n, s.isOpen n = true → t.isOpen n = true
  bad : t.bad = s.bad
  high : ∀ n, n < FDBASE → t.isOpen n = s.isOpen n

theorem Keeps.refl (s : St) : Keeps s s := ⟨fun _ h => h, rfl, fun _ _ => rfl⟩

theorem Keeps.trans {a b c : St} (h : Keeps a b) (g : Keeps b c) : Keeps a c :=
  ⟨fun n x => g.keep n (h.keep n x), g.bad.trans h.bad, fun n x => (g.high n x).trans (h.high n x)⟩

/-- Open a number, do something that keeps, close the number. -/
theorem Keeps.around {s t : St} {n : Nat} (hn : s.isOpen n = false) (h : Keeps (s.add n) t) : Keeps s (t.close n) := by
  have ht : t.isOpen n = true := h.keep n (by simp [St.add])
  refine ⟨?_, ?_, ?_⟩
  · intro m hm
    have : m ≠ n := by rintro rfl; simp [hn] at hm
    simp only [St.close, this, if_false]
    exact h.keep m (by simp [St.add, this, hm])
  · simp [St.close, ht, h.bad, St.add]
  · intro m hm
    by_cases e : m = n
    · simp [St.close, e, hn]
    · simp only [St.close, e, if_false]
      rw [h.high m hm]; simp [St.add, e]

theorem sysOpen_some {o : Option Nat} {s t : St} {n : Nat} (h : sysOpen o s = (some n, t)) :
    s.isOpen n = false ∧ t = s.add n := by
  unfold sysOpen at h
  split at h
  · simp at h
  · split at h
    · simp at h
    · rename_i m hm
      simp only [Prod.mk.injEq, Option.some.injEq] at h
      obtain ⟨rfl, rfl⟩ := h
      exact ⟨by simpa using hm, rfl⟩

theorem sysOpen_none {o : Option Nat} {s t : St} (h : sysOpen o s = (none, t)) : t = s := by
  unfold sysOpen at h
  split at h
  · simpa using h.symm
  · split at h <;> simp at h; exact h.symm

theorem sysDup_some {o : Option Nat} {s t : St} {n : Nat} (h : sysDup o s = (some n, t)) :
    s.isOpen n = false ∧ FDBASE ≤ n ∧ t = s.add n := by
  unfold sysDup at h
  split at h
  · simp at h
  · split at h
    · simp at h
    · rename_i m hm
      simp only [Prod.mk.injEq, Option.some.injEq] at h
      obtain ⟨rfl, rfl⟩ := h
      simp only [Bool.or_eq_true, decide_eq_true_eq, not_or] at hm
      exact ⟨by simpa using hm.1, by omega, rfl⟩

theorem sysDup_none {o : Option Nat} {s t : St} (h : sysDup o s = (none, t)) : t = s := by
  unfold sysDup at h
  split at h
  · simpa using h.symm
  · split at h <;> simp at h; exact h.symm

theorem add_close {s : St} {n : Nat} (h : s.isOpen n = false) : (s.add n).close n = s := by
  cases s with
  | mk f b =>
    simp only at h
    simp only [St.add, St.close, St.mk.injEq]
    refine ⟨?_, by simp⟩
    funext m
    by_cases e : m = n
    · simp [e, h]
    · simp [e]

/-- `shf_open` fails without a trace, or opens just one number, which the user cannot name. -/
theorem shfOpen_spec (o d : Option Nat) (s : St) :
    ((shfOpen o d s).1 = none ∧ (shfOpen o d s).2 = s) ∨
    ∃ n, shfOpen o d s = (some n, s.add n) ∧ s.isOpen n = false ∧ FDBASE ≤ n := by
  unfold shfOpen
  split
  · rename_i t h
    exact .inl ⟨rfl, sysOpen_none h⟩
  · rename_i n t h
    obtain ⟨hn, rfl⟩ := sysOpen_some h
    split
    · rename_i hl
      split
      · rename_i u h2
        rw [sysDup_none h2]
        exact .inl ⟨rfl, add_close hn⟩
      · rename_i m u h2
        obtain ⟨hm, hb, rfl⟩ := sysDup_some h2
        have hne : m ≠ n := by omega
        refine .inr ⟨m, ?_, ?_, hb⟩
        · simp only [Prod.mk.injEq, true_and]
          simp only [St.add, St.close, St.mk.injEq]
          refine ⟨?_, by simp⟩
          funext x
          by_cases e : x = n
          · simp [e, hn]; omega
          · simp [e]
        · simpa [St.add, hne] using hm
    · exact .inr ⟨n, rfl, hn, by omega⟩

/-- Opened by `shf_open` and left open: a leak, but nothing else is touched. -/
theorem keeps_add {s : St} {n : Nat} (h : FDBASE ≤ n) : Keeps s (s.add n) :=
  ⟨fun m hm => by simp [St.add, hm], rfl, fun m hm => by
    have : m ≠ n := by omega
    simp [St.add, this]⟩

theorem runFile_keeps {f g : St → Res × St} (hf : ∀ s, Keeps s (f s).2) (hg : ∀ s, Keeps s (g s).2)
    (eof : Bool) {s : St} {n : Nat} (hn : s.isOpen n = false) :
    Keeps s (shfClose (runFile f g eof (some n) (s.add n)).2.1 (runFile f g eof (some n) (s.add n)).2.2) := by
  have h1 := hf (s.add n)
  unfold runFile
  cases hx : f (s.add n) with
  | mk r t =>
    rw [hx] at h1
    cases r with
    | jump k => exact Keeps.around hn h1
    | ok =>
      cases eof with
      | false => exact Keeps.around hn h1
      | true =>
        have h2 := hg (t.close n)
        simp only [shfFdclose, if_true]
        cases hy : g (t.close n) with
        | mk r2 u =>
          rw [hy] at h2
          exact (Keeps.around hn h1).trans h2

/-- Whatever is nested in whatever and wherever a jump leaves it: no descriptor that was open before is
closed, no `close` is called for a descriptor that is not open, and the numbers the user can name
are as before. -/
theorem never_closed_twice : ∀ (p : P) (s : St), Keeps s (run p s).2
  | .done, s => Keeps.refl s
  | .jump _, s => Keeps.refl s
  | .seq a b, s => by
    have h := never_closed_twice a s
    unfold run
    cases hx : run a s with
    | mk r t =>
      rw [hx] at h
      cases r with
      | jump k => exact h
      | ok => exact h.trans (never_closed_twice b t)
  | .dot o d a eof b, s => by
    unfold run
    rcases shfOpen_spec o d s with ⟨h1, h2⟩ | ⟨n, h1, hn, hb⟩
    · cases hx : shfOpen o d s with
      | mk x t => rw [hx] at h1 h2; cases h1; cases h2; exact Keeps.refl _
    · have h := runFile_keeps (never_closed_twice a) (never_closed_twice b) eof hn
      rw [h1]
      simp only
      cases hx : runFile (run a) (run b) eof (some n) (s.add n) with
      | mk r q =>
        rw [hx] at h
        rcases r with _ | (_ | _) <;> exact h
  | .here o o2 b w, s => by
    unfold run
    cases hx : sysOpen o s with
    | mk x t =>
      cases x with
      | none => rw [sysOpen_none hx]; exact Keeps.refl s
      | some n =>
        obtain ⟨hn, rfl⟩ := sysOpen_some hx
        simp only
        cases hy : sysOpen o2 (s.add n) with
        | mk y u =>
          cases y with
          | none => rw [sysOpen_none hy]; exact Keeps.around hn (Keeps.refl _)
          | some m =>
            obtain ⟨hm, rfl⟩ := sysOpen_some hy
            have h := never_closed_twice b ((s.add n).add m)
            have hne : m ≠ n := by rintro rfl; simp [St.add] at hm
            have comm : ∀ v : St, v.isOpen n = true → v.isOpen m = true → (v.close n).close m = (v.close m).close n := by
              intro v h1 h2
              simp only [St.close, St.mk.injEq]
              refine ⟨?_, ?_⟩
              · funext x; by_cases e : x = m <;> by_cases e' : x = n <;> simp [e, e']
              · simp [h1, h2, hne, hne.symm]
            simp only
            cases hz : run b ((s.add n).add m) with
            | mk r v =>
              rw [hz] at h
              have g : Keeps s ((v.close n).close m) := by
                rw [comm v (h.keep n (by simp [St.add])) (h.keep m (by simp [St.add]))]
                exact Keeps.around hn (Keeps.around hm h)
              cases r with
              | jump k => exact g
              | ok => cases w <;> exact g
  | .sub o d w, s => by
    unfold run
    rcases shfOpen_spec o d s with ⟨h1, h2⟩ | ⟨n, h1, hn, hb⟩
    · cases hx : shfOpen o d s with
      | mk x t => rw [hx] at h1 h2; cases h1; cases h2; exact Keeps.refl _
    · rw [h1]
      simp only
      split
      · exact keeps_add hb
      · exact Keeps.around hn (Keeps.refl _)

theorem close_add_eq {s t : St} {n : Nat} (hn : s.isOpen n = false) (h : t = s.add n) : t.close n = s := by
  rw [h, add_close hn]

/-- However it ends, by itself or by a jump, everything that was opened is closed, if no substitution is
interrupted while its words are made (see `interrupted_leaks`). -/
theorem all_closed_partial : ∀ (p : P) (s : St), p.quiet = true → (run p s).2 = s
  | .done, s, _ => rfl
  | .jump _, s, _ => rfl
  | .seq a b, s, q => by
    simp only [P.quiet, Bool.and_eq_true] at q
    have h := all_closed_partial a s q.1
    unfold run
    cases hx : run a s with
    | mk r t =>
      rw [hx] at h
      cases h
      cases r with
      | jump k => rfl
      | ok => exact all_closed_partial b _ q.2
  | .dot o d a eof b, s, q => by
    simp only [P.quiet, Bool.and_eq_true] at q
    unfold run
    rcases shfOpen_spec o d s with ⟨h1, h2⟩ | ⟨n, h1, hn, hb⟩
    · cases hx : shfOpen o d s with
      | mk x t => rw [hx] at h1 h2; cases h1; exact h2
    · rw [h1]
      have h : shfClose (runFile (run a) (run b) eof (some n) (s.add n)).2.1
          (runFile (run a) (run b) eof (some n) (s.add n)).2.2 = s := by
        have ha := all_closed_partial a (s.add n) q.1
        unfold runFile
        cases hx : run a (s.add n) with
        | mk r t =>
          rw [hx] at ha
          have ht : t = s.add n := ha
          subst ht
          cases r with
          | jump k => exact add_close hn
          | ok =>
            cases eof with
            | false => exact add_close hn
            | true =>
              simp only [shfFdclose, if_true, add_close hn]
              exact all_closed_partial b s q.2
      simp only
      cases hx : runFile (run a) (run b) eof (some n) (s.add n) with
      | mk r q =>
        rw [hx] at h
        rcases r with _ | (_ | _) <;> exact h
  | .here o o2 b w, s, q => by
    unfold run
    cases hx : sysOpen o s with
    | mk x t =>
      cases x with
      | none => exact sysOpen_none hx
      | some n =>
        obtain ⟨hn, rfl⟩ := sysOpen_some hx
        simp only
        cases hy : sysOpen o2 (s.add n) with
        | mk y u =>
          cases y with
          | none => rw [sysOpen_none hy]; exact add_close hn
          | some m =>
            obtain ⟨hm, rfl⟩ := sysOpen_some hy
            have h := all_closed_partial b ((s.add n).add m) q
            have hne : m ≠ n := by rintro rfl; simp [St.add] at hm
            have hm' : s.isOpen m = false := by simpa [St.add, hne] using hm
            have g : (((s.add n).add m).close n).close m = s := by
              cases s with
              | mk f b =>
                simp only at hn hm'
                simp only [St.add, St.close, St.mk.injEq]
                refine ⟨?_, by simp [hne]⟩
                funext x
                by_cases e : x = m
                · simp [e, hm']
                · by_cases e' : x = n
                  · simp [e', hn]
                  · simp [e, e']
            simp only
            cases hz : run b ((s.add n).add m) with
            | mk r v =>
              rw [hz] at h
              cases h
              cases r with
              | jump k => exact g
              | ok => cases w <;> exact g
  | .sub o d w, s, q => by
    unfold run
    rcases shfOpen_spec o d s with ⟨h1, h2⟩ | ⟨n, h1, hn, hb⟩
    · cases hx : shfOpen o d s with
      | mk x t => rw [hx] at h1 h2; cases h1; exact h2
    · rw [h1]
      simp only [P.quiet, Bool.not_eq_true'] at q
      simp only [q]
      exact add_close hn

/-- A jump out of a here document ends there: the redirection fails, the command goes on. -/
theorem here_stops_jumps (o o2 : Option Nat) (b : P) (w : Bool) (s : St) : (run (.here o o2 b w) s).1 = .ok := by
  unfold run
  cases hx : sysOpen o s with
  | mk x t =>
    cases x with
    | none => rfl
    | some n =>
      simp only
      cases hy : sysOpen o2 t with
      | mk y u =>
        cases y with
        | none => rfl
        | some m =>
          simp only
          cases hz : run b u with
          | mk r v => cases r <;> cases w <;> rfl

/-- FINDING.  A substitution that is interrupted while a pattern among its words is expanded
leaves its descriptor open for good, whatever file or pipe it is, and however often it happens. -/
theorem interrupted_leaks (n : Nat) (s : St) (hf : s.isOpen n = false) (hb : FDBASE ≤ n) (w : List Bool) (hw : true ∈ w) :
    run (.sub (some n) none w) s = (.jump false, s.add n) := by
  have hl : ¬ n < FDBASE := by omega
  have ha : w.any id = true := by simpa using hw
  simp [run, shfOpen, sysOpen, hf, hl, ha]

/-- Three descriptors, as after a login, and nothing wrong. -/
def start : St := ⟨fun n => decide (n < 3), false⟩

/-- The last command of a file is ended by the end of the file; the descriptor has been closed by then, and
the file that this command reads gets the same number.  Neither is closed twice. -/
example : (run (.dot (some 3) (some 10) .done true (.dot (some 3) (some 10) (.jump true) true .done)) start).2.bad = false :=
  (never_closed_twice _ start).bad
example : (run (.dot (some 3) (some 10) .done true (.seq (.dot (some 3) (some 10) (.jump true) true .done) (.jump false))) start).1 =
    .jump false := by decide
/-- A jump out of a here document in a file. -/
example : run (.dot (some 3) (some 10) (.here (some 3) (some 4) (.jump false) false) true .done) start = (.ok, start) :=
  Prod.ext (by decide) (all_closed_partial _ _ rfl)
/-- `ls $(cat list)` interrupted twice: 10 and 11 stay open. -/
example : let s := (run (.seq (.here (some 3) (some 4) (.jump true) false) (.sub (some 3) (some 10) [false, true])) start).2
    let t := (run (.sub (some 11) none [true]) s).2
    t.isOpen 10 = true ∧ t.isOpen 11 = true ∧ t.isOpen 3 = false ∧ t.bad = false := by decide

end Ksh.Own
