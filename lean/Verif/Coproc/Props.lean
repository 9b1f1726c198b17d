import Verif.Coproc.Model
/-!
# Co-processes: C119
-/

namespace Ksh.Coproc

/-! ## Histories -/

/-- What the kernel and the order of the program allow: new descriptors are not open, and one `|&` is carried out at a time. -/
def Can (s : S) : Op → Prop
  | .start w r rw => s.pend = none ∧ (∀ e ∈ s.tab, e.1 ≠ w ∧ e.1 ≠ r ∧ e.1 ≠ rw) ∧ w ≠ r ∧ w ≠ rw ∧ r ≠ rw
  | .startFail w => s.pend = none ∧ (∀ e ∈ s.tab, e.1 ≠ w)
  | _ => True

/-- All histories. -/
inductive Reach : S → Prop
  | init : Reach {}
  | step {s op} : Reach s → Can s op → Reach (step s op)

/-- Those in which pipe(2) and fork(2) do not fail. -/
inductive Smooth : S → Prop
  | init : Smooth {}
  | step {s op} : Smooth s → Can s op → (∀ w, op ≠ .startFail w) → op ≠ .forkFail → Smooth (step s op)

/-! ## The table -/

def ent (fd : Option Nat) (e : Nat × Bool) : List (Nat × Nat × Bool) :=
  match fd with
  | some n => [(n, e)]
  | none => []

/-- The table holds what the three variables say and nothing else; `q` is the pipe of the output, `p` that of the input. -/
structure Core (s : S) (q p : Nat) : Prop where
  perm : s.tab.Perm (ent s.rd (q, false) ++ ent s.rw (q, true) ++ ent s.wr (p, true))
  nd : (s.tab.map Prod.fst).Nodup
  rwrd : s.rw.isSome → s.rd.isSome
  ok : s.fault = false

/-- The other fields. -/
def others (s : S) := (s.njobs, s.id, s.job, s.live, s.pend, s.nextPipe, s.nextJob)

theorem filter_nd {l : List (Nat × Nat × Bool)} (h : (l.map Prod.fst).Nodup) (f : Nat × Nat × Bool → Bool) :
    ((l.filter f).map Prod.fst).Nodup := (List.filter_sublist.map _).nodup h

theorem any_perm {l m : List (Nat × Nat × Bool)} (h : l.Perm m) (fd : Nat) : l.any (fun e => e.1 = fd) = m.any (fun e => e.1 = fd) := by
  rw [Bool.eq_iff_iff]
  simp only [List.any_eq_true]
  constructor
  · rintro ⟨x, hx, e⟩; exact ⟨x, h.mem_iff.1 hx, e⟩
  · rintro ⟨x, hx, e⟩; exact ⟨x, h.mem_iff.2 hx, e⟩

theorem Core.nd' {s : S} {q p} (h : Core s q p) : ((ent s.rd (q, false) ++ ent s.rw (q, true) ++ ent s.wr (p, true)).map Prod.fst).Nodup :=
  ((h.perm.map _).nodup_iff).1 h.nd

theorem Core.closeWr {s : S} {q p w} (h : Core s q p) (hw : s.wr = some w) :
    Core { close s w with wr := none } q p := by
  have hn := h.nd'
  have hp := h.perm
  refine ⟨?_, filter_nd h.nd _, h.rwrd, ?_⟩
  · refine (hp.filter _).trans ?_
    cases hr : s.rd <;> cases hrw : s.rw <;> simp_all [ent, close]
    all_goals grind
  · simp only [close, h.ok, Bool.false_or, any_perm hp]
    cases hr : s.rd <;> cases hrw : s.rw <;> simp [ent, *]

theorem Core.closeRw {s : S} {q p w} (h : Core s q p) (hw : s.rw = some w) :
    Core { close s w with rw := none } q p := by
  have hn := h.nd'
  have hp := h.perm
  refine ⟨?_, filter_nd h.nd _, by simp, ?_⟩
  · refine (hp.filter _).trans ?_
    cases hr : s.rd <;> cases hrw : s.wr <;> simp_all [ent, close]
    all_goals grind
  · simp only [close, h.ok, Bool.false_or, any_perm hp]
    cases hr : s.rd <;> cases hrw : s.wr <;> simp [ent, *]

theorem Core.closeRd {s : S} {q p w} (h : Core s q p) (hw : s.rd = some w) (hrw : s.rw = none) :
    Core { close s w with rd := none } q p := by
  have hn := h.nd'
  have hp := h.perm
  refine ⟨?_, filter_nd h.nd _, by simp [close, hrw], ?_⟩
  · refine (hp.filter _).trans ?_
    cases hr : s.wr <;> simp_all [ent, close]
    all_goals grind
  · simp only [close, h.ok, Bool.false_or, any_perm hp]
    cases hr : s.wr <;> simp [ent, *]

theorem Core.write {s : S} {q p} (h : Core s q p) : Core (writeClose s s.wr) q p ∧ (writeClose s s.wr).wr = none ∧
    (writeClose s s.wr).rd = s.rd ∧ (writeClose s s.wr).rw = s.rw ∧ others (writeClose s s.wr) = others s := by
  cases hw : s.wr with
  | some w =>
    rw [show writeClose s (some w) = { close s w with wr := none } by simp [writeClose, hw]]
    exact ⟨h.closeWr hw, rfl, rfl, rfl, rfl⟩
  | none =>
    rw [show writeClose s none = s by simp [writeClose, hw]]
    exact ⟨h, hw, rfl, rfl, rfl⟩

theorem Core.readw {s : S} {q p} (h : Core s q p) : Core (readwClose s s.rd) q p ∧ (readwClose s s.rd).rw = none ∧
    (readwClose s s.rd).rd = s.rd ∧ (readwClose s s.rd).wr = s.wr ∧ others (readwClose s s.rd) = others s := by
  have := h.rwrd
  cases hw : s.rw with
  | none =>
    rw [show readwClose s s.rd = s by simp [readwClose, hw]]
    exact ⟨h, hw, rfl, rfl, rfl⟩
  | some w =>
    cases hr : s.rd with
    | none => simp [hw, hr] at this
    | some r =>
      rw [show readwClose s (some r) = { close s w with rw := none } by simp [readwClose, hw, hr]]
      exact ⟨h.closeRw hw, rfl, hr, rfl, rfl⟩

theorem Core.read {s : S} {q p} (h : Core s q p) : Core (readClose s s.rd) q p ∧ (readClose s s.rd).rw = none ∧
    (readClose s s.rd).rd = none ∧ (readClose s s.rd).wr = s.wr ∧ others (readClose s s.rd) = others s := by
  obtain ⟨h1, h2, h3, h4, h5⟩ := h.readw
  cases hr : s.rd with
  | none =>
    have := h.rwrd
    rw [show readClose s none = s by simp [readClose, hr]]
    refine ⟨h, ?_, hr, rfl, rfl⟩
    cases hw : s.rw <;> simp_all
  | some r =>
    rw [hr] at h1 h2 h3 h4 h5
    rw [show readClose s (some r) = { close (readwClose s (some r)) r with rd := none } by simp [readClose, hr]]
    exact ⟨h1.closeRd h3 h2, h2, rfl, h4, h5⟩

/-- `coproc_cleanup(true)`: the input is closed; the output is kept if both ends are there. -/
theorem Core.clean {s : S} {q p} (h : Core s q p) : Core (cleanup s true) q p ∧ (cleanup s true).wr = none ∧
    others (cleanup s true) = others s ∧ ((cleanup s true).rw = s.rw ∧ (cleanup s true).rd = s.rd ∧ s.rw.isSome ∨
      (cleanup s true).rw = none ∧ (cleanup s true).rd = none ∧ s.rw = none) := by
  have hrr := h.rwrd
  cases hw : s.rw with
  | none =>
    cases hr : s.rd with
    | none =>
      cases hx : s.wr with
      | none =>
        rw [show cleanup s true = s by simp [cleanup, hw, hr, hx]]
        exact ⟨h, hx, rfl, .inr ⟨hw, hr, rfl⟩⟩
      | some x =>
        rw [show cleanup s true = { close s x with wr := none } by simp [cleanup, hw, hr, hx]]
        exact ⟨h.closeWr hx, rfl, rfl, .inr ⟨hw, hr, rfl⟩⟩
    | some r =>
      have h1 := h.closeRd hr hw
      cases hx : s.wr with
      | none =>
        rw [show cleanup s true = { close s r with rd := none } by simp [cleanup, close, hw, hr, hx]]
        exact ⟨h1, hx, rfl, .inr ⟨hw, rfl, rfl⟩⟩
      | some x =>
        rw [show cleanup s true = { close { close s r with rd := none } x with wr := none } by simp [cleanup, close, hw, hr, hx]]
        exact ⟨h1.closeWr hx, rfl, rfl, .inr ⟨hw, rfl, rfl⟩⟩
  | some w =>
    cases hr : s.rd with
    | none => simp [hw, hr] at hrr
    | some r =>
      cases hx : s.wr with
      | none =>
        rw [show cleanup s true = s by simp [cleanup, hw, hr, hx]]
        exact ⟨h, hx, rfl, .inl ⟨hw, hr, rfl⟩⟩
      | some x =>
        rw [show cleanup s true = { close s x with wr := none } by simp [cleanup, hw, hr, hx]]
        exact ⟨h.closeWr hx, rfl, rfl, .inl ⟨hw, hr, rfl⟩⟩

/-! ## The invariant -/

structure Inv (s : S) (q p : Nat) : Prop where
  core : Core s q p
  idpos : s.rd.isSome ∨ s.pend.isSome → 1 ≤ s.id
  qlt : s.rd.isSome → q < s.nextPipe
  plt : s.wr.isSome → p < s.nextPipe
  live : ∀ j ∈ s.live, j.jid < s.nextJob ∧ 1 ≤ j.cid ∧ j.cid ≤ s.id ∧ j.inp < s.nextPipe ∧ j.out < s.nextPipe
  ndl : (s.live.map Job.jid).Nodup
  cnt : s.njobs = (s.live.countP (fun j => j.cid = s.id) : Int)
  outs : s.rd.isSome → ∀ j ∈ s.live, (j.out = q ↔ j.cid = s.id)
  inps : s.wr.isSome → ∀ j ∈ s.live, j.inp = p → s.job = some j.jid
  pend : ∀ p' q', s.pend = some (p', q') → s.job = none ∧ p' < s.nextPipe ∧ q' < s.nextPipe ∧ (s.wr.isSome → p' = p) ∧ (s.rd.isSome → q' = q)
  job : ∀ i, s.job = some i → i + 1 = s.nextJob ∧ ∃ j ∈ s.live, j.jid = i ∧ j.cid = s.id ∧ (s.wr.isSome → j.inp = p)
  ne : s.rd.isSome → s.wr.isSome → p ≠ q

/-- Closing something and forgetting it. -/
theorem Inv.less {s s' : S} {q p} (h : Inv s q p) (c : Core s' q p) (h1 : s'.rd.isSome → s.rd.isSome) (h2 : s'.wr.isSome → s.wr.isSome)
    (ho : others s' = others s) : Inv s' q p := by
  simp only [others, Prod.mk.injEq] at ho
  obtain ⟨a, b, c', d, e, f, g⟩ := ho
  refine ⟨c, ?_, ?_, ?_, ?_, ?_, ?_, ?_, ?_, ?_, ?_, fun a b => h.ne (h1 a) (h2 b)⟩
  · rw [b, e]; intro hh; exact h.idpos (hh.imp h1 id)
  · rw [f]; intro hh; exact h.qlt (h1 hh)
  · rw [f]; intro hh; exact h.plt (h2 hh)
  · rw [d, g, b, f]; exact h.live
  · rw [d]; exact h.ndl
  · rw [a, d, b]; exact h.cnt
  · rw [d, b]; intro hh; exact h.outs (h1 hh)
  · rw [d, c']; intro hh; exact h.inps (h2 hh)
  · rw [e, c', f]
    intro p' q' hp
    obtain ⟨x1, x2, x3, x4, x5⟩ := h.pend p' q' hp
    exact ⟨x1, x2, x3, fun hh => x4 (h2 hh), fun hh => x5 (h1 hh)⟩
  · rw [c', g, d, b]
    intro i hi
    obtain ⟨x1, j, x2, x3, x4, x5⟩ := h.job i hi
    exact ⟨x1, j, x2, x3, x4, fun hh => x5 (h2 hh)⟩

theorem Inv.writeClose {s : S} {q p} (h : Inv s q p) : Inv (writeClose s s.wr) q p := by
  obtain ⟨c, a, b, -, d⟩ := h.core.write
  exact h.less c (by rw [b]; exact id) (by simp [a]) d

theorem Inv.readwClose {s : S} {q p} (h : Inv s q p) : Inv (readwClose s s.rd) q p := by
  obtain ⟨c, -, b, a, d⟩ := h.core.readw
  exact h.less c (by rw [b]; exact id) (by rw [a]; exact id) d

theorem Inv.readClose {s : S} {q p} (h : Inv s q p) : Inv (readClose s s.rd) q p := by
  obtain ⟨c, -, b, a, d⟩ := h.core.read
  exact h.less c (by simp [b]) (by rw [a]; exact id) d

theorem countP_ne (l : List Job) (i : Nat) (hn : (l.map Job.jid).Nodup) {j : Job} (hj : j ∈ l) (hji : j.jid = i) (f : Job → Bool) :
    (l.countP f : Int) = ((l.filter (fun j => j.jid ≠ i)).countP f : Int) + (if f j then 1 else 0) := by
  induction l with
  | nil => simp at hj
  | cons x l ih =>
    simp only [List.map_cons, List.nodup_cons, List.mem_map, not_exists, not_and] at hn
    rcases List.mem_cons.1 hj with rfl | hj
    · have hf : l.filter (fun k => k.jid ≠ i) = l := by
        rw [List.filter_eq_self]
        intro k hk
        simpa [← hji] using hn.1 k hk
      rw [List.filter_cons_of_neg (by simp [hji]), hf, List.countP_cons]
      split <;> simp
    · have hx : x.jid ≠ i := by rw [← hji]; exact fun e => hn.1 j hj e.symm
      rw [List.filter_cons_of_pos (by simp [hx]), List.countP_cons, List.countP_cons]
      have := ih hn.2 hj
      push_cast
      omega

theorem Inv.first {s : S} {q p w} (h : Inv s q p) (hp : s.pend = none) (hf : ∀ e ∈ s.tab, e.1 ≠ w) :
    Inv (firstPipe s w) q s.nextPipe ∧ (firstPipe s w).nextPipe = s.nextPipe + 1 ∧
      (firstPipe s w).pend = none ∧ (firstPipe s w).job = none ∧ (firstPipe s w).live = s.live ∧ (firstPipe s w).id = s.id ∧
      ((firstPipe s w).rw = s.rw ∧ (firstPipe s w).rd = s.rd ∧ s.rw.isSome ∨ (firstPipe s w).rw = none ∧ (firstPipe s w).rd = none ∧ s.rw = none) ∧
      (∀ e ∈ (firstPipe s w).tab, e.1 = w ∨ ∃ x ∈ s.tab, x.1 = e.1) ∧ (firstPipe s w).nextJob = s.nextJob ∧
      (firstPipe s w).wr = some w := by
  obtain ⟨c, hw, ho, hr⟩ := h.core.clean
  simp only [others, Prod.mk.injEq] at ho
  obtain ⟨o1, o2, o3, o4, o5, o6, o7⟩ := ho
  have hsub : ∀ e ∈ (cleanup s true).tab, ∃ x ∈ s.tab, x.1 = e.1 := by
    intro e he
    have he := c.perm.mem_iff.1 he
    have hs := h.core.perm
    have hm : ∀ x, x ∈ ent s.rd (q, false) ++ ent s.rw (q, true) ++ ent s.wr (p, true) → x ∈ s.tab := fun x hx => hs.mem_iff.2 hx
    refine ⟨e, hm e ?_, rfl⟩
    rw [hw] at he
    rcases hr with ⟨r1, r2, -⟩ | ⟨r1, r2, -⟩
    · rw [r1, r2] at he
      simp only [List.mem_append] at he ⊢
      rcases he with he | he
      · exact .inl he
      · simp [ent] at he
    · rw [r1, r2] at he
      simp [ent] at he
  have hrd : (cleanup s true).rd.isSome → s.rd.isSome := by
    rcases hr with ⟨r1, r2, -⟩ | ⟨r1, r2, -⟩ <;> rw [r2] <;> simp
  refine ⟨⟨⟨?_, ?_, c.rwrd, c.ok⟩, ?_, ?_, ?_, ?_, ?_, ?_, ?_, ?_, ?_, ?_, fun a _ => by have := h.qlt (hrd a); omega⟩, ?_, ?_, rfl, o4, o2, hr, ?_, o7, rfl⟩
  · have := c.perm
    rw [hw] at this
    simp only [firstPipe, o6]
    show ((w, s.nextPipe, true) :: (cleanup s true).tab).Perm _
    refine ((this.cons _).trans ?_)
    simp only [ent, List.append_nil]
    exact (List.perm_append_singleton _ _).symm
  · show (((w, (cleanup s true).nextPipe, true) :: (cleanup s true).tab).map Prod.fst).Nodup
    simp only [List.map_cons, List.nodup_cons, List.mem_map, not_exists, not_and]
    refine ⟨fun e he e' => ?_, c.nd⟩
    obtain ⟨x, hx, hxe⟩ := hsub e he
    exact hf x hx (hxe.trans e')
  · show (cleanup s true).rd.isSome ∨ (cleanup s true).pend.isSome → 1 ≤ (cleanup s true).id
    rw [o5, o2]; intro hh; exact h.idpos (hh.imp hrd id)
  · show (cleanup s true).rd.isSome → q < (cleanup s true).nextPipe + 1
    rw [o6]; intro hh; have := h.qlt (hrd hh); omega
  · show _ → s.nextPipe < (cleanup s true).nextPipe + 1
    rw [o6]; intro _; omega
  · show ∀ j ∈ (cleanup s true).live, j.jid < (cleanup s true).nextJob ∧ 1 ≤ j.cid ∧ j.cid ≤ (cleanup s true).id ∧
      j.inp < (cleanup s true).nextPipe + 1 ∧ j.out < (cleanup s true).nextPipe + 1
    rw [o4, o7, o2, o6]
    intro j hj
    obtain ⟨x1, x2, x3, x4, x5⟩ := h.live j hj
    exact ⟨x1, x2, x3, by omega, by omega⟩
  · show ((cleanup s true).live.map Job.jid).Nodup
    rw [o4]; exact h.ndl
  · show (cleanup s true).njobs = ((cleanup s true).live.countP (fun j => j.cid = (cleanup s true).id) : Int)
    rw [o1, o4, o2]; exact h.cnt
  · show (cleanup s true).rd.isSome → ∀ j ∈ (cleanup s true).live, (j.out = q ↔ j.cid = (cleanup s true).id)
    rw [o4, o2]; intro hh; exact h.outs (hrd hh)
  · show _ → ∀ j ∈ (cleanup s true).live, j.inp = s.nextPipe → none = some j.jid
    rw [o4]
    intro _ j hj e
    have := (h.live j hj).2.2.2.1
    omega
  · intro p' q' e
    have e : (cleanup s true).pend = some (p', q') := e
    rw [o5, hp] at e
    cases e
  · intro i e
    have e : none = some i := e
    cases e
  · show (cleanup s true).nextPipe + 1 = _
    rw [o6]
  · show (cleanup s true).pend = none
    rw [o5]; exact hp
  · intro e he
    have he : e ∈ (w, (cleanup s true).nextPipe, true) :: (cleanup s true).tab := he
    rcases List.mem_cons.1 he with rfl | he
    · exact .inl rfl
    · exact .inr (hsub e he)

theorem find_nd {l : List (Nat × Nat × Bool)} (hn : (l.map Prod.fst).Nodup) {x : Nat × Nat × Bool} (hx : x ∈ l) :
    l.find? (fun e => e.1 = x.1) = some x := by
  induction l with
  | nil => simp at hx
  | cons y l ih =>
    simp only [List.map_cons, List.nodup_cons, List.mem_map, not_exists, not_and] at hn
    rcases List.mem_cons.1 hx with rfl | hx
    · simp
    · rw [List.find?_cons_of_neg]
      · exact ih hn.2 hx
      · simpa using fun e => hn.1 x hx e.symm

theorem Core.pipe {s : S} {q p x} (h : Core s q p) (hx : s.rw = some x) : pipeOf s x = q := by
  have hm : (x, q, true) ∈ s.tab := by
    rw [h.perm.mem_iff, hx]
    simp [ent]
  have := find_nd h.nd hm
  rw [pipeOf, this]
  rfl

theorem writeClose_njobs (s : S) (n : Int) (fd) : writeClose { s with njobs := n } fd = { writeClose s fd with njobs := n } := by
  simp only [writeClose, close]
  split <;> (try split) <;> rfl

theorem Inv.step {s : S} {q p op} (h : Inv s q p) (hc : Can s op) : ∃ q' p', Inv (step s op) q' p' := by
  cases op with
  | start w r rw =>
    obtain ⟨hp, hf, n1, n2, n3⟩ := hc
    simp only [Coproc.step]
    split
    · exact ⟨q, p, h⟩
    · obtain ⟨i, f1, f2, f3, f4, f5, f6, f7, f8, f9⟩ := h.first (w := w) hp (fun e he => (hf e he).1)
      split
      · rename_i x hx
        refine ⟨q, s.nextPipe, ⟨⟨i.core.perm, i.core.nd, i.core.rwrd, i.core.ok⟩, ?_, i.qlt, i.plt, i.live, i.ndl, i.cnt, i.outs, i.inps, ?_, i.job, i.ne⟩⟩
        · intro _
          exact i.idpos (.inl (i.core.rwrd (by rw [hx]; rfl)))
        · intro p' q' e
          have e : some (s.nextPipe, pipeOf (firstPipe s w) x) = some (p', q') := e
          simp only [Option.some.injEq, Prod.mk.injEq] at e
          obtain ⟨rfl, rfl⟩ := e
          rw [i.core.pipe hx]
          exact ⟨f3, by rw [f1]; omega, i.qlt (i.core.rwrd (by rw [hx]; rfl)), fun _ => rfl, fun _ => rfl⟩
      · rename_i hx
        have hrd : (firstPipe s w).rd = none := by
          rcases f6 with ⟨a, b, c⟩ | ⟨a, b, c⟩
          · rw [hx] at a; rw [← a] at c; cases c
          · exact b
        have hfr : ∀ n, n ≠ w → (∀ e ∈ s.tab, e.1 ≠ n) → n ∉ (firstPipe s w).tab.map Prod.fst := by
          intro n hn he hm
          obtain ⟨e, hm, hen⟩ := List.mem_map.1 hm
          rcases f7 e hm with h1 | ⟨x, hx, h1⟩
          · exact hn (hen.symm.trans h1)
          · exact he x hx (h1.trans hen)
        refine ⟨(firstPipe s w).nextPipe, s.nextPipe, ⟨⟨?_, ?_, fun _ => rfl, i.core.ok⟩, ?_, ?_, ?_, ?_, ?_, ?_, ?_, ?_, ?_, ?_, fun _ _ => by omega⟩⟩
        · have := i.core.perm
          rw [hrd, hx] at this
          simp only [ent, List.nil_append] at this
          show ((r, _, false) :: (rw, _, true) :: (firstPipe s w).tab).Perm _
          simp only [ent, f9, List.cons_append, List.nil_append] at this ⊢
          exact (this.cons _).cons _
        · show ((r :: rw :: (firstPipe s w).tab.map Prod.fst)).Nodup
          simp only [List.nodup_cons, List.mem_cons, not_or]
          exact ⟨⟨n3, hfr r (Ne.symm n1) (fun e he => (hf e he).2.1)⟩, hfr rw (Ne.symm n2) (fun e he => (hf e he).2.2), i.core.nd⟩
        · intro _; exact Nat.le_add_left _ _
        · intro _; exact Nat.lt_succ_self _
        · intro _
          show s.nextPipe < (firstPipe s w).nextPipe + 1
          omega
        · intro j hj
          obtain ⟨x1, x2, x3, x4, x5⟩ := i.live j hj
          exact ⟨x1, x2, Nat.le_succ_of_le x3, Nat.lt_succ_of_lt x4, Nat.lt_succ_of_lt x5⟩
        · exact i.ndl
        · show (0 : Int) = ((firstPipe s w).live.countP (fun j => j.cid = (firstPipe s w).id + 1) : Int)
          have : (firstPipe s w).live.countP (fun j => j.cid = (firstPipe s w).id + 1) = 0 := by
            rw [List.countP_eq_zero]
            intro j hj
            have := (i.live j hj).2.2.1
            simp only [decide_eq_true_eq]
            omega
          rw [this]; rfl
        · intro _ j hj
          obtain ⟨x1, x2, x3, x4, x5⟩ := i.live j hj
          show j.out = (firstPipe s w).nextPipe ↔ j.cid = (firstPipe s w).id + 1
          constructor <;> intro _ <;> omega
        · exact i.inps
        · intro p' q' e
          have e : some (s.nextPipe, (firstPipe s w).nextPipe) = some (p', q') := e
          simp only [Option.some.injEq, Prod.mk.injEq] at e
          obtain ⟨rfl, rfl⟩ := e
          exact ⟨f3, by show _ < (firstPipe s w).nextPipe + 1; omega, Nat.lt_succ_self _, fun _ => rfl, fun _ => rfl⟩
        · intro k e
          have e : (firstPipe s w).job = some k := e
          rw [f3] at e; cases e
  | startFail w =>
    simp only [Coproc.step]
    split
    · exact ⟨q, p, h⟩
    · exact ⟨_, _, (h.first hc.1 hc.2).1⟩
  | fork =>
    simp only [Coproc.step]
    split
    · exact ⟨q, p, h⟩
    · rename_i p' q' hp
      obtain ⟨x1, x2, x3, x4, x5⟩ := h.pend p' q' hp
      refine ⟨q, p, ⟨⟨h.core.perm, h.core.nd, h.core.rwrd, h.core.ok⟩, ?_, h.qlt, h.plt, ?_, ?_, ?_, ?_, ?_, ?_, ?_, h.ne⟩⟩
      · intro _; exact h.idpos (.inr (by rw [hp]; rfl))
      · intro j hj
        rcases List.mem_cons.1 hj with rfl | hj
        · exact ⟨Nat.lt_succ_self _, h.idpos (.inr (by rw [hp]; rfl)), Nat.le_refl _, x2, x3⟩
        · obtain ⟨a, b⟩ := h.live j hj
          exact ⟨Nat.lt_succ_of_lt a, b⟩
      · simp only [List.map_cons, List.nodup_cons, List.mem_map, not_exists, not_and]
        exact ⟨fun j hj e => by have := (h.live j hj).1; omega, h.ndl⟩
      · simp only [List.countP_cons, decide_true, if_true]
        have := h.cnt
        push_cast
        omega
      · intro hr j hj
        rcases List.mem_cons.1 hj with rfl | hj
        · simp [x5 hr]
        · exact h.outs hr j hj
      · intro hw j hj hi
        rcases List.mem_cons.1 hj with rfl | hj
        · rfl
        · have := h.inps hw j hj hi
          rw [x1] at this; cases this
      · simp
      · intro i hi
        simp only [Option.some.injEq] at hi
        subst hi
        exact ⟨rfl, _, List.mem_cons_self, rfl, rfl, fun hw => x4 hw⟩
  | forkFail =>
    refine ⟨q, p, ⟨⟨h.core.perm, h.core.nd, h.core.rwrd, h.core.ok⟩, ?_, h.qlt, h.plt, h.live, h.ndl, h.cnt, h.outs, h.inps, ?_, h.job, h.ne⟩⟩
    · intro hh; exact h.idpos (hh.imp id (by simp [Coproc.step]))
    · simp [Coproc.step]
  | ended i =>
    simp only [Coproc.step]
    split
    · exact ⟨q, p, h⟩
    · rename_i j hj
      have hjm := List.mem_of_find?_eq_some hj
      have hji : j.jid = i := by simpa using List.find?_some hj
      obtain ⟨l1, l2, l3, -, -⟩ := h.live j hjm
      have hsub : ∀ k ∈ s.live.filter (fun j => j.jid ≠ i), k ∈ s.live ∧ k.jid ≠ i := by
        intro k hk
        obtain ⟨a, b⟩ := List.mem_filter.1 hk
        exact ⟨a, by simpa using b⟩
      have hcount := countP_ne s.live i h.ndl hjm hji (fun j => j.cid = s.id)
      have hc0 := h.cnt
      -- the state before the closing
      have i1 : Inv { s with live := s.live.filter (fun j => j.jid ≠ i), job := (if s.job = some i then none else s.job), njobs := (s.njobs - (if j.cid = s.id then 1 else 0)) } q p := by
        refine ⟨⟨h.core.perm, h.core.nd, h.core.rwrd, h.core.ok⟩, h.idpos, h.qlt, h.plt, ?_, ?_, ?_, ?_, ?_, ?_, ?_, h.ne⟩
        · intro k hk; exact h.live k (hsub k hk).1
        · exact (List.filter_sublist.map _).nodup h.ndl
        · simp only [decide_eq_true_eq] at hcount
          show s.njobs - _ = ((s.live.filter (fun j => j.jid ≠ i)).countP (fun j => j.cid = s.id) : Int)
          omega
        · intro hr k hk; exact h.outs hr k (hsub k hk).1
        · intro hw k hk e
          obtain ⟨a, b⟩ := hsub k hk
          have := h.inps hw k a e
          show (if s.job = some i then none else s.job) = _
          rw [if_neg (by rw [this]; simpa using b)]
          exact this
        · intro p' q' e
          obtain ⟨x1, x2⟩ := h.pend p' q' e
          exact ⟨by simp [x1], x2⟩
        · intro k e
          have e2 : (if s.job = some i then none else s.job) = some k := e
          clear e
          split at e2
          · cases e2
          · rename_i hne
            obtain ⟨x1, m, x2, x3, x4⟩ := h.job k e2
            refine ⟨x1, m, List.mem_filter.2 ⟨x2, ?_⟩, x3, x4⟩
            simp only [ne_eq, decide_eq_true_eq]
            rw [x3]
            rintro rfl
            exact hne e2
      by_cases hjob : s.job = some i
      · simp only [hjob, if_true] at i1 ⊢
        have hid : (Coproc.writeClose { s with live := s.live.filter (fun j => j.jid ≠ i), job := none } s.wr).id = s.id := by
          simp only [Coproc.writeClose, close]; split <;> (try split) <;> rfl
        by_cases hcid : j.cid = s.id
        · simp only [hcid, if_true] at i1
          rw [if_pos ⟨by omega, by rw [hid]; exact hcid⟩]
          have e : Coproc.writeClose { s with live := s.live.filter (fun j => j.jid ≠ i), job := none, njobs := (s.njobs - 1) } s.wr =
              { Coproc.writeClose { s with live := s.live.filter (fun j => j.jid ≠ i), job := none } s.wr with njobs := ((Coproc.writeClose { s with live := s.live.filter (fun j => j.jid ≠ i), job := none } s.wr).njobs - 1) } := by
            rw [← writeClose_njobs]
            congr 2
            simp only [Coproc.writeClose, close]; split <;> (try split) <;> rfl
          have i2 := i1.writeClose
          dsimp only at i2
          rw [e] at i2
          split
          · exact ⟨q, p, i2.readwClose⟩
          · exact ⟨q, p, i2⟩
        · simp only [hcid, if_false, Int.sub_zero] at i1
          rw [if_neg (fun x => hcid (by rw [← hid]; exact x.2))]
          exact ⟨q, p, i1.writeClose⟩
      · simp only [hjob, if_false] at i1 ⊢
        by_cases hcid : j.cid = s.id
        · simp only [hcid, if_true] at i1
          rw [if_pos ⟨by omega, hcid⟩]
          split
          · exact ⟨q, p, i1.readwClose⟩
          · exact ⟨q, p, i1⟩
        · simp only [hcid, if_false, Int.sub_zero] at i1
          rw [if_neg (fun x => hcid x.2)]
          exact ⟨q, p, i1⟩
  | eof => exact ⟨q, p, h.readClose⟩
  | execIn => exact ⟨q, p, h.readClose⟩
  | execOut => exact ⟨q, p, h.writeClose⟩

theorem inv_init : Inv {} 0 0 := by
  refine ⟨⟨by decide, by decide, by simp, rfl⟩, ?_, ?_, ?_, ?_, by decide, rfl, ?_, ?_, ?_, ?_, ?_⟩ <;> simp

theorem Reach.inv {s : S} (h : Reach s) : ∃ q p, Inv s q p := by
  induction h with
  | init => exact ⟨0, 0, inv_init⟩
  | step _ hc ih => obtain ⟨q, p, h⟩ := ih; exact h.step hc

theorem Smooth.reach {s : S} (h : Smooth s) : Reach s := by
  induction h with
  | init => exact .init
  | step _ hc _ _ ih => exact .step ih hc

/-- As long as the shell keeps the end for writing there is a co-process that uses it; as long as it keeps the input of one, that
one runs. -/
structure Sm (s : S) : Prop where
  out : s.pend = none → s.rw.isSome → ∃ j ∈ s.live, j.cid = s.id
  inp : s.pend = none → s.wr.isSome → s.job.isSome

theorem jid_inj {l : List Job} (h : (l.map Job.jid).Nodup) {a b : Job} (ha : a ∈ l) (hb : b ∈ l) (e : a.jid = b.jid) : a = b := by
  induction l with
  | nil => simp at ha
  | cons x l ih =>
    simp only [List.map_cons, List.nodup_cons, List.mem_map, not_exists, not_and] at h
    rcases List.mem_cons.1 ha with rfl | ha'
    · rcases List.mem_cons.1 hb with rfl | hb'
      · rfl
      · exact absurd e.symm (h.1 b hb')
    · rcases List.mem_cons.1 hb with rfl | hb'
      · exact absurd e (h.1 a ha')
      · exact ih h.2 ha' hb'

theorem Sm.step {s : S} {q p op} (hs : Sm s) (h : Inv s q p) (hc : Can s op) (h1 : ∀ w, op ≠ .startFail w) (h2 : op ≠ .forkFail) :
    Sm (step s op) := by
  obtain ⟨q', p', h'⟩ := h.step hc
  cases op with
  | start w r rw =>
    simp only [Coproc.step]
    split
    · exact hs
    · split
      · exact ⟨by simp, by simp⟩
      · exact ⟨by simp, by simp⟩
  | startFail w => exact absurd rfl (h1 w)
  | fork =>
    simp only [Coproc.step]
    split
    · exact hs
    · exact ⟨fun _ _ => ⟨_, List.mem_cons_self, rfl⟩, fun _ _ => rfl⟩
  | forkFail => exact absurd rfl h2
  | ended i =>
    -- what the result is, from the outside
    have key : (Coproc.step s (.ended i)).pend = s.pend ∧ (Coproc.step s (.ended i)).id = s.id ∧
        ((Coproc.step s (.ended i)).wr.isSome → s.wr.isSome ∧ (Coproc.step s (.ended i)).job = s.job ∨ s.wr.isSome ∧ s.job = none) ∧
        ((Coproc.step s (.ended i)).rw.isSome → s.rw.isSome ∧
          ((Coproc.step s (.ended i)).njobs ≠ 0 ∨ ∀ j ∈ s.live, j.cid = s.id → j ∈ (Coproc.step s (.ended i)).live)) := by
      simp only [Coproc.step]
      split
      · exact ⟨rfl, rfl, fun h => .inl ⟨h, rfl⟩, fun h => ⟨h, .inr fun j hj _ => hj⟩⟩
      · rename_i j hj
        have hjm := List.mem_of_find?_eq_some hj
        have hji : j.jid = i := by simpa using List.find?_some hj
        obtain ⟨l1, l2, l3, -, -⟩ := h.live j hjm
        have hstay : ¬ j.cid = s.id → ∀ k ∈ s.live, k.cid = s.id → k ∈ s.live.filter (fun j => j.jid ≠ i) := by
          intro hn k hk hkc
          refine List.mem_filter.2 ⟨hk, ?_⟩
          simp only [ne_eq, decide_eq_true_eq]
          intro e
          refine hn ?_
          rw [← jid_inj h.ndl hk hjm (e.trans hji.symm)]; exact hkc
        -- up to the count
        obtain ⟨s2, e2, c2, a1, a2, a3, a4, a5, a6⟩ : ∃ s2, s2 = (if s.job = some i then
            Coproc.writeClose { s with live := s.live.filter (fun j => j.jid ≠ i), job := none } s.wr
            else { s with live := s.live.filter (fun j => j.jid ≠ i) }) ∧ Core s2 q p ∧ s2.pend = s.pend ∧ s2.id = s.id ∧
            s2.rw = s.rw ∧ s2.live = s.live.filter (fun j => j.jid ≠ i) ∧
            (s2.wr.isSome → s.wr.isSome ∧ s2.job = s.job) ∧ s2.rd = s.rd := by
          refine ⟨_, rfl, ?_⟩
          split
          · have hc0 : Core { s with live := s.live.filter (fun j => j.jid ≠ i), job := none } q p := ⟨h.core.perm, h.core.nd, h.core.rwrd, h.core.ok⟩
            obtain ⟨c, a, b, b', d⟩ := hc0.write
            simp only [others, Prod.mk.injEq] at d
            obtain ⟨d1, d2, d3, d4, d5, d6, d7⟩ := d
            refine ⟨c, d5, d2, b', d4, fun hw => ?_, b⟩
            have hw : (Coproc.writeClose { s with live := s.live.filter (fun j => j.jid ≠ i), job := none } s.wr).wr.isSome := hw
            rw [a] at hw; cases hw
          · exact ⟨⟨h.core.perm, h.core.nd, h.core.rwrd, h.core.ok⟩, rfl, rfl, rfl, rfl, fun hw => ⟨hw, rfl⟩, rfl⟩
        rw [← e2]
        split
        · rename_i hcid
          split
          · rename_i hz
            have hc0 : Core { s2 with njobs := s2.njobs - 1 } q p := ⟨c2.perm, c2.nd, c2.rwrd, c2.ok⟩
            obtain ⟨c, a, b, b', d⟩ := hc0.readw
            simp only [others, Prod.mk.injEq] at d
            obtain ⟨d1, d2, d3, d4, d5, d6, d7⟩ := d
            refine ⟨d5.trans a1, d2.trans a2, fun hw => ?_, fun hr => ?_⟩
            · rw [b'] at hw
              rw [d3]
              exact .inl (a5 hw)
            · rw [a] at hr; cases hr
          · rename_i hz
            exact ⟨a1, a2, fun hw => .inl (a5 hw), fun hr => ⟨by rw [← a3]; exact hr, .inl hz⟩⟩
        · rename_i hcid
          refine ⟨a1, a2, fun hw => .inl (a5 hw), fun hr => ⟨by rw [← a3]; exact hr, .inr ?_⟩⟩
          rw [a4]
          exact hstay (fun e => hcid ⟨by omega, by rw [a2]; exact e⟩)
    obtain ⟨k1, k2, k3, k4⟩ := key
    refine ⟨fun hp hr => ?_, fun hp hw => ?_⟩
    · obtain ⟨k5, k6⟩ := k4 hr
      rcases k6 with k6 | k6
      · have := h'.cnt
        have hpos : 0 < (Coproc.step s (.ended i)).live.countP (fun j => j.cid = (Coproc.step s (.ended i)).id) := by omega
        obtain ⟨j, hj, e⟩ := List.countP_pos_iff.1 hpos
        exact ⟨j, hj, by simpa using e⟩
      · obtain ⟨j, hj, e⟩ := hs.out (by rw [← k1]; exact hp) k5
        exact ⟨j, k6 j hj e, by rw [k2]; exact e⟩
    · rcases k3 hw with ⟨a, b⟩ | ⟨a, b⟩
      · rw [b]; exact hs.inp (by rw [← k1]; exact hp) a
      · have := hs.inp (by rw [← k1]; exact hp) a
        rw [b] at this; cases this
  | eof =>
    obtain ⟨c, a, -, b, d⟩ := h.core.read
    simp only [others, Prod.mk.injEq] at d
    refine ⟨fun _ hr => ?_, fun hp hw => ?_⟩
    · have : (readClose s s.rd).rw.isSome := hr
      rw [a] at this; cases this
    · show (readClose s s.rd).job.isSome
      rw [d.2.2.1]
      exact hs.inp (by rw [← d.2.2.2.2.1]; exact hp) (by rw [← b]; exact hw)
  | execIn =>
    obtain ⟨c, a, -, b, d⟩ := h.core.read
    simp only [others, Prod.mk.injEq] at d
    refine ⟨fun _ hr => ?_, fun hp hw => ?_⟩
    · have : (readClose s s.rd).rw.isSome := hr
      rw [a] at this; cases this
    · show (readClose s s.rd).job.isSome
      rw [d.2.2.1]
      exact hs.inp (by rw [← d.2.2.2.2.1]; exact hp) (by rw [← b]; exact hw)
  | execOut =>
    obtain ⟨c, a, -, b, d⟩ := h.core.write
    simp only [others, Prod.mk.injEq] at d
    refine ⟨fun hp hr => ?_, fun hp hw => ?_⟩
    · show ∃ j ∈ (writeClose s s.wr).live, j.cid = (writeClose s s.wr).id
      rw [d.2.2.2.1, d.2.1]
      exact hs.out (by rw [← d.2.2.2.2.1]; exact hp) (by rw [← b]; exact hr)
    · have : (writeClose s s.wr).wr.isSome := hw
      rw [a] at this; cases this

theorem Smooth.sm {s : S} (h : Smooth s) : Sm s := by
  induction h with
  | init => exact ⟨by simp, by simp⟩
  | step hr hc h1 h2 ih =>
    obtain ⟨q, p, h⟩ := hr.reach.inv
    exact ih.step h hc h1 h2

/-! ## C119 -/

/-- Whatever happens, in whatever order, no descriptor is closed twice and none is lost: the ends of pipes that are open are
exactly the ones in the three variables, the reading end and the end for writing belong to the same pipe, and the end for writing is
not kept without the other. -/
theorem table {s : S} (h : Reach s) : s.fault = false ∧ (s.tab.map Prod.fst).Nodup ∧
    (∀ fd, fd ∈ s.tab.map Prod.fst ↔ s.rd = some fd ∨ s.rw = some fd ∨ s.wr = some fd) ∧
    (∀ r e, s.rd = some r → (r, e) ∈ s.tab → e.2 = false) ∧ (∀ w e, s.wr = some w → (w, e) ∈ s.tab → e.2 = true) ∧
    (∀ x e, s.rw = some x → (x, e) ∈ s.tab → ∃ r, s.rd = some r ∧ (r, e.1, false) ∈ s.tab ∧ e.2 = true) := by
  obtain ⟨q, p, h⟩ := h.inv
  have hm : ∀ x, x ∈ s.tab ↔ x ∈ ent s.rd (q, false) ++ ent s.rw (q, true) ++ ent s.wr (p, true) := fun x => h.core.perm.mem_iff
  have hn := h.core.nd'
  have hrr := h.core.rwrd
  refine ⟨h.core.ok, h.core.nd, fun fd => ?_, ?_, ?_, ?_⟩
  · rw [List.mem_map]
    simp only [hm]
    cases s.rd <;> cases s.rw <;> cases s.wr <;> simp [ent] <;> grind
  all_goals
    simp only [hm]
    clear hm h
    revert hn hrr
    cases s.rd <;> cases s.rw <;> cases s.wr <;> simp [ent] <;> grind

/-- Spec: the pipe that `read -p` reads, and the one `print -p` writes. -/
def readsFrom (s : S) (q : Nat) : Prop := ∃ r, s.rd = some r ∧ (r, q, false) ∈ s.tab
def writesTo (s : S) (p : Nat) : Prop := ∃ w, s.wr = some w ∧ (w, p, true) ∈ s.tab

theorem readsFrom_iff {s : S} {q p q'} (h : Inv s q p) (hr : readsFrom s q') : q' = q ∧ s.rd.isSome := by
  obtain ⟨r, e, hm⟩ := hr
  have hx : (r, q, false) ∈ s.tab := by rw [h.core.perm.mem_iff, e]; simp [ent]
  have := find_nd h.core.nd hx
  have h2 := find_nd h.core.nd hm
  simp only at this h2
  rw [this] at h2
  cases h2
  exact ⟨rfl, by simp [e]⟩

theorem writesTo_iff {s : S} {q p p'} (h : Inv s q p) (hr : writesTo s p') : p' = p ∧ s.wr.isSome := by
  obtain ⟨r, e, hm⟩ := hr
  have hx : (r, p, true) ∈ s.tab := by rw [h.core.perm.mem_iff, e]; simp [ent]
  have := find_nd h.core.nd hx
  have h2 := find_nd h.core.nd hm
  simp only at this h2
  rw [this] at h2
  cases h2
  exact ⟨rfl, by simp [e]⟩

/-- When no co-process is left that writes to the pipe of `read -p`, the shell itself does not hold an end of it for writing
either, so `read -p` sees the end of the file and does not wait for ever.  `_partial`: if fork(2) fails this is not so
(`fork_fails`). -/
theorem eof_seen_partial {s : S} {q} (h : Smooth s) (hp : s.pend = none) (hr : readsFrom s q) (hl : ∀ j ∈ s.live, j.out ≠ q) :
    ∀ fd, (fd, q, true) ∉ s.tab := by
  obtain ⟨q', p, hi⟩ := h.reach.inv
  obtain ⟨rfl, hr⟩ := readsFrom_iff hi hr
  intro fd
  cases hw : s.rw with
  | none =>
    intro hm
    have hne := hi.ne hr
    rw [hi.core.perm.mem_iff, hw] at hm
    cases h1 : s.rd <;> cases h2 : s.wr <;> simp_all [ent]
  | some x =>
    obtain ⟨j, hj, e⟩ := h.sm.out hp (by simp [hw])
    exact absurd ((hi.outs hr j hj).2 e) (hl j hj)

/-- `print -p` goes to the co-process that was started last, and to no other; this one runs; and if `read -p` has something
to read from at all, its output is read there. -/
theorem print_goes {s : S} {p} (h : Smooth s) (hp : s.pend = none) (hw : writesTo s p) :
    ∃ j ∈ s.live, j.inp = p ∧ j.jid + 1 = s.nextJob ∧ (∀ k ∈ s.live, k.jid ≤ j.jid ∧ (k.inp = p → k = j)) ∧
      ∀ q, readsFrom s q → j.out = q := by
  obtain ⟨q, p', hi⟩ := h.reach.inv
  obtain ⟨rfl, hw⟩ := writesTo_iff hi hw
  obtain ⟨i, hj⟩ := Option.isSome_iff_exists.1 (h.sm.inp hp hw)
  obtain ⟨e1, j, hjm, e2, e3, e4⟩ := hi.job i hj
  refine ⟨j, hjm, e4 hw, by omega, fun k hk => ⟨by have := (hi.live k hk).1; omega, fun e => ?_⟩, fun q' hr => ?_⟩
  · have := hi.inps hw k hk e
    rw [hj] at this
    exact jid_inj hi.ndl hk hjm (by simp at this; omega)
  · obtain ⟨rfl, hr⟩ := readsFrom_iff hi hr
    exact (hi.outs hr j hjm).2 e3

/-- Another co-process is refused exactly as long as the shell holds the input of the last one, which then runs. -/
theorem refused {s : S} (h : Smooth s) (hp : s.pend = none) (w r x : Nat) :
    (s.wr.isSome → step s (.start w r x) = s ∧ ∃ j ∈ s.live, j.jid + 1 = s.nextJob) ∧
    (s.wr = none → (step s (.start w r x)).pend.isSome) := by
  refine ⟨fun hw => ?_, fun hw => ?_⟩
  · have hj := h.sm.inp hp hw
    refine ⟨by simp [step, refuses, hj, hw], ?_⟩
    obtain ⟨i, hj⟩ := Option.isSome_iff_exists.1 hj
    obtain ⟨q, p, hi⟩ := h.reach.inv
    obtain ⟨e1, j, hjm, e2, -⟩ := hi.job i hj
    exact ⟨j, hjm, by omega⟩
  · simp only [step, refuses, hw]
    split
    · simp_all
    · split <;> rfl

/-- The new co-process: its input is a pipe no one else has; if the shell keeps the end for writing, its output is the pipe that was
read before, and the others go on writing there; if not, its output is a new pipe and it alone writes to it. -/
theorem started {s : S} {w r x} (h : Smooth s) (hw : s.wr = none) (hc : Can s (.start w r x)) :
    ∃ j, (step (step s (.start w r x)) .fork).live = j :: s.live ∧ writesTo (step (step s (.start w r x)) .fork) j.inp ∧
      readsFrom (step (step s (.start w r x)) .fork) j.out ∧ (∀ k ∈ s.live, k.inp ≠ j.inp) ∧
      (s.rw.isSome → readsFrom s j.out) ∧ (s.rw = none → ∀ k ∈ s.live, k.out ≠ j.out) := by
  obtain ⟨q, p, hi⟩ := h.reach.inv
  have hf := hi.first (w := w) hc.1 (fun e he => (hc.2.1 e he).1)
  obtain ⟨i1, i2, i3, i4, i5, i6, i7, i8, i9, i10⟩ := hf
  have hwm : (w, s.nextPipe, true) ∈ (firstPipe s w).tab := by rw [i1.core.perm.mem_iff, i10]; simp [ent]
  have hnr : refuses s = false := by simp [refuses, hw]
  have hin : ∀ k ∈ s.live, k.inp ≠ s.nextPipe := fun k hk => by have := (hi.live k hk).2.2.2.1; omega
  simp only [step, hnr, Bool.false_eq_true, if_false]
  cases hrw : s.rw with
  | some y =>
    have e : (firstPipe s w).rw = some y := by rcases i7 with ⟨a, -, -⟩ | ⟨-, -, a⟩ <;> simp_all
    have erd : (firstPipe s w).rd = s.rd := by rcases i7 with ⟨-, a, -⟩ | ⟨-, -, a⟩ <;> simp_all
    simp only [e]
    obtain ⟨r', hr'⟩ := Option.isSome_iff_exists.1 (hi.core.rwrd (by simp [hrw]))
    refine ⟨_, by rw [i5], ⟨w, i10, hwm⟩, ⟨r', erd.trans hr', ?_⟩, hin, fun _ => ⟨r', hr', ?_⟩, fun e => by cases e⟩
    · rw [i1.core.pipe e, i1.core.perm.mem_iff, erd, hr']; simp [ent]
    · rw [i1.core.pipe e, hi.core.perm.mem_iff, hr']; simp [ent]
  | none =>
    have e : (firstPipe s w).rw = none := by rcases i7 with ⟨-, -, a⟩ | ⟨a, -, -⟩ <;> simp_all
    simp only [e]
    refine ⟨_, by rw [i5], ⟨w, i10, ?_⟩, ⟨r, rfl, by simp⟩, hin, fun e => absurd e (by simp), fun _ k hk => ?_⟩
    · simp [hwm]
    · have := (hi.live k hk).2.2.2.2
      show k.out ≠ (firstPipe s w).nextPipe
      omega

/-- Histories in which, moreover, no co-process ends between the two halves of a start. -/
inductive Calm : S → Prop
  | init : Calm {}
  | step {s op} : Calm s → Can s op → (∀ w, op ≠ .startFail w) → op ≠ .forkFail → (∀ i, op = .ended i → s.pend = none) → Calm (step s op)

theorem Calm.smooth {s : S} (h : Calm s) : Smooth s := by
  induction h with
  | init => exact .init
  | step _ hc h1 h2 _ ih => exact .step ih hc h1 h2

theorem Calm.keep {s : S} (h : Calm s) : s.rd.isSome → s.pend.isSome ∨ s.njobs ≠ 0 → s.rw.isSome := by
  induction h with
  | init => simp
  | @step s op hr hc h1 h2 h3 ih =>
    obtain ⟨q, p, h⟩ := hr.smooth.reach.inv
    cases op with
    | start w r rw =>
      simp only [Coproc.step]
      split
      · exact ih
      · split
        · rename_i x hx
          intro _ _
          show (firstPipe s w).rw.isSome
          rw [hx]; rfl
        · intro _ _; rfl
    | startFail w => exact absurd rfl (h1 w)
    | fork =>
      simp only [Coproc.step]
      split
      · exact ih
      · rename_i p' q' hp
        intro a _
        exact ih a (.inl (by rw [hp]; rfl))
    | forkFail => exact absurd rfl h2
    | ended i =>
      have hp := h3 i rfl
      have hnn := h.cnt
      simp only [Coproc.step]
      split
      · exact ih
      · rename_i j hj
        have hjm := List.mem_of_find?_eq_some hj
        obtain ⟨l1, l2, l3, -, -⟩ := h.live j hjm
        obtain ⟨s2, e2, c2, a1, a2, a3, a4, a5⟩ : ∃ s2, s2 = (if s.job = some i then
            Coproc.writeClose { s with live := s.live.filter (fun j => j.jid ≠ i), job := none } s.wr
            else { s with live := s.live.filter (fun j => j.jid ≠ i) }) ∧ Core s2 q p ∧ s2.pend = s.pend ∧ s2.id = s.id ∧
            s2.rw = s.rw ∧ s2.njobs = s.njobs ∧ s2.rd = s.rd := by
          refine ⟨_, rfl, ?_⟩
          split
          · have hc0 : Core { s with live := s.live.filter (fun j => j.jid ≠ i), job := none } q p := ⟨h.core.perm, h.core.nd, h.core.rwrd, h.core.ok⟩
            obtain ⟨c, a, b, b', d⟩ := hc0.write
            simp only [others, Prod.mk.injEq] at d
            exact ⟨c, d.2.2.2.2.1, d.2.1, b', d.1, b⟩
          · exact ⟨⟨h.core.perm, h.core.nd, h.core.rwrd, h.core.ok⟩, rfl, rfl, rfl, rfl, rfl⟩
        rw [← e2]
        split
        · rename_i hcid
          have hpos : 0 < s.live.countP (fun j => j.cid = s.id) := by
            rw [List.countP_pos_iff]
            exact ⟨j, hjm, by rw [a2] at hcid; simpa using hcid.2⟩
          split
          · rename_i hz
            have hc0 : Core { s2 with njobs := s2.njobs - 1 } q p := ⟨c2.perm, c2.nd, c2.rwrd, c2.ok⟩
            obtain ⟨c, a, b, b', d⟩ := hc0.readw
            simp only [others, Prod.mk.injEq] at d
            rintro - (hh | hh)
            · rw [d.2.2.2.2.1] at hh
              have hh : s2.pend.isSome := hh
              rw [a1, hp] at hh; cases hh
            · rw [d.1] at hh
              exact absurd hz hh
          · intro hrd _
            show s2.rw.isSome
            rw [a3]
            exact ih (by rw [← a5]; exact hrd) (.inr (by omega))
        · show s2.rd.isSome → s2.pend.isSome ∨ s2.njobs ≠ 0 → s2.rw.isSome
          rw [a1, a3, a4, a5]
          exact ih
    | eof =>
      obtain ⟨c, a, b, -⟩ := h.core.read
      have : (Coproc.step s .eof).rd = none := b
      simp [this]
    | execIn =>
      obtain ⟨c, a, b, -⟩ := h.core.read
      have : (Coproc.step s .execIn).rd = none := b
      simp [this]
    | execOut =>
      obtain ⟨c, a, b, b', d⟩ := h.core.write
      simp only [others, Prod.mk.injEq] at d
      show (writeClose s s.wr).rd.isSome → (writeClose s s.wr).pend.isSome ∨ (writeClose s s.wr).njobs ≠ 0 → (writeClose s s.wr).rw.isSome
      rw [b, b', d.1, d.2.2.2.2.1]
      exact ih

/-- As long as a co-process whose output is read by `read -p` runs, the next co-process has the same output: `read -p` goes on
reading from both, as the manual says.  `_partial`: not if a co-process ends between the two halves of a start (`race_loses`). -/
theorem shares_partial {s : S} {w r x q} (h : Calm s) (hw : s.wr = none) (hc : Can s (.start w r x)) (hr : readsFrom s q)
    {k : Job} (hk : k ∈ s.live) (ho : k.out = q) :
    ∃ j, (step (step s (.start w r x)) .fork).live = j :: s.live ∧ j.out = q ∧ readsFrom (step (step s (.start w r x)) .fork) q := by
  obtain ⟨q', p, hi⟩ := h.smooth.reach.inv
  obtain ⟨j, h1, h2, h3, h4, h5, h6⟩ := started h.smooth hw hc
  obtain ⟨e, hrd⟩ := readsFrom_iff hi hr
  have hpos : 0 < s.live.countP (fun j => j.cid = s.id) := by
    rw [List.countP_pos_iff]
    exact ⟨k, hk, by simpa using (hi.outs hrd k hk).1 (ho.trans e)⟩
  have := hi.cnt
  have := h5 (h.keep hrd (.inr (by omega)))
  have ej : j.out = q := (readsFrom_iff hi this).1.trans e.symm
  exact ⟨j, h1, ej, by rw [← ej]; exact h3⟩

/-! ## Where the code falls short -/

def run (s : S) : List Op → S
  | [] => s
  | op :: l => run (step s op) l

theorem run_reach {s : S} (h : Reach s) : ∀ {l}, (∀ n, Can (run s (l.take n)) (l[n]?.getD .eof)) → Reach (run s l) := by
  intro l
  induction l generalizing s with
  | nil => intro _; exact h
  | cons op l ih =>
    intro hc
    exact ih (.step h (hc 0)) (fun n => hc (n + 1))

/-- fork(2) fails for `cmd |&`: no co-process writes to the pipe of `read -p`, but the shell holds its other end, so
`read -p` waits for ever; exec.c:210-223 with jobs.c:461-466. -/
theorem fork_fails : let s := run {} [.start 5 6 7, .forkFail]
    Reach s ∧ s.live = [] ∧ readsFrom s 1 ∧ (7, 1, true) ∈ s.tab ∧ s.wr = some 5 := by
  refine ⟨.step (op := .forkFail) (.step (op := .start 5 6 7) .init ?_) trivial, by decide, ⟨6, by decide, by decide⟩, by decide, by decide⟩
  simp [Can]

/-- `cat |&`, `exec 3>&p`: writing to descriptor 3 after the co-process has gone kills the shell although ksh.1:2328-2336 says
that it does not; only the descriptor in coproc.write is guarded. -/
theorem moved_not_guarded {s : S} (h : Reach s) (fd : Nat) : guarded (step s .execOut) fd = false := by
  obtain ⟨q, p, h⟩ := h.inv
  obtain ⟨-, a, -⟩ := h.core.write
  have : (step s .execOut).wr = none := a
  simp [guarded, this]

/-- The first co-process ends between the two halves of the start of a second that shares its output: the end for writing is
closed, and the third co-process does not share the output of the second, of which the rest is lost. -/
theorem race_loses : let s := run {} [.start 5 6 7, .fork, .execOut, .start 8 9 10, .ended 0, .fork, .execOut, .start 8 9 10, .fork]
    s.live = [⟨2, 2, 3, 4⟩, ⟨1, 1, 2, 1⟩] ∧ s.rd = some 9 ∧ (9, 4, false) ∈ s.tab := by
  decide +kernel

/-- A co-process that writes and ends; the next is started before the output is read: the output is gone. -/
theorem unread_lost : let s := run {} [.start 5 6 7, .fork, .ended 0]
    readsFrom s 1 ∧ ¬ readsFrom (run s [.start 5 8 9, .fork]) 1 := by
  refine ⟨⟨6, by decide, by decide⟩, ?_⟩
  rintro ⟨r, h1, h2⟩
  have : (run (run {} [.start 5 6 7, .fork, .ended 0]) [.start 5 8 9, .fork]).rd = some 8 := by decide
  rw [this] at h1
  cases h1
  revert h2
  decide

/-- Two co-processes that share the output: the end for writing goes with the last of them. -/
example : (run {} [.start 5 6 7, .fork, .execOut, .start 8 9 10, .fork, .ended 0]).tab = [(8, 2, true), (6, 1, false), (7, 1, true)] ∧
    (run {} [.start 5 6 7, .fork, .execOut, .start 8 9 10, .fork, .ended 0, .ended 1]).tab = [(6, 1, false)] := by
  decide +kernel

end Ksh.Coproc
