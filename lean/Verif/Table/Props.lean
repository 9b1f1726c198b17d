import Verif.Table.Lemmas

/-!
C01, C02: name tables are finite maps and their listings are exact.
-/
namespace Ksh.Table
variable {V : Type}

/-! ### Specification -/

/-- What a name means after a history (newest operation first): the value of the
most recent definition unless it was deleted afterwards. -/
def meaning (n : Name) : List (Op V) → Option V
  | [] => none
  | .define m v :: r => if m = n then some v else meaning n r
  | .delete m :: r => if m = n then none else meaning n r
  | .touch _ :: r => meaning n r

/-- Unsigned byte-wise lexicographic order, as a relation. -/
inductive Lt : Name → Name → Prop
  | nil (b bs) : Lt [] (b :: bs)
  | head {a b} (as bs) : a < b → Lt (a :: as) (b :: bs)
  | tail (a) {as bs} : Lt as bs → Lt (a :: as) (a :: bs)

/-! ### Refinement -/

/-- the stored defined entries are exactly the map `m` -/
def Rel (t : Table V) (m : Name → Option V) : Prop :=
  (∀ e, some e ∈ t.slots → e.defined = true → m e.name = e.val ∧ e.val.isSome) ∧
  (∀ n v, m n = some v → ∃ e, some e ∈ t.slots ∧ e.defined = true ∧ e.name = n)

theorem step_spec {t : Table V} {m : Name → Option V} (h : Inv t) (hr : Rel t m) (o : Op V)
    (hist : List (Op V)) (hm : ∀ n, m n = meaning n hist) :
    (∃ t', step t o = .ok t' ∧ Inv t' ∧ Rel t' (fun n => meaning n (o :: hist)) ∧
      occ t'.slots ≤ occ t.slots + 1) ∨
    (step t o = .tooMany ∧ intMaxHalf < t.slots.length ∧ 7 * t.slots.length / 10 ≤ occ t.slots) := by
  cases o with
  | define n v =>
    rcases h.enter n with ⟨t', i, e, a1, a2, a3, a4, a5, a6, a7, _, a8⟩ | ⟨a1, a2⟩
    · refine Or.inl ⟨_, by simp only [step, a1]; rfl, a2.modifyAt (by simp) i, ?_, ?_⟩
      · constructor
        · intro x hx hxd
          rcases (mem_modifyAt a2 a3 x).1 hx with rfl | ⟨hx, hxn⟩
          · simp [meaning, a4]
          · rw [a4] at hxn
            have := hr.1 x ((a5 x hxn hxd).1 hx) hxd
            simp [meaning, Ne.symm hxn, ← hm, this]
        · intro n' v' hv
          by_cases hn : n = n'
          · exact ⟨_, (mem_modifyAt a2 a3 _).2 (Or.inl rfl), rfl, by simp [a4, hn]⟩
          · simp [meaning, hn, ← hm] at hv
            obtain ⟨x, hx, hxd, hxn⟩ := hr.2 n' v' hv
            have hne : x.name ≠ n := by rw [hxn]; exact Ne.symm hn
            exact ⟨x, (mem_modifyAt a2 a3 x).2
              (Or.inr ⟨(a5 x hne hxd).2 hx, by rw [a4]; exact hne⟩), hxd, hxn⟩
      · simp only [modifyAt, occ_modify]; omega
    · exact Or.inr ⟨by simp [step, a1], a2⟩
  | touch n =>
    rcases h.enter n with ⟨t', i, e, a1, a2, a3, a4, a5, a6, a7, _, a8⟩ | ⟨a1, a2⟩
    · refine Or.inl ⟨t', by simp [step, a1], a2, ?_, a8⟩
      have key : ∀ x, x.defined = true → (some x ∈ t'.slots ↔ some x ∈ t.slots) := by
        intro x hxd
        by_cases hxn : x.name = n
        · constructor
          · intro hx
            have : x = e := a2.mem_unique hx (List.mem_of_getElem? a3) (by rw [hxn, a4])
            subst this
            exact a6 hxd
          · intro hx
            have := a7 x hx hxn hxd
            subst this
            exact List.mem_of_getElem? a3
        · exact a5 x hxn hxd
      constructor
      · intro x hx hxd
        have := hr.1 x ((key x hxd).1 hx) hxd
        simpa [meaning, ← hm] using this
      · intro n' v' hv
        simp only [meaning, ← hm] at hv
        obtain ⟨x, hx, hxd, hxn⟩ := hr.2 n' v' hv
        exact ⟨x, (key x hxd).2 hx, hxd, hxn⟩
    · exact Or.inr ⟨by simp [step, a1], a2⟩
  | delete n =>
    refine Or.inl ?_
    have none_case : (∀ x, some x ∈ t.slots → x.name = n → x.defined = false) →
        Rel t (fun n' => meaning n' (Op.delete n :: hist)) := by
      intro hnone
      constructor
      · intro x hx hxd
        have hne : x.name ≠ n := by
          intro hxn; rw [hnone x hx hxn] at hxd; simp at hxd
        simpa [meaning, Ne.symm hne, ← hm] using hr.1 x hx hxd
      · intro n' v' hv
        by_cases hn : n = n'
        · simp [meaning, hn] at hv
        · simp [meaning, hn, ← hm] at hv
          exact hr.2 n' v' hv
    by_cases hl : t.slots.length = 0
    · refine ⟨t, by simp [step, hl], h, none_case ?_, by omega⟩
      intro x hx
      rw [List.length_eq_zero_iff.1 hl] at hx
      simp at hx
    · rcases h.probe_def (by omega) n with ⟨i, e, h1, h2, h3, h4⟩ | ⟨i, h1, h2⟩
      · refine ⟨_, by simp only [step, hl, h1]; rfl, h.modifyAt (by simp) i, ?_, ?_⟩
        · constructor
          · intro x hx hxd
            rcases (mem_modifyAt h h2 x).1 hx with rfl | ⟨hx, hxn⟩
            · simp at hxd
            · rw [h3] at hxn
              simpa [meaning, Ne.symm hxn, ← hm] using hr.1 x hx hxd
          · intro n' v' hv
            by_cases hn : n = n'
            · simp [meaning, hn] at hv
            · simp [meaning, hn, ← hm] at hv
              obtain ⟨x, hx, hxd, hxn⟩ := hr.2 n' v' hv
              exact ⟨x, (mem_modifyAt h h2 x).2
                (Or.inr ⟨hx, by rw [h3, hxn]; exact Ne.symm hn⟩), hxd, hxn⟩
        · simp only [modifyAt, occ_modify]; omega
      · exact ⟨t, by simp [step, hl, h1], h, none_case h2, by omega⟩

theorem run_spec : ∀ (ops hist : List (Op V)) (t : Table V), Inv t →
    Rel t (fun n => meaning n hist) → occ t.slots ≤ hist.length →
    (∃ t', run t ops = .ok t' ∧ Inv t' ∧ Rel t' (fun n => meaning n (ops.reverse ++ hist))) ∨
    (run t ops = .tooMany ∧ 7 * 2 ^ 30 / 10 ≤ hist.length + ops.length) := by
  intro ops
  induction ops with
  | nil => intro hist t h hr _; exact Or.inl ⟨t, rfl, h, by simpa using hr⟩
  | cons o ops ih =>
    intro hist t h hr hocc
    rcases step_spec h hr o hist (fun _ => rfl) with ⟨t1, s1, s2, s3, s4⟩ | ⟨s1, s2, s3⟩
    · rcases ih (o :: hist) t1 s2 s3 (by simp; omega) with ⟨t', r1, r2, r3⟩ | ⟨r1, r2⟩
      · exact Or.inl ⟨t', by simp [run, s1, r1], r2, by simpa using r3⟩
      · exact Or.inr ⟨by simp [run, s1, r1], by simp only [List.length_cons] at r2 ⊢; omega⟩
    · refine Or.inr ⟨by simp [run, s1], ?_⟩
      simp only [intMaxHalf] at s2
      simp only [List.length_cons]
      omega

theorem init_spec (tsize : Nat) :
    ∃ t : Table V, init tsize = some t ∧ Inv t ∧ Rel t (fun n => meaning n []) ∧ occ t.slots = 0 := by
  unfold init
  by_cases h : tsize = 0
  · exact ⟨_, by simp [h], Inv.empty, by simp [Rel, meaning], by simp [occ]⟩
  · obtain ⟨t', a1, a2, a3, a4, a5⟩ := Inv.empty (V := V) |>.texpand (n := tsize) (by simp) (by omega)
    refine ⟨t', by simp [h, a1], a2, ⟨?_, by simp [meaning]⟩, by simpa [occ] using a5⟩
    intro e he; simp [a4] at he

/-! ### C01 -/

/-- **C01** Whatever the history of definitions, entries without definition and
deletions, lookup terminates and finds exactly the latest surviving definition
(with its own name and value). -/
theorem lookup_is_latest_definition (tsize : Nat) (ops : List (Op V)) (t0 t : Table V)
    (h0 : init tsize = some t0) (hrun : run t0 ops = .ok t) (n : Name) :
    match search t n with
    | none => False
    | some none => meaning n ops.reverse = none
    | some (some e) => e.name = n ∧ e.val = meaning n ops.reverse ∧ (meaning n ops.reverse).isSome := by
  obtain ⟨t0', i1, i2, i3, i4⟩ := init_spec (V := V) tsize
  rw [h0] at i1; cases i1
  rcases run_spec ops [] t0 i2 i3 (by omega) with ⟨t', r1, r2, r3⟩ | ⟨r1, _⟩
  · rw [hrun] at r1; cases r1
    rw [List.append_nil] at r3
    rcases r2.search n with ⟨e, s1, s2, s3, s4⟩ | ⟨s1, s2⟩
    · rw [s1]; simp only
      have := r3.1 e s2 s4
      rw [s3] at this
      refine ⟨s3, this.1.symm, ?_⟩
      have h2 := this.2
      rw [← this.1] at h2
      exact h2
    · rw [s1]; simp only
      cases hm : meaning n ops.reverse with
      | none => rfl
      | some v =>
        obtain ⟨x, hx, hxd, hxn⟩ := r3.2 n v hm
        rw [s2 x hx hxn] at hxd; simp at hxd
  · rw [hrun] at r1; cases r1

/-- **C01** No history makes a table operation loop forever. -/
theorem operations_terminate (tsize : Nat) (ops : List (Op V)) :
    ∃ t0 : Table V, init tsize = some t0 ∧ run t0 ops ≠ .spin := by
  obtain ⟨t0, i1, i2, i3, i4⟩ := init_spec (V := V) tsize
  refine ⟨t0, i1, ?_⟩
  rcases run_spec ops [] t0 i2 i3 (by omega) with ⟨t', r1, _⟩ | ⟨r1, _⟩ <;> rw [r1] <;> simp

/-- **C01** The "too many" failure needs more than 750 million operations. -/
theorem too_many_needs_many (tsize : Nat) (ops : List (Op V)) (t0 : Table V)
    (h0 : init tsize = some t0) (h : run t0 ops = .tooMany) : 751619276 ≤ ops.length := by
  obtain ⟨t0', i1, i2, i3, i4⟩ := init_spec (V := V) tsize
  rw [h0] at i1; cases i1
  rcases run_spec ops [] t0 i2 i3 (by omega) with ⟨t', r1, _⟩ | ⟨_, r2⟩
  · rw [h] at r1; cases r1
  · simp at r2; omega

/-! ### C02 -/

theorem mem_walk {t : Table V} {e : Entry V} :
    e ∈ walk t ↔ some e ∈ t.slots ∧ e.defined = true := by
  simp only [walk, List.mem_filterMap]
  constructor
  · rintro ⟨o, ho, h⟩
    cases o with
    | none => simp at h
    | some x =>
      by_cases hx : x.defined = true
      · simp [hx] at h; subst h; exact ⟨ho, hx⟩
      · simp [hx] at h
  · rintro ⟨h, hd⟩
    exact ⟨_, h, by simp [hd]⟩

theorem filterMap_names_nodup {s : List (Option (Entry V))} (h : Self s) (p : Entry V → Bool) :
    ((s.filterMap (fun o => o.bind (fun e => if p e then some e else none))).map (·.name)).Nodup := by
  have hp := h.pairwise
  rw [List.Nodup, List.pairwise_map, List.pairwise_filterMap]
  refine hp.imp ?_
  intro a b hab x hx y hy
  cases a with
  | none => simp at hx
  | some a =>
    cases b with
    | none => simp at hy
    | some b =>
      simp at hx hy
      rw [← hx.2, ← hy.2]
      exact hab a b rfl rfl

/-- **C02** A walk over the table reports each live name exactly once, with the
value of its latest definition, and nothing else. -/
theorem walk_lists_live_once (tsize : Nat) (ops : List (Op V)) (t0 t : Table V)
    (h0 : init tsize = some t0) (hrun : run t0 ops = .ok t) :
    ((walk t).map (·.name)).Nodup ∧
    ∀ n v, meaning n ops.reverse = some v ↔ ∃ e ∈ walk t, e.name = n ∧ e.val = some v := by
  obtain ⟨t0', i1, i2, i3, i4⟩ := init_spec (V := V) tsize
  rw [h0] at i1; cases i1
  rcases run_spec ops [] t0 i2 i3 (by omega) with ⟨t', r1, r2, r3⟩ | ⟨r1, _⟩
  · rw [hrun] at r1; cases r1
    rw [List.append_nil] at r3
    refine ⟨filterMap_names_nodup r2.self _, ?_⟩
    intro n v
    constructor
    · intro hm
      obtain ⟨x, hx, hxd, hxn⟩ := r3.2 n v hm
      refine ⟨x, mem_walk.2 ⟨hx, hxd⟩, hxn, ?_⟩
      rw [← (r3.1 x hx hxd).1, hxn]; exact hm
    · rintro ⟨e, he, hen, hev⟩
      rw [mem_walk] at he
      have := (r3.1 e he.1 he.2).1
      rw [hen, hev] at this
      exact this
  · rw [hrun] at r1; cases r1

theorem nameLe_total (a b : Name) : (nameLe a b || nameLe b a) = true := by
  induction a generalizing b with
  | nil => simp [nameLe]
  | cons x a ih =>
    cases b with
    | nil => simp [nameLe]
    | cons y b =>
      simp only [nameLe]
      by_cases h : x = y
      · simp only [h, if_true]; exact ih b
      · simp only [h, Ne.symm h, if_false, Bool.or_eq_true, decide_eq_true_eq]
        have : x.toNat ≠ y.toNat := fun hc => h (UInt8.toNat_inj.1 hc)
        rcases Nat.lt_or_gt_of_ne this with h' | h'
        · exact Or.inl (UInt8.lt_iff_toNat_lt.2 h')
        · exact Or.inr (UInt8.lt_iff_toNat_lt.2 h')

theorem nameLe_trans (a b c : Name) : nameLe a b = true → nameLe b c = true → nameLe a c = true := by
  induction a generalizing b c with
  | nil => simp [nameLe]
  | cons x a ih =>
    cases b with
    | nil => simp [nameLe]
    | cons y b =>
      cases c with
      | nil => simp [nameLe]
      | cons z c =>
        simp only [nameLe]
        by_cases h1 : x = y
        · subst h1
          by_cases h2 : x = z
          · subst h2; simp only [if_true]; exact ih b c
          · simp only [if_true, h2, if_false]; intro _ h; exact h
        · by_cases h2 : y = z
          · subst h2
            simp only [if_true, h1, if_false]; intro h _; exact h
          · simp only [h1, h2, if_false, decide_eq_true_eq]
            intro ha hb
            have hxz := UInt8.lt_trans ha hb
            have : x ≠ z := by rintro rfl; exact UInt8.lt_irrefl _ hxz
            simp [this, hxz]

theorem nameLe_lt {a b : Name} (h : nameLe a b = true) (hne : a ≠ b) : Lt a b := by
  induction a generalizing b with
  | nil =>
    cases b with
    | nil => exact absurd rfl hne
    | cons y b => exact Lt.nil y b
  | cons x a ih =>
    cases b with
    | nil => simp [nameLe] at h
    | cons y b =>
      simp only [nameLe] at h
      by_cases hxy : x = y
      · subst hxy
        simp only [if_true] at h
        exact Lt.tail x (ih h (by simpa using hne))
      · simp only [hxy, if_false, decide_eq_true_eq] at h
        exact Lt.head a b h

/-- **C02** The sorted listing is strictly increasing in byte order and contains
each live name exactly once (in histories that set no array flag) with its value. -/
theorem sorted_listing_exact (tsize : Nat) (ops : List (Op V)) (t0 t : Table V)
    (h0 : init tsize = some t0) (hrun : run t0 ops = .ok t) :
    ((ktsort t).map (·.name)).Pairwise Lt ∧
    (∀ e, e ∈ ktsort t ↔ some e ∈ t.slots ∧ (e.defined || e.arr) = true) ∧
    ∀ n, (meaning n ops.reverse).isSome → ∃ e ∈ ktsort t, e.name = n ∧
      e.val = meaning n ops.reverse := by
  have hmem : ∀ e, e ∈ ktsort t ↔ some e ∈ t.slots ∧ (e.defined || e.arr) = true := by
    intro e
    simp only [ktsort, List.mem_mergeSort, List.mem_filterMap]
    constructor
    · rintro ⟨o, ho, h⟩
      cases o with
      | none => simp at h
      | some x =>
        by_cases hx : (x.defined || x.arr) = true
        · simp only [Option.bind_some, hx, if_true, Option.some.injEq] at h
          subst h; exact ⟨ho, hx⟩
        · simp only [Option.bind_some, hx, Bool.false_eq_true, if_false, reduceCtorEq] at h
    · rintro ⟨h, hd⟩
      exact ⟨_, h, by simp only [Option.bind_some, hd, if_true]⟩
  obtain ⟨t0', i1, i2, i3, i4⟩ := init_spec (V := V) tsize
  rw [h0] at i1; cases i1
  rcases run_spec ops [] t0 i2 i3 (by omega) with ⟨t', r1, r2, r3⟩ | ⟨r1, _⟩
  · rw [hrun] at r1; cases r1
    rw [List.append_nil] at r3
    refine ⟨?_, hmem, ?_⟩
    · have hs : (ktsort t).Pairwise (fun a b => nameLe a.name b.name = true) :=
        List.pairwise_mergeSort (le := fun a b : Entry V => nameLe a.name b.name)
          (fun a b c => nameLe_trans a.name b.name c.name) (fun a b => nameLe_total a.name b.name) _
      have hperm : (ktsort t).Perm _ := List.mergeSort_perm _ _
      have hn : ((ktsort t).map (·.name)).Nodup :=
        (hperm.map _).nodup_iff.2 (filterMap_names_nodup r2.self (fun e => e.defined || e.arr))
      rw [List.pairwise_map]
      rw [List.Nodup, List.pairwise_map] at hn
      exact (hs.and hn).imp (fun ⟨h1, h2⟩ => nameLe_lt h1 h2)
    · intro n hn
      obtain ⟨v, hv⟩ := Option.isSome_iff_exists.1 hn
      obtain ⟨x, hx, hxd, hxn⟩ := r3.2 n v hv
      refine ⟨x, (hmem x).2 ⟨hx, by simp [hxd]⟩, hxn, ?_⟩
      rw [← (r3.1 x hx hxd).1, hxn]
  · rw [hrun] at r1; cases r1

/-! ### Non-vacuity -/

/-- Two names of the same bucket, one deleted and re-entered. -/
def demo : List (Op Nat) :=
  [.define [97] 1, .define [105] 2, .delete [97], .touch [98], .define [97] 3]

example : home 8 [97] = home 8 [105] := by decide

/-- the hypotheses of the theorems above are met by a concrete history, with an
answer that needs the last definition -/
example : ∃ t0 t : Table Nat, init 0 = some t0 ∧ run t0 demo = .ok t ∧
    (search t [97]).map (·.map (·.val)) = some (some (some 3)) ∧
    (search t [98]).map (·.map (·.val)) = some none ∧
    (walk t).map (·.name) = [[105], [97]] := by
  refine ⟨_, _, rfl, rfl, ?_, ?_, ?_⟩
  · decide
  · decide
  · decide

end Ksh.Table
