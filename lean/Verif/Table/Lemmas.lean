import Verif.Table.Model

namespace Ksh.Table
variable {V : Type}

theorem home_lt (size : Nat) (n : Name) (h : 0 < size) : home size n < size := by
  unfold home
  have := Nat.and_le_right (n := (hash n).toNat) (m := size - 1)
  omega

theorem prev_lt {size i : Nat} (h : i < size) : prev size i < size := by
  unfold prev; split <;> omega

theorem probe_hit_sound {s : List (Option (Entry V))} {p : Entry V → Bool} :
    ∀ {f i k : Nat}, probe s p f i = .hit k → ∃ e, s[k]? = some (some e) ∧ p e = true := by
  intro f
  induction f with
  | zero => intro i k h; simp [probe] at h
  | succ f ih =>
    intro i k h
    simp only [probe] at h
    split at h
    · next e he =>
      split at h
      · next hp => cases h; exact ⟨e, he, hp⟩
      · exact ih h
    · simp at h

theorem probe_empty_sound {s : List (Option (Entry V))} {p : Entry V → Bool} :
    ∀ {f i k : Nat}, i < s.length → probe s p f i = .empty k → s[k]? = some none := by
  intro f
  induction f with
  | zero => intro i k _ h; simp [probe] at h
  | succ f ih =>
    intro i k hi h
    simp only [probe] at h
    split at h
    · split at h
      · simp at h
      · exact ih (prev_lt hi) h
    · next hne =>
      cases h
      cases hs : s[i]? with
      | none => rw [List.getElem?_eq_none_iff] at hs; omega
      | some o =>
        cases o with
        | none => rfl
        | some e => exact absurd hs (hne e)

theorem probe_set_hit {s : List (Option (Entry V))} {p : Entry V → Bool} {j : Nat}
    {x : Option (Entry V)} (hj : s[j]? = some none) :
    ∀ {f i k : Nat}, probe s p f i = .hit k → probe (s.set j x) p f i = .hit k := by
  intro f
  induction f with
  | zero => intro i k h; simp [probe] at h
  | succ f ih =>
    intro i k h
    simp only [probe] at h ⊢
    split at h
    · next e he =>
      have hij : j ≠ i := by rintro rfl; rw [hj] at he; simp at he
      rw [List.getElem?_set_ne hij, he]
      simp only [List.length_set]
      split at h
      · next hp => simp [hp]; exact Probe.hit.inj h
      · next hp => simp only [hp]; exact ih h
    · simp at h

theorem probe_set_empty {s : List (Option (Entry V))} {p : Entry V → Bool} {e : Entry V}
    (hp : p e = true) :
    ∀ {f i k : Nat}, i < s.length → probe s p f i = .empty k →
      probe (s.set k (some e)) p f i = .hit k := by
  intro f
  induction f with
  | zero => intro i k _ h; simp [probe] at h
  | succ f ih =>
    intro i k hi h
    have hk := probe_empty_sound hi h
    simp only [probe] at h ⊢
    split at h
    · next e' he =>
      have hij : k ≠ i := by rintro rfl; rw [hk] at he; simp at he
      rw [List.getElem?_set_ne hij, he]
      simp only [List.length_set]
      split at h
      · simp at h
      · next hp' => simp only [hp']; exact ih (prev_lt hi) h
    · cases h
      have : (s.set i (some e))[i]? = some (some e) := by
        rw [List.getElem?_set_self hi]
      rw [this]; simp [hp]

/-- position after `k` probe steps -/
def iter (size : Nat) : Nat → Nat → Nat
  | 0, i => i
  | k + 1, i => iter size k (prev size i)

theorem iter_eq {size : Nat} : ∀ {k i : Nat}, i < size → k ≤ size →
    iter size k i = if k ≤ i then i - k else i + size - k := by
  intro k
  induction k with
  | zero => intro i _ _; simp [iter]
  | succ k ih =>
    intro i hi hk
    simp only [iter]
    rw [ih (prev_lt hi) (by omega)]
    unfold prev
    split <;> split <;> split <;> omega

theorem probe_spin {s : List (Option (Entry V))} {p : Entry V → Bool} :
    ∀ {f i : Nat}, probe s p f i = .spin → ∀ k < f, ∃ e, s[iter s.length k i]? = some (some e) := by
  intro f
  induction f with
  | zero => intro i _ k hk; omega
  | succ f ih =>
    intro i h k hk
    simp only [probe] at h
    split at h
    · next e he =>
      split at h
      · simp at h
      · cases k with
        | zero => exact ⟨e, he⟩
        | succ k => exact ih h k (by omega)
    · simp at h

theorem probe_ne_spin {s : List (Option (Entry V))} {p : Entry V → Bool} {i j : Nat}
    (hi : i < s.length) (hj : s[j]? = some none) : probe s p s.length i ≠ .spin := by
  intro h
  have hjl : j < s.length := by
    rcases Nat.lt_or_ge j s.length with h' | h'
    · exact h'
    · rw [List.getElem?_eq_none h'] at hj; simp at hj
  have key : ∃ k < s.length, iter s.length k i = j := by
    by_cases hle : j ≤ i
    · exact ⟨i - j, by omega, by rw [iter_eq hi (by omega)]; split <;> omega⟩
    · exact ⟨i + s.length - j, by omega, by rw [iter_eq hi (by omega)]; split <;> omega⟩
  obtain ⟨k, hk, hkj⟩ := key
  obtain ⟨e, he⟩ := probe_spin h k hk
  rw [hkj, hj] at he
  simp at he

theorem probe_congr_none {s : List (Option (Entry V))} {p q : Entry V → Bool}
    (h : ∀ (i : Nat) e, s[i]? = some (some e) → p e = q e) :
    ∀ f i, probe s p f i = probe s q f i := by
  intro f
  induction f with
  | zero => intro i; rfl
  | succ f ih =>
    intro i
    simp only [probe]
    split
    · next e he => rw [h i e he, ih]
    · rfl

theorem probe_hit_stronger {s : List (Option (Entry V))} {p q : Entry V → Bool}
    (hqp : ∀ e, q e = true → p e = true) {e : Entry V} :
    ∀ {f i k : Nat}, probe s p f i = .hit k → s[k]? = some (some e) → q e = true →
      probe s q f i = .hit k := by
  intro f
  induction f with
  | zero => intro i k h; simp [probe] at h
  | succ f ih =>
    intro i k h hk hq
    simp only [probe] at h ⊢
    split at h
    · next e' he =>
      split at h
      · next hp =>
        cases h
        rw [hk] at he; cases he
        simp [hq]
      · next hp =>
        have : q e' ≠ true := fun hc => hp (hqp e' hc)
        simp only [this]
        exact ih h hk hq
    · simp at h

/-- number of occupied slots -/
def occ (s : List (Option (Entry V))) : Nat := s.countP Option.isSome

theorem occ_set_none {s : List (Option (Entry V))} {j : Nat} {e : Entry V}
    (hj : s[j]? = some none) : occ (s.set j (some e)) = occ s + 1 := by
  unfold occ
  induction s generalizing j with
  | nil => simp at hj
  | cons a s ih =>
    cases j with
    | zero => simp at hj; subst hj; simp
    | succ j =>
      simp only [List.getElem?_cons_succ] at hj
      simp only [List.set_cons_succ, List.countP_cons, ih hj]
      omega

theorem exists_none {s : List (Option (Entry V))} (h : occ s < s.length) :
    ∃ j : Nat, s[j]? = some none := by
  unfold occ at h
  induction s with
  | nil => simp at h
  | cons a s ih =>
    cases a with
    | none => exact ⟨0, rfl⟩
    | some e =>
      simp only [List.countP_cons, List.length_cons, Option.isSome_some, if_true] at h
      obtain ⟨j, hj⟩ := ih (by omega)
      exact ⟨j + 1, by simpa using hj⟩

/-- every stored entry is the one its own name finds -/
def Self (s : List (Option (Entry V))) : Prop :=
  ∀ i e, s[i]? = some (some e) →
    probe s (fun x => x.name == e.name) s.length (home s.length e.name) = .hit i

theorem Self.unique {s : List (Option (Entry V))} (h : Self s) {i j : Nat} {e e' : Entry V}
    (hi : s[i]? = some (some e)) (hj : s[j]? = some (some e')) (hn : e.name = e'.name) :
    i = j := by
  have h1 := h i e hi
  have h2 := h j e' hj
  rw [hn] at h1
  rw [h1] at h2
  exact Probe.hit.inj h2

theorem len_pos_of {s : List (Option (Entry V))} {i : Nat} {o : Option (Entry V)}
    (h : s[i]? = some o) : i < s.length := by
  rcases Nat.lt_or_ge i s.length with h' | h'
  · exact h'
  · rw [List.getElem?_eq_none h'] at h; simp at h

theorem Self.insert {s : List (Option (Entry V))} (h : Self s) {e : Entry V} {j : Nat}
    (hlen : 0 < s.length)
    (hp : probe s (fun x => x.name == e.name) s.length (home s.length e.name) = .empty j) :
    Self (s.set j (some e)) := by
  intro i x hi
  have hj := probe_empty_sound (home_lt _ _ hlen) hp
  rw [List.length_set]
  by_cases hij : j = i
  · subst hij
    rw [List.getElem?_set_self (len_pos_of hj)] at hi
    cases hi
    exact probe_set_empty (by simp) (home_lt _ _ hlen) hp
  · rw [List.getElem?_set_ne hij] at hi
    exact probe_set_hit hj (h i x hi)

theorem mem_set_none {s : List (Option (Entry V))} {j : Nat} {e x : Entry V}
    (hj : s[j]? = some none) : some x ∈ s.set j (some e) ↔ x = e ∨ some x ∈ s := by
  constructor
  · intro h
    rcases List.mem_or_eq_of_mem_set h with h | h
    · exact Or.inr h
    · exact Or.inl (Option.some.inj h)
  · rintro (rfl | h)
    · exact List.mem_set (len_pos_of hj) _
    · obtain ⟨i, hi, hix⟩ := List.getElem_of_mem h
      have hij : j ≠ i := by
        rintro rfl
        rw [List.getElem?_eq_getElem hi, hix] at hj
        simp at hj
      rw [List.mem_iff_getElem?]
      refine ⟨i, ?_⟩
      rw [List.getElem?_set_ne hij, List.getElem?_eq_getElem hi, hix]

theorem no_name_probe {s : List (Option (Entry V))} {n : Name}
    (h : ∀ x, some x ∈ s → x.name ≠ n) (f i : Nat) :
    probe s (fun x => x.name == n) f i = probe s (fun _ => false) f i := by
  apply probe_congr_none
  intro i e he
  have := h e (List.mem_of_getElem? he)
  simpa using this

theorem rehash_fold : ∀ (rest : List (Option (Entry V))) (T : Table V),
    Self T.slots →
    (∀ x y, some x ∈ T.slots → some y ∈ rest → y.defined = true → x.name ≠ y.name) →
    rest.Pairwise (fun a b => ∀ x y, a = some x → b = some y → x.name ≠ y.name) →
    occ T.slots + occ rest < T.slots.length →
    ∃ T' : Table V, rest.foldlM rehash1 T = some T' ∧ T'.slots.length = T.slots.length ∧
      Self T'.slots ∧ (occ T'.slots : Int) + T'.nfree = occ T.slots + T.nfree ∧
      occ T'.slots ≤ occ T.slots + occ rest ∧
      (∀ x, some x ∈ T'.slots ↔ some x ∈ T.slots ∨ (some x ∈ rest ∧ x.defined = true)) := by
  intro rest
  induction rest with
  | nil =>
    intro T hS _ _ _
    exact ⟨T, rfl, rfl, hS, rfl, by simp, by simp⟩
  | cons o rest ih =>
    intro T hS hd hpw hocc
    rw [List.pairwise_cons] at hpw
    have hocc' : occ (o :: rest) = occ rest + if o.isSome then 1 else 0 := by
      simp [occ, List.countP_cons]
    cases o with
    | none =>
      have hrec := ih T hS (fun x y hx hy => hd x y hx (List.mem_cons_of_mem _ hy)) hpw.2
        (by rw [hocc'] at hocc; simpa using hocc)
      obtain ⟨T', h1, h2, h3, h4, h5, h6⟩ := hrec
      refine ⟨T', by simpa [List.foldlM_cons, rehash1] using h1, h2, h3, h4, ?_, ?_⟩
      · rw [hocc']; simpa using h5
      · intro x; rw [h6]; simp
    | some e =>
      simp only [Option.isSome_some, if_true] at hocc'
      by_cases hdef : e.defined = true
      · have hlen : 0 < T.slots.length := by omega
        obtain ⟨j0, hj0⟩ := exists_none (s := T.slots) (by omega)
        have hns := probe_ne_spin (p := fun _ => false) (home_lt _ e.name hlen) hj0
        obtain ⟨j, hj⟩ : ∃ j, probe T.slots (fun _ => false) T.slots.length
            (home T.slots.length e.name) = .empty j := by
          cases hpr : probe T.slots (fun _ => false) T.slots.length
            (home T.slots.length e.name) with
          | hit k => obtain ⟨_, _, hf⟩ := probe_hit_sound hpr; simp at hf
          | empty k => exact ⟨k, rfl⟩
          | spin => exact absurd hpr hns
        have hj' := hj
        rw [← no_name_probe (n := e.name)
          (fun x hx => hd x e hx (List.mem_cons_self ..) hdef)] at hj'
        have hjn := probe_empty_sound (home_lt _ _ hlen) hj
        have hrec := ih { slots := T.slots.set j (some e), nfree := T.nfree - 1 }
          (hS.insert hlen hj')
          (by
            intro x y hx hy hyd
            rcases (mem_set_none hjn).1 hx with rfl | hx
            · exact hpw.1 _ hy x y rfl rfl
            · exact hd x y hx (List.mem_cons_of_mem _ hy) hyd)
          hpw.2
          (by simp only [List.length_set]; rw [occ_set_none hjn]; omega)
        obtain ⟨T', h1, h2, h3, h4, h5, h6⟩ := hrec
        refine ⟨T', ?_, by simpa using h2, h3, ?_, ?_, ?_⟩
        · simpa [List.foldlM_cons, rehash1, hdef, hj] using h1
        · rw [h4]; simp only; rw [occ_set_none hjn]; omega
        · simp only at h5; rw [occ_set_none hjn] at h5; omega
        · intro x
          rw [h6]; simp only
          rw [mem_set_none hjn]
          constructor
          · rintro ((rfl | h) | ⟨h, hx⟩)
            · exact Or.inr ⟨List.mem_cons_self .., hdef⟩
            · exact Or.inl h
            · exact Or.inr ⟨List.mem_cons_of_mem _ h, hx⟩
          · rintro (h | ⟨h, hx⟩)
            · exact Or.inl (Or.inr h)
            · rcases List.mem_cons.1 h with h | h
              · exact Or.inl (Or.inl (Option.some.inj h))
              · exact Or.inr ⟨h, hx⟩
      · have hrec := ih T hS (fun x y hx hy => hd x y hx (List.mem_cons_of_mem _ hy)) hpw.2
          (by omega)
        obtain ⟨T', h1, h2, h3, h4, h5, h6⟩ := hrec
        refine ⟨T', by simpa [List.foldlM_cons, rehash1, hdef] using h1, h2, h3, h4, by omega, ?_⟩
        intro x
        rw [h6]
        constructor
        · rintro (h | ⟨h, hx⟩)
          · exact Or.inl h
          · exact Or.inr ⟨List.mem_cons_of_mem _ h, hx⟩
        · rintro (h | ⟨h, hx⟩)
          · exact Or.inl h
          · rcases List.mem_cons.1 h with h | h
            · rw [Option.some.inj h] at hx; exact absurd hx hdef
            · exact Or.inr ⟨h, hx⟩

/-- the table invariant -/
structure Inv (t : Table V) : Prop where
  self : Self t.slots
  count : (occ t.slots : Int) + t.nfree = ((7 * t.slots.length / 10 : Nat) : Int)
  nonneg : 0 ≤ t.nfree

theorem Self.pairwise {s : List (Option (Entry V))} (h : Self s) :
    s.Pairwise (fun a b => ∀ x y, a = some x → b = some y → x.name ≠ y.name) := by
  rw [List.pairwise_iff_getElem]
  intro i j hi hj hij x y hx hy hn
  have := h.unique (i := i) (j := j) (e := x) (e' := y)
    (by rw [List.getElem?_eq_getElem hi, hx]) (by rw [List.getElem?_eq_getElem hj, hy]) hn
  omega

theorem Self.replicate (n : Nat) : Self (List.replicate n (none : Option (Entry V))) := by
  intro i e h
  have := List.mem_of_getElem? h
  simp at this

theorem occ_replicate (n : Nat) : occ (List.replicate n (none : Option (Entry V))) = 0 := by
  simp [occ]

theorem Inv.texpand {t : Table V} (h : Inv t) {n : Nat} (hn : 7 * t.slots.length / 10 ≤ 7 * n / 10)
    (hpos : 0 < n) :
    ∃ t', Table.texpand t n = some t' ∧ Inv t' ∧ t'.slots.length = n ∧
      (∀ x, some x ∈ t'.slots ↔ some x ∈ t.slots ∧ x.defined = true) ∧
      occ t'.slots ≤ occ t.slots := by
  have hc := h.count
  have hnn := h.nonneg
  obtain ⟨T', h1, h2, h3, h4, h5, h6⟩ := rehash_fold t.slots
    { slots := List.replicate n none, nfree := ((7 * n / 10 : Nat) : Int) }
    (Self.replicate n) (by intro x y hx; simp at hx) h.self.pairwise
    (by simp only [occ_replicate, List.length_replicate]; omega)
  simp only [occ_replicate, List.length_replicate] at h2 h4 h5
  refine ⟨T', h1, ⟨h3, ?_, ?_⟩, h2, ?_, by omega⟩
  · rw [h2, h4]; simp
  · simp at h4
    omega
  · intro x; rw [h6]; simp

theorem Inv.exists_none {t : Table V} (h : Inv t) (hpos : 0 < t.slots.length) :
    ∃ j : Nat, t.slots[j]? = some none := by
  apply Table.exists_none
  have := h.count; have := h.nonneg
  omega

/-- effect of `ktenter` -/
theorem Inv.enterLoop {t : Table V} (h : Inv t) (hpos : 0 < t.slots.length) (n : Name) :
    ∀ k, (0 < t.nfree ∧ 1 ≤ k ∨ 2 ≤ k) →
    (∃ t' i e, enterLoop n k t = .slot t' i ∧ Inv t' ∧ t'.slots[i]? = some (some e) ∧ e.name = n ∧
      (∀ x, x.name ≠ n → x.defined = true → (some x ∈ t'.slots ↔ some x ∈ t.slots)) ∧
      (e.defined = true → some e ∈ t.slots) ∧
      (∀ x, some x ∈ t.slots → x.name = n → x.defined = true → e = x) ∧
      (∀ x, some x ∈ t'.slots → x.name ≠ n → some x ∈ t.slots) ∧
      occ t'.slots ≤ occ t.slots + 1) ∨
    (Table.enterLoop n k t = .tooMany ∧ intMaxHalf < t.slots.length ∧
       7 * t.slots.length / 10 ≤ occ t.slots) := by
  have base : ∀ (t : Table V), Inv t → 0 < t.slots.length → 0 < t.nfree → ∀ k,
      (∃ t' i e, Table.enterLoop n (k+1) t = .slot t' i ∧ Inv t' ∧ t'.slots[i]? = some (some e) ∧
        e.name = n ∧
      (∀ x, x.name ≠ n → (some x ∈ t'.slots ↔ some x ∈ t.slots)) ∧
      (e.defined = true → some e ∈ t.slots) ∧
      (∀ x, some x ∈ t.slots → x.name = n → e = x) ∧ occ t'.slots ≤ occ t.slots + 1) := by
    intro t h hpos hfree k
    obtain ⟨j0, hj0⟩ := h.exists_none hpos
    cases hp : probe t.slots (fun e => e.name == n) t.slots.length (home t.slots.length n) with
    | spin => exact absurd hp (probe_ne_spin (home_lt _ _ hpos) hj0)
    | hit i =>
      obtain ⟨e, he, hen⟩ := probe_hit_sound hp
      simp at hen
      refine ⟨t, i, e, by simp [Table.enterLoop, hp], h, he, hen, by simp,
        fun _ => List.mem_of_getElem? he, ?_, by omega⟩
      intro x hx hxn
      obtain ⟨j, hj⟩ := List.mem_iff_getElem?.1 hx
      have hij := h.self.unique he hj (by rw [hen, hxn])
      subst hij
      rw [he] at hj; simpa using hj
    | empty i =>
      have hi := probe_empty_sound (home_lt _ _ hpos) hp
      refine ⟨{ slots := t.slots.set i (some (fresh n)), nfree := t.nfree - 1 }, i, fresh n, ?_,
        ⟨?_, ?_, ?_⟩, ?_, rfl, ?_, ?_, ?_, ?_⟩
      · have : ¬ t.nfree ≤ 0 := by omega
        simp [Table.enterLoop, hp, this]
      · exact h.self.insert hpos hp
      · have := h.count
        simp only [List.length_set]
        rw [occ_set_none hi]; omega
      · simp only; omega
      · simp only; rw [List.getElem?_set_self (len_pos_of hi)]
      · intro x hx
        simp only
        rw [mem_set_none hi]
        constructor
        · rintro (rfl | h)
          · exact absurd rfl hx
          · exact h
        · exact Or.inr
      · intro hc; simp [fresh] at hc
      · intro x hx hxn
        obtain ⟨j, hj⟩ := List.mem_iff_getElem?.1 hx
        have := h.self j x hj
        rw [hxn, hp] at this
        simp at this
      · simp only; rw [occ_set_none hi]; omega
  intro k hk
  rcases hk with ⟨hf, hk⟩ | hk
  · obtain ⟨k, rfl⟩ : ∃ k', k = k' + 1 := ⟨k - 1, by omega⟩
    obtain ⟨t', i, e, a1, a2, a3, a4, a5, a6, a7, a8⟩ := base t h hpos hf k
    exact Or.inl ⟨t', i, e, a1, a2, a3, a4, fun x hx _ => a5 x hx, a6,
      fun x hx hxn _ => a7 x hx hxn, fun x hx hxn => (a5 x hxn).1 hx, a8⟩
  · obtain ⟨k, rfl⟩ : ∃ k', k = k' + 2 := ⟨k - 2, by omega⟩
    by_cases hf : 0 < t.nfree
    · obtain ⟨t', i, e, a1, a2, a3, a4, a5, a6, a7, a8⟩ := base t h hpos hf (k+1)
      exact Or.inl ⟨t', i, e, a1, a2, a3, a4, fun x hx _ => a5 x hx, a6,
        fun x hx hxn _ => a7 x hx hxn, fun x hx hxn => (a5 x hxn).1 hx, a8⟩
    · obtain ⟨j0, hj0⟩ := h.exists_none hpos
      cases hp : probe t.slots (fun e => e.name == n) t.slots.length (home t.slots.length n) with
      | spin => exact absurd hp (probe_ne_spin (home_lt _ _ hpos) hj0)
      | hit i =>
        obtain ⟨e, he, hen⟩ := probe_hit_sound hp
        simp at hen
        refine Or.inl ⟨t, i, e, by simp [Table.enterLoop, hp], h, he, hen, by simp,
          fun _ => List.mem_of_getElem? he, ?_, fun x hx _ => hx, by omega⟩
        intro x hx hxn _
        obtain ⟨j, hj⟩ := List.mem_iff_getElem?.1 hx
        have hij := h.self.unique he hj (by rw [hen, hxn])
        subst hij
        rw [he] at hj; simpa using hj
      | empty i =>
        by_cases hbig : t.slots.length ≤ intMaxHalf
        · obtain ⟨t1, e1, e2, e3, e4, e5⟩ := h.texpand (n := 2 * t.slots.length) (by omega) (by omega)
          have hfree1 : 0 < t1.nfree := by
            have hc1 := e2.count; have := h.count; have := h.nonneg
            rw [e3] at hc1
            by_cases h1 : t.slots.length = 1
            · omega
            · omega
          obtain ⟨t', i', e, a1, a2, a3, a4, a5, a6, a7, a8⟩ := base t1 e2 (by omega) hfree1 k
          refine Or.inl ⟨t', i', e, ?_, a2, a3, a4, ?_, ?_, ?_, ?_, by omega⟩
          · have : t.nfree ≤ 0 := by omega
            rw [Table.enterLoop]; simp [hp, this, hbig, e1, a1]
          · intro x hx hxd
            rw [a5 x hx, e4]; simp [hxd]
          · intro hd
            exact ((e4 e).1 (a6 hd)).1
          · intro x hx hxn hxd
            exact a7 x ((e4 x).2 ⟨hx, hxd⟩) hxn
          · intro x hx hxn
            exact ((e4 x).1 ((a5 x hxn).1 hx)).1
        · refine Or.inr ⟨?_, by omega, ?_⟩
          · have : t.nfree ≤ 0 := by omega
            rw [Table.enterLoop]; simp [hp, this, hbig]
          · have := h.count; have := h.nonneg
            omega

theorem Inv.empty : Inv ({ slots := [], nfree := 0 } : Table V) :=
  ⟨by intro i e h; simp at h, by simp [occ], by simp⟩

theorem Inv.enter {t : Table V} (h : Inv t) (n : Name) :
    (∃ t' i e, enter t n = .slot t' i ∧ Inv t' ∧ t'.slots[i]? = some (some e) ∧ e.name = n ∧
      (∀ x, x.name ≠ n → x.defined = true → (some x ∈ t'.slots ↔ some x ∈ t.slots)) ∧
      (e.defined = true → some e ∈ t.slots) ∧
      (∀ x, some x ∈ t.slots → x.name = n → x.defined = true → e = x) ∧
      (∀ x, some x ∈ t'.slots → x.name ≠ n → some x ∈ t.slots) ∧
      occ t'.slots ≤ occ t.slots + 1) ∨
    (Table.enter t n = .tooMany ∧ intMaxHalf < t.slots.length ∧
      7 * t.slots.length / 10 ≤ occ t.slots) := by
  unfold Table.enter
  by_cases hl : t.slots.length = 0
  · have hs : t.slots = [] := List.length_eq_zero_iff.1 hl
    obtain ⟨t1, e1, e2, e3, e4, e5⟩ := h.texpand (n := 8) (by omega) (by omega)
    rcases e2.enterLoop (by omega) n 2 (Or.inr (by omega)) with hh | hh
    · obtain ⟨t', i', e, a1, a2, a3, a4, a5, a6, a7, a7', a8⟩ := hh
      refine Or.inl ⟨t', i', e, by simp [hl, e1, a1], a2, a3, a4, ?_, ?_, ?_, ?_, by omega⟩
      · intro x hx hxd
        rw [a5 x hx hxd, e4]; simp [hxd]
      · intro hd; exact ((e4 e).1 (a6 hd)).1
      · intro x hx; rw [hs] at hx; simp at hx
      · intro x hx hxn; exact ((e4 x).1 (a7' x hx hxn)).1
    · obtain ⟨_, h2, _⟩ := hh
      rw [e3] at h2; simp [intMaxHalf] at h2
  · rcases h.enterLoop (by omega) n 2 (Or.inr (by omega)) with hh | hh
    · obtain ⟨t', i', e, a1, a2⟩ := hh
      exact Or.inl ⟨t', i', e, by simp [hl, a1], a2⟩
    · exact Or.inr ⟨by simp [hl, hh.1], hh.2⟩

/-- a store that keeps the name keeps the invariant -/
theorem probe_modify {s : List (Option (Entry V))} {n : Name} {f : Entry V → Entry V}
    (hf : ∀ e, (f e).name = e.name) (j : Nat) : ∀ k i,
    probe (s.modify j (Option.map f)) (fun x => x.name == n) k i =
      probe s (fun x => x.name == n) k i := by
  intro k
  induction k with
  | zero => intro i; rfl
  | succ k ih =>
    intro i
    simp only [probe, List.getElem?_modify, List.length_modify, ih]
    by_cases hij : j = i
    · subst hij
      cases h : s[j]? with
      | none => rfl
      | some o => cases o <;> simp [hf]
    · cases h : s[i]? with
      | none => simp
      | some o => cases o <;> simp [hij]

theorem occ_modify {s : List (Option (Entry V))} (f : Entry V → Entry V) (j : Nat) :
    occ (s.modify j (Option.map f)) = occ s := by
  unfold occ
  induction s generalizing j with
  | nil => simp
  | cons a s ih =>
    cases j with
    | zero => cases a <;> simp
    | succ j => simp [List.countP_cons, ih]

theorem Inv.modifyAt {t : Table V} (h : Inv t) {f : Entry V → Entry V}
    (hf : ∀ e, (f e).name = e.name) (j : Nat) : Inv (Table.modifyAt t j f) := by
  refine ⟨?_, ?_, h.nonneg⟩
  · intro i e hi
    simp only [Table.modifyAt, List.getElem?_modify] at hi
    simp only [Table.modifyAt, List.length_modify]
    rw [probe_modify hf]
    cases hs : t.slots[i]? with
    | none => rw [hs] at hi; simp at hi
    | some o =>
      rw [hs] at hi
      cases o with
      | none => by_cases hij : j = i <;> simp [hij] at hi
      | some x =>
        have hx := h.self i x hs
        by_cases hij : j = i
        · simp [hij] at hi; rw [← hi, hf]; exact hx
        · simp [hij] at hi; rw [← hi]; exact hx
  · simp only [Table.modifyAt, List.length_modify, occ_modify]
    exact h.count

theorem mem_modifyAt {t : Table V} (h : Inv t) {f : Entry V → Entry V}
    {j : Nat} {e : Entry V} (hj : t.slots[j]? = some (some e)) (x : Entry V) :
    some x ∈ (Table.modifyAt t j f).slots ↔ x = f e ∨ (some x ∈ t.slots ∧ x.name ≠ e.name) := by
  constructor
  · intro hx
    obtain ⟨i, hi⟩ := List.mem_iff_getElem?.1 hx
    simp only [Table.modifyAt, List.getElem?_modify] at hi
    by_cases hij : j = i
    · subst hij; simp [hj] at hi; exact Or.inl hi.symm
    · simp [hij] at hi
      refine Or.inr ⟨List.mem_of_getElem? hi, ?_⟩
      intro hn
      exact hij (h.self.unique hi hj hn).symm
  · rintro (rfl | ⟨hx, hn⟩)
    · rw [List.mem_iff_getElem?]
      exact ⟨j, by simp [Table.modifyAt, hj]⟩
    · obtain ⟨i, hi⟩ := List.mem_iff_getElem?.1 hx
      rw [List.mem_iff_getElem?]
      refine ⟨i, ?_⟩
      have hij : j ≠ i := by
        rintro rfl
        rw [hj] at hi
        simp at hi
        exact hn (by rw [hi])
      simp [Table.modifyAt, hij, hi]

/-- the lookup loop finds exactly the stored defined entry of that name -/
theorem Inv.probe_def {t : Table V} (h : Inv t) (hpos : 0 < t.slots.length) (n : Name) :
    (∃ i e, probe t.slots (fun e => e.name == n && e.defined) t.slots.length
        (home t.slots.length n) = .hit i ∧ t.slots[i]? = some (some e) ∧ e.name = n ∧
        e.defined = true) ∨
    (∃ i, probe t.slots (fun e => e.name == n && e.defined) t.slots.length
        (home t.slots.length n) = .empty i ∧
        ∀ x, some x ∈ t.slots → x.name = n → x.defined = false) := by
  obtain ⟨j0, hj0⟩ := h.exists_none hpos
  cases hp : probe t.slots (fun e => e.name == n && e.defined) t.slots.length
      (home t.slots.length n) with
  | spin => exact absurd hp (probe_ne_spin (home_lt _ _ hpos) hj0)
  | hit i =>
    obtain ⟨e, he, hen⟩ := probe_hit_sound hp
    simp at hen
    exact Or.inl ⟨i, e, rfl, he, hen.1, hen.2⟩
  | empty i =>
    refine Or.inr ⟨i, rfl, ?_⟩
    intro x hx hxn
    cases hd : x.defined with
    | false => rfl
    | true =>
      obtain ⟨j, hj⟩ := List.mem_iff_getElem?.1 hx
      have h1 := h.self j x hj
      rw [hxn] at h1
      have := probe_hit_stronger (q := fun e => e.name == n && e.defined)
        (by intro e he; simp at he; simp [he.1]) h1 hj (by simp [hxn, hd])
      rw [hp] at this
      simp at this

theorem Inv.search {t : Table V} (h : Inv t) (n : Name) :
    (∃ e, Table.search t n = some (some e) ∧ some e ∈ t.slots ∧ e.name = n ∧ e.defined = true) ∨
    (Table.search t n = some none ∧ ∀ x, some x ∈ t.slots → x.name = n → x.defined = false) := by
  unfold Table.search
  by_cases hl : t.slots.length = 0
  · have hs : t.slots = [] := List.length_eq_zero_iff.1 hl
    refine Or.inr ⟨by simp [hl], ?_⟩
    intro x hx; rw [hs] at hx; simp at hx
  · rcases h.probe_def (by omega) n with ⟨i, e, h1, h2, h3, h4⟩ | ⟨i, h1, h2⟩
    · exact Or.inl ⟨e, by simp [hl, h1, h2], List.mem_of_getElem? h2, h3, h4⟩
    · exact Or.inr ⟨by simp [hl, h1], h2⟩

theorem Inv.mem_unique {t : Table V} (h : Inv t) {x y : Entry V} (hx : some x ∈ t.slots)
    (hy : some y ∈ t.slots) (hn : x.name = y.name) : x = y := by
  obtain ⟨i, hi⟩ := List.mem_iff_getElem?.1 hx
  obtain ⟨j, hj⟩ := List.mem_iff_getElem?.1 hy
  have := h.self.unique hi hj hn
  subst this
  rw [hi] at hj
  simpa using hj

end Ksh.Table
