import Verif.Keys.Tab
/-!
# Facts about the table of bindings and its search
-/

namespace Ksh.Keys

theorem take_beq_iff (s t : List Nat) : (decide (s.length ≤ t.length) && t.take s.length == s) = true ↔ s <+: t := by
  simp only [Bool.and_eq_true, decide_eq_true_eq, beq_iff_eq]
  constructor
  · rintro ⟨_, h⟩
    rw [← h]; exact List.take_prefix _ _
  · intro h
    exact ⟨h.length_le, (List.prefix_iff_eq_take.mp h).symm⟩

theorem kmatch_iff (kb : List Entry) (s : List Nat) : kmatch kb s = true ↔ ∃ k ∈ kb, s <+: k.seq := by
  simp only [kmatch, List.any_eq_true]
  constructor
  · rintro ⟨k, hk, h⟩; exact ⟨k, hk, (take_beq_iff _ _).mp h⟩
  · rintro ⟨k, hk, h⟩; exact ⟨k, hk, (take_beq_iff _ _).mpr h⟩

/-- A later binding never begins an earlier one; entries have their own addresses. -/
structure Inv (m : Keymap) : Prop where
  ord : m.kb.Pairwise fun a b => ¬ b.seq <+: a.seq
  ids : m.kb.Pairwise fun a b => a.id ≠ b.id
  fresh : ∀ k ∈ m.kb, k.id < m.next

theorem addString_inv {m : Keymap} (h : Inv m) (fn : Nat) (args : Option (List Nat)) (s : List Nat) :
    Inv (addString m fn args s).2 := by
  rw [addString]
  by_cases hk : kmatch m.kb s = true
  · rw [if_pos hk]; exact h
  · rw [if_neg hk]
    have hn : ∀ k ∈ m.kb, ¬ s <+: k.seq := fun k hm hp => hk ((kmatch_iff _ _).mpr ⟨k, hm, hp⟩)
    refine ⟨?_, ?_, ?_⟩
    · rw [List.pairwise_append]
      refine ⟨h.ord, by simp, ?_⟩
      intro a ha b hb
      rw [List.mem_singleton.mp hb]
      exact hn a ha
    · rw [List.pairwise_append]
      refine ⟨h.ids, by simp, ?_⟩
      intro a ha b hb
      rw [List.mem_singleton.mp hb]
      exact Nat.ne_of_lt (h.fresh a ha)
    · intro k hk
      rcases List.mem_append.mp hk with hk | hk
      · exact Nat.lt_succ_of_lt (h.fresh k hk)
      · rw [List.mem_singleton.mp hk]; exact Nat.lt_succ_self _

theorem delSeq_sublist (s : List Nat) : ∀ kb : List Entry, (delSeq s kb).Sublist kb
  | [] => List.Sublist.refl _
  | k :: kb => by
    rw [delSeq]
    split
    · exact List.sublist_cons_self _ _
    · exact (delSeq_sublist s kb).cons_cons _

theorem delete_inv {m : Keymap} (h : Inv m) (s : List Nat) : Inv (delete m s) :=
  ⟨h.ord.sublist (delSeq_sublist s _), h.ids.sublist (delSeq_sublist s _),
    fun k hk => h.fresh k ((delSeq_sublist s _).subset hk)⟩

theorem setBinding_inv {ft : List Func} {text : Nat} {m : Keymap} {i a2 : List Nat} {mc : Bool} {r : Bound × Keymap}
    (h : Inv m) (hr : setBinding ft text m i a2 mc = some r) : Inv r.2 := by
  rw [setBinding] at hr
  split at hr
  · rw [Option.map_eq_some_iff] at hr
    obtain ⟨t, _, rfl⟩ := hr
    exact addString_inv (delete_inv h _) _ _ _
  · split at hr
    · cases hr; exact h
    · cases hr; exact addString_inv (delete_inv h _) _ _ _

theorem xbind_inv {ft : List Func} {text : Nat} {m : Keymap} {a1 a2 : List Nat} {mc : Bool} {r : Bound × Keymap}
    (h : Inv m) (hr : xbind ft text m a1 a2 mc = some r) : Inv r.2 := by
  rw [xbind] at hr
  split at hr
  · cases hr
  · split at hr
    · cases hr; exact delete_inv h _
    · exact setBinding_inv h hr

theorem empty_inv : Inv ⟨[], 0⟩ := ⟨List.Pairwise.nil, List.Pairwise.nil, by simp⟩

theorem initMap_inv : Inv initMap := by
  have : ∀ (l : List (Nat × List Nat)) (m : Keymap), Inv m →
      Inv (l.foldl (fun m r => (addString m r.1 none r.2).2) m) := by
    intro l
    induction l with
    | nil => intro m h; exact h
    | cons r l ih => intro m h; exact ih _ (addString_inv h _ _ _)
  exact this _ _ empty_inv

theorem addKey_inv {m : Keymap} (h : Inv m) (fn : Nat) (s : List Nat) : Inv (addKey m fn s) := addString_inv h _ _ _

theorem whenSet_inv {m : Keymap} (h : Inv m) (c : Option Nat) {f : Nat → Keymap → Keymap}
    (hf : ∀ c m, Inv m → Inv (f c m)) : Inv (whenSet c f m) := by
  cases c with
  | none => exact h
  | some c => exact hf c m h

theorem ttyKeys_inv {m : Keymap} (h : Inv m) (e k w i q : Option Nat) : Inv (ttyKeys e k w i q m) :=
  whenSet_inv (whenSet_inv (whenSet_inv (whenSet_inv (whenSet_inv h e
    fun _ _ h => addKey_inv (addKey_inv h _ _) _ _) k fun _ _ h => addKey_inv h _ _) w fun _ _ h => addKey_inv h _ _) i
      fun _ _ h => addKey_inv h _ _) q fun _ _ h => addKey_inv h _ _

/-- Sequences are bound once. -/
theorem Inv.seq_inj {m : Keymap} (h : Inv m) {a b : Entry} (ha : a ∈ m.kb) (hb : b ∈ m.kb) (e : a.seq = b.seq) :
    a = b := by
  obtain ⟨kb, n⟩ := m
  obtain ⟨ho, -, -⟩ := h
  simp only at ho ha hb
  clear n
  induction kb with
  | nil => cases ha
  | cons k kb ih =>
    rw [List.pairwise_cons] at ho
    rcases List.mem_cons.mp ha with rfl | ha'
    · rcases List.mem_cons.mp hb with rfl | hb'
      · rfl
      · exact absurd (e ▸ List.prefix_refl _) (ho.1 b hb')
    · rcases List.mem_cons.mp hb with rfl | hb'
      · exact absurd (e ▸ List.prefix_refl _) (ho.1 a ha')
      · exact ih ha' hb' ho.2

/-! ## The search -/

/-- Does the binding begin with what has been typed? -/
def begins (line : List Nat) (k : Entry) : Bool := decide (line.length ≤ k.seq.length) && k.seq.take line.length == line

theorem begins_iff (line : List Nat) (k : Entry) : begins line k = true ↔ line <+: k.seq := take_beq_iff _ _

theorem scan_cons (line : List Nat) (k : Entry) (kb : List Entry) (sub : Nat) (km : Option Entry) (hs : sub ≤ 1) :
    scan line (k :: kb) sub km = if begins line k then
      (if 1 < sub + 1 then (sub + 1, if k.seq.length = line.length then some k else km)
        else scan line kb (sub + 1) (if k.seq.length = line.length then some k else km))
      else scan line kb sub km := by
  rw [scan, begins]
  by_cases h : k.seq.length < line.length
  · rw [if_pos h, if_neg]
    simp only [Bool.and_eq_true, decide_eq_true_eq, not_and]
    intro h'; omega
  · rw [if_neg h]
    have h' : line.length ≤ k.seq.length := by omega
    by_cases h2 : (k.seq.take line.length == line) = true
    · simp only [h2, h', decide_true, Bool.and_self, if_true]
    · simp only [h2, h', decide_true, Bool.true_and, if_false, Bool.false_eq_true]
      rw [if_neg (by omega)]

theorem scan_none (line : List Nat) : ∀ (kb : List Entry) (sub : Nat) (km : Option Entry), sub ≤ 1 →
    (∀ k ∈ kb, ¬ line <+: k.seq) → scan line kb sub km = (sub, km)
  | [], _, _, _, _ => rfl
  | k :: kb, sub, km, hs, h => by
    rw [scan_cons _ _ _ _ _ hs, if_neg (fun hb => h k (List.mem_cons_self ..) ((begins_iff _ _).mp hb))]
    exact scan_none line kb sub km hs fun k hk => h k (List.mem_cons_of_mem _ hk)

theorem scan_two (line : List Nat) : ∀ (kb : List Entry) (km : Option Entry), (∃ k ∈ kb, line <+: k.seq) →
    ∃ o, scan line kb 1 km = (2, o)
  | [], _, h => by obtain ⟨k, hk, _⟩ := h; cases hk
  | k :: kb, km, h => by
    rw [scan_cons _ _ _ _ _ (Nat.le_refl _)]
    by_cases hb : begins line k = true
    · rw [if_pos hb, if_pos (by decide)]; exact ⟨_, rfl⟩
    · rw [if_neg hb]
      apply scan_two
      obtain ⟨k', hk', hp⟩ := h
      rcases List.mem_cons.mp hk' with rfl | h'
      · exact absurd ((begins_iff _ _).mpr hp) hb
      · exact ⟨k', h', hp⟩

/-- What the search finds: nothing, exactly one entry, or more than one. -/
theorem scan_cases (line : List Nat) : ∀ kb : List Entry,
    ((∀ k ∈ kb, ¬ line <+: k.seq) ∧ scan line kb 0 none = (0, none)) ∨
    (∃ k ∈ kb, line <+: k.seq ∧ (∀ k' ∈ kb, line <+: k'.seq → k' = k) ∧
      scan line kb 0 none = (1, if k.seq.length = line.length then some k else none)) ∨
    ((∃ a b, [a, b].Sublist kb ∧ line <+: a.seq ∧ line <+: b.seq) ∧ ∃ o, scan line kb 0 none = (2, o))
  | [] => .inl ⟨by simp, rfl⟩
  | k :: kb => by
    rw [scan_cons _ _ _ _ _ (Nat.zero_le _)]
    by_cases hb : begins line k = true
    · rw [if_pos hb, if_neg (by decide)]
      have hp := (begins_iff _ _).mp hb
      by_cases hm : ∃ k' ∈ kb, line <+: k'.seq
      · refine .inr (.inr ⟨?_, scan_two line kb _ hm⟩)
        obtain ⟨k', hk', hp'⟩ := hm
        exact ⟨k, k', (List.singleton_sublist.mpr hk').cons_cons k, hp, hp'⟩
      · refine .inr (.inl ⟨k, List.mem_cons_self .., hp, ?_, ?_⟩)
        · intro k' hk' hp'
          rcases List.mem_cons.mp hk' with rfl | h'
          · rfl
          · exact absurd ⟨k', h', hp'⟩ hm
        · rw [scan_none _ _ _ _ (by decide) fun k' hk' hp' => hm ⟨k', hk', hp'⟩]
    · rw [if_neg hb]
      have hn : ¬ line <+: k.seq := fun hp => hb ((begins_iff _ _).mpr hp)
      rcases scan_cases line kb with ⟨h1, h2⟩ | ⟨k1, hk1, hp, hu, h2⟩ | ⟨⟨a, b, hs, ha, hb'⟩, h2⟩
      · refine .inl ⟨?_, h2⟩
        intro k' hk'
        rcases List.mem_cons.mp hk' with rfl | h'
        · exact hn
        · exact h1 k' h'
      · refine .inr (.inl ⟨k1, List.mem_cons_of_mem _ hk1, hp, ?_, h2⟩)
        intro k' hk' hp'
        rcases List.mem_cons.mp hk' with rfl | h'
        · exact absurd hp' hn
        · exact hu k' h' hp'
      · exact .inr (.inr ⟨⟨a, b, hs.cons _, ha, hb'⟩, h2⟩)

/-- With the order of the table two matches are two different sequences. -/
theorem two_differ {m : Keymap} (h : Inv m) {a b : Entry} (hs : [a, b].Sublist m.kb) : a ≠ b := by
  have := h.ids.sublist hs
  rw [List.pairwise_cons] at this
  intro e
  exact this.1 b (by simp) (by rw [e])

end Ksh.Keys
