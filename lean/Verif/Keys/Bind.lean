import Verif.Keys.Dispatch
/-!
# What bind does to the table, and its listing
-/

namespace Ksh.Keys

theorem mem_delSeq {s : List Nat} {k : Entry} : ∀ {kb : List Entry}, kb.Pairwise (fun a b => ¬ b.seq <+: a.seq) →
    (k ∈ delSeq s kb ↔ k ∈ kb ∧ k.seq ≠ s)
  | [], _ => by simp [delSeq]
  | a :: kb, h => by
    rw [List.pairwise_cons] at h
    rw [delSeq]
    by_cases e : a.seq = s
    · rw [if_pos e]
      constructor
      · intro hk
        refine ⟨List.mem_cons_of_mem _ hk, fun e' => ?_⟩
        exact h.1 k hk (by rw [e, e']; exact List.prefix_refl _)
      · rintro ⟨hk, hn⟩
        rcases List.mem_cons.mp hk with rfl | hk
        · exact absurd e hn
        · exact hk
    · rw [if_neg e, List.mem_cons, mem_delSeq h.2, List.mem_cons]
      constructor
      · rintro (rfl | ⟨hk, hn⟩)
        · exact ⟨.inl rfl, e⟩
        · exact ⟨.inr hk, hn⟩
      · rintro ⟨rfl | hk, hn⟩
        · exact .inl rfl
        · exact .inr ⟨hk, hn⟩

theorem mem_delete {m : Keymap} (h : Inv m) (s : List Nat) (k : Entry) :
    k ∈ (delete m s).kb ↔ k ∈ m.kb ∧ k.seq ≠ s := mem_delSeq h.ord

/-- kb_add_string after the deletion. -/
theorem rebind_cases {m : Keymap} (h : Inv m) (fn : Nat) (args : Option (List Nat)) (s : List Nat) :
    ((∃ k ∈ m.kb, k.seq ≠ s ∧ s <+: k.seq) ∧
      verdict (addString (delete m s) fn args s) = (.refused, delete m s)) ∨
    ((∀ k ∈ m.kb, k.seq ≠ s → ¬ s <+: k.seq) ∧
      verdict (addString (delete m s) fn args s) =
        (.set, ⟨(delete m s).kb ++ [⟨m.next, s, fn, args⟩], m.next + 1⟩)) := by
  rw [addString]
  by_cases hk : kmatch (delete m s).kb s = true
  · left
    rw [if_pos hk]
    obtain ⟨k, hk, hp⟩ := (kmatch_iff _ _).mp hk
    obtain ⟨hk, hn⟩ := (mem_delete h s k).mp hk
    exact ⟨⟨k, hk, hn, hp⟩, rfl⟩
  · right
    rw [if_neg hk]
    refine ⟨fun k hm hn hp => hk ((kmatch_iff _ _).mpr ⟨k, (mem_delete h s k).mpr ⟨hm, hn⟩, hp⟩), rfl⟩

/-! ## kb_encode and kb_decode -/

/-- A `^` that is followed by a control character or by one of `?` .. `~` is read as a control character. -/
def Carets (s : List Nat) : Prop :=
  ∀ (i : Nat), s[i]? = some 94 → ∀ d, s[i + 1]? = some d → (32 ≤ d ∧ d < 63) ∨ 128 ≤ d

theorem carets_cons (c : Nat) (s : List Nat) :
    Carets (c :: s) ↔ (c = 94 → ∀ d, s.head? = some d → (32 ≤ d ∧ d < 63) ∨ 128 ≤ d) ∧ Carets s := by
  constructor
  · intro h
    refine ⟨fun hc d hd => h 0 (by simp [hc]) d ?_, fun i hi d hd => h (i + 1) (by simpa using hi) d (by simpa using hd)⟩
    simpa [List.head?_eq_getElem?] using hd
  · rintro ⟨h1, h2⟩ i hi d hd
    cases i with
    | zero =>
      refine h1 (by simpa using hi) d ?_
      simpa [List.head?_eq_getElem?] using hd
    | succ i => exact h2 i (by simpa using hi) d (by simpa using hd)

theorem encRaw_ne {c : Nat} (h : c ≠ 94) (s : List Nat) : encRaw (c :: s) = c :: encRaw s := by
  cases s with
  | nil => simp [encRaw]
  | cons d s => simp [encRaw, h]

theorem encRaw_caret {d : Nat} (h : geQ d = false) (s : List Nat) : encRaw (94 :: d :: s) = 94 :: encRaw (d :: s) := by
  simp [encRaw, h]

theorem encRaw_ctrl {d : Nat} (h : geQ d = true) (s : List Nat) : encRaw (94 :: d :: s) = ctrl d :: encRaw s := by
  simp [encRaw, h]

theorem ctrl_unctrl {c : Nat} (h : cntrl c = true) : geQ (unctrl c) = true ∧ ctrl (unctrl c) = c := by
  simp only [cntrl, Bool.or_eq_true, decide_eq_true_eq, beq_iff_eq] at h
  rcases h with h | h
  · have e : unctrl c = c + 64 := by rw [unctrl, if_neg (by omega)]
    rw [e]
    refine ⟨?_, ?_⟩
    · simp only [geQ, Bool.and_eq_true, decide_eq_true_eq]; omega
    · rw [ctrl, if_neg (by omega)]; omega
  · subst h; decide

theorem ctrl_ne {d : Nat} : ctrl d ≠ 94 := by
  simp only [ctrl]; split <;> omega

theorem cstr_cons {c : Nat} (h : c ≠ 0) (l : List Nat) : cstr (c :: l) = c :: cstr l := by
  rw [cstr, List.takeWhile_cons_of_pos (by simpa using h)]; rfl

theorem cstr_ctrl (d : Nat) (l r : List Nat) : cstr (ctrl d :: l) ≠ 94 :: r := by
  by_cases h : ctrl d = 0
  · rw [h]; simp [cstr]
  · rw [cstr_cons h]
    intro e
    injection e with e _
    exact ctrl_ne e

/-- Reading a printed sequence gives the sequence back exactly if `Carets` holds. -/
theorem enc_dec (s : List Nat) (hz : ∀ b ∈ s, b ≠ 0) : cstr (encRaw (decRaw s)) = s ↔ Carets s := by
  induction s with
  | nil => simp [decRaw, encRaw, Carets, cstr]
  | cons c s ih =>
    have ih := ih fun b hb => hz b (by simp [hb])
    have hc0 : c ≠ 0 := hz c (by simp)
    rw [carets_cons, decRaw]
    by_cases hc : cntrl c = true
    · rw [if_pos hc, encRaw_ctrl (ctrl_unctrl hc).1, (ctrl_unctrl hc).2, cstr_cons hc0]
      have : c ≠ 94 := by rintro rfl; revert hc; decide
      simp [ih, this]
    · rw [if_neg hc]
      by_cases h94 : c = 94
      · subst h94
        cases s with
        | nil => simp [decRaw, encRaw, Carets, cstr]
        | cons d s =>
          have hr : cstr (encRaw (decRaw (d :: s))) = d :: s ↔ Carets (d :: s) := ih
          rw [decRaw] at hr ⊢
          by_cases hd : cntrl d = true
          · rw [if_pos hd, encRaw_ctrl (by decide)]
            constructor
            · intro h; exact absurd h (cstr_ctrl _ _ _)
            · intro h
              have := h.1 rfl d rfl
              simp only [cntrl, Bool.or_eq_true, decide_eq_true_eq, beq_iff_eq] at hd
              omega
          · rw [if_neg hd] at hr ⊢
            by_cases hq : geQ d = true
            · rw [encRaw_ctrl hq]
              constructor
              · intro h; exact absurd h (cstr_ctrl _ _ _)
              · intro h
                have := h.1 rfl d rfl
                simp only [geQ, Bool.and_eq_true, decide_eq_true_eq] at hq
                omega
            · rw [encRaw_caret (by simpa using hq), cstr_cons hc0, List.cons.injEq, hr]
              simp only [cntrl, Bool.or_eq_true, decide_eq_true_eq, beq_iff_eq, geQ, Bool.and_eq_true] at hd hq
              constructor
              · rintro ⟨_, h⟩
                refine ⟨fun _ d' hd' => ?_, h⟩
                simp only [List.head?_cons, Option.some.injEq] at hd'
                subst hd'
                omega
              · rintro ⟨_, h⟩; exact ⟨rfl, h⟩
      · rw [encRaw_ne h94, cstr_cons hc0, List.cons.injEq, ih]
        simp [h94]

theorem enc_dec_raw_length (s : List Nat) : (encRaw (decRaw s)).length ≤ (decRaw s).length := by
  generalize decRaw s = l
  fun_induction encRaw l with
  | case1 => simp
  | case2 => simp
  | case3 s h ih => simp only [List.length_cons]; omega
  | case4 d s h ih => simp only [List.length_cons] at ih ⊢; omega
  | case5 c d s h ih => simp only [List.length_cons] at ih ⊢; omega

theorem decRaw_length (s : List Nat) : s.length ≤ (decRaw s).length ∧ (decRaw s).length ≤ 2 * s.length := by
  induction s with
  | nil => simp [decRaw]
  | cons c s ih =>
    rw [decRaw]
    split <;> simp only [List.length_cons] <;> omega

theorem encRaw_length (s : List Nat) : (encRaw s).length ≤ s.length := by
  fun_induction encRaw s with
  | case1 => simp
  | case2 => simp
  | case3 s h ih => simp only [List.length_cons]; omega
  | case4 d s h ih => simp only [List.length_cons] at ih ⊢; omega
  | case5 c d s h ih => simp only [List.length_cons] at ih ⊢; omega

theorem cstr_eq {l : List Nat} (h : ∀ b ∈ l, b ≠ 0) : cstr l = l := by
  induction l with
  | nil => rfl
  | cons a l ih =>
    rw [cstr, List.takeWhile_cons_of_pos (by simpa using h a (by simp))]
    have := ih fun b hb => h b (by simp [hb])
    rw [cstr] at this
    rw [this]

theorem cstr_length (l : List Nat) : (cstr l).length ≤ l.length := by
  exact (List.takeWhile_prefix _).length_le

theorem cstr_ne_zero (l : List Nat) : ∀ b ∈ cstr l, b ≠ 0 := by
  intro b hb
  induction l with
  | nil => simp [cstr] at hb
  | cons a l ih =>
    by_cases ha : a = 0
    · subst ha; simp [cstr] at hb
    · rw [cstr_cons ha] at hb
      rcases List.mem_cons.mp hb with rfl | hb
      · exact ha
      · exact ih hb

/-- kb_encode undoes kb_decode exactly if `Carets` holds. -/
theorem encode_decode {s d : List Nat} (hz : ∀ b ∈ s, b ≠ 0) (hd : decode s = some d) :
    encode d = some s ↔ Carets s := by
  simp only [decode] at hd
  split at hd
  · next hl =>
    cases hd
    rw [← enc_dec s hz, encode, if_pos (Nat.le_trans (enc_dec_raw_length s) hl), Option.some.injEq]
  · cases hd

end Ksh.Keys
