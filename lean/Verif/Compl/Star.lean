import Verif.Compl.Locate
/-! # When a star is appended to the word to complete -/

namespace Ksh.Compl

/-! ## Specification -/

/-- The character at `j` is `c` and not quoted by a backslash. -/
def Plain (str : List Char) (j : Nat) (c : Char) : Prop := str[j]? = some c ∧ slashes str j % 2 = 0

/-- At `j` begins what makes the word a pattern or a substitution already. -/
def Magic (str : List Char) (j : Nat) : Prop :=
  (∃ c ∈ ['*', '[', '?', '$'], Plain str j c) ∨ (∃ c ∈ ['+', '@', '!'], Plain str j c) ∧ str[j + 1]? = some '('

/-! ## Lemmas -/

theorem magic_char {c : Char} {r : List Char} {str : List Char} {i : Nat} (h : str.drop i = c :: r) (he : slashes str i % 2 = 0) :
    (c = '*' || c = '[' || c = '?' || c = '$' || ((c = '+' || c = '@' || c = '!') && r.head? == some '(')) = true ↔ Magic str i := by
  have h0 : str[i]? = some c := by
    have := congrArg List.head? h
    rwa [List.head?_drop] at this
  have h1 : str[i + 1]? = r.head? := by
    have := congrArg (fun l => (l.drop 1).head?) h
    simpa [List.head?_drop, Nat.add_comm] using this
  simp only [Magic, Plain, h0, h1, he, Option.some.injEq, List.mem_cons, List.not_mem_nil, or_false, and_true]
  simp only [Bool.or_eq_true, Bool.and_eq_true, decide_eq_true_eq, beq_iff_eq]
  constructor
  · rintro (((((h | h) | h) | h)) | ⟨h, h'⟩)
    · exact .inl ⟨c, by simp [h], rfl⟩
    · exact .inl ⟨c, by simp [h], rfl⟩
    · exact .inl ⟨c, by simp [h], rfl⟩
    · exact .inl ⟨c, by simp [h], rfl⟩
    · exact .inr ⟨⟨c, by rcases h with (h | h) | h <;> simp [h], rfl⟩, h'⟩
  · rintro (⟨d, hd, rfl⟩ | ⟨⟨d, hd, rfl⟩, h'⟩)
    · left; rcases hd with h | h | h | h <;> simp [h]
    · right; exact ⟨by rcases hd with h | h | h <;> simp [h], h'⟩

theorem globScan_spec (str : List Char) : ∀ n i saw, str.length ≤ n + i → slashes str i % 2 = 0 →
    (globScan (str.drop i) saw = none ↔ ∃ j, i ≤ j ∧ Magic str j) ∧
    ∀ b, globScan (str.drop i) saw = some b → (b = true ↔ saw = true ∨ ∃ j, i ≤ j ∧ Plain str j '/')
  | n, i, saw, hn, he => by
    cases hd : str.drop i with
    | nil =>
      have hl : str.length ≤ i := by simpa using hd
      have hout : ∀ j, i ≤ j → str[j]? = none := fun j hj => by simp; omega
      refine ⟨?_, ?_⟩
      · simp only [globScan, reduceCtorEq, false_iff]
        rintro ⟨j, hj, h⟩
        rcases h with ⟨c, -, h, -⟩ | ⟨⟨c, -, h, -⟩, -⟩ <;> rw [hout j hj] at h <;> cases h
      · intro b hb
        simp only [globScan, Option.some.injEq] at hb
        subst hb
        refine ⟨.inl, ?_⟩
        rintro (h | ⟨j, hj, h, -⟩)
        · exact h
        · rw [hout j hj] at h; cases h
    | cons c r =>
      have hlt : i < str.length := by
        by_cases h : i < str.length
        · exact h
        · rw [List.drop_eq_nil_of_le (by omega)] at hd; cases hd
      have h0 : str[i]? = some c := by
        have := congrArg List.head? hd
        rwa [List.head?_drop] at this
      have hr : str.drop (i + 1) = r := by
        have := congrArg (List.drop 1) hd
        simpa [List.drop_drop, Nat.add_comm] using this
      have hs := slashes_succ h0
      cases n with
      | zero => omega
      | succ n =>
      rw [globScan.eq_def]
      dsimp only
      by_cases hc : c = '\\' ∧ r ≠ []
      · rw [if_pos hc]
        obtain ⟨rfl, hrne⟩ := hc
        cases r with
        | nil => exact absurd rfl hrne
        | cons d r' =>
          dsimp only
          have h1 : str[i + 1]? = some d := by
            have := congrArg List.head? hr
            rwa [List.head?_drop] at this
          have hr' : str.drop (i + 2) = r' := by
            have := congrArg (List.drop 1) hr
            rwa [List.drop_drop] at this
          have hs1 := slashes_succ h1
          rw [if_pos rfl] at hs
          have he2 : slashes str (i + 2) % 2 = 0 := by
            rw [hs1]; split
            · omega
            · rfl
          have ih := globScan_spec str n (i + 2) saw (by omega) he2
          rw [hr'] at ih
          have n0 : ¬ Magic str i := by
            rintro (⟨c, hc, h, -⟩ | ⟨⟨c, hc, h, -⟩, -⟩) <;> rw [h0] at h <;> cases h <;> simp at hc
          have n1 : ∀ c, ¬ Plain str (i + 1) c := by
            rintro c ⟨-, h⟩; omega
          have n1' : ¬ Magic str (i + 1) := by
            rintro (⟨c, hc, h⟩ | ⟨⟨c, hc, h⟩, -⟩) <;> exact n1 _ h
          refine ⟨ih.1.trans ⟨fun ⟨j, hj, h⟩ => ⟨j, by omega, h⟩, fun ⟨j, hj, h⟩ => ⟨j, ?_, h⟩⟩, fun b hb => (ih.2 b hb).trans ?_⟩
          · have : j ≠ i := fun e => n0 (e ▸ h)
            have : j ≠ i + 1 := fun e => n1' (e ▸ h)
            omega
          · refine or_congr Iff.rfl ⟨fun ⟨j, hj, h⟩ => ⟨j, by omega, h⟩, fun ⟨j, hj, h⟩ => ⟨j, ?_, h⟩⟩
            have : j ≠ i := fun e => by subst e; rw [Plain, h0] at h; cases h.1
            have : j ≠ i + 1 := fun e => n1 _ (e ▸ h)
            omega
      · rw [if_neg hc]
        have hm := magic_char hd he
        by_cases hmg : Magic str i
        · rw [if_pos (hm.mpr hmg)]
          exact ⟨⟨fun _ => ⟨i, Nat.le_refl _, hmg⟩, fun _ => rfl⟩, fun b hb => by cases hb⟩
        · rw [if_neg fun h => hmg (hm.mp h)]
          by_cases hcb : c = '\\'
          · -- the last character
            have hrn : r = [] := Decidable.not_not.mp fun h => hc ⟨hcb, h⟩
            subst hrn hcb
            have hl : str.length = i + 1 := by
              have := congrArg List.length hd
              simp at this; omega
            have hout : ∀ j, i ≤ j → j ≠ i → str[j]? = none := fun j hj hne => by simp; omega
            refine ⟨?_, ?_⟩
            · simp only [globScan, reduceCtorEq, false_iff]
              rintro ⟨j, hj, h⟩
              by_cases e : j = i
              · exact hmg (e ▸ h)
              · rcases h with ⟨c, -, h, -⟩ | ⟨⟨c, -, h, -⟩, -⟩ <;> rw [hout j hj e] at h <;> cases h
            · intro b hb
              simp only [globScan, Option.some.injEq] at hb
              subst hb
              refine ⟨fun h => .inl (by simpa using h), ?_⟩
              rintro (h | ⟨j, hj, h, -⟩)
              · simp [h]
              · by_cases e : j = i
                · subst e; rw [h0] at h; cases h
                · rw [hout j hj e] at h; cases h
          · rw [if_neg hcb] at hs
            have ih := globScan_spec str n (i + 1) (saw || c = '/') (by omega) (by rw [hs])
            rw [hr] at ih
            refine ⟨ih.1.trans ⟨fun ⟨j, hj, h⟩ => ⟨j, by omega, h⟩, fun ⟨j, hj, h⟩ => ⟨j, ?_, h⟩⟩, fun b hb => (ih.2 b hb).trans ?_⟩
            · have : j ≠ i := fun e => hmg (e ▸ h)
              omega
            · constructor
              · rintro (h | ⟨j, hj, h⟩)
                · simp only [Bool.or_eq_true, decide_eq_true_eq] at h
                  rcases h with h | h
                  · exact .inl h
                  · exact .inr ⟨i, Nat.le_refl _, by rw [Plain, h0, h]; exact ⟨rfl, he⟩⟩
                · exact .inr ⟨j, by omega, h⟩
              · rintro (h | ⟨j, hj, h⟩)
                · exact .inl (by simp [h])
                · by_cases e : j = i
                  · subst e
                    have := h.1
                    rw [h0] at this
                    cases this
                    exact .inl (by simp)
                  · exact .inr ⟨j, by omega, h⟩

/-- **C111** A star is appended to the word exactly when there is no pattern and no substitution in it already, that is not
quoted, and it is not a tilde with the beginning of a login name. -/
theorem star_appended (str : List Char) :
    (((∃ j, Magic str j) ∨ (str.head? = some '~' ∧ ∀ j, ¬ Plain str j '/')) → addGlob str = str) ∧
    (¬ ((∃ j, Magic str j) ∨ (str.head? = some '~' ∧ ∀ j, ¬ Plain str j '/')) → addGlob str = str ++ ['*']) := by
  obtain ⟨h1, h2⟩ := globScan_spec str str.length 0 false (by omega) (by rw [slashes_zero])
  rw [List.drop_zero] at h1 h2
  simp only [Nat.zero_le, true_and] at h1 h2
  unfold addGlob
  cases hg : globScan str false with
  | none =>
    refine ⟨fun _ => rfl, fun h => absurd (.inl (h1.mp hg)) h⟩
  | some b =>
    have hb := h2 b hg
    have hn : ¬ ∃ j, Magic str j := fun h => by rw [h1.mpr h] at hg; cases hg
    simp only [Bool.false_eq_true, false_or] at hb
    dsimp only
    constructor
    · rintro (h | ⟨h, h'⟩)
      · exact absurd h hn
      · rw [if_neg]
        rintro (h0 | h0)
        · exact h0 h
        · obtain ⟨j, hj⟩ := hb.mp h0; exact h' j hj
    · intro h
      rw [if_pos]
      by_cases ht : str.head? = some '~'
      · right
        rw [hb]
        exact Classical.byContradiction fun hh => h (.inr ⟨ht, fun j hj => hh ⟨j, hj⟩⟩)
      · exact .inl ht

example : addGlob ['a', '\\', '*', 'b'] = ['a', '\\', '*', 'b', '*'] ∧ addGlob ['a', '[', 'b'] = ['a', '[', 'b'] ∧
    addGlob ['~', 'r', 'o'] = ['~', 'r', 'o'] ∧ addGlob ['~', '/', 'o'] = ['~', '/', 'o', '*'] ∧
    addGlob ['@', '(', 'b'] = ['@', '(', 'b'] := by decide +kernel

end Ksh.Compl
