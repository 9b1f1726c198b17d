import Verif.Vi.Lemmas
/-!
# Word motions
-/

namespace Ksh.Vi

/-! ## What words are -/

/-- Blanks, letters with digits and underscore, the rest. -/
def small (c : Char) : Nat := if space c then 0 else if letnum c then 1 else 2
/-- Blanks, the rest. -/
def big (c : Char) : Nat := if space c then 0 else 1

/-- The class of the character at `i`. -/
def clsAt (cls : Char → Nat) (t : List Char) (i : Nat) : Option Nat := (t[i]?).map cls

/-- A word begins at `i`. -/
def starts (cls : Char → Nat) (t : List Char) (i : Nat) : Bool :=
  i < t.length && clsAt cls t i != some 0 && (i == 0 || clsAt cls t (i - 1) != clsAt cls t i)

/-- A word ends at `i`. -/
def ends (cls : Char → Nat) (t : List Char) (i : Nat) : Bool :=
  i < t.length && clsAt cls t i != some 0 && clsAt cls t (i + 1) != clsAt cls t i

/-- The first place behind `i` where `p` holds, the end without one. -/
def nextIdx (p : Nat → Bool) (len i : Nat) : Nat := ((List.range len).find? (fun j => i < j && p j)).getD len
/-- The last place before `i` where `p` holds, the beginning without one. -/
def prevIdx (p : Nat → Bool) (i : Nat) : Nat := ((List.range i).reverse.find? p).getD 0

/-- `f` done `n` times. -/
def times (f : Nat → Nat) : Nat → Nat → Nat
  | 0, i => i
  | n+1, i => times f n (f i)

/-! ## The two searches -/

theorem nextIdx_eq {p : Nat → Bool} {len i x : Nat} (hx : x ≤ len) (hi : i < x) (h1 : x = len ∨ p x = true)
    (h2 : ∀ j, i < j → j < x → p j = false) : nextIdx p len i = x := by
  simp only [nextIdx]
  cases hf : (List.range len).find? (fun j => i < j && p j) with
  | none =>
    rw [List.find?_eq_none] at hf
    rcases h1 with h1 | h1
    · simp [h1]
    · by_cases hl : x = len
      · simp [hl]
      · exact absurd (hf x (List.mem_range.2 (by omega))) (by simp [hi, h1])
  | some y =>
    rw [List.find?_range_eq_some] at hf
    obtain ⟨hy1, hy2, hy3⟩ := hf
    simp only [Option.getD_some]
    have hyl : y < len := List.mem_range.1 hy2
    simp only [Bool.and_eq_true, decide_eq_true_eq] at hy1
    by_cases hxy : y < x
    · have := h2 y hy1.1 hxy; rw [hy1.2] at this; cases this
    · by_cases hyx : x < y
      · have := hy3 x hyx
        rcases h1 with h1 | h1
        · omega
        · simp [hi, h1] at this
      · omega

theorem nextIdx_end {p : Nat → Bool} {len i : Nat} (hi : len ≤ i) : nextIdx p len i = len := by
  simp only [nextIdx]
  cases hf : (List.range len).find? (fun j => i < j && p j) with
  | none => rfl
  | some y =>
    have h1 := List.mem_range.1 (List.mem_of_find?_eq_some hf)
    have h2 := List.find?_some hf
    simp only [Bool.and_eq_true, decide_eq_true_eq] at h2
    omega

theorem prevIdx_succ (p : Nat → Bool) (i : Nat) : prevIdx p (i+1) = if p i then i else prevIdx p i := by
  simp only [prevIdx, List.range_succ, List.reverse_append, List.reverse_singleton, List.singleton_append, List.find?_cons]
  cases p i <;> rfl

theorem prevIdx_eq {p : Nat → Bool} : ∀ {i x : Nat}, x < i → (x = 0 ∨ p x = true) → (∀ j, x < j → j < i → p j = false) → prevIdx p i = x := by
  intro i
  induction i with
  | zero => intro x hx; omega
  | succ i ih =>
    intro x hx h1 h2
    rw [prevIdx_succ]
    by_cases hxi : x = i
    · subst hxi
      rcases h1 with h1 | h1
      · subst h1
        split <;> rfl
      · rw [if_pos h1]
    · rw [h2 i (by omega) (by omega)]
      exact ih (by omega) h1 (fun j a b => h2 j a (by omega))

/-! ## The bytes -/

variable {m : List Char} {len : Nat}

/-- No byte with the high bit. -/
def Low (m : List Char) (len : Nat) : Prop := ∀ (i : Nat) c, i < len → m[i]? = some c → high c = false

theorem cls_get (cls : Char → Nat) {i : Nat} {c : Char} (hi : i < len) (h : m[i]? = some c) :
    clsAt cls (m.take len) i = some (cls c) := by
  simp only [clsAt, List.getElem?_take, if_pos hi, h, Option.map_some]

theorem cls_end (cls : Char → Nat) {i : Nat} (hi : len ≤ i) : clsAt cls (m.take len) i = none := by
  simp only [clsAt, List.getElem?_take, if_neg (by omega : ¬ i < len), Option.map_none]

theorem take_len (hl : len ≤ m.length) : (m.take len).length = len := by rw [List.length_take]; omega

theorem small_eq {c d : Char} (hc : space c = false) (hd : space d = false) : small c = small d ↔ letnum c = letnum d := by
  simp only [small, hc, hd, Bool.false_eq_true, if_false]
  cases letnum c <;> cases letnum d <;> simp

/-! ## Forward -/

/-- What lies between two places. -/
theorem fwInner_words (hl : len ≤ m.length) (hlow : Low m len) : ∀ (k : Nat), k < len → ∀ (skip : Bool) (want : Option Bool),
    (∀ d, m[len - k - 1]? = some d → if skip then space d = true else space d = false ∧ want = some (letnum d)) →
    ∃ x, fwInner m len k skip want = some x ∧ len - k ≤ x ∧ x ≤ len ∧ (x = len ∨ starts small (m.take len) x = true) ∧
      ∀ j, len - k ≤ j → j < x → starts small (m.take len) j = false := by
  intro k
  induction k with
  | zero => intro _ skip want _; exact ⟨len, rfl, by omega, Nat.le_refl _, .inl rfl, fun j _ _ => by omega⟩
  | succ k ih =>
    intro hk skip want hw
    obtain ⟨c, hc⟩ := get_some (l := m) (i := len - (k+1)) (by omega)
    obtain ⟨d, hd⟩ := get_some (l := m) (i := len - (k+1) - 1) (by omega)
    have hw := hw d hd
    have hcc := cls_get (len := len) small (by omega) hc
    have hcd := cls_get (len := len) small (by omega) hd
    have hi : len - (k+1) = len - k - 1 := by omega
    have htl := take_len hl
    -- whether a word begins here
    have hst : starts small (m.take len) (len - (k+1)) = (small c != 0 && small d != small c) := by
      simp only [starts, htl, hcc, hcd]
      rw [show (decide (len - (k+1) < len)) = true by simp; omega, show (len - (k+1) == 0) = false by simp; omega]
      simp only [Bool.true_and, Bool.false_or]
      congr 1
    have next : ∀ (s : Bool) (w : Option Bool), starts small (m.take len) (len - (k+1)) = false →
        (if s then space c = true else space c = false ∧ w = some (letnum c)) →
        ∃ x, fwInner m len k s w = some x ∧ len - (k+1) ≤ x ∧ x ≤ len ∧ (x = len ∨ starts small (m.take len) x = true) ∧
          ∀ j, len - (k+1) ≤ j → j < x → starts small (m.take len) j = false := by
      intro s w h0 hsw
      obtain ⟨x, h1, h2, h3, h4, h5⟩ := ih (by omega) s w (fun d' hd' => by rw [← hi, hc] at hd'; cases hd'; exact hsw)
      refine ⟨x, h1, by omega, h3, h4, fun j ha hb => ?_⟩
      by_cases hj : j = len - (k+1)
      · rw [hj]; exact h0
      · exact h5 j (by omega) hb
    have stop : starts small (m.take len) (len - (k+1)) = true →
        ∃ x, some (len - (k+1)) = some x ∧ len - (k+1) ≤ x ∧ x ≤ len ∧ (x = len ∨ starts small (m.take len) x = true) ∧
          ∀ j, len - (k+1) ≤ j → j < x → starts small (m.take len) j = false :=
      fun h => ⟨_, rfl, Nat.le_refl _, by omega, .inr h, fun j _ _ => by omega⟩
    simp only [fwInner, hc]
    by_cases hsp : space c = true
    · rw [if_pos hsp]
      exact next true want (by rw [hst]; simp [small, hsp]) (by simpa using hsp)
    · simp only [Bool.not_eq_true] at hsp
      rw [if_neg (by simp [hsp])]
      cases skip with
      | true =>
        simp only [if_true] at hw
        rw [if_pos rfl]
        apply stop
        rw [hst]
        simp only [small, hsp, hw]
        cases letnum c <;> rfl
      | false =>
        simp only [Bool.false_eq_true, if_false] at hw
        rw [if_neg (by simp), hlow _ c (by omega) hc, if_neg (by simp), hw.2]
        simp only
        by_cases hn : letnum d = letnum c
        · rw [if_neg (by simp [hn])]
          refine next false _ ?_ (by simp [hsp, hn])
          rw [hst]
          have := (small_eq hw.1 hsp).2 hn
          simp [this]
        · rw [if_pos hn]
          apply stop
          rw [hst]
          have h1 : small d ≠ small c := fun h => hn ((small_eq hw.1 hsp).1 h)
          have h2 : small c ≠ 0 := by simp only [small, hsp]; cases letnum c <;> simp
          simp [h1, h2]

theorem fwInner_first (hl : len ≤ m.length) (hlow : Low m len) {i : Nat} (hi : i < len) :
    fwInner m len (len - i) false none = some (nextIdx (starts small (m.take len)) len i) := by
  obtain ⟨c, hc⟩ := get_some (l := m) (i := i) (by omega)
  obtain ⟨k, hk⟩ : ∃ k, len - i = k + 1 := ⟨len - i - 1, by omega⟩
  rw [hk]
  have hik : len - (k+1) = i := by omega
  have hik' : len - k - 1 = i := by omega
  simp only [fwInner, hik, hc]
  have key : ∀ (s : Bool) (w : Option Bool), (if s then space c = true else space c = false ∧ w = some (letnum c)) →
      fwInner m len k s w = some (nextIdx (starts small (m.take len)) len i) := by
    intro s w hsw
    obtain ⟨x, h1, h2, h3, h4, h5⟩ := fwInner_words hl hlow k (by omega) s w (fun d hd => by rw [hik', hc] at hd; cases hd; exact hsw)
    rw [h1, nextIdx_eq h3 (by omega) h4 (fun j a b => h5 j (by omega) b)]
  by_cases hsp : space c = true
  · rw [if_pos hsp]; exact key true none (by simpa using hsp)
  · rw [if_neg hsp, if_neg (by simp), hlow _ c (by omega) hc, if_neg (by simp)]
    exact key false _ (by simp at hsp; simp [hsp])

theorem forwword_eq (hl : len ≤ m.length) (hlow : Low m len) : ∀ (n i : Nat), i ≤ len →
    forwword m len n i = some (times (nextIdx (starts small (m.take len)) len) n i) := by
  intro n
  induction n with
  | zero => intro i _; rfl
  | succ n ih =>
    intro i hi
    simp only [forwword, times]
    by_cases hlt : i < len
    · rw [if_pos hlt, fwInner_first hl hlow hlt]
      have : nextIdx (starts small (m.take len)) len i ≤ len := by
        simp only [nextIdx]
        cases hf : (List.range len).find? (fun j => i < j && starts small (m.take len) j) with
        | none => simp
        | some y => have := List.mem_range.1 (List.mem_of_find?_eq_some hf); simp; omega
      exact ih _ this
    · rw [if_neg hlt, nextIdx_end (by omega)]
      have : i = len := by omega
      subst this
      have hfix : ∀ n, times (nextIdx (starts small (m.take i)) i) n i = i := by
        intro n
        induction n with
        | zero => rfl
        | succ n ihn => simp only [times, nextIdx_end (Nat.le_refl _)]; exact ihn
      rw [hfix]

/-! ## Backward -/

theorem bwInner_in (hl : len ≤ m.length) (hlow : Low m len) : ∀ (n : Nat), n < len → ∀ d, m[n]? = some d → space d = false →
    ∃ x, bwInner m n false (some (letnum d)) = some x ∧ x ≤ n ∧ starts small (m.take len) x = true ∧
      ∀ j, x < j → j ≤ n → starts small (m.take len) j = false := by
  have htl := take_len hl
  have nz : ∀ c, space c = false → small c ≠ 0 := by
    intro c h; simp only [small, h]; cases letnum c <;> simp
  intro n
  induction n with
  | zero =>
    intro hn d hd hsp
    refine ⟨0, rfl, Nat.le_refl _, ?_, fun j _ _ => by omega⟩
    have := nz d hsp
    simp [starts, htl, hn, cls_get (len := len) small hn hd, this]
  | succ n ih =>
    intro hn d hd hsp
    obtain ⟨c, hc⟩ := get_some (l := m) (i := n) (by omega)
    have hcc := cls_get (len := len) small (by omega) hc
    have hcd := cls_get (len := len) small hn hd
    have hst : starts small (m.take len) (n+1) = (small c != small d) := by
      have hz := nz d hsp
      simp only [starts, htl, hcd, Nat.add_sub_cancel, hcc, hn]
      rw [show ((some (small d) : Option Nat) != some 0) = true by simp [hz], show (n + 1 == 0) = false by simp]
      simp only [decide_true, Bool.true_and, Bool.false_or]
      rw [Bool.eq_iff_iff]; simp
    simp only [bwInner, hc]
    by_cases hs : space c = true
    · rw [if_pos hs, if_neg (by simp)]
      refine ⟨_, rfl, Nat.le_refl _, ?_, fun j _ _ => by omega⟩
      rw [hst]
      have := nz d hsp
      have h0 : small c = 0 := by simp [small, hs]
      simp [h0, Ne.symm this]
    · simp only [Bool.not_eq_true] at hs
      rw [if_neg (by simp [hs]), hlow _ c (by omega) hc, if_neg (by simp)]
      by_cases hn2 : letnum d = letnum c
      · rw [if_neg (by simp [hn2]), hn2]
        obtain ⟨x, h1, h2, h3, h4⟩ := ih (by omega) c hc hs
        refine ⟨x, h1, by omega, h3, fun j a b => ?_⟩
        by_cases hj : j = n + 1
        · subst hj
          rw [hst, (small_eq hs hsp).2 hn2.symm]; simp
        · exact h4 j a (by omega)
      · rw [if_pos hn2]
        refine ⟨_, rfl, Nat.le_refl _, ?_, fun j _ _ => by omega⟩
        rw [hst]
        have : small c ≠ small d := fun h => hn2 ((small_eq hs hsp).1 h).symm
        simp [this]

theorem bwInner_words (hl : len ≤ m.length) (hlow : Low m len) : ∀ (n : Nat), n ≤ len →
    ∃ x, bwInner m n true none = some x ∧ (0 < n → x < n) ∧ (x = 0 ∨ starts small (m.take len) x = true) ∧
      ∀ j, x < j → j < n → starts small (m.take len) j = false := by
  intro n
  induction n with
  | zero => intro _; exact ⟨0, rfl, by omega, .inl rfl, fun j _ _ => by omega⟩
  | succ n ih =>
    intro hn
    obtain ⟨c, hc⟩ := get_some (l := m) (i := n) (by omega)
    simp only [bwInner, hc]
    by_cases hs : space c = true
    · rw [if_pos hs]; simp only [if_true]
      obtain ⟨x, h1, h2, h3, h4⟩ := ih (by omega)
      refine ⟨x, h1, fun _ => ?_, h3, fun j a b => ?_⟩
      · by_cases h0 : n = 0
        · subst h0; simp [bwInner] at h1; omega
        · have := h2 (by omega); omega
      · by_cases hj : j = n
        · subst hj
          simp [starts, cls_get (len := len) small (by omega) hc, small, hs]
        · exact h4 j a (by omega)
    · simp only [Bool.not_eq_true] at hs
      rw [if_neg (by simp [hs]), hlow _ c (by omega) hc, if_neg (by simp)]
      obtain ⟨x, h1, h2, h3, h4⟩ := bwInner_in hl hlow n (by omega) c hc hs
      exact ⟨x, h1, fun _ => by omega, .inr h3, fun j a b => h4 j a (by omega)⟩

theorem backword_eq (hl : len ≤ m.length) (hlow : Low m len) : ∀ (n i : Nat), i ≤ len →
    backword m n i = some (times (prevIdx (starts small (m.take len))) n i) := by
  intro n
  induction n with
  | zero => intro i _; rfl
  | succ n ih =>
    intro i hi
    simp only [backword, times]
    by_cases h0 : 0 < i
    · obtain ⟨x, h1, h2, h3, h4⟩ := bwInner_words hl hlow i hi
      rw [if_pos h0, h1, prevIdx_eq (h2 h0) h3 h4]
      exact ih _ (by have := h2 h0; omega)
    · rw [if_neg h0]
      have : i = 0 := by omega
      subst this
      have hfix : ∀ n, times (prevIdx (starts small (m.take len))) n 0 = 0 := by
        intro n
        induction n with
        | zero => rfl
        | succ n ihn => exact ihn
      show some 0 = some (times _ n 0)
      rw [hfix]

/-! ## To the end of a word -/

theorem ewInner_in (hl : len ≤ m.length) (hlow : Low m len) : ∀ (k : Nat), k < len → ∀ d, m[len - k - 1]? = some d → space d = false →
    ∃ x, ewInner m len k false (some (letnum d)) = some x ∧ len - k ≤ x ∧ x ≤ len ∧ ends small (m.take len) (x - 1) = true ∧
      ∀ j, len - k - 1 ≤ j → j + 1 < x → ends small (m.take len) j = false := by
  have htl := take_len hl
  have nz : ∀ c, space c = false → small c ≠ 0 := by
    intro c h; simp only [small, h]; cases letnum c <;> simp
  intro k
  induction k with
  | zero =>
    intro hk d hd hsp
    refine ⟨len, rfl, Nat.le_refl _, Nat.le_refl _, ?_, fun j _ _ => by omega⟩
    have hcd := cls_get (len := len) small (by omega) hd
    have hce := cls_end (m := m) small (Nat.le_refl len)
    have := nz d hsp
    simp only [Nat.sub_zero] at hcd
    simp only [ends, htl, hcd, show len - 1 + 1 = len by omega, hce]
    simp [this]; omega
  | succ k ih =>
    intro hk d hd hsp
    obtain ⟨c, hc⟩ := get_some (l := m) (i := len - (k+1)) (by omega)
    have hcc := cls_get (len := len) small (by omega) hc
    have hcd := cls_get (len := len) small (by omega) hd
    have hst : ends small (m.take len) (len - (k+1) - 1) = (small c != small d) := by
      have hz := nz d hsp
      simp only [ends, htl, hcd, show len - (k+1) - 1 + 1 = len - (k+1) by omega, hcc]
      rw [show ((some (small d) : Option Nat) != some 0) = true by simp [hz], show decide (len - (k+1) - 1 < len) = true by simp; omega]
      simp only [Bool.true_and]
      rw [Bool.eq_iff_iff]; simp
    simp only [ewInner, hc]
    by_cases hs : space c = true
    · rw [if_pos hs, if_neg (by simp)]
      refine ⟨_, rfl, Nat.le_refl _, by omega, ?_, fun j _ _ => by omega⟩
      rw [hst]
      have := nz d hsp
      have h0 : small c = 0 := by simp [small, hs]
      simp [h0, Ne.symm this]
    · simp only [Bool.not_eq_true] at hs
      rw [if_neg (by simp [hs]), hlow _ c (by omega) hc, if_neg (by simp)]
      by_cases hn2 : letnum d = letnum c
      · rw [if_neg (by simp [hn2]), hn2]
        obtain ⟨x, h1, h2, h3, h4, h5⟩ := ih (by omega) c (by rw [show len - k - 1 = len - (k+1) by omega]; exact hc) hs
        refine ⟨x, h1, by omega, h3, h4, fun j a b => ?_⟩
        by_cases hj : j = len - (k+1) - 1
        · subst hj
          rw [hst, (small_eq hs hsp).2 hn2.symm]; simp
        · exact h5 j (by omega) b
      · rw [if_pos hn2]
        refine ⟨_, rfl, Nat.le_refl _, by omega, ?_, fun j _ _ => by omega⟩
        rw [hst]
        have : small c ≠ small d := fun h => hn2 ((small_eq hs hsp).1 h).symm
        simp [this]

theorem ewInner_words (hl : len ≤ m.length) (hlow : Low m len) : ∀ (k : Nat), k ≤ len →
    ∃ x, ewInner m len k true none = some x ∧ len - k ≤ x ∧ x ≤ len ∧
      (x = len ∨ (len - k < x ∧ ends small (m.take len) (x - 1) = true)) ∧
      ∀ j, len - k ≤ j → j + 1 < x → ends small (m.take len) j = false := by
  intro k
  induction k with
  | zero => intro _; exact ⟨len, rfl, Nat.le_refl _, Nat.le_refl _, .inl rfl, fun j _ _ => by omega⟩
  | succ k ih =>
    intro hk
    obtain ⟨c, hc⟩ := get_some (l := m) (i := len - (k+1)) (by omega)
    simp only [ewInner, hc]
    by_cases hs : space c = true
    · rw [if_pos hs]; simp only [if_true]
      obtain ⟨x, h1, h2, h3, h4, h5⟩ := ih (by omega)
      refine ⟨x, h1, by omega, h3, h4.imp_right (fun h => ⟨by omega, h.2⟩), fun j a b => ?_⟩
      by_cases hj : j = len - (k+1)
      · subst hj
        simp [ends, cls_get (len := len) small (by omega) hc, small, hs]
      · exact h5 j (by omega) b
    · simp only [Bool.not_eq_true] at hs
      rw [if_neg (by simp [hs]), hlow _ c (by omega) hc, if_neg (by simp)]
      have hik : len - k - 1 = len - (k+1) := by omega
      obtain ⟨x, h1, h2, h3, h4, h5⟩ := ewInner_in hl hlow k (by omega) c (by rw [hik]; exact hc) hs
      exact ⟨x, h1, by omega, h3, .inr ⟨by omega, h4⟩, fun j a b => h5 j (by omega) b⟩

/-- One `e`: the byte behind the word. -/
theorem endword_one (hl : len ≤ m.length) (hlow : Low m len) {i : Nat} (hi : i + 1 < len) :
    ∃ x, endword m len 1 i = some x ∧ x - 1 = min (nextIdx (ends small (m.take len)) len i) (len - 1) ∧ i + 1 ≤ x ∧ x ≤ len := by
  obtain ⟨x, h1, h2, h3, h4, h5⟩ := ewInner_words hl hlow (len - (i+1)) (by omega)
  simp only [endword, if_pos (show i < len by omega), h1]
  refine ⟨x, rfl, ?_, by omega, h3⟩
  by_cases hx : x = len
  · -- the last byte, whether or not a word ends there
    subst hx
    by_cases he : ends small (m.take x) (x - 1) = true
    · rw [nextIdx_eq (x := x - 1) (by omega) (by omega) (.inr he) (fun j a b => h5 j (by omega) (by omega))]
      omega
    · rw [nextIdx_eq (x := x) (Nat.le_refl _) (by omega) (.inl rfl) (fun j a b => ?_)]
      · omega
      · by_cases hj : j = x - 1
        · subst hj; simpa using he
        · exact h5 j (by omega) (by omega)
  · have h4 := h4.resolve_left hx
    rw [nextIdx_eq (x := x - 1) (by omega) (by omega) (.inr h4.2) (fun j a b => h5 j (by omega) (by omega))]
    omega

/-! ## Big words -/

theorem scanUp_all (p : Char → Bool) (hl : len ≤ m.length) : ∀ (k : Nat), k ≤ len →
    ∃ x, scanUp p m len k = some x ∧ len - k ≤ x ∧ x ≤ len ∧ (∀ (j : Nat) c, len - k ≤ j → j < x → m[j]? = some c → p c = true) ∧
      (x < len → ∀ c, m[x]? = some c → p c = false) := by
  intro k
  induction k with
  | zero => intro _; exact ⟨len, rfl, Nat.le_refl _, Nat.le_refl _, fun j _ _ _ => by omega, fun h => by omega⟩
  | succ k ih =>
    intro hk
    obtain ⟨c, hc⟩ := get_some (l := m) (i := len - (k+1)) (by omega)
    simp only [scanUp, hc]
    by_cases hp : p c = true
    · rw [if_pos hp]
      obtain ⟨x, h1, h2, h3, h4, h5⟩ := ih (by omega)
      refine ⟨x, h1, by omega, h3, fun j d a b hd => ?_, h5⟩
      by_cases hj : j = len - (k+1)
      · rw [hj, hc] at hd; cases hd; exact hp
      · exact h4 j d (by omega) b hd
    · rw [if_neg hp]
      refine ⟨_, rfl, Nat.le_refl _, by omega, fun j _ _ _ => by omega, fun _ d hd => ?_⟩
      rw [hc] at hd; cases hd; simpa using hp

theorem scanDown_all (p : Char → Bool) : ∀ (n : Nat), n ≤ m.length →
    ∃ x, scanDown p m n = some x ∧ x ≤ n ∧ (∀ (j : Nat) c, x ≤ j → j < n → m[j]? = some c → p c = true) ∧
      (0 < x → ∀ c, m[x - 1]? = some c → p c = false) := by
  intro n
  induction n with
  | zero => intro _; exact ⟨0, rfl, Nat.le_refl _, fun j _ _ _ => by omega, fun h => by omega⟩
  | succ n ih =>
    intro hn
    obtain ⟨c, hc⟩ := get_some (l := m) (i := n) (by omega)
    simp only [scanDown, hc]
    by_cases hp : p c = true
    · rw [if_pos hp]
      obtain ⟨x, h1, h2, h3, h4⟩ := ih (by omega)
      refine ⟨x, h1, by omega, fun j d a b hd => ?_, h4⟩
      by_cases hj : j = n
      · rw [hj, hc] at hd; cases hd; exact hp
      · exact h3 j d a (by omega) hd
    · rw [if_neg hp]
      refine ⟨_, rfl, Nat.le_refl _, fun j _ _ _ => by omega, fun _ d hd => ?_⟩
      rw [Nat.add_sub_cancel, hc] at hd; cases hd; simpa using hp

theorem starts_big (hl : len ≤ m.length) {i : Nat} (hi : i < len) {c : Char} (hc : m[i]? = some c) :
    starts big (m.take len) i = (!space c && (i == 0 || (m[i-1]?).all space)) := by
  have htl := take_len hl
  by_cases h0 : i = 0
  · subst h0
    simp only [starts, htl, cls_get (len := len) big hi hc, big, hi]
    cases space c <;> simp
  · obtain ⟨d, hd⟩ := get_some (l := m) (i := i - 1) (by omega)
    simp only [starts, htl, cls_get (len := len) big hi hc, cls_get (len := len) big (by omega) hd, big, hi, hd]
    have e1 : ((some 1 : Option Nat) != some 0) = true := rfl
    have e2 : ((some 0 : Option Nat) != some 1) = true := rfl
    cases hsc : space c <;> cases hsd : space d <;> simp [h0, hsd, e1, e2]

theorem ends_big (hl : len ≤ m.length) {i : Nat} (hi : i < len) {c : Char} (hc : m[i]? = some c) :
    ends big (m.take len) i = (!space c && (i + 1 == len || (m[i+1]?).all space)) := by
  have htl := take_len hl
  by_cases h0 : i + 1 = len
  · simp only [ends, htl, cls_get (len := len) big hi hc, h0, cls_end (m := m) (len := len) big (Nat.le_refl _), big, hi]
    cases space c <;> simp
  · obtain ⟨d, hd⟩ := get_some (l := m) (i := i + 1) (by omega)
    simp only [ends, htl, cls_get (len := len) big hi hc, cls_get (len := len) big (by omega) hd, big, hi, hd]
    have e1 : ((some 1 : Option Nat) != some 0) = true := rfl
    have e2 : ((some 0 : Option Nat) != some 1) = true := rfl
    cases hsc : space c <;> cases hsd : space d <;> simp [h0, hsd, e1, e2]

theorem Forwword_eq (hl : len < m.length) : ∀ (n i : Nat), i ≤ len →
    Forwword m len n i = some (times (nextIdx (starts big (m.take len)) len) n i) := by
  have hl' : len ≤ m.length := by omega
  intro n
  induction n with
  | zero => intro i _; rfl
  | succ n ih =>
    intro i hi
    simp only [Forwword, times]
    by_cases hlt : i < len
    · obtain ⟨z, hz⟩ := get_some (l := m) (i := len) hl
      rw [if_pos hlt, if_neg (by simp [hz])]
      obtain ⟨x, h1, h2, h3, h4, h5⟩ := scanUp_all (m := m) (fun c => !space c) hl' (len - i) (by omega)
      obtain ⟨y, g1, g2, g3, g4, g5⟩ := scanUp_all (m := m) space hl' (len - x) (by omega)
      simp only [h1, g1]
      have hxy : x < len → x < y := by
        intro hx
        by_cases hyx : y = x
        · subst hyx
          obtain ⟨c, hc⟩ := get_some (l := m) (i := y) (by omega)
          have a := h5 hx c hc
          have b := g5 hx c hc
          rw [b] at a; cases a
        · omega
      have hiy : i < y := by
        by_cases hx : x < len
        · have := hxy hx; omega
        · omega
      have hst : y = len ∨ starts big (m.take len) y = true := by
        by_cases hy : y = len
        · exact .inl hy
        · right
          obtain ⟨c, hc⟩ := get_some (l := m) (i := y) (by omega)
          obtain ⟨d, hd⟩ := get_some (l := m) (i := y - 1) (by omega)
          have a := g5 (by omega) c hc
          have hxl : x < len := by omega
          have b := g4 (y - 1) d (by have := hxy hxl; omega) (by omega) hd
          rw [starts_big hl' (by omega) hc, hd, a]
          simp [b]
      have hno : ∀ j, i < j → j < y → starts big (m.take len) j = false := by
        intro j a b
        obtain ⟨c, hc⟩ := get_some (l := m) (i := j) (by omega)
        rw [starts_big hl' (by omega) hc]
        by_cases hj : j < x
        · obtain ⟨d, hd⟩ := get_some (l := m) (i := j - 1) (by omega)
          have := h4 (j - 1) d (by omega) (by omega) hd
          simp only [Bool.not_eq_true'] at this
          rw [hd]
          simp [this]; omega
        · have := g4 j c (by omega) b hc
          simp [this]
      rw [nextIdx_eq g3 hiy hst hno]
      exact ih _ g3
    · rw [if_neg hlt, nextIdx_end (by omega)]
      have : i = len := by omega
      subst this
      have hfix : ∀ n, times (nextIdx (starts big (m.take i)) i) n i = i := by
        intro n
        induction n with
        | zero => rfl
        | succ n ihn => simp only [times, nextIdx_end (Nat.le_refl _)]; exact ihn
      rw [hfix]

theorem Backword_eq (hl : len ≤ m.length) : ∀ (n i : Nat), i ≤ len →
    Backword m n i = some (times (prevIdx (starts big (m.take len))) n i) := by
  intro n
  induction n with
  | zero => intro i _; rfl
  | succ n ih =>
    intro i hi
    simp only [Backword, times]
    by_cases h0 : 0 < i
    · obtain ⟨x, h1, h2, h3, h4⟩ := scanDown_all (m := m) space i (by omega)
      obtain ⟨y, g1, g2, g3, g4⟩ := scanDown_all (m := m) (fun c => !space c) x (by omega)
      have hxy : 0 < x → y < x := by
        intro hx
        by_cases hyx : y = x
        · subst hyx
          obtain ⟨c, hc⟩ := get_some (l := m) (i := y - 1) (by omega)
          have a := h4 hx c hc
          have b := g4 hx c hc
          rw [a] at b; cases b
        · omega
      rw [if_pos h0]
      simp only [h1, g1]
      have hyi : y < i := by
        by_cases hx : 0 < x
        · have := hxy hx; omega
        · omega
      have hst : y = 0 ∨ starts big (m.take len) y = true := by
        by_cases hy : y = 0
        · exact .inl hy
        · right
          have hx := hxy (by omega)
          obtain ⟨c, hc⟩ := get_some (l := m) (i := y) (by omega)
          obtain ⟨d, hd⟩ := get_some (l := m) (i := y - 1) (by omega)
          have a := g3 y c (Nat.le_refl _) hx hc
          have b := g4 (by omega) d hd
          simp only [Bool.not_eq_true'] at a
          simp only [Bool.not_eq_false'] at b
          rw [starts_big hl (by omega) hc, hd, a]
          simp [b]
      have hno : ∀ j, y < j → j < i → starts big (m.take len) j = false := by
        intro j a b
        obtain ⟨c, hc⟩ := get_some (l := m) (i := j) (by omega)
        rw [starts_big hl (by omega) hc]
        by_cases hj : j < x
        · obtain ⟨d, hd⟩ := get_some (l := m) (i := j - 1) (by omega)
          have := g3 (j - 1) d (by omega) (by omega) hd
          simp only [Bool.not_eq_true'] at this
          rw [hd]
          simp [this]; omega
        · have := h3 j c (by omega) b hc
          simp [this]
      rw [prevIdx_eq hyi hst hno]
      exact ih _ (by omega)
    · rw [if_neg h0]
      have : i = 0 := by omega
      subst this
      have hfix : ∀ n, times (prevIdx (starts big (m.take len))) n 0 = 0 := by
        intro n
        induction n with
        | zero => rfl
        | succ n ihn => exact ihn
      show some 0 = some (times _ n 0)
      rw [hfix]

theorem Endword_one (hl : len ≤ m.length) {i : Nat} (hi : i + 1 < len) :
    ∃ x, Endword m len 1 i = some x ∧ x - 1 = min (nextIdx (ends big (m.take len)) len i) (len - 1) ∧ i + 1 ≤ x ∧ x ≤ len := by
  obtain ⟨x, h1, h2, h3, h4, h5⟩ := scanUp_all (m := m) space hl (len - (i+1)) (by omega)
  obtain ⟨y, g1, g2, g3, g4, g5⟩ := scanUp_all (m := m) (fun c => !space c) hl (len - x) (by omega)
  simp only [Endword, if_pos (show i < len by omega), h1, g1]
  refine ⟨y, rfl, ?_, by omega, g3⟩
  have hxy : x < len → x < y := by
    intro hx
    by_cases hyx : y = x
    · subst hyx
      obtain ⟨c, hc⟩ := get_some (l := m) (i := y) (by omega)
      have a := h5 hx c hc
      have b := g5 hx c hc
      simp [a] at b
    · omega
  have hno : ∀ j, i < j → j + 1 < y → ends big (m.take len) j = false := by
    intro j a b
    obtain ⟨c, hc⟩ := get_some (l := m) (i := j) (by omega)
    rw [ends_big hl (by omega) hc]
    by_cases hj : j < x
    · have := h4 j c (by omega) hj hc
      simp [this]
    · obtain ⟨d, hd⟩ := get_some (l := m) (i := j + 1) (by omega)
      have := g4 (j + 1) d (by omega) b hd
      simp only [Bool.not_eq_true'] at this
      rw [hd]
      simp [this]; omega
  by_cases hx : x < len
  · have hlt := hxy hx
    have he : ends big (m.take len) (y - 1) = true := by
      obtain ⟨c, hc⟩ := get_some (l := m) (i := y - 1) (by omega)
      have a := g4 (y - 1) c (by omega) (by omega) hc
      simp only [Bool.not_eq_true'] at a
      rw [ends_big hl (by omega) hc, a, show y - 1 + 1 = y by omega]
      by_cases hy : y = len
      · simp [hy]
      · obtain ⟨d, hd⟩ := get_some (l := m) (i := y) (by omega)
        have b := g5 (by omega) d hd
        simp only [Bool.not_eq_false'] at b
        simp [hd, b]
    rw [nextIdx_eq (x := y - 1) (by omega) (by omega) (.inr he) (fun j a b => hno j a (by omega))]
    omega
  · have hyl : y = len := by omega
    have hne : ends big (m.take len) (len - 1) = false := by
      obtain ⟨c, hc⟩ := get_some (l := m) (i := len - 1) (by omega)
      have := h4 (len - 1) c (by omega) (by omega) hc
      rw [ends_big hl (by omega) hc]
      simp [this]
    rw [nextIdx_eq (x := len) (Nat.le_refl _) (by omega) (.inl rfl) (fun j a b => ?_)]
    · omega
    · by_cases hj : j = len - 1
      · subst hj; exact hne
      · exact hno j a (by omega)

/-! ## The commands -/

variable {e : Env} {size : Nat} {s : Ed}

theorem cont_high {c : Char} (h : high c = false) : cont e c = false := by
  simp only [high, decide_eq_false_iff_not] at h
  simp [cont, h]

theorem low_of_text {b : Buf} (h : ∀ c ∈ b.text, high c = false) : Low b.mem b.len := by
  intro i c hi hc
  refine h c (List.mem_of_getElem? (i := i) ?_)
  rw [Buf.text, List.getElem?_take, if_pos hi, hc]

theorem backCont_low (hlow : Low m len) (hl : len ≤ m.length) {x : Nat} (h0 : x ≠ 0) (hx : x ≤ len) : backCont e m x = some (x - 1) := by
  obtain ⟨n, rfl⟩ : ∃ n, x = n + 1 := ⟨x - 1, by omega⟩
  obtain ⟨c, hc⟩ := get_some (l := m) (i := n) (by omega)
  simp only [backCont, hc, cont_high (e := e) (hlow n c (by omega) hc), Bool.false_eq_true, if_false, Nat.add_sub_cancel]

/-- A motion that gives `x`. -/
theorem move_to (h : s.es.Ok size) (hlow : Low s.es.mem s.es.len) {n : Nat} {c a b : Char} (hm : isMove c = true) (hz : isZero c = false)
    (hf : setFind s c a = s) {x : Nat} (hx : x ≤ s.es.len)
    (hd : domove e s (max n 1) c false = some (some x)) :
    ∃ s', viCmd e s n [c, a, b] = some (.ok, s') ∧ s'.es.text = s.es.text ∧ s'.es.cur = min x (s.es.len - 1) := by
  have hl := h.len; have hml := h.mem
  have hn : count n c = max n 1 := by
    simp only [count, hz]
    by_cases h0 : n = 0
    · subst h0; rfl
    · simp [h0]; omega
  simp only [viCmd, List.headD_cons, hm, if_true, hn, moveCmd, List.getD_cons_succ, List.getD_cons_zero, hf, hd]
  by_cases hxl : x = s.es.len ∧ x ≠ 0
  · rw [if_pos hxl, backCont_low hlow (by omega) hxl.2 hx]
    exact ⟨_, rfl, rfl, show x - 1 = _ by omega⟩
  · rw [if_neg hxl]
    refine ⟨_, rfl, rfl, show x = _ from ?_⟩
    omega

theorem times_nextIdx_le (p : Nat → Bool) (len : Nat) : ∀ (n i : Nat), i ≤ len → times (nextIdx p len) n i ≤ len := by
  intro n
  induction n with
  | zero => intro i h; exact h
  | succ n ih =>
    intro i _
    refine ih _ ?_
    simp only [nextIdx]
    cases hf : (List.range len).find? (fun j => i < j && p j) with
    | none => simp
    | some y => have := List.mem_range.1 (List.mem_of_find?_eq_some hf); simp; omega

theorem times_prevIdx_le (p : Nat → Bool) : ∀ (n i : Nat), times (prevIdx p) n i ≤ i := by
  intro n
  induction n with
  | zero => intro i; exact Nat.le_refl _
  | succ n ih =>
    intro i
    refine Nat.le_trans (ih _) ?_
    simp only [prevIdx]
    cases hf : (List.range i).reverse.find? p with
    | none => simp
    | some y => have := List.mem_range.1 (List.mem_reverse.1 (List.mem_of_find?_eq_some hf)); simp; omega

theorem guard_off {g : Bool} (h : g = false) (r : Option Nat) : guardMove g r = r.map some := by simp [guardMove, h]

end Ksh.Vi
