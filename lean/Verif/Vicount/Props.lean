import Verif.Vicount.Model
import Verif.Counts.Props

/-!
# Counts typed in vi mode: proofs
-/
namespace Ksh.Vicount

open Ksh.Counts (B rd isCont setArg wrapArg imax word value Ok)

/-! ## What the counts should be -/

/-- The number of bytes at `i`, ..., `i + k - 1` that begin a character. -/
def starts (st : Int → Bool) (i : Int) : Nat → Nat
  | 0 => 0
  | k + 1 => (if st i then 1 else 0) + starts st (i + 1) k

/-- A byte that begins a character. -/
def isStart (b : B) (i : Int) : Bool := !isCont (b.mem i.toNat)

theorem rd_in {b : B} {i : Int} (h0 : 0 ≤ i) (h1 : i < b.cap) : rd b i = some (b.mem i.toNat) := by
  simp [rd, h0, h1]

/-- The count is what was typed, the product if two counts were typed, provided it is an `int`. -/
theorem enter_partial (ds es : List Nat) (he : es = [] ∨ 0 < value es) (hd : ds = [] ∨ 0 < value ds) :
    enter ds es =
      (let n := if es = [] then value ds else if ds = [] then value es else value ds * value es
       if n < 2147483648 ∧ value ds < 2147483648 ∧ value es < 2147483648 then some (n : Int) else none) := by
  unfold enter
  rw [Counts.typed_partial ds, Counts.typed_partial es]
  by_cases h1 : value ds < 2147483648
  · by_cases h2 : value es < 2147483648
    · simp only [h1, h2, if_true, and_true]
      cases es with
      | nil =>
        simp only [combine, List.isEmpty_nil, Bool.not_true, Bool.not_false, if_true]
        rw [if_neg (by simp only [imax]; omega)]
        simp [h1]
      | cons e es =>
        have h3 : 0 < value (e :: es) := by simpa using he
        generalize value (e :: es) = m at h2 h3
        rcases hd with rfl | hd
        · have : value [] = 0 := rfl
          simp only [combine, this]
          simp only [List.isEmpty_cons, Bool.not_false, Bool.not_true, Bool.false_eq_true, if_false]
          simp only [Int.natCast_zero, if_true, reduceCtorEq, if_false]
          rw [if_neg (by simp only [imax]; omega), if_pos h2]
        · have hne : ds ≠ [] := by rintro rfl; simp [value] at hd
          have h4 : ¬ ((value ds : Nat) : Int) = 0 := by omega
          simp only [combine, List.isEmpty_cons, Bool.not_false, Bool.not_true, Bool.false_eq_true,
            if_false, h4, hne, reduceCtorEq]
          rw [← Int.natCast_mul]
          generalize value ds * m = q
          by_cases h5 : q < 2147483648
          · rw [if_neg (by simp only [imax]; omega), if_pos h5]
          · rw [if_pos (by simp only [imax]; omega), if_neg h5]
    · simp [h2, h1]
  · simp [h1]

/-! ## The commands -/

theorem fwd_spec (b : B) (first : Int → Bool) : ∀ (k : Nat) (c a : Int), 0 ≤ a → 0 ≤ c → c + k ≤ b.cap →
    ∃ j : Nat, j ≤ k ∧ fwd b first k c a = some (c + j) ∧
      (starts (fun i => first i || isStart b i) c j : Int) ≤ a ∧
      (j < k → (starts (fun i => first i || isStart b i) c j : Int) = a ∧
        (first (c + j) || isStart b (c + j)) = true) := by
  intro k
  induction k with
  | zero => intro c a ha _ _; exact ⟨0, Nat.le_refl _, by simp [fwd], by simp [starts, ha], by simp⟩
  | succ k ih =>
    intro c a ha hc hk
    unfold fwd
    rw [rd_in hc (by omega)]
    simp only
    by_cases hs : (first c || !isCont (b.mem c.toNat)) = true
    · rw [if_pos hs]
      have hd : dec a = some (a - 1) := by
        unfold dec
        rw [if_neg (by simp only [imin]; omega)]
      rw [hd]
      simp only
      by_cases h0 : a = 0
      · rw [if_pos h0]
        exact ⟨0, by omega, by simp, by simp [starts, h0], fun _ => ⟨by simp [starts, h0], by simpa [isStart] using hs⟩⟩
      · rw [if_neg h0]
        obtain ⟨j, h1, h2, h3, h4⟩ := ih (c + 1) (a - 1) (by omega) (by omega) (by omega)
        refine ⟨j + 1, by omega, by rw [h2]; congr 1; omega, ?_, fun hj => ?_⟩
        · have : (first c || isStart b c) = true := hs
          simp only [starts, this, if_true]
          omega
        · have : (first c || isStart b c) = true := hs
          simp only [starts, this, if_true]
          obtain ⟨h5, h6⟩ := h4 (by omega)
          refine ⟨by omega, ?_⟩
          rw [show c + ((j + 1 : Nat) : Int) = c + 1 + j by omega]
          exact h6
    · rw [if_neg hs]
      obtain ⟨j, h1, h2, h3, h4⟩ := ih (c + 1) a ha (by omega) (by omega)
      have hs' : ¬ (first c || isStart b c) = true := hs
      refine ⟨j + 1, by omega, by rw [h2]; congr 1; omega, ?_, fun hj => ?_⟩
      · simp only [starts, hs']
        simpa using h3
      · simp only [starts, hs']
        obtain ⟨h5, h6⟩ := h4 (by omega)
        refine ⟨by simpa using h5, ?_⟩
        rw [show c + ((j + 1 : Nat) : Int) = c + 1 + j by omega]
        exact h6

/-- A negative count reaches the end of the line. -/
theorem fwd_neg (b : B) (first : Int → Bool) : ∀ (k : Nat) (c a : Int), a < 0 → imin + k ≤ a → 0 ≤ c →
    c + k ≤ b.cap → fwd b first k c a = some (c + k) := by
  intro k
  induction k with
  | zero => intro c a _ _ _ _; simp [fwd]
  | succ k ih =>
    intro c a ha hm hc hk
    unfold fwd
    rw [rd_in hc (by omega)]
    simp only [imin] at hm ⊢
    split
    · rw [show dec a = some (a - 1) from if_neg (by simp only [imin]; omega)]
      simp only
      rw [if_neg (by omega), ih (c + 1) (a - 1) (by omega) (by simp only [imin]; omega) (by omega) (by omega)]
      congr 1
      omega
    · rw [ih (c + 1) a ha (by simp only [imin]; omega) (by omega) (by omega)]
      congr 1
      omega

theorem bck_spec (b : B) : ∀ (k : Nat) (a : Int), 0 ≤ a → (k : Int) < b.cap →
    ∃ j : Nat, j ≤ k ∧ bck b k a = some (j : Int) ∧ (starts (isStart b) (j + 1) (k - j) : Int) ≤ a ∧
      (0 < j → (starts (isStart b) (j + 1) (k - j) : Int) = a ∧ isStart b j = true) := by
  have snoc : ∀ (st : Int → Bool) (k : Nat) (i : Int),
      starts st i (k + 1) = starts st i k + (if st (i + k) then 1 else 0) := by
    intro st k
    induction k with
    | zero => intro i; simp [starts]
    | succ k ih =>
      intro i
      rw [starts, ih (i + 1), starts, show i + 1 + (k : Int) = i + ((k + 1 : Nat) : Int) by omega]
      omega
  intro k
  induction k with
  | zero => intro a ha _; exact ⟨0, Nat.le_refl _, by simp [bck], by simpa [starts] using ha, by simp⟩
  | succ k ih =>
    intro a ha hk
    unfold bck
    rw [rd_in (by omega) hk]
    simp only
    have hstep : ∀ j : Nat, j ≤ k → starts (isStart b) (j + 1) (k + 1 - j) =
        starts (isStart b) (j + 1) (k - j) + (if isStart b ((k + 1 : Nat) : Int) then 1 else 0) := by
      intro j hj
      rw [show k + 1 - j = (k - j) + 1 by omega, snoc]
      rw [show (j : Int) + 1 + ((k - j : Nat) : Int) = ((k + 1 : Nat) : Int) by omega]
    by_cases hs : (!isCont (b.mem (((k + 1 : Nat) : Int)).toNat)) = true
    · rw [if_pos hs]
      have hs' : isStart b ((k + 1 : Nat) : Int) = true := hs
      rw [show dec a = some (a - 1) from if_neg (by simp only [imin]; omega)]
      simp only
      by_cases h0 : a = 0
      · rw [if_pos h0]
        exact ⟨k + 1, Nat.le_refl _, rfl, by simp [starts, h0], fun _ => ⟨by simp [starts, h0], hs'⟩⟩
      · rw [if_neg h0]
        obtain ⟨j, h1, h2, h3, h4⟩ := ih (a - 1) (by omega) (by omega)
        refine ⟨j, by omega, h2, ?_, fun hj => ?_⟩
        · rw [hstep j h1, if_pos hs']; omega
        · rw [hstep j h1, if_pos hs']
          exact ⟨by have := (h4 hj).1; omega, (h4 hj).2⟩
    · rw [if_neg hs]
      have hs' : ¬ isStart b ((k + 1 : Nat) : Int) = true := hs
      obtain ⟨j, h1, h2, h3, h4⟩ := ih a ha (by omega)
      refine ⟨j, by omega, h2, ?_, fun hj => ?_⟩
      · rw [hstep j h1, if_neg hs']; omega
      · rw [hstep j h1, if_neg hs']
        exact ⟨by have := (h4 hj).1; omega, (h4 hj).2⟩

theorem back_spec (b : B) : ∀ (k : Nat) (n : Nat), n < k → n < b.cap → isStart b 0 = true →
    ∃ j : Nat, j ≤ n ∧ back b k n = some (j : Int) ∧ isStart b j = true ∧
      starts (isStart b) (j + 1) (n - j) = 0 := by
  intro k
  induction k with
  | zero => intro n h; omega
  | succ k ih =>
    intro n h1 h2 h0
    unfold back
    rw [rd_in (by omega) (by omega)]
    simp only
    by_cases hs : isCont (b.mem ((n : Int)).toNat) = true
    · rw [if_pos hs]
      cases n with
      | zero =>
        simp [isStart] at h0 hs
        rw [h0] at hs
        cases hs
      | succ n =>
        obtain ⟨j, h3, h4, h5, h6⟩ := ih n (by omega) (by omega) h0
        refine ⟨j, by omega, by rw [show ((n + 1 : Nat) : Int) - 1 = (n : Int) by omega]; exact h4, h5, ?_⟩
        have snoc : ∀ (m : Nat) (i : Int),
            starts (isStart b) i (m + 1) = starts (isStart b) i m + (if isStart b (i + m) then 1 else 0) := by
          intro m
          induction m with
          | zero => intro i; simp [starts]
          | succ m ih2 =>
            intro i
            rw [starts, ih2 (i + 1), starts, show i + 1 + (m : Int) = i + ((m + 1 : Nat) : Int) by omega]
            omega
        rw [show n + 1 - j = (n - j) + 1 by omega, snoc, h6,
          show (j : Int) + 1 + ((n - j : Nat) : Int) = ((n + 1 : Nat) : Int) by omega]
        have : isStart b ((n + 1 : Nat) : Int) = false := by
          unfold isStart
          rw [hs]
          rfl
        rw [this]
        rfl
    · rw [if_neg hs]
      refine ⟨n, Nat.le_refl _, rfl, ?_, by simp [starts]⟩
      unfold isStart
      simp only [Bool.not_eq_true] at hs
      rw [hs]
      rfl

theorem rScan_spec (b : B) (a : Int) : ∀ (k : Nat) (c : Int) (c1 : Nat), (c1 : Int) ≤ a → 0 ≤ c →
    c + k ≤ b.cap → ∃ (j : Nat) (r : Nat), j ≤ k ∧ rScan b a k c c1 = some (c + j, (r : Int)) ∧
      (j < k → c1 + starts (isStart b) c j = a ∧ isStart b (c + j) = true ∧ (r : Int) = a + 1) ∧
      (j = k → (c1 + starts (isStart b) c k : Int) = r ∧ (r : Int) ≤ a) := by
  intro k
  induction k with
  | zero =>
    intro c c1 h _ _
    exact ⟨0, c1, Nat.le_refl _, by simp [rScan], by simp, fun _ => ⟨by simp [starts], h⟩⟩
  | succ k ih =>
    intro c c1 h hc hk
    unfold rScan
    rw [rd_in hc (by omega)]
    simp only
    by_cases hs : isCont (b.mem c.toNat) = true
    · rw [if_pos hs, if_neg (by omega)]
      have hs' : isStart b c = false := by unfold isStart; rw [hs]; rfl
      obtain ⟨j, r, h1, h2, h3, h4⟩ := ih (c + 1) c1 h (by omega) (by omega)
      refine ⟨j + 1, r, by omega, by rw [h2]; congr 2; omega, fun hj => ?_, fun hj => ?_⟩
      · obtain ⟨x, y, z⟩ := h3 (by omega)
        refine ⟨by simp only [starts, hs']; simpa using x, ?_, z⟩
        rw [show c + ((j + 1 : Nat) : Int) = c + 1 + j by omega]
        exact y
      · obtain ⟨x, y⟩ := h4 (by omega)
        exact ⟨by simp only [starts, hs']; simpa using x, y⟩
    · rw [if_neg hs]
      have hs' : isStart b c = true := by
        unfold isStart
        simp only [Bool.not_eq_true] at hs
        rw [hs]; rfl
      by_cases ha : (c1 : Int) + 1 > a
      · rw [if_pos ha]
        exact ⟨0, c1 + 1, by omega, by simp, fun _ => ⟨by simp [starts]; omega, by simpa using hs', by omega⟩,
          by omega⟩
      · rw [if_neg ha]
        obtain ⟨j, r, h1, h2, h3, h4⟩ := ih (c + 1) (c1 + 1) (by omega) (by omega) (by omega)
        refine ⟨j + 1, r, by omega, by
          rw [show (c1 : Int) + 1 = ((c1 + 1 : Nat) : Int) by omega, h2]; congr 2; omega,
          fun hj => ?_, fun hj => ?_⟩
        · obtain ⟨x, y, z⟩ := h3 (by omega)
          refine ⟨by simp only [starts, hs', if_true]; omega, ?_, z⟩
          rw [show c + ((j + 1 : Nat) : Int) = c + 1 + j by omega]
          exact y
        · obtain ⟨x, y⟩ := h4 (by omega)
          exact ⟨by simp only [starts, hs', if_true]; omega, y⟩

/-! ## The theorems -/

/-- `x` and `s` delete as many characters as the count says, or all there are; `l` moves over them. -/
theorem forward_count {b : B} (h : Ok b) {a : Int} (ha : 0 ≤ a) :
    (∃ j : Nat, xEnd b a = some (b.cur + j) ∧ b.cur + j ≤ b.len ∧
      (starts (isStart b) b.cur j : Int) ≤ a ∧
      (b.cur + j < b.len → (starts (isStart b) b.cur j : Int) = a ∧ isStart b (b.cur + j) = true)) ∧
    (isStart b b.cur = true → lPos b a = xEnd b a) := by
  have h1 := h.lo; have h2 := h.hi; have h3 := h.cap
  constructor
  · obtain ⟨j, j1, j2, j3, j4⟩ := fwd_spec b (fun _ => false) (b.len - b.cur).toNat b.cur a ha h1 (by omega)
    simp only [Bool.false_or] at j3 j4
    exact ⟨j, j2, by omega, j3, fun hj => j4 (by omega)⟩
  · intro hs
    have key : ∀ (k : Nat) (c a : Int), 0 ≤ c → c + k ≤ b.cap →
        fwd b (fun c => c == b.cur) k c a = fwd b (fun _ => false) k c a := by
      intro k
      induction k with
      | zero => intro c a _ _; rfl
      | succ k ih =>
        intro c a hc hk
        unfold fwd
        rw [rd_in hc (by omega)]
        have hcond : ((c == b.cur) || !isCont (b.mem c.toNat)) = (!isCont (b.mem c.toNat)) := by
          by_cases e : c = b.cur
          · subst e
            have : (!isCont (b.mem b.cur.toNat)) = true := hs
            rw [this, Bool.or_true]
          · rw [beq_eq_false_iff_ne.2 e, Bool.false_or]
        simp only [Bool.false_or, hcond, ih (c + 1) _ (show 0 ≤ c + 1 by omega) (show c + 1 + k ≤ b.cap by omega)]
    exact key _ _ _ h1 (by omega)

/-- `h` moves back, and `X` deletes, as many characters as the count says or all there are. -/
theorem backward_count {b : B} (h : Ok b) {a : Int} (ha : 0 ≤ a) :
    ∃ j : Nat, hPos b a = some (j : Int) ∧ (j : Int) ≤ b.cur ∧
      (starts (isStart b) (j + 1) (b.cur.toNat - j) : Int) ≤ a ∧
      (0 < j → (starts (isStart b) (j + 1) (b.cur.toNat - j) : Int) = a ∧ isStart b j = true) := by
  have h1 := h.lo; have h2 := h.hi; have h3 := h.cap
  obtain ⟨j, j1, j2, j3, j4⟩ := bck_spec b b.cur.toNat a ha (by omega)
  exact ⟨j, j2, by omega, j3, j4⟩

/-- `|` goes to the character the byte of that number is part of, or to the last one. -/
theorem column_count {b : B} (h : Ok b) (h0 : isStart b 0 = true) {a : Int} (ha : 0 ≤ a) :
    ∃ j : Nat, barPos b a = some (j : Int) ∧ isStart b j = true ∧
      (j : Int) ≤ max (min a b.len - 1) 0 ∧
      starts (isStart b) (j + 1) ((max (min a b.len - 1) 0).toNat - j) = 0 := by
  have h1 := h.lo; have h2 := h.hi; have h3 := h.cap
  have key : ∀ m : Nat, m < b.cap → (m : Int) = max (min a b.len - 1) 0 → barPos b a = back b (b.cap + 1) m := by
    intro m hm e
    unfold barPos
    simp only
    by_cases hx : a > b.len
    · simp only [hx, if_true]
      by_cases hy : b.len = 0
      · simp only [hy, if_true]
        congr 1
        omega
      · rw [if_neg hy, show dec b.len = some (b.len - 1) from if_neg (by simp only [imin]; omega)]
        simp only
        congr 1
        omega
    · simp only [hx, if_false]
      by_cases hy : a = 0
      · simp only [hy, if_true]
        congr 1
        omega
      · rw [if_neg hy, show dec a = some (a - 1) from if_neg (by simp only [imin]; omega)]
        simp only
        congr 1
        omega
  have hm : (((max (min a b.len - 1) 0).toNat : Nat) : Int) = max (min a b.len - 1) 0 := by omega
  obtain ⟨j, j1, j2, j3, j4⟩ := back_spec b (b.cap + 1) (max (min a b.len - 1) 0).toNat (by omega) (by omega) h0
  exact ⟨j, by rw [key _ (by omega) hm]; exact j2, j3, by omega, j4⟩

/-- `r` replaces exactly as many characters as the count says, or fails if there are fewer. -/
theorem replace_count {b : B} (h : Ok b) {a : Int} (ha : 0 ≤ a) :
    (rEnd b a = some none ∧ (starts (isStart b) b.cur (b.len - b.cur).toNat : Int) < a) ∨
    ∃ j : Nat, rEnd b a = some (some (b.cur + j)) ∧ b.cur + j ≤ b.len ∧
      (starts (isStart b) b.cur j : Int) = a ∧
      (b.cur + j < b.len → isStart b (b.cur + j) = true) := by
  have h1 := h.lo; have h2 := h.hi; have h3 := h.cap
  obtain ⟨j, r, j1, j2, j3, j4⟩ := rScan_spec b a (b.len - b.cur).toNat b.cur 0 (by omega) h1 (by omega)
  have hr : rEnd b a = some (if a > r then none else some (b.cur + j)) := by
    unfold rEnd
    rw [show (0 : Int) = ((0 : Nat) : Int) from rfl, j2]
    rfl
  by_cases hj : j < (b.len - b.cur).toNat
  · obtain ⟨x, y, z⟩ := j3 hj
    right
    refine ⟨j, by rw [hr, if_neg (by omega)], by omega, by omega, fun _ => y⟩
  · have e : j = (b.len - b.cur).toNat := by omega
    obtain ⟨x, y⟩ := j4 e
    by_cases hlt : a > r
    · left
      exact ⟨by rw [hr, if_pos hlt], by omega⟩
    · right
      refine ⟨j, by rw [hr, if_neg hlt], by omega, by rw [e]; omega, fun hh => by omega⟩

/-- A count that went round to a negative number makes `x` delete the rest of the line. -/
theorem negative_deletes {b : B} (h : Ok b) {a : Int} (ha : a < 0) (hm : imin + b.len ≤ a) :
    xEnd b a = some b.len := by
  have h1 := h.lo; have h2 := h.hi; have h3 := h.cap
  unfold xEnd
  rw [fwd_neg b _ _ b.cur a ha (by simp only [imin] at hm ⊢; omega) h1 (by omega)]
  congr 1
  omega

/-- Whatever the memory holds, `|` with a negative count reads before the line. -/
theorem negative_column (b : B) {a : Int} (ha : a < 0) (hl : 0 ≤ b.len) : barPos b a = none := by
  unfold barPos
  simp only
  rw [if_neg (show ¬ a > b.len by omega), if_neg (show ¬ a = 0 by omega)]
  by_cases hm : a = imin
  · rw [show dec a = none from if_pos hm]
  · rw [show dec a = some (a - 1) from if_neg hm]
    unfold back
    simp only
    rw [show rd b (a - 1) = none by unfold rd; rw [if_neg (by omega)]]

/-! ## Where it goes wrong -/

/-- The line `ab`, the cursor on `a`. -/
def ab : B := ⟨4096, fun i => if i = 0 then 97 else if i = 1 then 98 else 0, 0, 2⟩

/-- `3000000000|` overflows; on a machine that wraps it reads `cbuf[-1294967297]`. -/
theorem column_outside : enter [3, 0, 0, 0, 0, 0, 0, 0, 0, 0] [] = none ∧
    wrapEnter [3, 0, 0, 0, 0, 0, 0, 0, 0, 0] [] = -1294967296 ∧
    barPos ab (wrapEnter [3, 0, 0, 0, 0, 0, 0, 0, 0, 0] []) = none :=
  ⟨by decide, by decide, negative_column ab (by decide) (by decide)⟩

/-- `4294967297x` deletes one character of two, `65536d65536l` one as well: the product is 0, which
`vi_cmd` takes for 1. -/
theorem count_wraps : xEnd ab (effective false (wrapEnter [4, 2, 9, 4, 9, 6, 7, 2, 9, 7] [])) = some 1 ∧
    lPos ab (effective false (wrapEnter [6, 5, 5, 3, 6] [6, 5, 5, 3, 6])) = some 1 ∧
    enter [6, 5, 5, 3, 6] [6, 5, 5, 3, 6] = none := by decide

/-! ## Examples -/

example : Ok ab := ⟨by decide, by decide, by decide⟩
example : enter [1, 2] [3] = some 36 ∧ enter [] [3] = some 3 ∧ enter [1, 2] [] = some 12 := by decide

/-- `aéb` in UTF-8, the cursor on `a`: `2x` deletes three bytes, `3|` goes to `é`, `4r` fails. -/
def aeb : B := ⟨4096, fun i => if i = 0 then 97 else if i = 1 then 0xc3 else if i = 2 then 0xa9 else if i = 3 then 98 else 0, 0, 4⟩

example : xEnd aeb 2 = some 3 ∧ lPos aeb 1 = some 1 ∧ barPos aeb 3 = some 1 ∧ rEnd aeb 2 = some (some 3) ∧
    rEnd aeb 4 = some none ∧ hPos { aeb with cur := 3 } 1 = some 1 := by decide +kernel

end Ksh.Vicount
