import Verif.Expr.Spec
import Verif.Num.Props

/-!
# Lemmas for the expression evaluator
-/

namespace Ksh.Expr
open Ksh.Num

/-! ### Stores -/

theorem look_put (σ : Store) (x y : Name) (v : Var) :
    look (put σ x v) y = if y = x then v else look σ y := by
  induction σ with
  | nil =>
    unfold put look
    by_cases h : y = x
    · subst h; simp
    · have : ¬ x = y := fun e => h e.symm
      simp [h, this]
  | cons p σ ih =>
    obtain ⟨z, w⟩ := p
    unfold put
    by_cases hz : z = x
    · subst hz
      simp only [beq_self_eq_true, if_true]
      by_cases h : y = z
      · subst h; simp [look]
      · have : ¬ z = y := fun e => h e.symm
        simp [look, h, this]
    · have hzx : (z == x) = false := by simpa using hz
      simp only [hzx, Bool.false_eq_true, if_false]
      by_cases hy : z = y
      · subst hy
        simp [look, hz]
      · have hl : ∀ l : Store, look ((z, w) :: l) y = look l y := by
          intro l; simp [look, hy]
        rw [hl, hl, ih]

/-- Same variables, as far as anybody can see. -/
def Same (σ σ' : Store) : Prop := ∀ x, look σ x = look σ' x

theorem Same.refl (σ : Store) : Same σ σ := fun _ => rfl
theorem Same.trans {a b c : Store} (h : Same a b) (h' : Same b c) : Same a c :=
  fun x => (h x).trans (h' x)
theorem Same.symm {a b : Store} (h : Same a b) : Same b a := fun x => (h x).symm

theorem Match.same {ro : Name → Bool} {σ σ' : Store} {ρ : Env} (h : Match ro σ ρ) (hs : Same σ σ') :
    Match ro σ' ρ := by
  intro x; rw [← hs x]; exact h x

theorem setEval_same {σ σ' : Store} {x : Name} (h : (look σ x).inEval = false)
    (hs : Same (setEval σ x true) σ') : Same σ (setEval σ' x false) := by
  intro y
  unfold setEval
  rw [look_put]
  by_cases hy : y = x
  · subst hy
    rw [if_pos rfl, ← hs y]
    unfold setEval
    rw [look_put, if_pos rfl]
    generalize look σ y = w at *
    cases w; simp at h; subst h; rfl
  · rw [if_neg hy, ← hs y]
    unfold setEval
    rw [look_put, if_neg hy]

theorem Match.assign {ro : Name → Bool} {σ : Store} {ρ : Env} (h : Match ro σ ρ) (x : Name) (v : Int)
    (hv : InRange v) : Match ro (assignVar σ x v) (ρ.set x v) := by
  intro y
  unfold assignVar Env.set
  rw [look_put]
  by_cases hy : y = x
  · subst hy
    simp only [if_true]
    refine ⟨?_, hv, (h y).2.2.1, (h y).2.2.2⟩
    split
    · rfl
    · simp only [numberOf, decText]
      obtain ⟨ub, e, _⟩ := int_text_roundtrip { base := 0, unsign := false, upper := false } v hv rfl true false
      rw [e]; rfl
  · simp only [if_neg hy]
    exact h y

/-! ### Ranges -/

theorem wrap64_inRange (x : Int) : InRange (wrap64 x) := by
  unfold wrap64 InRange int64Min int64Max
  have h1 := Int.le_bmod (x := x) (m := 2 ^ 64) (by omega)
  have h2 := Int.bmod_lt (x := x) (m := 2 ^ 64) (by omega)
  omega

theorem wrap32_inRange (x : Int) : InRange (wrap32 x) := by
  unfold wrap32 InRange int64Min int64Max
  have h1 := Int.le_bmod (x := x) (m := 2 ^ 32) (by omega)
  have h2 := Int.bmod_lt (x := x) (m := 2 ^ 32) (by omega)
  omega

theorem toInt_inRange (b : BitVec 64) : InRange b.toInt := by
  unfold InRange int64Min int64Max
  have h1 := BitVec.le_toInt b
  have h2 := BitVec.toInt_lt (x := b)
  omega

theorem small_inRange {x : Int} (h : x = 0 ∨ x = 1) : InRange x := by
  unfold InRange int64Min int64Max; omega

theorem unArith_eq (o : Op) (v : Int) : unArith o v = unMeaning o v := by
  cases o <;> simp only [unArith, unMeaning, ofBool]
  · congr 1; omega
  · omega
  · simp

theorem unMeaning_inRange (o : Op) (v : Int) (h : InRange v) : InRange (unMeaning o v) := by
  cases o <;> simp only [unMeaning] <;> try exact h
  · exact wrap64_inRange _
  · unfold InRange int64Min int64Max at *; omega
  · split
    · exact small_inRange (Or.inr rfl)
    · exact small_inRange (Or.inl rfl)

theorem tdiv_inRange {a b : Int} (ha : InRange a) (h : ¬ (a = int64Min ∧ b = -1)) : InRange (a.tdiv b) := by
  unfold InRange int64Min int64Max at *
  have h1 : (a.tdiv b).natAbs ≤ a.natAbs := by
    rw [Int.natAbs_tdiv]; exact Nat.div_le_self _ _
  by_cases hm : a = -2 ^ 63
  · subst hm
    have hb : b ≠ -1 := fun e => h ⟨rfl, e⟩
    by_cases hb1 : 0 ≤ b
    · have : (-2 ^ 63 : Int).tdiv b ≤ 0 := by
        have := Int.tdiv_nonneg (a := 2 ^ 63) (b := b) (by omega) hb1
        rw [Int.neg_tdiv]; omega
      omega
    · have h2 : ((-2 ^ 63 : Int).tdiv b).natAbs ≤ 2 ^ 62 := by
        rw [Int.natAbs_tdiv]
        have : 2 ≤ b.natAbs := by omega
        have h3 : ((-2 ^ 63 : Int)).natAbs = 2 ^ 63 := by decide
        show ((-2 ^ 63 : Int)).natAbs / b.natAbs ≤ _
        rw [h3]
        calc 2 ^ 63 / b.natAbs ≤ 2 ^ 63 / 2 := Nat.div_le_div_left this (by omega)
          _ = 2 ^ 62 := by decide
      omega
  · omega

theorem tmod_inRange {a b : Int} (ha : InRange a) : InRange (a.tmod b) := by
  unfold InRange int64Min int64Max at *
  have h1 : (a.tmod b).natAbs ≤ a.natAbs := by
    rw [Int.natAbs_tmod]; exact Nat.mod_le _ _
  by_cases h0 : 0 ≤ a
  · have := Int.tmod_nonneg b h0; omega
  · have := Int.tmod_nonneg b (a := -a) (by omega)
    rw [Int.neg_tmod] at this
    omega

theorem fdiv_shift_inRange {a : Int} (ha : InRange a) (k : Nat) : InRange (a / 2 ^ k) := by
  unfold InRange int64Min int64Max at *
  have hp : (0 : Int) < 2 ^ k := Int.pow_pos (by omega)
  have hk : (1 : Int) ≤ 2 ^ k := hp
  constructor
  · rw [Int.le_ediv_iff_mul_le hp]
    have : (-2 ^ 63 : Int) * 2 ^ k ≤ -2 ^ 63 * 1 := Int.mul_le_mul_of_nonpos_left (by omega) hk
    omega
  · have : a / 2 ^ k < 2 ^ 63 := by
      rw [Int.ediv_lt_iff_lt_mul hp]
      have : (2 ^ 63 : Int) * 1 ≤ 2 ^ 63 * 2 ^ k := Int.mul_le_mul_of_nonneg_left hk (by omega)
      omega
    omega

theorem meaning_inRange (m : Mach) (o : Op) (a b : Int) (ha : InRange a) (hb : InRange b) :
    InRange (meaning m o a b) := by
  have hbool : ∀ (p : Prop) [Decidable p], InRange (if p then 1 else 0) := by
    intro p _; split
    · exact small_inRange (Or.inr rfl)
    · exact small_inRange (Or.inl rfl)
  have hfd : ∀ k : Nat, InRange (a.fdiv (2 ^ k)) := by
    intro k
    rw [Int.fdiv_eq_ediv_of_nonneg _ (Int.pow_nonneg (by omega))]; exact fdiv_shift_inRange ha _
  have hne : InRange (if a = b then 0 else 1) := by
    split
    · exact small_inRange (Or.inl rfl)
    · exact small_inRange (Or.inr rfl)
  cases o <;> simp only [meaning] <;>
    first
    | exact wrap64_inRange _
    | exact toInt_inRange _
    | exact hbool _
    | exact hne
    | exact hb
    | exact small_inRange (Or.inl rfl)
    | (split <;> first | exact wrap64_inRange _ | exact hfd _)

/-- The arithmetic switch computes the meaning and never traps unless the divisor
is zero. -/
theorem binArith_eq (m : Mach) (o : Op) (a b : Int) (ha : InRange a)
    (hz : isDivision o = true → b ≠ 0) (hl : o ≠ .land ∧ o ≠ .lor ∧ o ≠ .tern) :
    binArith m o a b = some (meaning m o a b) := by
  have hdiv : (isDivision o = true → b ≠ 0) := hz
  have key : b ≠ 0 → (if a = int64Min ∧ b = -1 then some int64Min else cdiv a b) = some (wrap64 (a.tdiv b)) := by
    intro hb
    by_cases h : a = int64Min ∧ b = -1
    · rw [if_pos h]; obtain ⟨rfl, rfl⟩ := h; decide
    · rw [if_neg h, cdiv, if_neg (by rintro (h1 | h1) <;> first | exact hb h1 | exact h h1),
        wrap64_of_inRange (tdiv_inRange ha h)]
  have key2 : b ≠ 0 → (if a = int64Min ∧ b = -1 then some 0 else cmod a b) = some (wrap64 (a.tmod b)) := by
    intro hb
    by_cases h : a = int64Min ∧ b = -1
    · rw [if_pos h]; obtain ⟨rfl, rfl⟩ := h; decide
    · rw [if_neg h, cmod, if_neg (by rintro (h1 | h1) <;> first | exact hb h1 | exact h h1),
        wrap64_of_inRange (tmod_inRange ha)]
  have hbool : ∀ (p : Prop) [Decidable p], ofBool (decide p) = if p then 1 else 0 := by
    intro p _; unfold ofBool; by_cases h : p <;> simp [h]
  have hshr : ∀ k : Nat, wrap64 (a / 2 ^ k) = a.fdiv (2 ^ k) := by
    intro k
    rw [Int.fdiv_eq_ediv_of_nonneg _ (Int.pow_nonneg (by omega)), wrap64_of_inRange (fdiv_shift_inRange ha _)]
  cases o <;> simp only [binArith, meaning, hbool, bits] <;> simp only [isDivision] at hz
  all_goals first
    | exact key (hz trivial)
    | exact key2 (hz trivial)
    | rfl
    | skip
  all_goals split <;> first | rfl | skip
  all_goals first | (rw [hshr]; done) | skip
  all_goals simp_all

end Ksh.Expr
