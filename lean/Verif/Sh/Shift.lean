/-!
# `shift` (`c_shift`, c_sh.c:34-63): model and properties (C27)

The value of the argument comes from `evaluate`; an evaluation that fails unwinds and
changes nothing.  Options are not modelled (`shift -x` fails; `shift -1` too, as an option).
-/

namespace Ksh.Sh

variable {α : Type}

/-- `n = val`, an `int64_t` stored into an `int` (modulo 2^32, as every compiler does it). -/
def toInt (v : Int) : Int := (v + 2 ^ 31) % 2 ^ 32 - 2 ^ 31

/-- `c_shift` on `l->argv` (`$0`, the parameters; then `NULL`) with `l->argc` parameters:
the new vector and the status. -/
def shift (argv : List α) (arg : Option Int) : List α × Nat :=
  let n := match arg with
    | some v => toInt v
    | none => 1
  if n < 0 then (argv, 1)
  else if (argv.length : Int) - 1 < n then (argv, 1)
  else
    match argv with
    | [] => ([], 0)
    | zero :: _ => ((argv.set n.toNat zero).drop n.toNat, 0)

theorem toInt_id {v : Int} (h1 : -2 ^ 31 ≤ v) (h2 : v < 2 ^ 31) : toInt v = v := by
  unfold toInt; omega

/-- **C27** (partial: counts beyond the range of `int` are left out, see `shift_wraps`). -/
theorem shift_partial (zero : α) (ps : List α) (v : Int) (h1 : -2 ^ 31 ≤ v) (h2 : v < 2 ^ 31) :
    (0 ≤ v ∧ v ≤ ps.length → shift (zero :: ps) (some v) = (zero :: ps.drop v.toNat, 0)) ∧
    (¬ (0 ≤ v ∧ v ≤ ps.length) → shift (zero :: ps) (some v) = (zero :: ps, 1)) := by
  simp only [shift, toInt_id h1 h2]
  constructor
  · rintro ⟨h3, h4⟩
    rw [if_neg (by omega), if_neg (by simp; omega)]
    congr 1
    obtain ⟨n, rfl⟩ := Int.eq_ofNat_of_zero_le h3
    have hn : n ≤ ps.length := by omega
    simp only [Int.toNat_natCast]
    apply List.ext_getElem?
    intro i
    rw [List.getElem?_drop, List.getElem?_set]
    cases i with
    | zero => simp; omega
    | succ i =>
      rw [if_neg (by omega), List.getElem?_cons_succ, List.getElem?_drop, show n + (i + 1) = (n + i) + 1 by omega,
        List.getElem?_cons_succ]
  · intro h
    by_cases h3 : v < 0
    · rw [if_pos h3]
    · rw [if_neg h3, if_pos (by simp; omega)]

/-- Without an argument one parameter is dropped; with none there it fails. -/
theorem shift_default (zero : α) (ps : List α) :
    shift (zero :: ps) none = if ps = [] then ([zero], 1) else (zero :: ps.tail, 0) := by
  cases ps with
  | nil => simp [shift]
  | cons p ps => simp [shift]; omega

/-- The property is false for larger counts: `shift 4294967297` drops one parameter. -/
theorem shift_wraps : shift ["ksh", "a", "b"] (some 4294967297) = (["ksh", "b"], 0) := by decide

/-- What happens in general: a count counts modulo 2^32. -/
theorem shift_mod (argv : List α) (v : Int) : shift argv (some v) = shift argv (some (v + 2 ^ 32)) := by
  have : toInt (v + 2 ^ 32) = toInt v := by unfold toInt; omega
  simp only [shift, this]

example : shift ["ksh", "a", "b", "c"] (some 2) = (["ksh", "c"], 0) := by decide
example : shift ["ksh", "a"] (some 2) = (["ksh", "a"], 1) := by decide
example : shift ["ksh", "a"] (some 0) = (["ksh", "a"], 0) := by decide

end Ksh.Sh
