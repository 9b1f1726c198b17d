import Verif.Num.Model

namespace Ksh.Num

/-- value of a digit list, most significant first -/
def val (b : Nat) (m : Int) (ds : List Nat) : Int := ds.foldl (fun (a : Int) (d : Nat) => a * b + d) m

theorem val_append (b : Nat) (m : Int) (xs ys : List Nat) :
    val b m (xs ++ ys) = val b (val b m xs) ys := by
  simp [val, List.foldl_append]

theorem digitLoop_eq (up : Bool) {b : Nat} (hb : 2 ≤ b) : ∀ (fuel n : Nat) (acc : List Char),
    n < b ^ fuel → 0 < fuel →
    ∃ ds : List Nat, digitLoop up b fuel n acc = ds.map (digitChar up) ++ acc ∧
      (∀ d ∈ ds, d < b) ∧ val b 0 ds = n ∧ ds ≠ [] ∧ ds.length ≤ fuel ∧
      (∀ k, 0 < k → n < b ^ k → ds.length ≤ k) ∧ (∀ k, b ^ k ≤ n → k < ds.length) ∧
      (ds.head? = some 0 → ds = [0]) := by
  intro fuel
  induction fuel with
  | zero => intro n acc _ h; omega
  | succ fuel ih =>
    intro n acc hn _
    have hmod : n % b < b := Nat.mod_lt _ (by omega)
    simp only [digitLoop]
    by_cases h0 : n / b = 0
    · have hlt : n < b := by
        rcases Nat.div_eq_zero_iff.1 h0 with h | h <;> omega
      have hm : n % b = n := Nat.mod_eq_of_lt hlt
      refine ⟨[n % b], by simp [h0], by simpa using hmod, by simp [val, hm], by simp, by simp,
        ?_, ?_, ?_⟩
      · intro k hk _; simp; omega
      · intro k hk
        cases k with
        | zero => simp
        | succ k =>
          have : b ≤ b ^ (k + 1) := by
            calc b = b ^ 1 := (Nat.pow_one b).symm
              _ ≤ b ^ (k + 1) := Nat.pow_le_pow_right (by omega) (by omega)
          omega
      · intro h; simp at h; simp [h]
    · have hfuel : 0 < fuel := by
        rcases Nat.eq_zero_or_pos fuel with h | h
        · subst h
          simp at hn
          exact absurd (Nat.div_eq_zero_iff.2 (Or.inr hn)) h0
        · exact h
      have hdiv : n / b < b ^ fuel := by
        rw [Nat.div_lt_iff_lt_mul (by omega)]
        rwa [Nat.pow_succ] at hn
      obtain ⟨ds, e1, e2, e3, e4, e5, e6, e7, e8⟩ :=
        ih (n / b) (digitChar up (n % b) :: acc) hdiv hfuel
      refine ⟨ds ++ [n % b], ?_, ?_, ?_, by simp, by simp; omega, ?_, ?_, ?_⟩
      · simp [h0, e1]
      · intro d hd
        rcases List.mem_append.1 hd with h | h
        · exact e2 d h
        · simp at h; omega
      · rw [val_append, e3]
        simp only [val, List.foldl_cons, List.foldl_nil]
        have := Nat.div_add_mod n b
        rw [Nat.mul_comm] at this
        exact_mod_cast this
      · intro k hk hnk
        cases k with
        | zero => omega
        | succ k =>
          rcases Nat.eq_zero_or_pos k with h | h
          · subst h
            simp at hnk
            exact absurd (Nat.div_eq_zero_iff.2 (Or.inr hnk)) h0
          · have := e6 k h (by
              rw [Nat.div_lt_iff_lt_mul (by omega)]; rwa [Nat.pow_succ] at hnk)
            simp; omega
      · intro k hk
        cases k with
        | zero => simp
        | succ k =>
          have := e7 k (by
            rw [Nat.le_div_iff_mul_le (by omega)]; rwa [Nat.pow_succ] at hk)
          simp; omega
      · intro h
        cases ds with
        | nil => exact absurd rfl e4
        | cons d ds =>
          simp at h
          have := e8 (by simp [h])
          rw [this] at e3
          simp [val] at e3
          omega

theorem digitVal_digitChar : ∀ up : Bool, ∀ d < 36,
    digitVal (digitChar up d) = some d ∧ letnum (digitChar up d) = true ∧
    digitChar up d ≠ '-' ∧ digitChar up d ≠ '#' ∧ (digitChar up d = '0' → d = 0) := by
  decide

theorem wrap64_of_inRange {x : Int} (h : InRange x) : wrap64 x = x := by
  unfold InRange int64Min int64Max at h
  unfold wrap64
  rw [Int.bmod_eq_of_le] <;> omega

theorem wrap64_step (m : Int) (b : Int) (d : Int) :
    wrap64 (wrap64 m * b + d) = wrap64 (m * b + d) := by
  unfold wrap64
  rw [← Int.bmod_add_bmod, Int.bmod_mul_bmod, Int.bmod_add_bmod]

theorem val_mono {b : Nat} (hb : 1 ≤ b) : ∀ (ds : List Nat) (m : Int), 0 ≤ m → m ≤ val b m ds := by
  intro ds
  induction ds with
  | nil => intro m _; simp [val]
  | cons d ds ih =>
    intro m hm
    have h1 : m ≤ m * b + d := by
      have : m * 1 ≤ m * b := Int.mul_le_mul_of_nonneg_left (by omega) hm
      omega
    have := ih (m * b + d) (by omega)
    simp only [val, List.foldl_cons] at this ⊢
    omega

theorem digitVal_some {c : Char} {d : Nat} (h : digitVal c = some d) :
    letnum c = true ∧ c ≠ '-' ∧ c ≠ '#' := by
  have h1 : digitVal '-' = none := by decide
  have h2 : digitVal '#' = none := by decide
  refine ⟨?_, ?_, ?_⟩
  · unfold digitVal at h
    unfold letnum
    split at h
    · next h1 => simp [h1]
    · split at h
      · next h1 => simp [h1]
      · split at h
        · next h1 => simp [h1]
        · simp at h
  · rintro rfl; rw [h1] at h; simp at h
  · rintro rfl; rw [h2] at h; simp at h

theorem getint_chars {b : Nat} (hb : 2 ≤ b) (hbase neg : Bool)
    (r : List Char) : ∀ (cs : List Char) (ds : List Nat) (m : Int) (ub : Bool),
    cs.map digitVal = ds.map some → (∀ d ∈ ds, d < b) →
    ∃ ub', getintLoop (cs ++ r) b hbase neg (wrap64 m) ub =
      getintLoop r b hbase neg (wrap64 (val b m ds)) ub' ∧
      (0 ≤ m → val b m ds ≤ int64Max → ub' = ub) := by
  intro cs
  induction cs with
  | nil =>
    intro ds m ub h _
    cases ds with
    | nil => exact ⟨ub, rfl, fun _ _ => rfl⟩
    | cons d ds => simp at h
  | cons c cs ih =>
    intro ds m ub h hd
    cases ds with
    | nil => simp at h
    | cons d ds =>
    simp only [List.map_cons, List.cons.injEq] at h
    obtain ⟨h1, hrest⟩ := h
    have hdb := hd d (by simp)
    obtain ⟨h2, h3, h4⟩ := digitVal_some h1
    have hnb : ¬ ((d : Int) ≥ (b : Int)) := by omega
    simp only [List.cons_append, getintLoop, h3, h4, if_false, h2, if_true, h1, hnb]
    rw [wrap64_step]
    obtain ⟨ub', e1, e2⟩ := ih ds (m * b + d)
      (ub || !decide (InRange (wrap64 m * b)) || !decide (InRange (wrap64 (wrap64 m * b) + d)))
      hrest (fun x hx => hd x (by simp [hx]))
    refine ⟨ub', e1, ?_⟩
    intro hm hmax
    have hval : val b m (d :: ds) = val b (m * b + d) ds := by simp [val]
    rw [hval] at hmax
    have hmb : m * 1 ≤ m * b := Int.mul_le_mul_of_nonneg_left (by omega) hm
    have hle := val_mono (b := b) (by omega) ds (m * b + d) (by omega)
    have r1 : InRange m := by unfold InRange int64Min int64Max at *; omega
    have r2 : InRange (m * b) := by unfold InRange int64Min int64Max at *; omega
    have r3 : InRange (m * b + d) := by unfold InRange int64Min int64Max at *; omega
    rw [e2 (by omega) hmax, wrap64_of_inRange r1, wrap64_of_inRange r2]
    simp [r2, r3]

theorem getint_digits (up : Bool) {b : Nat} (hb : 2 ≤ b) (hb' : b ≤ 36) (hbase neg : Bool)
    (r : List Char) (ds : List Nat) (m : Int) (ub : Bool) (hd : ∀ d ∈ ds, d < b) :
    ∃ ub', getintLoop (ds.map (digitChar up) ++ r) b hbase neg (wrap64 m) ub =
      getintLoop r b hbase neg (wrap64 (val b m ds)) ub' ∧
      (0 ≤ m → val b m ds ≤ int64Max → ub' = ub) := by
  apply getint_chars hb hbase neg r _ ds m ub _ hd
  rw [List.map_map]
  apply List.map_congr_left
  intro d h
  exact (digitVal_digitChar up d (by have := hd d h; omega)).1

theorem wrap64_zero : wrap64 0 = 0 := by decide

/-- reading the text of magnitude `n` in base `b` -/
theorem getint_mag (up neg : Bool) {b : Nat} (hb : 2 ≤ b) (hb' : b ≤ 36) (n : Nat) (hn : n < 2 ^ 64) :
    ∃ ub', getintLoop
      (if b ≠ 10 then
        (if b ≥ 10 then digitChar up (b / 10) :: digitChar up (b % 10) :: '#' :: digitLoop up b 64 n []
         else digitChar up (b % 10) :: '#' :: digitLoop up b 64 n [])
       else digitLoop up b 64 n []) 10 false neg 0 false =
      getintLoop [] b (decide (b ≠ 10)) neg (wrap64 n) ub' ∧
      ((n : Int) ≤ int64Max → ub' = false) := by
  have hn' : n < b ^ 64 := Nat.lt_of_lt_of_le hn (Nat.pow_le_pow_left hb 64)
  obtain ⟨ds, e1, e2, e3, -⟩ := digitLoop_eq up hb 64 n [] hn' (by omega)
  rw [e1]
  by_cases h10 : b = 10
  · subst h10
    simp only [ne_eq, not_true, if_false, decide_false]
    obtain ⟨ub', f1, f2⟩ := getint_digits up hb hb' false neg [] ds 0 false e2
    rw [wrap64_zero, e3] at f1
    exact ⟨ub', f1, fun h => f2 (by omega) (by rw [e3]; exact h)⟩
  · have hh : ∀ u : Bool, ∃ ub', getintLoop ('#' :: (ds.map (digitChar up) ++ [])) 10 false neg
        (b : Int) u = getintLoop [] b true neg (wrap64 n) ub' ∧
        ((n : Int) ≤ int64Max → ub' = u) := by
      intro u
      have hw : wrap32 (b : Int) = b := by
        unfold wrap32; rw [Int.bmod_eq_of_le] <;> omega
      have : ¬ ((false = true) ∨ (b : Int) < 2 ∨ (b : Int) > 36) := by simp; omega
      have hstep : ∀ rest, getintLoop ('#' :: rest) 10 false neg (b : Int) u =
          getintLoop rest b true neg 0 u := by
        intro rest
        rw [getintLoop]
        simp only [hw]
        rw [if_neg (by decide), if_pos trivial, if_neg this]
      rw [hstep]
      obtain ⟨ub', f1, f2⟩ := getint_digits up hb hb' true neg [] ds 0 u e2
      rw [wrap64_zero, e3] at f1
      exact ⟨ub', f1, fun h => f2 (by omega) (by rw [e3]; exact h)⟩
    simp only [ne_eq, h10, not_false_eq_true, if_true, decide_true]
    by_cases hge : b ≥ 10
    · rw [if_pos hge]
      obtain ⟨u1, f1, f2⟩ := getint_digits up (b := 10) (by omega) (by omega) false neg
        ('#' :: (ds.map (digitChar up) ++ [])) [b / 10, b % 10] 0 false (by
          intro d hd; simp at hd; rcases hd with rfl | rfl
          · rw [Nat.div_lt_iff_lt_mul (by omega)]; omega
          · omega)
      have hv : val 10 0 [b / 10, b % 10] = b := by simp [val]; omega
      rw [hv, wrap64_zero, wrap64_of_inRange (by unfold InRange int64Min int64Max; omega)] at f1
      rw [hv] at f2
      have hu := f2 (by omega) (by unfold int64Max; omega)
      obtain ⟨ub', g1, g2⟩ := hh u1
      exact ⟨ub', f1.trans g1, fun h => (g2 h).trans hu⟩
    · rw [if_neg hge]
      obtain ⟨u1, f1, f2⟩ := getint_digits up (b := 10) (by omega) (by omega) false neg
        ('#' :: (ds.map (digitChar up) ++ [])) [b % 10] 0 false (by
          intro d hd; simp at hd; omega)
      have hv : val 10 0 [b % 10] = b := by simp [val]; omega
      rw [hv, wrap64_zero, wrap64_of_inRange (by unfold InRange int64Min int64Max; omega)] at f1
      rw [hv] at f2
      have hu := f2 (by omega) (by unfold int64Max; omega)
      obtain ⟨ub', g1, g2⟩ := hh u1
      exact ⟨ub', f1.trans g1, fun h => (g2 h).trans hu⟩

end Ksh.Num
