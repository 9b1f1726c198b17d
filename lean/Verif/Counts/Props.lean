import Verif.Counts.Model

/-!
# Counts typed in emacs mode: proofs
-/
namespace Ksh.Counts

local macro "om" : tactic => `(tactic| ((try simp only [id_eq]); omega))

/-- The number the digits stand for. -/
def value (ds : List Nat) : Nat := ds.foldl (fun n d => n * 10 + d) 0

/-! ## The number -/

theorem foldl_le (ds : List Nat) (n : Nat) : n ≤ ds.foldl (fun n d => n * 10 + d) n := by
  induction ds generalizing n with
  | nil => simp
  | cons d ds ih =>
    simp only [List.foldl_cons]
    exact Nat.le_trans (by omega) (ih _)

theorem foldl_none (ds : List Nat) :
    ds.foldl (fun (n : Option Int) d => n.bind (digit · d)) none = none := by
  induction ds with
  | nil => rfl
  | cons d ds ih => simpa using ih

theorem digit_fits {n d : Nat} (h : n * 10 + d < 2147483648) :
    digit (n : Int) d = some ((n * 10 + d : Nat) : Int) := by
  simp only [digit, imax]
  rw [if_neg (by omega), if_neg (by omega)]
  push_cast
  rfl

theorem digit_over {n d : Nat} (h : ¬ n * 10 + d < 2147483648) : digit (n : Int) d = none := by
  simp only [digit, imax]
  split
  · rfl
  · rw [if_pos (by omega)]

theorem foldl_fits : ∀ (ds : List Nat) (n : Nat), ds.foldl (fun n d => n * 10 + d) n < 2147483648 →
    ds.foldl (fun (m : Option Int) d => m.bind (digit · d)) (some (n : Int)) =
      some ((ds.foldl (fun n d => n * 10 + d) n : Nat) : Int)
  | [], _, _ => rfl
  | d :: ds, n, h => by
    simp only [List.foldl_cons, Option.bind_some] at h ⊢
    have := foldl_le ds (n * 10 + d)
    rw [digit_fits (by omega)]
    exact foldl_fits ds (n * 10 + d) h

theorem foldl_over : ∀ (ds : List Nat) (n : Nat), n < 2147483648 →
    ¬ ds.foldl (fun n d => n * 10 + d) n < 2147483648 →
    ds.foldl (fun (m : Option Int) d => m.bind (digit · d)) (some (n : Int)) = none
  | [], n, hn, h => absurd hn h
  | d :: ds, n, hn, h => by
    simp only [List.foldl_cons, Option.bind_some] at h ⊢
    by_cases g : n * 10 + d < 2147483648
    · rw [digit_fits g]
      exact foldl_over ds (n * 10 + d) g h
    · rw [digit_over g, foldl_none]

/-- A count below 2^31 is the number that was typed; any other overflows. -/
theorem typed_partial (ds : List Nat) :
    setArg ds = if value ds < 2147483648 then some (value ds : Int) else none := by
  by_cases h : value ds < 2147483648
  · rw [if_pos h]
    exact foldl_fits ds 0 h
  · rw [if_neg h]
    exact foldl_over ds 0 (by omega) h

theorem bmod_step (n : Int) (d w : Nat) :
    Int.bmod (Int.bmod n w * 10 + d) w = Int.bmod (n * 10 + d) w := by
  rw [← Int.bmod_add_bmod, Int.bmod_mul_bmod, Int.bmod_add_bmod]

/-- What the processor makes of any count: the number reduced to 32 bits. -/
theorem wraps (ds : List Nat) : wrapArg ds = Int.bmod (value ds) word := by
  have : ∀ (w : Nat) (ds : List Nat) (n : Nat),
      ds.foldl (fun (n : Int) (d : Nat) => Int.bmod (n * 10 + d) w) (Int.bmod n w) =
        Int.bmod ((ds.foldl (fun n d => n * 10 + d) n : Nat) : Int) w := by
    intro w ds
    induction ds with
    | nil => intro n; rfl
    | cons d ds ih =>
      intro n
      simp only [List.foldl_cons]
      rw [bmod_step]
      have := ih (n * 10 + d)
      rw [← this]
      push_cast
      rfl
  have h := this word ds 0
  simpa [wrapArg, value] using h

/-! ## The commands -/

/-- The cursor is in the line and the line in its buffer. -/
structure Ok (b : B) : Prop where
  lo : 0 ≤ b.cur
  hi : b.cur ≤ b.len
  cap : b.len < b.cap

theorem skip_ok (b : B) (pos : Int → Int) (hi : Int) : ∀ (k : Nat) (a : Int), a ≤ hi →
    (∀ x, a ≤ x → x < hi → 0 ≤ pos x ∧ pos x < b.cap) →
    ∃ a', skip b pos hi k a = some a' ∧ a ≤ a' ∧ a' ≤ hi
  | 0, a, h, _ => ⟨a, rfl, by omega, h⟩
  | k + 1, a, h, hp => by
    simp only [skip]
    by_cases h1 : a < hi
    · rw [if_pos h1]
      have := hp a (by omega) h1
      simp only [rd, this, and_self, if_true]
      split
      · obtain ⟨a', e, l, u⟩ := skip_ok b pos hi k (a + 1) (by omega)
          (fun x hx hx' => hp x (by omega) hx')
        exact ⟨a', e, by omega, u⟩
      · exact ⟨a, rfl, by omega, h⟩
    · rw [if_neg h1]
      exact ⟨a, rfl, by omega, h⟩

theorem delete_ok {b : B} (h : Ok b) {nc : Int} (h0 : 0 ≤ nc) (h1 : nc ≤ b.len - b.cur) :
    ∃ b', delete nc b = some b' ∧ Ok b' ∧ b'.cur = b.cur ∧ b'.len = b.len - nc := by
  obtain ⟨lo, hi, cp⟩ := h
  simp only [delete]
  by_cases e : nc = 0
  · rw [if_pos e]
    exact ⟨b, rfl, ⟨lo, hi, cp⟩, rfl, by omega⟩
  · rw [if_neg e]
    have : reads nc = nc := by
      simp only [reads]
      rw [if_neg (by omega)]
    rw [this, if_neg (by omega)]
    exact ⟨_, rfl, ⟨lo, by om, by om⟩, rfl, rfl⟩

/-- Every count from 0 on leaves the cursor inside the line and the line inside the buffer, and the
commands move and delete in their direction at most that far, up to the rest of a character. -/
theorem nonneg_safe {b : B} (h : Ok b) {a : Int} (ha : 0 ≤ a) :
    (∃ b', mvBack a b = some b' ∧ Ok b' ∧ b'.len = b.len ∧ b'.cur ≤ b.cur ∧
      (b'.cur ≤ b.cur - a ∨ b'.cur = 0)) ∧
    (∃ b', mvForw a b = some b' ∧ Ok b' ∧ b'.len = b.len ∧ b.cur ≤ b'.cur ∧
      (b.cur + a ≤ b'.cur ∨ b'.cur = b.len)) ∧
    (∃ b', delBack a b = some b' ∧ Ok b' ∧ b.len - b'.len = b.cur - b'.cur ∧ b'.cur ≤ b.cur) ∧
    (∃ b', delChar a b = some b' ∧ Ok b' ∧ b'.cur = b.cur ∧ b'.len ≤ b.len) ∧
    (∃ b', kill (some a) b = some b' ∧ Ok b' ∧ b'.cur ≤ b.cur ∧ b'.len ≤ b.len) ∧
    (∃ b', kill none b = some b' ∧ Ok b' ∧ b'.cur = b.cur ∧ b'.len = b.cur) := by
  obtain ⟨lo, hi, cp⟩ := h
  have hb : Ok b := ⟨lo, hi, cp⟩
  refine ⟨?_, ?_, ?_, ?_, ?_, ?_⟩
  · simp only [mvBack]
    by_cases e : b.cur = 0
    · rw [if_pos e]
      exact ⟨b, rfl, hb, rfl, by omega, Or.inr e⟩
    · rw [if_neg e]
      by_cases g : a > b.cur
      · rw [if_pos g]
        obtain ⟨a', e1, l, u⟩ := skip_ok b (fun x => b.cur - x) b.cur (b.cur - b.cur).toNat b.cur
          (by omega) (fun x h1 h2 => ⟨by om, by om⟩)
        rw [e1]
        exact ⟨_, rfl, ⟨by om, by om, cp⟩, rfl, by om,
          Or.inr (by om)⟩
      · rw [if_neg g]
        obtain ⟨a', e1, l, u⟩ := skip_ok b (fun x => b.cur - x) b.cur (b.cur - a).toNat a
          (by omega) (fun x h1 h2 => ⟨by om, by om⟩)
        rw [e1]
        exact ⟨_, rfl, ⟨by om, by om, cp⟩, rfl, by om,
          Or.inl (by om)⟩
  · simp only [mvForw]
    by_cases e : b.len - b.cur = 0
    · rw [if_pos e]
      exact ⟨b, rfl, hb, rfl, by omega, Or.inr (by omega)⟩
    · rw [if_neg e]
      by_cases g : a > b.len - b.cur
      · rw [if_pos g]
        obtain ⟨a', e1, l, u⟩ := skip_ok b (fun x => b.cur + x) (b.len - b.cur)
          (b.len - b.cur - (b.len - b.cur)).toNat (b.len - b.cur)
          (by omega) (fun x h1 h2 => ⟨by om, by om⟩)
        rw [e1]
        exact ⟨_, rfl, ⟨by om, by om, cp⟩, rfl, by om,
          Or.inr (by om)⟩
      · rw [if_neg g]
        obtain ⟨a', e1, l, u⟩ := skip_ok b (fun x => b.cur + x) (b.len - b.cur)
          (b.len - b.cur - a).toNat a
          (by omega) (fun x h1 h2 => ⟨by om, by om⟩)
        rw [e1]
        exact ⟨_, rfl, ⟨by om, by om, cp⟩, rfl, by om,
          Or.inl (by om)⟩
  · simp only [delBack]
    by_cases e : b.cur = 0
    · rw [if_pos e]
      exact ⟨b, rfl, hb, by omega, by omega⟩
    · rw [if_neg e]
      obtain ⟨a', e1, l, u⟩ := skip_ok b (fun x => b.cur - x) b.cur
        (b.cur - (if a > b.cur then b.cur else a)).toNat (if a > b.cur then b.cur else a)
        (by split <;> omega) (fun x h1 h2 => by
          have : 0 ≤ x := by split at h1 <;> omega
          exact ⟨by om, by om⟩)
      rw [e1]
      simp only [Option.bind_some]
      have a0 : 0 ≤ a' := by split at l <;> omega
      have hb' : Ok { b with cur := b.cur - a' } :=
        ⟨by om, by om, cp⟩
      obtain ⟨b', d1, d2, d3, d4⟩ := delete_ok hb' a0 (by om)
      exact ⟨b', d1, d2, by rw [d3, d4]; simp only; omega, by rw [d3]; simp only; omega⟩
  · simp only [delChar]
    by_cases e : b.len - b.cur = 0
    · rw [if_pos e]
      exact ⟨b, rfl, hb, by omega, by omega⟩
    · rw [if_neg e]
      obtain ⟨a', e1, l, u⟩ := skip_ok b (fun x => b.cur + x) (b.len - b.cur)
        (b.len - b.cur - (if a > b.len - b.cur then b.len - b.cur else a)).toNat
        (if a > b.len - b.cur then b.len - b.cur else a)
        (by split <;> omega) (fun x h1 h2 => by
          have : 0 ≤ x := by split at h1 <;> omega
          exact ⟨by om, by om⟩)
      rw [e1]
      simp only [Option.bind_some]
      have a0 : 0 ≤ a' := by split at l <;> omega
      obtain ⟨b', d1, d2, d3, d4⟩ := delete_ok hb a0 u
      exact ⟨b', d1, d2, d3, by omega⟩
  · simp only [kill]
    obtain ⟨a', e1, l, u⟩ := skip_ok b id b.len
      (b.len - (if a > b.len then b.len else a)).toNat (if a > b.len then b.len else a)
      (by split <;> omega) (fun x h1 h2 => by
        have : 0 ≤ x := by split at h1 <;> omega
        exact ⟨by om, by om⟩)
    rw [e1]
    simp only [Option.bind_some]
    have a0 : 0 ≤ a' := by split at l <;> omega
    by_cases g : a' - b.cur < 0
    · rw [if_pos g]
      have hb' : Ok { b with cur := a' } := ⟨a0, by om, cp⟩
      obtain ⟨b', d1, d2, d3, d4⟩ := delete_ok hb' (nc := -(a' - b.cur)) (by omega)
        (by om)
      exact ⟨b', d1, d2, by rw [d3]; simp only; omega, by rw [d4]; simp only; omega⟩
    · rw [if_neg g]
      obtain ⟨b', d1, d2, d3, d4⟩ := delete_ok hb (nc := a' - b.cur) (by omega) (by omega)
      exact ⟨b', d1, d2, by omega, by omega⟩
  · simp only [kill]
    obtain ⟨a', e1, l, u⟩ := skip_ok b id b.len (b.len - b.len).toNat b.len
      (by omega) (fun x h1 h2 => by omega)
    rw [e1]
    simp only [Option.bind_some]
    rw [if_neg (by omega)]
    obtain ⟨b', d1, d2, d3, d4⟩ := delete_ok hb (nc := a' - b.cur) (by omega) (by omega)
    exact ⟨b', d1, d2, d3, by omega⟩

/-- In a line without characters of several bytes a count is exactly the number of characters. -/
theorem plain_exact {b : B} (h : Ok b) (hp : ∀ i, isCont (b.mem i) = false) {a : Int} (ha : 0 ≤ a) :
    (mvBack a b).map B.cur = some (if a ≤ b.cur then b.cur - a else 0) ∧
    (mvForw a b).map B.cur = some (if b.cur + a ≤ b.len then b.cur + a else b.len) ∧
    (delBack a b).map (fun b' => (b'.cur, b'.len)) =
      some (if a ≤ b.cur then (b.cur - a, b.len - a) else (0, b.len - b.cur)) ∧
    (delChar a b).map (fun b' => (b'.cur, b'.len)) =
      some (b.cur, if b.cur + a ≤ b.len then b.len - a else b.cur) := by
  obtain ⟨lo, hi, cp⟩ := h
  have sk : ∀ (pos : Int → Int) (hi : Int) (k : Nat) (x : Int),
      (x < hi → 0 ≤ pos x ∧ pos x < b.cap) → skip b pos hi k x = some x := by
    intro pos hi k x hx
    cases k with
    | zero => rfl
    | succ k =>
      simp only [skip]
      by_cases g : x < hi
      · simp [g, rd, hx g, hp]
      · simp [g]
  have dl : ∀ (c nc : Int), 0 ≤ c → 0 ≤ nc → c + nc ≤ b.len →
      (delete nc { b with cur := c }).map (fun b' => (b'.cur, b'.len)) = some (c, b.len - nc) := by
    intro c nc h0 h1 h2
    obtain ⟨b', d1, _, d3, d4⟩ := delete_ok (b := { b with cur := c })
      ⟨h0, by om, cp⟩ h1 (by om)
    rw [d1]
    simp [d3, d4]
  refine ⟨?_, ?_, ?_, ?_⟩
  · simp only [mvBack]
    by_cases e : b.cur = 0
    · simp [e]
      omega
    · rw [if_neg e]
      by_cases g : a > b.cur
      · rw [if_pos g, sk _ _ _ _ (fun h => by omega), if_neg (by omega)]
        simp
      · rw [if_neg g, sk _ _ _ _ (fun h => ⟨by om, by om⟩), if_pos (by omega)]
        simp
  · simp only [mvForw]
    by_cases e : b.len - b.cur = 0
    · rw [if_pos e]
      simp only [Option.map_some, Option.some.injEq]
      split <;> omega
    · rw [if_neg e]
      by_cases g : a > b.len - b.cur
      · rw [if_pos g, sk _ _ _ _ (fun h => by omega), if_neg (by omega)]
        simp only [Option.map_some, Option.some.injEq]
        omega
      · rw [if_neg g, sk _ _ _ _ (fun h => ⟨by om, by om⟩), if_pos (by omega)]
        simp
  · simp only [delBack]
    by_cases e : b.cur = 0
    · rw [if_pos e]
      simp only [Option.map_some, Option.some.injEq, e]
      by_cases g : a ≤ 0
      · rw [if_pos g]
        have : a = 0 := by omega
        simp [this]
      · rw [if_neg g]
        simp
    · rw [if_neg e]
      by_cases g : a > b.cur
      · rw [if_pos g, sk _ _ _ _ (fun h => by omega), if_neg (by omega)]
        simp only [Option.bind_some, Int.sub_self]
        exact dl 0 b.cur (by omega) (by omega) (by omega)
      · rw [if_neg g, sk _ _ _ _ (fun h => ⟨by om, by om⟩), if_pos (by omega)]
        simp only [Option.bind_some]
        exact dl (b.cur - a) a (by omega) (by omega) (by omega)
  · simp only [delChar]
    by_cases e : b.len - b.cur = 0
    · rw [if_pos e]
      simp only [Option.map_some, Option.some.injEq, Prod.mk.injEq, true_and]
      split <;> omega
    · rw [if_neg e]
      by_cases g : a > b.len - b.cur
      · rw [if_pos g, sk _ _ _ _ (fun h => by omega), if_neg (by omega)]
        simp only [Option.bind_some]
        have := dl b.cur (b.len - b.cur) lo (by omega) (by omega)
        rw [show b.len - (b.len - b.cur) = b.cur by omega] at this
        exact this
      · rw [if_neg g, sk _ _ _ _ (fun h => ⟨by om, by om⟩), if_pos (by omega)]
        simp only [Option.bind_some]
        exact dl b.cur a lo (by omega) (by omega)

/-- Loading a line of the history stays inside of the history for every count, typed or not. -/
theorem load_safe (n : Nat) (p : Int) (i : Nat) : load n p = some i ↔ (i : Int) = p ∧ i ≤ n := by
  simp only [load]
  split
  · constructor
    · intro h; cases h
    · rintro ⟨rfl, h⟩; omega
  · simp only [Option.some.injEq]
    omega

/-! ## Beyond -/

/-- "ab" with the cursor on the `b`. -/
def ab : B := ⟨4096, fun i => if i = 0 then 97 else if i = 1 then 98 else 0, 1, 2⟩

/-- The digits of 4294967291. -/
def huge : List Nat := [4, 2, 9, 4, 9, 6, 7, 2, 9, 1]

/-- A count of 4294967291 overflows; where the processor wraps, moving back puts the cursor
behind the end of the line, and deleting runs out of the buffer. -/
theorem huge_breaks : setArg huge = none ∧ wrapArg huge = -5 ∧
    (mvBack (wrapArg huge) ab).map (fun b => (b.cur, b.len)) = some (6, 2) ∧
    (delBack (wrapArg huge) ab).isNone = true ∧ (delChar (wrapArg huge) ab).isNone = true := by
  decide

/-- The cursor can be put before the buffer as well. -/
theorem huge_before : (mvForw (-7) ⟨4096, fun _ => 97, 7, 9⟩).map B.cur = some 0 ∧
    (mvForw (wrapArg huge) ab).isNone = true ∧
    (mvForw (wrapArg huge) { ab with cur := 5, len := 6 }).map B.cur = some 0 := by decide

example : Ok ab := ⟨by decide, by decide, by decide⟩

example : setArg [1, 2] = some 12 ∧ (mvBack 12 ab).map B.cur = some 0 ∧
    (delChar 12 ab).map (fun b => (b.cur, b.len)) = some (1, 1) ∧
    (kill (some 0) ab).map (fun b => (b.cur, b.len)) = some (0, 1) := by decide

end Ksh.Counts
