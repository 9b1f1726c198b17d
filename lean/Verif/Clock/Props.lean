import Verif.Clock.Model

/-!
# C154: the times printed are the times measured, cut to hundredths
-/
namespace Ksh.Clock

/-- All fractions of a time together. -/
def T.all (U : Int) (t : T) : Int := t.sec * U + t.frac

/-- As the kernel gives times. -/
def T.ok (U : Int) (t : T) : Prop := 0 ≤ t.frac ∧ t.frac < U

theorem sub_right (U : Int) (a b : T) (ha : a.ok U) (hb : b.ok U) :
    (sub U a b).all U = a.all U - b.all U ∧ (sub U a b).ok U := by
  obtain ⟨a1, a2⟩ := ha
  obtain ⟨b1, b2⟩ := hb
  unfold sub T.all T.ok
  split
  · simp only [Int.sub_mul, Int.one_mul]
    omega
  · simp only [Int.sub_mul]
    omega

theorem add_right (U : Int) (a b : T) (ha : a.ok U) (hb : b.ok U) :
    (add U a b).all U = a.all U + b.all U ∧ (add U a b).ok U := by
  obtain ⟨a1, a2⟩ := ha
  obtain ⟨b1, b2⟩ := hb
  unfold add T.all T.ok
  split
  · simp only [Int.add_mul, Int.one_mul]
    omega
  · simp only [Int.add_mul]
    omega

/-- Specification: a string of digits, read as people do, gives a number. -/
inductive Reads : List Char → Nat → Prop
  | one (c : Char) (h : '0' ≤ c ∧ c ≤ '9') : Reads [c] (c.toNat - 48)
  | more (s : List Char) (n : Nat) (c : Char) (h : '0' ≤ c ∧ c ≤ '9') (hs : Reads s n) : Reads (s ++ [c]) (n * 10 + (c.toNat - 48))

theorem digit_spec : ∀ n, n < 10 → ('0' ≤ digit n ∧ digit n ≤ '9') ∧ (digit n).toNat - 48 = n := by decide

theorem dec_reads (n : Nat) : Reads (dec n) n := by
  induction n using Nat.strongRecOn with
  | ind n ih =>
    rw [dec]
    split
    · rename_i h
      have := Reads.one (digit n) (digit_spec n h).1
      rwa [(digit_spec n h).2] at this
    · have h := digit_spec (n % 10) (by omega)
      have := Reads.more _ _ (digit (n % 10)) h.1 (ih (n / 10) (by omega))
      rw [h.2] at this
      have e : n / 10 * 10 + n % 10 = n := by omega
      rwa [e] at this

theorem two_spec (n : Nat) (h : n < 100) : (pad '0' 2 (dec n)).length = 2 ∧ Reads (pad '0' 2 (dec n)) n := by
  by_cases h1 : n < 10
  · have e : pad '0' 2 (dec n) = ['0'] ++ [digit n] := by
      rw [dec, if_pos h1]; rfl
    rw [e]
    have hd := digit_spec n h1
    have := Reads.more ['0'] _ (digit n) hd.1 (Reads.one '0' (by decide))
    rw [hd.2] at this
    exact ⟨rfl, by simpa using this⟩
  · have e : dec n = [digit (n / 10), digit (n % 10)] := by
      rw [dec, if_neg h1, dec, if_pos (by omega)]; rfl
    have e2 : pad '0' 2 (dec n) = dec n := by rw [pad, e]; rfl
    rw [e2]
    exact ⟨by rw [e]; rfl, dec_reads n⟩

/-- `m` minutes, `s` seconds, `c` hundredths are what the line says in the format of ksh. -/
def SaysKsh (l : List Char) (m s c : Nat) : Prop :=
  ∃ k a b d, l = List.replicate k ' ' ++ a ++ ['m'] ++ b ++ ['.'] ++ d ++ ['s'] ∧
    Reads a m ∧ Reads b s ∧ Reads d c ∧ b.length = 2 ∧ d.length = 2

/-- `s` seconds, `c` hundredths are what the line says in the format of POSIX. -/
def SaysPosix (l : List Char) (s c : Nat) : Prop :=
  ∃ k a d, l = List.replicate k ' ' ++ a ++ ['.'] ++ d ∧ Reads a s ∧ Reads d c ∧ d.length = 2

/-- What is printed in the format of ksh: the hundredths that have passed, the seconds below 60. -/
theorem ksh_right (width : Nat) (t : T) (hs : 0 ≤ t.sec) (h : t.ok 1000000000) :
    ∃ m s c, SaysKsh (pTs false width t) m s c ∧ s < 60 ∧ c < 100 ∧
      ((m * 60 + s) * 100 + c : Nat) = t.all 1000000000 / 10000000 := by
  obtain ⟨h1, h2⟩ := h
  have hc : (t.frac / 10000000).toNat < 100 := by omega
  have b := two_spec (t.sec.toNat % 60) (by omega)
  have d := two_spec (t.frac / 10000000).toNat hc
  refine ⟨t.sec.toNat / 60, t.sec.toNat % 60, (t.frac / 10000000).toNat, ⟨width - (dec (t.sec.toNat / 60)).length, _, _, _, ?_, dec_reads _, b.2, d.2, b.1, d.1⟩, by omega, hc, ?_⟩
  · simp [pTs, pad]
  · unfold T.all
    omega

theorem posix_right (width : Nat) (t : T) (hs : 0 ≤ t.sec) (h : t.ok 1000000000) :
    ∃ s c, SaysPosix (pTs true width t) s c ∧ c < 100 ∧
      (s * 100 + c : Nat) = t.all 1000000000 / 10000000 := by
  obtain ⟨h1, h2⟩ := h
  have hc : (t.frac / 10000000).toNat < 100 := by omega
  have d := two_spec (t.frac / 10000000).toNat hc
  refine ⟨t.sec.toNat, (t.frac / 10000000).toNat, ⟨width - (dec t.sec.toNat).length, _, _, ?_, dec_reads _, d.2, d.1⟩, hc, ?_⟩
  · simp [pTs, pad]
  · unfold T.all
    omega

/-- The line of `real`: between two readings of a clock that does not go back. -/
theorem real_right (width : Nat) (t0 t1 : T) (h0 : t0.ok 1000000000) (h1 : t1.ok 1000000000)
    (h : t0.all 1000000000 ≤ t1.all 1000000000) :
    ∃ m s c, SaysKsh (pTs false width (sub 1000000000 t1 t0)) m s c ∧ s < 60 ∧ c < 100 ∧
      ((m * 60 + s) * 100 + c : Nat) = (t1.all 1000000000 - t0.all 1000000000) / 10000000 := by
  have hs := sub_right 1000000000 t1 t0 h1 h0
  rw [← hs.1]
  refine ksh_right width _ ?_ hs.2
  have e := hs.1
  have k := hs.2
  unfold T.ok at k
  unfold T.all at e h
  omega

/-- The line of `user` or `system`: what the shell used meanwhile and what the job used, in microseconds. -/
theorem user_right (width : Nat) (r0 r1 j : T) (h0 : r0.ok 1000000) (h1 : r1.ok 1000000) (hj : j.ok 1000000)
    (h : r0.all 1000000 ≤ r1.all 1000000) (hp : 0 ≤ j.sec) :
    ∃ m s c, SaysKsh (pTv false width (add 1000000 (sub 1000000 r1 r0) j)) m s c ∧ s < 60 ∧ c < 100 ∧
      ((m * 60 + s) * 100 + c : Nat) = (r1.all 1000000 - r0.all 1000000 + j.all 1000000) / 10000 := by
  have hs := sub_right 1000000 r1 r0 h1 h0
  have ha := add_right 1000000 _ j hs.2 hj
  obtain ⟨m, s, c, k1, k2, k3, k4⟩ := ksh_right width (toTs (add 1000000 (sub 1000000 r1 r0) j))
    (by
      have e := ha.1
      have e' := hs.1
      have k := ha.2
      unfold T.ok at k hj
      unfold T.all at e e' h
      simp only [toTs]
      omega)
    (by
      have k := ha.2
      unfold T.ok at k ⊢
      simp only [toTs]
      omega)
  refine ⟨m, s, c, k1, k2, k3, ?_⟩
  rw [k4, ← hs.1, ← ha.1]
  simp only [T.all, toTs]
  omega

/-- In the format of POSIX: between two readings of a clock that does not go back. -/
theorem real_posix_right (width : Nat) (t0 t1 : T) (h0 : t0.ok 1000000000) (h1 : t1.ok 1000000000)
    (h : t0.all 1000000000 ≤ t1.all 1000000000) :
    ∃ s c, SaysPosix (pTs true width (sub 1000000000 t1 t0)) s c ∧ c < 100 ∧
      (s * 100 + c : Nat) = (t1.all 1000000000 - t0.all 1000000000) / 10000000 := by
  have hs := sub_right 1000000000 t1 t0 h1 h0
  rw [← hs.1]
  refine posix_right width _ ?_ hs.2
  have e := hs.1
  have k := hs.2
  unfold T.ok at k
  unfold T.all at e h
  omega

/-- In the format of POSIX: what the shell used meanwhile and what the job used, in microseconds. -/
theorem user_posix_right (width : Nat) (r0 r1 j : T) (h0 : r0.ok 1000000) (h1 : r1.ok 1000000) (hj : j.ok 1000000)
    (h : r0.all 1000000 ≤ r1.all 1000000) (hp : 0 ≤ j.sec) :
    ∃ s c, SaysPosix (pTv true width (add 1000000 (sub 1000000 r1 r0) j)) s c ∧ c < 100 ∧
      (s * 100 + c : Nat) = (r1.all 1000000 - r0.all 1000000 + j.all 1000000) / 10000 := by
  have hs := sub_right 1000000 r1 r0 h1 h0
  have ha := add_right 1000000 _ j hs.2 hj
  obtain ⟨s, c, k1, k2, k4⟩ := posix_right width (toTs (add 1000000 (sub 1000000 r1 r0) j))
    (by
      have e := ha.1
      have e' := hs.1
      have k := ha.2
      unfold T.ok at k hj
      unfold T.all at e e' h
      simp only [toTs]
      omega)
    (by
      have k := ha.2
      unfold T.ok at k ⊢
      simp only [toTs]
      omega)
  refine ⟨s, c, k1, k2, ?_⟩
  rw [k4, ← hs.1, ← ha.1]
  simp only [T.all, toTs]
  omega

/-- A string of digits says one number only. -/
theorem reads_fun : ∀ {l : List Char} {n k : Nat}, Reads l n → Reads l k → n = k := by
  intro l n k h
  induction h generalizing k with
  | one c hc =>
    intro h2
    generalize hl : [c] = l at h2
    cases h2 with
    | one d hd => simp only [List.cons.injEq, and_true] at hl; rw [hl]
    | more s m d hd hs =>
      cases s with
      | nil =>
        generalize he : ([] : List Char) = z at hs
        cases hs with
        | one => simp at he
        | more => simp at he
      | cons x y => simp at hl
  | more s m c hc hs ih =>
    intro h2
    generalize hl : s ++ [c] = l at h2
    cases h2 with
    | one d hd =>
      have : s = [] := by
        cases s with
        | nil => rfl
        | cons x y => simp at hl
      subst this
      generalize he : ([] : List Char) = z at hs
      cases hs with
      | one => simp at he
      | more => simp at he
    | more s' m' d hd hs' =>
      obtain ⟨e1, e2⟩ := List.append_inj' hl rfl
      simp only [List.cons.injEq, and_true] at e2
      subst e1 e2
      rw [ih hs']

theorem reads_noblank {l : List Char} {n : Nat} (h : Reads l n) : ∀ c ∈ l, c ≠ ' ' := by
  induction h with
  | one c hc =>
    intro d hd e
    simp only [List.mem_singleton] at hd
    subst hd e
    exact absurd hc.1 (by decide)
  | more s m c hc _ ih =>
    intro d hd e
    rcases List.mem_append.1 hd with hd | hd
    · exact ih d hd e
    · simp only [List.mem_singleton] at hd
      subst hd e
      exact absurd hc.1 (by decide)

theorem blanks_inj : ∀ (k k' : Nat) (a a' : List Char), (∀ c ∈ a, c ≠ ' ') → (∀ c ∈ a', c ≠ ' ') →
    List.replicate k ' ' ++ a = List.replicate k' ' ' ++ a' → a = a'
  | 0, 0, _, _, _, _, h => by simpa using h
  | 0, k' + 1, a, a', ha, _, h => by
    simp only [List.replicate_zero, List.nil_append, List.replicate_succ, List.cons_append] at h
    exact absurd rfl (ha ' ' (by rw [h]; simp))
  | k + 1, 0, a, a', _, ha', h => by
    simp only [List.replicate_zero, List.nil_append, List.replicate_succ, List.cons_append] at h
    exact absurd rfl (ha' ' ' (by rw [← h]; simp))
  | k + 1, k' + 1, a, a', ha, ha', h => by
    simp only [List.replicate_succ, List.cons_append, List.cons.injEq, true_and] at h
    exact blanks_inj k k' a a' ha ha' h

/-- A line says one time only. -/
theorem ksh_unique {l : List Char} {m s c m' s' c' : Nat} (h : SaysKsh l m s c) (h' : SaysKsh l m' s' c') :
    m = m' ∧ s = s' ∧ c = c' := by
  obtain ⟨k, a, b, d, e, ra, rb, rd, lb, ld⟩ := h
  obtain ⟨k', a', b', d', e', ra', rb', rd', lb', ld'⟩ := h'
  rw [e] at e'
  obtain ⟨e', _⟩ := List.append_inj' e' rfl
  obtain ⟨e', hd⟩ := List.append_inj' e' (by omega)
  obtain ⟨e', _⟩ := List.append_inj' e' rfl
  obtain ⟨e', hb⟩ := List.append_inj' e' (by omega)
  obtain ⟨e', _⟩ := List.append_inj' e' rfl
  have ha := blanks_inj _ _ _ _ (reads_noblank ra) (reads_noblank ra') e'
  subst ha hb hd
  exact ⟨reads_fun ra ra', reads_fun rb rb', reads_fun rd rd'⟩

theorem posix_unique {l : List Char} {s c s' c' : Nat} (h : SaysPosix l s c) (h' : SaysPosix l s' c') :
    s = s' ∧ c = c' := by
  obtain ⟨k, a, d, e, ra, rd, ld⟩ := h
  obtain ⟨k', a', d', e', ra', rd', ld'⟩ := h'
  rw [e] at e'
  obtain ⟨e', hd⟩ := List.append_inj' e' (by omega)
  obtain ⟨e', _⟩ := List.append_inj' e' rfl
  have ha := blanks_inj _ _ _ _ (reads_noblank ra) (reads_noblank ra') e'
  subst ha hd
  exact ⟨reads_fun ra ra', reads_fun rd rd'⟩

example : pTs false 5 (sub 1000000000 ⟨130, 5000000⟩ ⟨4, 955000000⟩) = "    2m05.05s".toList := by
  simp [pTs, sub, pad, dec, digit]
example : pTv true 5 (add 1000000 ⟨1, 999999⟩ ⟨0, 20001⟩) = "    2.02".toList := by
  simp [pTv, pTs, add, toTs, pad, dec, digit]

end Ksh.Clock
