import Verif.Emacs.Moves
/-!
# Searching for a character
-/

namespace Ksh.Emacs

variable {size : Nat} {s : Ed} {a : Line}

theorem strchr_spec (c : Char) (j : List Char) : ∀ (l : List Char) (i : Nat), NoNul l →
    strchr c (l ++ '\x00' :: j) i = some (((l ++ ['\x00']).findIdx? (· = c)).map (i + ·)) := by
  intro l
  induction l with
  | nil =>
    intro i _
    simp only [List.nil_append, strchr, List.findIdx?_cons, List.findIdx?_nil]
    by_cases h : '\x00' = c
    · subst h; simp
    · simp [h]
  | cons x l ih =>
    intro i hl
    simp only [NoNul, List.mem_cons, not_or] at hl
    simp only [List.cons_append, strchr, List.findIdx?_cons]
    by_cases h : x = c
    · simp [h]
    · rw [if_neg h, if_neg (Ne.symm hl.1), ih (i+1) hl.2]
      simp only [h, decide_false, Bool.false_eq_true, if_false, Option.map_map]
      congr 2
      funext k; simp; omega

/-- The text with its NUL. -/
def Line.ended (a : Line) : List Char := a.text ++ ['\x00']

theorem findIdx_lt {t : List Char} {p : Char → Bool} {i : Nat} (h : t.findIdx? p = some i) : i < t.length := by
  rw [List.findIdx?_eq_some_iff_getElem] at h
  exact h.1

theorem nextPos_lt {t : List Char} {c : Char} {p q : Nat} (h : Line.nextPos t c p = some q) : q < t.length := by
  simp only [Line.nextPos] at h
  cases hf : (t.drop (p+1)).findIdx? (· = c) with
  | some i =>
    rw [hf] at h
    have := findIdx_lt hf
    simp only [List.length_drop] at this
    cases h; omega
  | none => rw [hf] at h; exact findIdx_lt h

theorem forwLoop_spec (t j : List Char) (c : Char) (ht : NoNul t) : ∀ (n p : Nat), p ≤ t.length →
    forwLoop (t ++ '\x00' :: j) t.length c n p = some (Line.nthPos (Line.nextPos (t ++ ['\x00']) c) n p) := by
  intro n
  induction n with
  | zero => intro p _; rfl
  | succ n ih =>
    intro p hp
    simp only [forwLoop, Line.nthPos]
    have e0 := strchr_spec c j t 0 ht
    have e1 : (if p = t.length then some none else strchr c ((t ++ '\x00' :: j).drop (p+1)) (p+1)) =
        some ((((t ++ ['\x00']).drop (p+1)).findIdx? (· = c)).map (p + 1 + ·)) := by
      by_cases h : p = t.length
      · rw [if_pos h, List.drop_eq_nil_of_le (by simp; omega)]; rfl
      · rw [if_neg h, List.drop_append_of_le_length (by omega), List.drop_append_of_le_length (by omega)]
        exact strchr_spec c j _ _ (fun hm => ht (List.mem_of_mem_drop hm))
    rw [e1]
    have hn : Line.nextPos (t ++ ['\x00']) c p =
        match ((t ++ ['\x00']).drop (p+1)).findIdx? (· = c) with
        | some i => some (p + 1 + i)
        | none => (t ++ ['\x00']).findIdx? (· = c) := rfl
    rw [hn]
    cases hf : ((t ++ ['\x00']).drop (p+1)).findIdx? (· = c) with
    | some i =>
      simp only [Option.map_some, Option.bind_some]
      have := findIdx_lt hf
      simp only [List.length_drop, List.length_append, List.length_cons, List.length_nil] at this
      exact ih _ (by omega)
    | none =>
      simp only [Option.map_none]
      rw [e0]
      cases hg : (t ++ ['\x00']).findIdx? (· = c) with
      | none => rfl
      | some i =>
        simp only [Option.map_some, Option.bind_some, Nat.zero_add]
        have := findIdx_lt hg
        simp only [List.length_append, List.length_cons, List.length_nil] at this
        exact ih _ (by omega)

theorem nthPos_lt {next : Nat → Option Nat} {k : Nat} (h : ∀ p q, next p = some q → q < k) :
    ∀ n p q, p < k → Line.nthPos next n p = some q → q < k := by
  intro n
  induction n with
  | zero => intro p q hp h; cases h; exact hp
  | succ n ih =>
    intro p q hp hq
    simp only [Line.nthPos] at hq
    cases hn : next p with
    | none => rw [hn] at hq; cases hq
    | some x => rw [hn] at hq; exact ih x q (h p x hn) hq

theorem R.set_ep (h : R size s a) : s.mem.set s.ep '\x00' = s.mem := by
  obtain ⟨j, hj⟩ := h.memText
  rw [hj, h.ep']
  simp

theorem searchForw_spec (h : R size s a) (c : Option Char) (n : Nat) :
    ∃ s', searchForw s c n = some s' ∧
      R size s' (a.search (c.bind (fun c => Line.nthPos (Line.nextPos a.ended c) n a.left.length))) := by
  simp only [searchForw]
  rw [if_pos (by rw [h.size]; exact h.ep_lt), h.set_ep]
  cases c with
  | none => exact ⟨s, rfl, h⟩
  | some c =>
    obtain ⟨j, hj⟩ := h.memText
    have hcp : s.cp ≤ a.text.length := by rw [← h.ep']; exact h.cp_le
    have e : forwLoop s.mem s.ep c n s.cp = some (Line.nthPos (Line.nextPos a.ended c) n a.left.length) := by
      rw [hj, h.ep', forwLoop_spec _ _ _ h.nt _ _ hcp, h.cp]; rfl
    simp only [e, Option.bind_some]
    cases hp : Line.nthPos (Line.nextPos a.ended c) n a.left.length with
    | none => exact ⟨s, rfl, h⟩
    | some p =>
      have := nthPos_lt (k := a.ended.length) (fun _ _ h => nextPos_lt h) _ _ _ (by simp [Line.ended, ← h.cp]; omega) hp
      exact goto_spec h p (by simp [Line.ended] at this; omega)

theorem backOne_wrap (m : List Char) (ep cp : Nat) (c : Char) (k : Nat) :
    backOne m ep cp c (k+1) 0 = backOne m ep cp c (k+1) (ep+1) := by
  simp [backOne]

/-- What `*p == c` finds. -/
def hit (c x : Char) : Bool := x = c ∧ x.toNat < 0x80

theorem backOne_after (m : List Char) (ep cp : Nat) (c : Char) : ∀ (d k : Nat), cp + d + 1 ≤ m.length → d < k →
    backOne m ep cp c k (cp + d + 1) =
      some (((((m.take (cp + d + 1)).drop (cp+1)).reverse).findIdx? (hit c)).map (fun i => cp + d - i)) := by
  intro d
  induction d with
  | zero =>
    intro k _ hk
    cases k with
    | zero => omega
    | succ k =>
      rw [List.drop_eq_nil_of_le (by simp; omega)]
      simp [backOne]
  | succ d ih =>
    intro k hlen hk
    cases k with
    | zero => omega
    | succ k =>
      simp only [backOne]
      have hq : (if cp + (d+1) + 1 = 0 then ep else cp + (d+1) + 1 - 1) = cp + d + 1 := by rw [if_neg (by omega)]; omega
      rw [hq, if_neg (by omega)]
      have hlt : cp + d + 1 < m.length := by omega
      rw [List.getElem?_eq_getElem hlt, show cp + (d + 1) + 1 = cp + d + 1 + 1 by omega, List.take_succ_eq_append_getElem hlt,
        List.drop_append_of_le_length (by simp; omega), List.reverse_append]
      simp only [List.reverse_cons, List.reverse_nil, List.nil_append, List.cons_append, List.findIdx?_cons]
      by_cases h : m[cp + d + 1] = c ∧ (m[cp + d + 1]).toNat < 0x80
      · rw [if_pos h, if_pos (by simpa [hit] using h)]; simp; omega
      · rw [if_neg h, if_neg (by simpa [hit] using h), ih k (by omega) (by omega), Option.map_map]
        congr 2
        funext i; simp; omega

theorem backOne_before (m : List Char) (ep cp : Nat) (c : Char) (hm : ep < m.length) (hce : cp ≤ ep) :
    ∀ (p k : Nat), p ≤ cp → p + (ep - cp) + 1 < k →
    backOne m ep cp c k p =
      some (match (m.take p).reverse.findIdx? (hit c) with
        | some i => some (p - 1 - i)
        | none => (((m.take (ep+1)).drop (cp+1)).reverse.findIdx? (hit c)).map (fun i => ep - i)) := by
  intro p
  induction p with
  | zero =>
    intro k _ hk
    cases k with
    | zero => omega
    | succ k =>
      rw [backOne_wrap, show ep + 1 = cp + (ep - cp) + 1 by omega, backOne_after _ _ _ _ _ _ (by omega) (by omega)]
      simp only [List.take_zero, List.reverse_nil, List.findIdx?_nil]
      rw [show cp + (ep - cp) = ep by omega]
  | succ p ih =>
    intro k hp hk
    cases k with
    | zero => omega
    | succ k =>
      simp only [backOne]
      have hq : (if p + 1 = 0 then ep else p + 1 - 1) = p := by rw [if_neg (by omega)]; omega
      rw [hq, if_neg (by omega)]
      have hlt : p < m.length := by omega
      rw [List.getElem?_eq_getElem hlt, List.take_succ_eq_append_getElem hlt, List.reverse_append]
      simp only [List.reverse_cons, List.reverse_nil, List.nil_append, List.cons_append, List.findIdx?_cons]
      by_cases h : m[p] = c ∧ (m[p]).toNat < 0x80
      · rw [if_pos h, if_pos (by simpa [hit] using h)]; simp
      · rw [if_neg h, if_neg (by simpa [hit] using h), ih k (by omega) (by omega)]
        cases hf : (m.take p).reverse.findIdx? (hit c) with
        | none => rfl
        | some i => simp; omega

/-- Bytes from 0x80 on are not found by searching backwards. -/
def Line.prevPos7 (t : List Char) (c : Char) (p : Nat) : Option Nat :=
  if c.toNat < 0x80 then Line.prevPos t c p else none

theorem hit_ascii {c : Char} (h : c.toNat < 0x80) : hit c = (fun x => decide (x = c)) := by
  funext x
  by_cases hx : x = c
  · subst hx; simp [hit, h]
  · simp [hit, hx]

theorem hit_high {c : Char} (h : ¬ c.toNat < 0x80) : hit c = (fun _ => false) := by
  funext x
  by_cases hx : x = c
  · subst hx; simpa [hit] using h
  · simp [hit, hx]

theorem backLoop_spec (t j : List Char) (c : Char) : ∀ (n p : Nat), p ≤ t.length →
    backLoop (t ++ '\x00' :: j) t.length c n p = some (Line.nthPos (Line.prevPos7 (t ++ ['\x00']) c) n p) := by
  intro n
  induction n with
  | zero => intro p _; rfl
  | succ n ih =>
    intro p hp
    simp only [backLoop, Line.nthPos]
    rw [backOne_before _ _ _ _ (by simp) hp p _ (Nat.le_refl _) (by omega)]
    have e1 : (t ++ '\x00' :: j).take p = (t ++ ['\x00']).take p := by
      rw [List.take_append_of_le_length hp, List.take_append_of_le_length hp]
    have e2 : (t ++ '\x00' :: j).take (t.length + 1) = t ++ ['\x00'] := by
      rw [show t ++ '\x00' :: j = (t ++ ['\x00']) ++ j by simp, List.take_left' (by simp)]
    rw [e1, e2]
    by_cases hc : c.toNat < 0x80
    · have hp7 : Line.prevPos7 (t ++ ['\x00']) c p = Line.prevPos (t ++ ['\x00']) c p := by simp [Line.prevPos7, hc]
      rw [hp7, hit_ascii hc]
      simp only [Line.prevPos]
      cases hf : ((t ++ ['\x00']).take p).reverse.findIdx? (fun x => decide (x = c)) with
      | some i =>
        have := findIdx_lt hf
        simp only [Option.bind_some]
        exact ih _ (by omega)
      | none =>
        cases hg : ((t ++ ['\x00']).drop (p+1)).reverse.findIdx? (fun x => decide (x = c)) with
        | none => rfl
        | some i =>
          simp only [Option.map_some, Option.bind_some, List.length_append, List.length_cons, List.length_nil, Nat.zero_add]
          rw [show t.length + 1 - 1 - i = t.length - i by omega]
          exact ih _ (by omega)
    · have hp7 : Line.prevPos7 (t ++ ['\x00']) c p = none := by simp [Line.prevPos7, hc]
      rw [hp7, hit_high hc]
      have hn : ∀ l : List Char, l.findIdx? (fun _ => false) = none := by
        intro l; simp
      simp only [hn, Option.map_none, Option.bind_none]

theorem prevPos7_lt {t : List Char} {c : Char} {p q : Nat} (hp : p < t.length) (h : Line.prevPos7 t c p = some q) :
    q < t.length := by
  simp only [Line.prevPos7] at h
  split at h
  · simp only [Line.prevPos] at h
    split at h
    · cases h; omega
    · next hf =>
      cases hg : (t.drop (p+1)).reverse.findIdx? (fun x => decide (x = c)) with
      | none => rw [hg] at h; cases h
      | some i => rw [hg] at h; cases h; simp only; omega
  · cases h

theorem nthPos_lt' {next : Nat → Option Nat} {k : Nat} (h : ∀ p q, p < k → next p = some q → q < k) :
    ∀ n p q, p < k → Line.nthPos next n p = some q → q < k := by
  intro n
  induction n with
  | zero => intro p q hp h; cases h; exact hp
  | succ n ih =>
    intro p q hp hq
    simp only [Line.nthPos] at hq
    cases hn : next p with
    | none => rw [hn] at hq; cases hq
    | some x => rw [hn] at hq; exact ih x q (h p x hp hn) hq

theorem searchBack_spec (h : R size s a) (c : Option Char) (n : Nat) :
    ∃ s', searchBack s c n = some s' ∧
      R size s' (a.search (c.bind (fun c => Line.nthPos (Line.prevPos7 a.ended c) n a.left.length))) := by
  cases c with
  | none => exact ⟨s, rfl, h⟩
  | some c =>
    obtain ⟨j, hj⟩ := h.memText
    have hcp : s.cp ≤ a.text.length := by rw [← h.ep']; exact h.cp_le
    have e : backLoop s.mem s.ep c n s.cp = some (Line.nthPos (Line.prevPos7 a.ended c) n a.left.length) := by
      rw [hj, h.ep', backLoop_spec _ _ _ _ _ hcp, h.cp]; rfl
    simp only [searchBack, e, Option.bind_some]
    cases hp : Line.nthPos (Line.prevPos7 a.ended c) n a.left.length with
    | none => exact ⟨s, rfl, h⟩
    | some p =>
      have := nthPos_lt' (k := a.ended.length) (fun _ _ hp h => prevPos7_lt hp h) _ _ _ (by simp [Line.ended, ← h.cp]; omega) hp
      exact goto_spec h p (by simp [Line.ended] at this; omega)

end Ksh.Emacs
