import Verif.Emacs.Lemmas
/-!
# Counting bytes, words and characters in the buffer
-/

namespace Ksh.Emacs

variable {size : Nat} {s : Ed} {a : Line}

theorem R.memText (h : R size s a) : ∃ junk, s.mem = a.text ++ '\x00' :: junk := by
  obtain ⟨j, hj⟩ := h.mem
  exact ⟨j, by rw [hj, Line.text, List.append_assoc]⟩

theorem R.nt (h : R size s a) : NoNul a.text := by
  intro hm
  simp only [Line.text, List.mem_append] at hm
  exact hm.elim h.nl h.nr

theorem R.ep' (h : R size s a) : s.ep = a.text.length := by rw [h.ep]; simp [Line.text]

theorem extForw_spec (m : List Char) (p : Nat) : ∀ (k acc : Nat), p + acc + k ≤ m.length →
    extForw m p k acc = some (acc + (((m.drop (p + acc)).take k).takeWhile cont).length) := by
  intro k
  induction k with
  | zero => intro acc _; simp [extForw]
  | succ k ih =>
    intro acc hlen
    have hlt : p + acc < m.length := by omega
    simp only [extForw]
    rw [List.getElem?_eq_getElem hlt, List.drop_eq_getElem_cons hlt]
    simp only [List.take_succ_cons, List.takeWhile_cons]
    cases hc : cont m[p + acc] with
    | false => simp
    | true =>
      rw [if_pos rfl, if_pos rfl, ih (acc+1) (by omega)]
      rw [show p + (acc + 1) = p + acc + 1 by omega]
      simp only [List.length_cons]
      congr 1; omega

theorem extBack_spec (m : List Char) (cp : Nat) (hcp : cp < m.length) : ∀ (k acc : Nat), acc + k ≤ cp + 1 →
    extBack m cp k acc = some (acc + ((((m.take (cp+1)).reverse.drop acc).take k).takeWhile cont).length) := by
  intro k
  induction k with
  | zero => intro acc _; simp [extBack]
  | succ k ih =>
    intro acc hlen
    have hl : (m.take (cp+1)).reverse.length = cp + 1 := by simp; omega
    have hlt : acc < (m.take (cp+1)).reverse.length := by omega
    have he : (m.take (cp+1)).reverse[acc] = m[cp - acc]'(by omega) := by
      rw [List.getElem_reverse, List.getElem_take]
      congr 1
      simp only [List.length_take]; omega
    simp only [extBack]
    rw [List.getElem?_eq_getElem (show cp - acc < m.length by omega), List.drop_eq_getElem_cons hlt, he]
    simp only [List.take_succ_cons, List.takeWhile_cons]
    cases hc : cont m[cp - acc] with
    | false => simp
    | true =>
      rw [if_pos rfl, if_pos rfl, ih (acc+1) (by omega)]
      simp only [List.length_cons]
      congr 1; omega

theorem forwLen_le (n : Nat) (r : List Char) : Line.forwLen n r ≤ r.length := by
  have := (List.takeWhile_sublist cont (l := r.drop n)).length_le
  simp only [Line.forwLen, List.length_drop] at *
  omega

theorem backLen_le (n : Nat) (l r : List Char) : Line.backLen n l r ≤ l.length := by
  have := (List.takeWhile_sublist cont (l := ((r.headD '\x00' :: l.reverse).take l.length).drop (min n l.length))).length_le
  simp only [Line.backLen, List.length_drop, List.length_take, List.length_cons, List.length_reverse] at *
  omega

theorem extForw_line (m : List Char) (p : Nat) (r j : List Char) (n : Nat) (h : m.drop p = r ++ '\x00' :: j) :
    extForw m p (r.length - min n r.length) (min n r.length) = some (Line.forwLen n r) := by
  have hl := congrArg List.length h
  simp only [List.length_drop, List.length_append, List.length_cons] at hl
  rw [extForw_spec _ _ _ _ (by omega)]
  rw [← List.drop_drop, h]
  rw [List.drop_append_of_le_length (by omega), List.take_left' (by simp)]
  simp only [Line.forwLen]
  congr 2
  by_cases hn : n ≤ r.length
  · rw [Nat.min_eq_left hn]
  · rw [Nat.min_eq_right (by omega), List.drop_eq_nil_of_le (by omega), List.drop_eq_nil_of_le (as := r) (by omega)]

theorem R.drop_cp (h : R size s a) : ∃ j, s.mem.drop s.cp = a.right ++ '\x00' :: j := by
  obtain ⟨j, hj⟩ := h.mem
  exact ⟨j, by rw [hj, h.cp, List.drop_left]⟩

theorem forwCount_spec (h : R size s a) (n : Nat) :
    forwCount s n = some (if a.right = [] then none else some (Line.forwLen n a.right)) := by
  simp only [forwCount]
  have e : s.ep - s.cp = a.right.length := by rw [h.ep, h.cp]; omega
  by_cases hr : a.right = []
  · rw [if_pos hr, if_pos (by rw [h.ep, h.cp, hr]; simp)]
  · have : 0 < a.right.length := List.length_pos_iff.2 hr
    rw [if_neg hr, if_neg (by rw [h.ep, h.cp]; omega), e]
    obtain ⟨j, hj⟩ := h.drop_cp
    rw [extForw_line _ _ _ j n hj]; rfl

theorem R.rev (h : R size s a) : (s.mem.take (s.cp + 1)).reverse = a.right.headD '\x00' :: a.left.reverse := by
  obtain ⟨j, hj⟩ := h.mem
  rw [hj, h.cp, List.take_append, List.take_of_length_le (by omega)]
  rw [show a.left.length + 1 - a.left.length = 1 by omega]
  cases a.right <;> simp

theorem backCount_spec (h : R size s a) (n : Nat) :
    backCount s n = some (if a.left = [] then none else some (Line.backLen n a.left a.right)) := by
  simp only [backCount]
  by_cases hr : a.left = []
  · rw [if_pos hr, if_pos (by rw [h.cp, hr]; rfl)]
  · have : 0 < a.left.length := List.length_pos_iff.2 hr
    rw [if_neg hr, if_neg (by rw [h.cp]; omega)]
    have hc := h.cp_le
    have he := h.ep_lt
    rw [extBack_spec _ _ (by rw [h.size]; omega) _ _ (by omega), h.rev]
    simp only [Option.map_some, Line.backLen]
    rw [List.drop_take, h.cp]

/-- Deleting `n` bytes to the right. -/
theorem delChar_spec (h : R size s a) (n : Nat) :
    ∃ s', delChar s n = some s' ∧ R size s' (a.cut (Line.forwLen n a.right)) := by
  simp only [delChar]
  rw [forwCount_spec h]
  by_cases hr : a.right = []
  · rw [if_pos hr]
    have hz : Line.forwLen n a.right = 0 := by have := forwLen_le n a.right; rw [hr] at this ⊢; simpa using this
    obtain ⟨s', h1, h2⟩ := del_spec h 0 (by omega)
    rw [hz]
    simp only [del, if_true] at h1
    cases h1
    exact ⟨s, rfl, h2⟩
  · rw [if_neg hr]
    exact del_spec h _ (forwLen_le _ _)

theorem mvForw_spec (h : R size s a) (n : Nat) :
    ∃ s', mvForw s n = some s' ∧ R size s' (a.moveTo (a.left.length + Line.forwLen n a.right)) := by
  simp only [mvForw]
  rw [forwCount_spec h]
  have hle := forwLen_le n a.right
  by_cases hr : a.right = []
  · rw [if_pos hr]
    have hz : Line.forwLen n a.right = 0 := by rw [hr] at hle ⊢; simpa using hle
    rw [hz]
    refine ⟨s, rfl, ?_⟩
    have : a.moveTo (a.left.length + 0) = a := by simp [Line.moveTo, Line.text]
    rw [this]; exact h
  · rw [if_neg hr]
    have := goto_spec h (a.left.length + Line.forwLen n a.right) (by simp [Line.text]; omega)
    simpa [h.cp] using this

theorem moveTo_left {a : Line} {n : Nat} (h : n ≤ a.left.length) :
    (a.moveTo (a.left.length - n)).left = a.left.take (a.left.length - n) ∧
    (a.moveTo (a.left.length - n)).right = a.left.drop (a.left.length - n) ++ a.right := by
  simp only [Line.moveTo, Line.text]
  rw [List.take_append_of_le_length (by omega), List.drop_append_of_le_length (by omega)]
  exact ⟨rfl, rfl⟩

theorem mvBack_spec (h : R size s a) (n : Nat) :
    ∃ s', mvBack s n = some s' ∧ R size s' (a.moveTo (a.left.length - Line.backLen n a.left a.right)) := by
  simp only [mvBack]
  rw [backCount_spec h]
  have hle := backLen_le n a.left a.right
  by_cases hr : a.left = []
  · rw [if_pos hr]
    refine ⟨s, rfl, ?_⟩
    have : a.moveTo (a.left.length - Line.backLen n a.left a.right) = a := by simp [Line.moveTo, Line.text, hr]; rw [← hr]
    rw [this]; exact h
  · rw [if_neg hr]
    have := goto_spec h (a.left.length - Line.backLen n a.left a.right) (by simp [Line.text]; omega)
    rwa [show ((a.left.length - Line.backLen n a.left a.right : Nat) : Int) = (s.cp : Int) - (Line.backLen n a.left a.right : Nat) by
      rw [h.cp]; omega] at this

theorem delBack_spec (h : R size s a) (n : Nat) :
    ∃ s', delBack s n = some s' ∧
      R size s' ((a.moveTo (a.left.length - Line.backLen n a.left a.right)).cut (Line.backLen n a.left a.right)) := by
  simp only [delBack]
  rw [backCount_spec h]
  have hle := backLen_le n a.left a.right
  by_cases hr : a.left = []
  · rw [if_pos hr]
    have hz : Line.backLen n a.left a.right = 0 := by rw [hr] at hle ⊢; simpa using hle
    obtain ⟨s', h1, h2⟩ := del_spec h 0 (by omega)
    simp only [del, if_true] at h1
    cases h1
    refine ⟨s, rfl, ?_⟩
    rw [hz]
    have : a.moveTo (a.left.length - 0) = a := by simp [Line.moveTo, Line.text]
    rw [this]; exact h2
  · rw [if_neg hr]
    obtain ⟨s1, h1, r1⟩ := goto_spec h (a.left.length - Line.backLen n a.left a.right) (by simp [Line.text]; omega)
    rw [show ((a.left.length - Line.backLen n a.left a.right : Nat) : Int) = (s.cp : Int) - (Line.backLen n a.left a.right : Nat) by
      rw [h.cp]; omega] at h1
    simp only [h1]
    exact del_spec r1 _ (by rw [(moveTo_left hle).2]; simp; omega)

/-! ## Words -/

theorem skipB_spec (m : List Char) (p : Char → Bool) : ∀ cp, cp ≤ m.length →
    ∃ q, skipB m p cp = some q ∧ q ≤ cp ∧ (m.take q).reverse = (m.take cp).reverse.dropWhile p := by
  intro cp
  induction cp with
  | zero => intro _; exact ⟨0, rfl, Nat.le_refl _, by simp⟩
  | succ cp ih =>
    intro hle
    have hlt : cp < m.length := by omega
    obtain ⟨q, h1, h2, h3⟩ := ih (by omega)
    simp only [skipB]
    rw [List.getElem?_eq_getElem hlt, List.take_succ_eq_append_getElem hlt, List.reverse_append]
    simp only [List.reverse_cons, List.reverse_nil, List.nil_append, List.cons_append, List.dropWhile_cons]
    cases hc : p m[cp] with
    | true => rw [if_pos rfl, if_pos rfl]; exact ⟨q, h1, by omega, h3⟩
    | false =>
      rw [if_neg (by simp), if_neg (by simp)]
      refine ⟨cp+1, rfl, Nat.le_refl _, ?_⟩
      rw [List.take_succ_eq_append_getElem hlt, List.reverse_append]; rfl

theorem bwordLoop_spec (m : List Char) : ∀ (n cp : Nat), cp ≤ m.length →
    ∃ q, bwordLoop m n cp = some q ∧ q ≤ cp ∧ (m.take q).reverse = Line.dropWords n (m.take cp).reverse := by
  intro n
  induction n with
  | zero => intro cp _; exact ⟨cp, rfl, Nat.le_refl _, rfl⟩
  | succ n ih =>
    intro cp hle
    obtain ⟨q1, a1, a2, a3⟩ := skipB_spec m mfs cp hle
    obtain ⟨q2, b1, b2, b3⟩ := skipB_spec m (fun c => !mfs c) q1 (by omega)
    obtain ⟨q3, c1, c2, c3⟩ := ih q2 (by omega)
    refine ⟨q3, ?_, by omega, ?_⟩
    · simp only [bwordLoop, a1, b1, c1]
    · rw [c3, b3, a3]; rfl

theorem dropWords_le (n : Nat) (r : List Char) : (Line.dropWords n r).length ≤ r.length := by
  induction n generalizing r with
  | zero => exact Nat.le_refl _
  | succ n ih =>
    have h1 := ih (Line.dropWord r)
    have h2 := (List.dropWhile_sublist mfs (l := r)).length_le
    have h3 := (List.dropWhile_sublist (fun c => !mfs c) (l := r.dropWhile mfs)).length_le
    simp only [Line.dropWords, Line.dropWord] at *
    omega

/-- The position after skipping `n` words to the left. -/
def Line.bwordPos (n : Nat) (a : Line) : Nat := (Line.dropWords n a.left.reverse).length

theorem R.take_cp (h : R size s a) : s.mem.take s.cp = a.left := by
  obtain ⟨j, hj⟩ := h.mem
  rw [hj, h.cp, List.take_left]

theorem dropWords_nil (n : Nat) : Line.dropWords n [] = [] := by
  induction n with
  | zero => rfl
  | succ n ih => simpa [Line.dropWords, Line.dropWord] using ih

theorem moveTo_self (a : Line) : a.moveTo a.left.length = a := by simp [Line.moveTo, Line.text]

theorem bwordPos_le (n : Nat) (a : Line) : a.bwordPos n ≤ a.left.length := by
  simpa [Line.bwordPos] using dropWords_le n a.left.reverse

theorem bword_spec (h : R size s a) (n : Nat) :
    ∃ s', bword s n = some (a.left.length - a.bwordPos n, s') ∧ R size s' (a.moveTo (a.bwordPos n)) := by
  simp only [bword]
  by_cases h0 : s.cp = 0
  · rw [if_pos h0]
    have hl : a.left = [] := by have := h.cp; rw [h0] at this; exact List.length_eq_zero_iff.1 this.symm
    have hz : a.bwordPos n = a.left.length := by simp [Line.bwordPos, hl, dropWords_nil]
    refine ⟨s, by simp [hl], ?_⟩
    rw [hz, moveTo_self]; exact h
  · rw [if_neg h0]
    have hc := h.cp_le
    have he := h.ep_lt
    obtain ⟨q, h1, h2, h3⟩ := bwordLoop_spec s.mem n s.cp (by rw [h.size]; omega)
    have hq : q = a.bwordPos n := by
      have := congrArg List.length h3
      rw [h.take_cp] at this
      simp only [List.length_reverse, List.length_take] at this
      rw [Nat.min_eq_left (by rw [h.size]; omega)] at this
      exact this
    obtain ⟨s', g1, g2⟩ := goto_spec h q (by rw [← h.ep']; omega)
    rw [← hq]
    refine ⟨s', ?_, g2⟩
    rw [h1]; simp only [g1, Option.map_some, h.cp]

theorem delBword_spec (h : R size s a) (n : Nat) :
    ∃ s', delBword s n = some s' ∧ R size s' ((a.moveTo (a.bwordPos n)).kill (a.left.length - a.bwordPos n)) := by
  obtain ⟨s1, h1, r1⟩ := bword_spec h n
  simp only [delBword, h1]
  have := bwordPos_le n a
  exact delPush_spec r1 _ (by simp [Line.moveTo, Line.text]; omega)

theorem mvBword_spec (h : R size s a) (n : Nat) :
    ∃ s', mvBword s n = some s' ∧ R size s' (a.moveTo (a.bwordPos n)) := by
  obtain ⟨s1, h1, r1⟩ := bword_spec h n
  exact ⟨s1, by simp [mvBword, h1], r1⟩

theorem skipF_spec (p : Char → Bool) : ∀ (r pre z : List Char) (k : Nat), r.length < k →
    skipF (pre ++ (r ++ z)) (pre.length + r.length) p k pre.length = some (pre.length + (r.takeWhile p).length) := by
  intro r
  induction r with
  | nil =>
    intro pre z k hk
    cases k with
    | zero => omega
    | succ k => simp [skipF]
  | cons c r ih =>
    intro pre z k hk
    cases k with
    | zero => omega
    | succ k =>
      simp only [skipF]
      rw [if_neg (by simp)]
      have : (pre ++ (c :: r ++ z))[pre.length]? = some c := by simp
      rw [this]
      simp only [List.takeWhile_cons]
      cases hc : p c with
      | false => simp
      | true =>
        rw [if_pos rfl, if_pos rfl]
        have := ih (pre ++ [c]) z k (by simpa using hk)
        simp only [List.append_assoc, List.cons_append, List.nil_append, List.length_append, List.length_cons,
          List.length_nil, Nat.zero_add] at this ⊢
        rw [show pre.length + (r.length + 1) = pre.length + 1 + r.length by omega, this]
        congr 1; omega

theorem fwordLoop_spec : ∀ (n : Nat) (r pre z : List Char),
    fwordLoop (pre ++ (r ++ z)) (pre.length + r.length) n pre.length =
      some (pre.length + (r.length - (Line.dropWords n r).length)) := by
  intro n
  induction n with
  | zero => intro r pre z; simp [fwordLoop, Line.dropWords]
  | succ n ih =>
    intro r pre z
    simp only [fwordLoop]
    rw [skipF_spec mfs r pre z _ (by simp; omega)]
    simp only
    have hsplit : r = r.takeWhile mfs ++ r.dropWhile mfs := List.takeWhile_append_dropWhile.symm
    generalize hb : r.takeWhile mfs = b at hsplit
    generalize hr1 : r.dropWhile mfs = r1 at hsplit
    have hsplit1 : r1 = r1.takeWhile (fun c => !mfs c) ++ r1.dropWhile (fun c => !mfs c) :=
      List.takeWhile_append_dropWhile.symm
    have e1 := skipF_spec (fun c => !mfs c) r1 (pre ++ b) z ((pre ++ (r ++ z)).length + 1) (by rw [hsplit]; simp; omega)
    rw [show (pre ++ b) ++ (r1 ++ z) = pre ++ (r ++ z) by rw [hsplit]; simp,
      show (pre ++ b).length + r1.length = pre.length + r.length by rw [hsplit]; simp; omega,
      List.length_append (as := pre) (bs := b)] at e1
    rw [e1]
    simp only
    generalize hw : r1.takeWhile (fun c => !mfs c) = w at hsplit1
    generalize hr2 : r1.dropWhile (fun c => !mfs c) = r2 at hsplit1
    have e2 := ih r2 (pre ++ b ++ w) z
    rw [show (pre ++ b ++ w) ++ (r2 ++ z) = pre ++ (r ++ z) by rw [hsplit, hsplit1]; simp,
      show (pre ++ b ++ w).length + r2.length = pre.length + r.length by rw [hsplit, hsplit1]; simp; omega,
      show (pre ++ b ++ w).length = pre.length + b.length + w.length by simp; omega] at e2
    rw [e2]
    have hle := dropWords_le n r2
    have : Line.dropWords (n+1) r = Line.dropWords n r2 := by simp only [Line.dropWords, Line.dropWord, hr1, hr2]
    rw [this]
    have hlen : r.length = b.length + (w.length + r2.length) := by rw [hsplit, hsplit1]; simp
    congr 1; omega

/-- How many bytes `n` words to the right are. -/
def Line.fwordLen (n : Nat) (a : Line) : Nat := a.right.length - (Line.dropWords n a.right).length

theorem fword_spec (h : R size s a) (n : Nat) : fword s n = some (a.fwordLen n) := by
  simp only [fword]
  by_cases h0 : s.cp = s.ep
  · rw [if_pos h0]
    have hr : a.right = [] := by
      have := h.cp; have := h.ep
      exact List.length_eq_zero_iff.1 (by omega)
    simp [Line.fwordLen, hr]
  · rw [if_neg h0]
    obtain ⟨j, hj⟩ := h.mem
    rw [hj, h.cp, h.ep, fwordLoop_spec]
    simp [Line.fwordLen]

theorem mvFword_spec (h : R size s a) (n : Nat) :
    ∃ s', mvFword s n = some s' ∧ R size s' (a.moveTo (a.left.length + a.fwordLen n)) := by
  simp only [mvFword, fword_spec h]
  have := goto_spec h (a.left.length + a.fwordLen n) (by simp [Line.text, Line.fwordLen])
  simpa [h.cp] using this

theorem delFword_spec (h : R size s a) (n : Nat) :
    ∃ s', delFword s n = some s' ∧ R size s' (a.kill (a.fwordLen n)) := by
  simp only [delFword, fword_spec h]
  exact delPush_spec h _ (by simp [Line.fwordLen])

/-! ## Case -/

theorem foldRest_spec (f : Fold) : ∀ (r pre z : List Char) (k : Nat), r.length < k →
    foldRest f (pre.length + r.length) k (pre ++ (r ++ z)) pre.length =
      some (pre ++ ((r.takeWhile (fun c => !mfs c)).map (foldNext f) ++ (r.dropWhile (fun c => !mfs c) ++ z)),
        pre.length + (r.takeWhile (fun c => !mfs c)).length) := by
  intro r
  induction r with
  | nil =>
    intro pre z k hk
    cases k with
    | zero => omega
    | succ k => simp [foldRest]
  | cons c r ih =>
    intro pre z k hk
    cases k with
    | zero => omega
    | succ k =>
      simp only [foldRest]
      rw [if_neg (by simp)]
      have : (pre ++ (c :: r ++ z))[pre.length]? = some c := by simp
      rw [this]
      simp only [List.takeWhile_cons, List.dropWhile_cons]
      cases hc : mfs c with
      | true => simp
      | false =>
        have := ih (pre ++ [foldNext f c]) z k (by simpa using hk)
        simp only [Bool.not_false, if_true, Bool.false_eq_true, if_false]
        have hs : (pre ++ (c :: r ++ z)).set pre.length (foldNext f c) = (pre ++ [foldNext f c]) ++ (r ++ z) := by
          simp
        rw [hs]
        simp only [List.length_append, List.length_cons, List.length_nil, Nat.zero_add] at this ⊢
        rw [show pre.length + (r.length + 1) = pre.length + 1 + r.length by omega, this]
        simp; omega

theorem toUpper_of (c : Char) : (if c.isLower then c.toUpper else c) = c.toUpper := by
  by_cases h : c.isLower = true
  · rw [if_pos h]
  · rw [if_neg h]
    simp only [Char.toUpper]
    rw [dif_neg]
    intro hc
    apply h
    simp only [Char.isLower, ge_iff_le, Bool.and_eq_true, decide_eq_true_eq]
    exact hc

theorem toLower_of (c : Char) : (if c.isUpper then c.toLower else c) = c.toLower := by
  by_cases h : c.isUpper = true
  · rw [if_pos h]
  · rw [if_neg h]
    simp only [Char.toLower]
    rw [dif_neg]
    intro hc
    apply h
    simp only [Char.isUpper, ge_iff_le, decide_eq_true_eq]
    exact hc

theorem foldWord_cons (f : Fold) (c : Char) (w : List Char) :
    Line.foldWord f (c :: w) = foldFirst f c :: w.map (foldNext f) := by
  cases f <;> simp [Line.foldWord, foldFirst, foldNext, toUpper_of, toLower_of]

theorem foldLoop_spec (f : Fold) : ∀ (n : Nat) (r pre z : List Char),
    foldLoop f (pre.length + r.length) n (pre ++ (r ++ z)) pre.length =
      some (pre ++ ((Line.foldWords f n r).1 ++ ((Line.foldWords f n r).2 ++ z)),
        pre.length + (Line.foldWords f n r).1.length) ∧
    (Line.foldWords f n r).1.length + (Line.foldWords f n r).2.length = r.length := by
  intro n
  induction n with
  | zero => intro r pre z; simp [foldLoop, Line.foldWords]
  | succ n ih =>
    intro r pre z
    simp only [foldLoop]
    rw [skipF_spec mfs r pre z _ (by simp; omega)]
    simp only [Line.foldWords]
    have hsplit : r = r.takeWhile mfs ++ r.dropWhile mfs := List.takeWhile_append_dropWhile.symm
    have hhead : ∀ c r', r.dropWhile mfs = c :: r' → mfs c = false := by
      intro c r' h
      have := List.head?_dropWhile_not mfs r
      rw [h] at this
      simpa using this
    generalize hb : r.takeWhile mfs = b at hsplit
    generalize hr1 : r.dropWhile mfs = r1 at hsplit hhead
    cases r1 with
    | nil =>
      simp only [List.append_nil] at hsplit
      have i1 := ih [] (pre ++ r) z
      simp only [List.takeWhile_nil, List.dropWhile_nil]
      have hf1 : (Line.foldWords f n []).1 = [] := List.length_eq_zero_iff.1 (by have := i1.2; simp at this; simp [this])
      have hf2 : (Line.foldWords f n []).2 = [] := List.length_eq_zero_iff.1 (by have := i1.2; simp at this; simp [this])
      have hw : Line.foldWord f [] = [] := by cases f <;> rfl
      rw [hf1, hf2, hw]
      refine ⟨?_, by simp [hsplit]⟩
      rw [← hsplit]
      simp only [foldOne, if_true]
      have e := foldRest_spec f [] (pre ++ r) z ((pre ++ (r ++ z)).length + 1) (by simp)
      simp only [List.length_nil, Nat.add_zero, List.nil_append, List.append_assoc, List.length_append,
        List.takeWhile_nil, List.dropWhile_nil, List.map_nil] at e
      simp only [List.length_append]
      rw [e]
      have i := i1.1
      rw [hf1, hf2] at i
      simp only [List.length_nil, Nat.add_zero, List.nil_append, List.append_assoc, List.length_append] at i
      simp only
      rw [i]
      simp
    | cons c r1 =>
      have hc : mfs c = false := hhead c r1 rfl
      have hsub : r.length = b.length + (r1.length + 1) := by rw [hsplit]; simp
      simp only [foldOne]
      rw [if_neg (by omega)]
      have hg : (pre ++ (r ++ z))[pre.length + b.length]? = some c := by
        rw [hsplit, show pre ++ (b ++ c :: r1 ++ z) = (pre ++ b) ++ (c :: r1 ++ z) by simp,
          show pre.length + b.length = (pre ++ b).length by simp]
        simp
      rw [hg]
      simp only
      have hs : (pre ++ (r ++ z)).set (pre.length + b.length) (foldFirst f c) = (pre ++ b ++ [foldFirst f c]) ++ (r1 ++ z) := by
        rw [hsplit, show pre ++ (b ++ c :: r1 ++ z) = (pre ++ b) ++ (c :: r1 ++ z) by simp,
          show pre.length + b.length = (pre ++ b).length by simp]
        simp
      rw [hs]
      have e := foldRest_spec f r1 (pre ++ b ++ [foldFirst f c]) z
        ((pre ++ b ++ [foldFirst f c] ++ (r1 ++ z)).length + 1) (by simp; omega)
      rw [show (pre ++ b ++ [foldFirst f c]).length = pre.length + b.length + 1 by simp; omega] at e
      rw [show pre.length + b.length + 1 + r1.length = pre.length + r.length by omega] at e
      rw [e]
      simp only [List.takeWhile_cons, List.dropWhile_cons, hc, Bool.not_false, if_true]
      have hsplit1 : r1 = r1.takeWhile (fun c => !mfs c) ++ r1.dropWhile (fun c => !mfs c) :=
        List.takeWhile_append_dropWhile.symm
      generalize hw : r1.takeWhile (fun c => !mfs c) = w at hsplit1
      generalize hr2 : r1.dropWhile (fun c => !mfs c) = r2 at hsplit1
      have hl1 : r1.length = w.length + r2.length := by rw [hsplit1]; simp
      obtain ⟨i1, i2⟩ := ih r2 (pre ++ b ++ [foldFirst f c] ++ w.map (foldNext f)) z
      rw [show (pre ++ b ++ [foldFirst f c] ++ w.map (foldNext f)).length = pre.length + b.length + 1 + w.length by simp; omega,
        show pre.length + b.length + 1 + w.length + r2.length = pre.length + r.length by omega,
        show (pre ++ b ++ [foldFirst f c] ++ w.map (foldNext f)) ++ (r2 ++ z) =
          pre ++ b ++ [foldFirst f c] ++ (w.map (foldNext f) ++ (r2 ++ z)) by simp] at i1
      rw [i1, foldWord_cons]
      constructor
      · simp only [Option.some.injEq, Prod.mk.injEq]
        constructor
        · simp
        · simp; omega
      · simp only [List.length_append, List.length_cons, List.length_map]; omega

/-- The line with `n` words in another case. -/
def Line.fold (f : Fold) (n : Nat) (a : Line) : Line :=
  { a with left := a.left ++ (Line.foldWords f n a.right).1, right := (Line.foldWords f n a.right).2 }

theorem foldNul (c : Char) (h : c ≠ '\x00') : Char.toUpper c ≠ '\x00' ∧ Char.toLower c ≠ '\x00' := by
  have key : ∀ n : Fin 128, n.val ≠ 0 → (Char.ofNat n.val).toUpper ≠ '\x00' ∧ (Char.ofNat n.val).toLower ≠ '\x00' := by
    decide
  by_cases hc : c.toNat < 128
  · have := key ⟨c.toNat, hc⟩ (fun h0 => h (by
      have e : c = Char.ofNat c.toNat := (Char.ofNat_toNat c).symm
      simp only at h0
      rw [h0] at e; exact e))
    simpa [Char.ofNat_toNat] using this
  · have hb : c.val.toNat = c.toNat := rfl
    constructor
    · rw [← toUpper_of, if_neg]
      · exact h
      · intro hl
        simp only [Char.isLower, ge_iff_le, Bool.and_eq_true, decide_eq_true_eq, UInt32.le_iff_toNat_le] at hl
        have : c.val.toNat ≤ 122 := hl.2
        omega
    · rw [← toLower_of, if_neg]
      · exact h
      · intro hl
        simp only [Char.isUpper, ge_iff_le, decide_eq_true_eq, UInt32.le_iff_toNat_le] at hl
        have : c.val.toNat ≤ 90 := hl.2
        omega

theorem foldWord_nul (f : Fold) (w : List Char) (h : NoNul w) : NoNul (Line.foldWord f w) := by
  have up : ∀ l : List Char, NoNul l → NoNul (l.map Char.toUpper) := by
    intro l hl hm
    obtain ⟨c, hc, e⟩ := List.mem_map.1 hm
    exact (foldNul c (fun hh => hl (hh ▸ hc))).1 e
  have lo : ∀ l : List Char, NoNul l → NoNul (l.map Char.toLower) := by
    intro l hl hm
    obtain ⟨c, hc, e⟩ := List.mem_map.1 hm
    exact (foldNul c (fun hh => hl (hh ▸ hc))).2 e
  cases f with
  | upper => exact up w h
  | lower => exact lo w h
  | cap =>
    simp only [Line.foldWord]
    intro hm
    rcases List.mem_append.1 hm with hm | hm
    · exact up _ (fun hc => h (List.mem_of_mem_take hc)) hm
    · exact lo _ (fun hc => h (List.mem_of_mem_drop hc)) hm

theorem foldWords_nul (f : Fold) : ∀ (n : Nat) (r : List Char), NoNul r →
    NoNul (Line.foldWords f n r).1 ∧ NoNul (Line.foldWords f n r).2 := by
  intro n
  induction n with
  | zero => intro r h; exact ⟨by simp [NoNul, Line.foldWords], h⟩
  | succ n ih =>
    intro r h
    have h1 : NoNul (r.dropWhile mfs) := fun hm => h ((List.dropWhile_sublist _).subset hm)
    have h2 : NoNul ((r.dropWhile mfs).dropWhile (fun c => !mfs c)) := fun hm => h1 ((List.dropWhile_sublist _).subset hm)
    have h3 : NoNul ((r.dropWhile mfs).takeWhile (fun c => !mfs c)) := fun hm => h1 ((List.takeWhile_sublist _).subset hm)
    obtain ⟨i1, i2⟩ := ih _ h2
    simp only [Line.foldWords]
    refine ⟨?_, i2⟩
    intro hm
    rcases List.mem_append.1 hm with hm | hm
    · rcases List.mem_append.1 hm with hm | hm
      · exact h ((List.takeWhile_sublist _).subset hm)
      · exact foldWord_nul f _ h3 hm
    · exact i1 hm

theorem foldCase_spec (h : R size s a) (f : Fold) (n : Nat) :
    ∃ s', foldCase s f n = some s' ∧ R size s' (a.fold f n) := by
  obtain ⟨n1, n2⟩ := foldWords_nul f n a.right h.nr
  obtain ⟨j, hj⟩ := h.mem
  obtain ⟨e1, e2⟩ := foldLoop_spec f n a.right a.left ('\x00' :: j)
  simp only [foldCase]
  by_cases h0 : s.cp = s.ep
  · rw [if_pos h0]
    have hr : a.right = [] := by
      have := h.cp; have := h.ep
      exact List.length_eq_zero_iff.1 (by omega)
    refine ⟨s, rfl, ?_⟩
    have : a.fold f n = a := by
      rw [hr] at e2
      simp only [List.length_nil] at e2
      simp only [Line.fold, hr]
      rw [List.length_eq_zero_iff.1 (show (Line.foldWords f n []).1.length = 0 by omega),
        List.length_eq_zero_iff.1 (show (Line.foldWords f n []).2.length = 0 by omega), List.append_nil, ← hr]
    rw [this]; exact h
  · rw [if_neg h0, hj, h.cp, h.ep, e1]
    have hlen := congrArg List.length hj
    rw [h.size] at hlen
    simp only [List.length_append, List.length_cons] at hlen
    refine ⟨{ s with mem := a.left ++ ((Line.foldWords f n a.right).1 ++ ((Line.foldWords f n a.right).2 ++ '\x00' :: j)),
                     cp := a.left.length + (Line.foldWords f n a.right).1.length }, ?_, ?_⟩
    · simp only [goto]
      rw [if_neg (by simp only [List.length_append, List.length_cons]; omega)]
      simp [h.ep]; omega
    · refine { h with mem := ⟨j, ?_⟩, size := ?_, cp := ?_, ep := ?_, nl := ?_, nr := ?_ }
      · simp [Line.fold]
      · simp only [List.length_append, List.length_cons]; omega
      · simp [Line.fold]
      · simp only [Line.fold, List.length_append]; rw [h.ep]; omega
      · intro hm
        rcases List.mem_append.1 hm with hm | hm
        · exact h.nl hm
        · exact n1 hm
      · exact n2

end Ksh.Emacs
