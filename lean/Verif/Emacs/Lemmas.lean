import Verif.Emacs.Spec
/-!
# The buffer and the line

`R` relates the buffer with its pointers and the array of killed texts to a line.  Every
primitive of emacs.c keeps it.
-/

namespace Ksh.Emacs

def NoNul (w : List Char) : Prop := '\x00' ∉ w

/-- The array of killed texts, read backwards from `killsp`, is the list. -/
structure Ring (ring : List (Option (List Char))) (sp : Nat) (kills : List (List Char)) : Prop where
  len : ring.length = 20
  sp_lt : sp < 20
  get : ∀ k, k < 20 → ring[(sp + 19 - k) % 20]? = some kills[(k : Nat)]?
  le : kills.length ≤ 20
  nonul : ∀ w ∈ kills, NoNul w

/-- The editor holds the line, in a buffer of `size` bytes. -/
structure R (size : Nat) (s : Ed) (a : Line) : Prop where
  mem : ∃ junk, s.mem = a.left ++ (a.right ++ '\x00' :: junk)
  size : s.mem.length = size
  cp : s.cp = a.left.length
  ep : s.ep = a.left.length + a.right.length
  nl : NoNul a.left
  nr : NoNul a.right
  mark : s.mark = a.mark
  ring : Ring s.ring s.sp a.kills
  histp : s.histp = a.histp
  yanked : s.yanked = a.yanked
  fit : s.fit = a.fit

/-- Between commands: after a yank `killtp` and the text before the cursor are the text yanked. -/
structure Y (s : Ed) (a : Line) : Prop where
  tp : a.yanked = true → s.tp = (s.sp + 19 - a.cur) % 20 ∧ a.cur < 20
  suf : a.yanked = true → a.fit = true → ∀ k, a.kills[a.cur]? = some k → k <:+ a.left

variable {size : Nat} {s : Ed} {a : Line}

theorem R.ep_lt (h : R size s a) : s.ep < size := by
  obtain ⟨j, hj⟩ := h.mem
  have := congrArg List.length hj
  rw [h.size] at this
  simp only [List.length_append, List.length_cons] at this
  rw [h.ep]; omega

theorem R.text_lt (h : R size s a) : a.text.length < size := by
  have := h.ep_lt; rw [h.ep] at this; simpa [Line.text] using this

theorem R.cp_le (h : R size s a) : s.cp ≤ s.ep := by rw [h.cp, h.ep]; omega

theorem goto_spec (h : R size s a) (p : Nat) (hp : p ≤ a.text.length) :
    ∃ s', goto s p = some s' ∧ R size s' (a.moveTo p) := by
  have hlt := h.text_lt
  refine ⟨{ s with cp := p }, ?_, ?_⟩
  · simp only [goto]
    rw [if_neg (by rw [h.size]; omega)]; simp
  · obtain ⟨j, hj⟩ := h.mem
    refine { h with mem := ⟨j, ?_⟩, cp := ?_, ep := ?_, nl := ?_, nr := ?_ }
    · simp only [Line.moveTo]
      rw [← List.append_assoc, List.take_append_drop, hj, Line.text, List.append_assoc]
    · simp only [Line.moveTo, List.length_take]; omega
    · simp only [Line.moveTo, List.length_take, List.length_drop]
      rw [h.ep]; simp only [Line.text, List.length_append] at *; omega
    · intro hm; have := List.mem_of_mem_take hm
      simp only [Line.text, List.mem_append] at this
      exact this.elim h.nl h.nr
    · intro hm; have := List.mem_of_mem_drop hm
      simp only [Line.text, List.mem_append] at this
      exact this.elim h.nl h.nr

theorem doIns_mem (l r x j : List Char) (hroom : x.length ≤ j.length) :
    ∃ m1, memmove (l ++ (r ++ '\x00' :: j)) (l.length + x.length) l.length ((l.length + r.length : Nat) - l.length + 1 : Int)
      = some m1 ∧ memput m1 l.length x = some ((l ++ x) ++ (r ++ '\x00' :: j.drop x.length)) := by
  have hn : (((l.length + r.length : Nat) : Int) - l.length + 1).toNat = r.length + 1 := by omega
  refine ⟨(l ++ (r ++ '\x00' :: j)).take (l.length + x.length) ++ (r ++ ['\x00']) ++ j.drop x.length, ?_, ?_⟩
  · simp only [memmove]
    rw [if_neg (by simp only [List.length_append, List.length_cons]; omega), hn]
    congr 1
    congr 1
    · congr 1
      rw [List.drop_left]
      rw [show r ++ '\x00' :: j = (r ++ ['\x00']) ++ j by simp, List.take_left' (by simp)]
    · rw [show l.length + x.length + (r.length + 1) = (l ++ (r ++ ['\x00'])).length + x.length by simp; omega,
        show l ++ (r ++ '\x00' :: j) = (l ++ (r ++ ['\x00'])) ++ j by simp, List.drop_append]
      simp
  · have hl : ((l ++ (r ++ '\x00' :: j)).take (l.length + x.length)).length = l.length + x.length := by
      simp only [List.length_take, List.length_append, List.length_cons]; omega
    simp only [memput]
    rw [if_neg (by simp only [List.length_append, List.length_cons, hl]; omega)]
    congr 1
    have h1 : ((l ++ (r ++ '\x00' :: j)).take (l.length + x.length) ++ (r ++ ['\x00']) ++ j.drop x.length).take l.length = l := by
      rw [List.append_assoc, List.take_append_of_le_length (by omega), List.take_take, Nat.min_eq_left (by omega), List.take_left]
    have h2 : ((l ++ (r ++ '\x00' :: j)).take (l.length + x.length) ++ (r ++ ['\x00']) ++ j.drop x.length).drop (l.length + x.length)
        = r ++ ['\x00'] ++ j.drop x.length := by
      rw [List.append_assoc, List.drop_left' hl]
    rw [h1, h2]; simp

theorem doIns_spec (h : R size s a) (x : List Char) (hx : NoNul x) :
    ∃ s', doIns s x = some (decide (a.text.length + x.length < size), s') ∧ R size s' (a.ins size x) := by
  have hep : s.ep = a.text.length := by rw [h.ep]; simp [Line.text]
  by_cases hroom : a.text.length + x.length < size
  · obtain ⟨j, hj⟩ := h.mem
    have hlen := congrArg List.length hj
    rw [h.size] at hlen
    simp only [List.length_append, List.length_cons] at hlen
    simp only [Line.text, List.length_append] at hroom hep
    obtain ⟨m1, h1, h2⟩ := doIns_mem a.left a.right x j (by omega)
    refine ⟨{ s with mem := (a.left ++ x) ++ (a.right ++ '\x00' :: j.drop x.length), cp := a.left.length + x.length,
                     ep := a.left.length + a.right.length + x.length, fit := true }, ?_, ?_⟩
    · simp only [doIns]
      rw [if_neg (by rw [h.size]; omega), hj, h.cp, h.ep]
      simp only [h1, h2]
      simp [Line.text, hroom]
    · simp only [Line.ins, Line.text, List.length_append]
      rw [if_pos (by omega)]
      refine { h with mem := ⟨_, rfl⟩, size := ?_, cp := ?_, ep := ?_, nl := ?_, fit := rfl }
      · simp only [List.length_append, List.length_cons, List.length_drop]; omega
      · simp
      · simp; omega
      · intro hm
        simp only [List.mem_append] at hm
        exact hm.elim h.nl hx
  · refine ⟨{ s with fit := false }, ?_, ?_⟩
    · simp only [doIns]
      rw [if_pos (by rw [h.size, hep]; omega)]
      simp [hroom]
    · simp only [Line.ins]
      rw [if_neg hroom]
      exact { h with fit := rfl }

theorem ins_spec (h : R size s a) (x : List Char) (hx : NoNul x) :
    ∃ s', ins s x = some s' ∧ R size s' (a.ins size x) := by
  obtain ⟨s', h1, h2⟩ := doIns_spec h x hx
  exact ⟨s', by simp [ins, h1], h2⟩

theorem cstrN_spec : ∀ (n : Nat) (r j : List Char), NoNul r → n ≤ r.length →
    cstrN (r ++ '\x00' :: j) n = some (r.take n) := by
  intro n
  induction n with
  | zero => intro r j _ _; simp [cstrN]
  | succ n ih =>
    intro r j hr hn
    cases r with
    | nil => simp at hn
    | cons c r =>
      simp only [NoNul, List.mem_cons, not_or] at hr
      simp only [List.cons_append, cstrN]
      rw [if_neg (Ne.symm hr.1), ih r j hr.2 (by simpa using hn)]
      rfl

theorem Ring.push {ring : List (Option (List Char))} {sp : Nat} {kills : List (List Char)} (h : Ring ring sp kills)
    (k : List Char) (hk : NoNul k) :
    Ring (ring.set sp (some k)) ((sp + 1) % 20) ((k :: kills).take 20) := by
  refine ⟨by simp [h.len], by omega, ?_, by simp; omega, ?_⟩
  · intro i hi
    have hsp := h.sp_lt
    rw [List.getElem?_take, if_pos hi]
    rw [show ((sp + 1) % 20 + 19 - i) % 20 = (sp + 20 - i) % 20 by omega]
    cases i with
    | zero =>
      rw [show (sp + 20 - 0) % 20 = sp by omega]
      simp [h.len, hsp]
    | succ i =>
      rw [List.getElem?_set, if_neg (by omega)]
      rw [show (sp + 20 - (i+1)) % 20 = (sp + 19 - i) % 20 by omega, h.get i (by omega)]
      rfl
  · intro w hw
    have := List.mem_of_mem_take hw
    simp only [List.mem_cons] at this
    rcases this with rfl | hw
    · exact hk
    · exact h.nonul w hw

theorem push_spec (h : R size s a) (n : Nat) (hn : n ≤ a.right.length) :
    ∃ s', push s n = some s' ∧ R size s' (a.remember (a.right.take n)) := by
  obtain ⟨j, hj⟩ := h.mem
  have hk : NoNul (a.right.take n) := fun hm => h.nr (List.mem_of_mem_take hm)
  refine ⟨{ s with ring := s.ring.set s.sp (some (a.right.take n)), sp := (s.sp + 1) % killSize }, ?_, ?_⟩
  · simp only [push]
    rw [hj, h.cp, List.drop_left, cstrN_spec n _ _ h.nr hn]
    simp only
    rw [if_pos (by rw [h.ring.len]; exact h.ring.sp_lt)]
  · refine { h with ring := ?_ }
    · exact h.ring.push _ hk

theorem moveMark_shift (p n : Nat) (m : Option Nat) : moveMark p n m = m.map (Line.shift p n) := by
  cases m with
  | none => rfl
  | some m =>
    simp only [moveMark, Option.map_some, Line.shift]
    repeat' split
    all_goals first | rfl | omega

theorem cutOut_mem (l r j : List Char) (n : Nat) (hn : n ≤ r.length) :
    memmove (l ++ (r ++ '\x00' :: j)) l.length (l.length + n) (((l.length + r.length - n : Nat) : Int) - l.length + 1)
      = some (l ++ (r.drop n ++ '\x00' :: (r ++ '\x00' :: j).drop (r.length - n + 1))) := by
  have hk : (((l.length + r.length - n : Nat) : Int) - l.length + 1).toNat = r.length - n + 1 := by omega
  simp only [memmove]
  rw [if_neg (by simp only [List.length_append, List.length_cons]; omega), hk]
  congr 1
  rw [List.take_left, List.append_assoc]
  congr 1
  have e1 : (l ++ (r ++ '\x00' :: j)).drop (l.length + n) = r.drop n ++ '\x00' :: j := by
    rw [List.drop_append, List.drop_eq_nil_of_le (by omega)]
    rw [show l.length + n - l.length = n by omega, List.drop_append_of_le_length hn]; rfl
  have e2 : (l ++ (r ++ '\x00' :: j)).drop (l.length + (r.length - n + 1)) = (r ++ '\x00' :: j).drop (r.length - n + 1) := by
    rw [List.drop_append, List.drop_eq_nil_of_le (by omega)]
    rw [show l.length + (r.length - n + 1) - l.length = r.length - n + 1 by omega]; rfl
  rw [e1, e2, show r.drop n ++ '\x00' :: j = (r.drop n ++ ['\x00']) ++ j by simp, List.take_left' (by simp)]
  simp

theorem cutOut_spec (h : R size s a) (n : Nat) (hn : n ≤ a.right.length) :
    ∃ s', cutOut { s with mark := moveMark s.cp n s.mark } n = some s' ∧ R size s' (a.cut n) := by
  obtain ⟨j, hj⟩ := h.mem
  have hlen := congrArg List.length hj
  rw [h.size] at hlen
  simp only [List.length_append, List.length_cons] at hlen
  refine ⟨{ s with mark := moveMark s.cp n s.mark, ep := s.ep - n, mem := a.left ++ (a.right.drop n ++ '\x00' :: (a.right ++ '\x00' :: j).drop (a.right.length - n + 1)) }, ?_, ?_⟩
  · simp only [cutOut]
    rw [if_neg (by rw [h.ep, h.cp, h.size]; omega), hj, h.cp, h.ep, cutOut_mem _ _ _ _ hn]
  · refine { h with mem := ⟨_, rfl⟩, size := ?_, ep := ?_, nr := ?_, mark := ?_ }
    · simp only [List.length_append, List.length_cons, List.length_drop]; omega
    · simp only [Line.cut, List.length_drop]; rw [h.ep]; omega
    · intro hm; exact h.nr (List.mem_of_mem_drop hm)
    · simp only [Line.cut]; rw [← h.mark, moveMark_shift, h.cp]

theorem del_spec (h : R size s a) (n : Nat) (hn : n ≤ a.right.length) :
    ∃ s', del s n false = some s' ∧ R size s' (a.cut n) := by
  simp only [del]
  by_cases h0 : n = 0
  · rw [if_pos h0]
    subst h0
    refine ⟨s, rfl, ?_⟩
    have : a.cut 0 = a := by
      simp only [Line.cut, List.drop_zero]
      have : a.mark.map (Line.shift a.left.length 0) = a.mark := by
        cases a.mark with
        | none => rfl
        | some m => simp only [Option.map_some, Line.shift]; congr 1; split <;> first | rfl | (split <;> omega)
      rw [this]
    rw [this]; exact h
  · rw [if_neg h0]
    simp only [Bool.false_eq_true, if_false]
    exact cutOut_spec h n hn

theorem delPush_spec (h : R size s a) (n : Nat) (hn : n ≤ a.right.length) :
    ∃ s', del s n true = some s' ∧ R size s' (a.kill n) := by
  simp only [del, Line.kill]
  by_cases h0 : n = 0
  · rw [if_pos h0, if_pos h0]; exact ⟨s, rfl, h⟩
  · rw [if_neg h0, if_neg h0]
    obtain ⟨s1, h1, r1⟩ := push_spec h n hn
    have hp : push { s with mark := moveMark s.cp n s.mark } n = some { s1 with mark := moveMark s1.cp n s1.mark } := by
      simp only [push] at h1 ⊢
      cases hc : cstrN (s.mem.drop s.cp) n with
      | none => rw [hc] at h1; cases h1
      | some k =>
        rw [hc] at h1
        simp only at h1 ⊢
        by_cases hlt : s.sp < s.ring.length
        · rw [if_pos hlt] at h1 ⊢; cases h1; rfl
        · rw [if_neg hlt] at h1; cases h1
    simp only [if_true, hp]
    exact cutOut_spec r1 n hn

end Ksh.Emacs
