import Verif.History.Vis
/-!
# `fc -s old=new`

The argument handling of `c_fc` (history.c:136-158) and the loop of `hist_replace`
(history.c:344-389), with `strstr`.
-/
namespace Ksh.History

/-- strstr(3): the text before the first place where `pat` begins, and the text from there. -/
def strstr (pat : Bytes) : Bytes → Option (Bytes × Bytes)
  | [] => if pat.isPrefixOf [] then some ([], []) else none
  | c :: s =>
    if pat.isPrefixOf (c :: s) then some ([], c :: s)
    else
      match strstr pat s with
      | some (a, b) => some (c :: a, b)
      | none => none

/-- The loop, history.c:361-371.  The first argument bounds the number of rounds; the
pattern is not empty (see `splitArg`), so every round shortens the text. -/
def replLoop (pat rep : Bytes) (global : Bool) : Nat → Bool → Bytes → Bytes → Bool × Bytes
  | 0, any, out, s => (any, out ++ s)
  | k + 1, any, out, s =>
    match strstr pat s with
    | some (a, s1) =>
      if !any || global then replLoop pat rep global k true (out ++ a ++ rep) (s1.drop pat.length)
      else (any, out ++ s)
    | none => (any, out ++ s)

/-- hist_replace, history.c:344-389, up to the execution: `none` is "substitution failed". -/
def replace (line : Bytes) (sub : Option (Bytes × Bytes)) (global : Bool) : Option Bytes :=
  match sub with
  | none => some line
  | some (pat, rep) =>
    match replLoop pat rep global (line.length + 1) false [] line with
    | (true, out) => some out
    | (false, _) => none

/-- `if (*wp && **wp && (p = strchr(*wp + 1, '=')))`, history.c:137-143: pattern and
replacement, if the argument has a `=` after its first byte. -/
def splitArg : Bytes → Option (Bytes × Bytes)
  | [] => none
  | c :: s => if 0x3d ∈ s then some (c :: s.takeWhile (· != 0x3d), (s.dropWhile (· != 0x3d)).drop 1) else none

/-! ### Specification -/

/-- `pat` begins at position `i` of `s`. -/
def At (pat s : Bytes) (i : Nat) : Prop := ∃ a b, s = a ++ pat ++ b ∧ a.length = i

/-- `a ++ pat ++ b` with the first occurrence of the pattern shown. -/
def First (pat s a b : Bytes) : Prop := s = a ++ pat ++ b ∧ ∀ i < a.length, ¬ At pat s i

/-- The pieces, joined by the separator. -/
def join (sep : Bytes) : List Bytes → Bytes
  | [] => []
  | [p] => p
  | p :: q :: l => p ++ sep ++ join sep (q :: l)

/-- The pieces around the occurrences of the pattern, taken left to right: each but the
last is followed by an occurrence, and the pattern begins nowhere before it; it does not occur in
the last. -/
def Cut (pat : Bytes) : List Bytes → Prop
  | [] => False
  | [p] => ∀ i, ¬ At pat p i
  | p :: q :: l => (∀ i < p.length, ¬ At pat (p ++ pat) i) ∧ Cut pat (q :: l)

theorem isPrefixOf_iff (p s : Bytes) : p.isPrefixOf s = true ↔ ∃ b, s = p ++ b := by
  rw [List.isPrefixOf_iff_prefix]
  constructor
  · rintro ⟨b, h⟩; exact ⟨b, h.symm⟩
  · rintro ⟨b, h⟩; exact ⟨b, h.symm⟩

theorem at_cons {pat : Bytes} {c : Byte} {s : Bytes} {i : Nat} : At pat (c :: s) (i + 1) ↔ At pat s i := by
  constructor
  · rintro ⟨a, b, h1, h2⟩
    cases a with
    | nil => simp at h2
    | cons d a =>
      simp only [List.cons_append, List.cons.injEq] at h1
      exact ⟨a, b, h1.2, by simpa using h2⟩
  · rintro ⟨a, b, h1, h2⟩
    exact ⟨c :: a, b, by simp [h1], by simp [h2]⟩

theorem at_zero {pat s : Bytes} : At pat s 0 ↔ pat.isPrefixOf s = true := by
  rw [isPrefixOf_iff]
  constructor
  · rintro ⟨a, b, h1, h2⟩
    have : a = [] := List.length_eq_zero_iff.1 h2
    subst this
    exact ⟨b, h1⟩
  · rintro ⟨b, h⟩
    exact ⟨[], b, by simpa using h, rfl⟩

theorem strstr_spec (pat s : Bytes) :
    (∃ a b, strstr pat s = some (a, pat ++ b) ∧ First pat s a b) ∨ (strstr pat s = none ∧ ∀ i, ¬ At pat s i) := by
  induction s with
  | nil =>
    simp only [strstr]
    split
    · rename_i h
      obtain ⟨b, hb⟩ := (isPrefixOf_iff _ _).1 h
      refine Or.inl ⟨[], b, by rw [← hb], by simpa using hb, by simp⟩
    · rename_i h
      refine Or.inr ⟨rfl, ?_⟩
      rintro i ⟨a, b, h1, h2⟩
      have := congrArg List.length h1
      simp only [List.length_nil, List.length_append] at this
      have hp : pat = [] := List.length_eq_zero_iff.1 (by omega)
      subst hp
      simp at h
  | cons c s ih =>
    simp only [strstr]
    split
    · rename_i h
      obtain ⟨b, hb⟩ := (isPrefixOf_iff _ _).1 h
      exact Or.inl ⟨[], b, by rw [← hb], by simpa using hb, by simp⟩
    · rename_i h
      have h0 : ¬ At pat (c :: s) 0 := fun e => h (at_zero.1 e)
      rcases ih with ⟨a, b, e, f1, f2⟩ | ⟨e, f⟩
      · refine Or.inl ⟨c :: a, b, by rw [e], by simp [f1], ?_⟩
        intro i hi
        cases i with
        | zero => exact h0
        | succ i => rw [at_cons]; exact f2 i (by simpa using hi)
      · refine Or.inr ⟨by rw [e], ?_⟩
        intro i
        cases i with
        | zero => exact h0
        | succ i => rw [at_cons]; exact f i

theorem first_iff_short {pat s a b : Bytes} (h : First pat s a b) : ∀ i < a.length, ¬ At pat (a ++ pat) i := by
  rintro i hi ⟨x, y, h1, h2⟩
  refine h.2 i hi ⟨x, y ++ b, ?_, h2⟩
  rw [h.1, h1]
  simp

/-- All further occurrences, in a global substitution. -/
theorem replLoop_global (pat rep : Bytes) (hp : pat ≠ []) (k : Nat) (out s : Bytes) (hk : s.length < k) :
    ∃ parts, Cut pat parts ∧ s = join pat parts ∧ replLoop pat rep true k true out s = (true, out ++ join rep parts) := by
  induction k generalizing out s with
  | zero => omega
  | succ k ih =>
    rcases strstr_spec pat s with ⟨a, b, e, hf⟩ | ⟨e, hf⟩
    · have hlen : b.length < k := by
        have := congrArg List.length hf.1
        simp only [List.length_append] at this
        have := List.length_pos_iff.2 hp
        omega
      obtain ⟨parts, h1, h2, h3⟩ := ih (out ++ a ++ rep) b hlen
      refine ⟨a :: parts, ?_, ?_, ?_⟩
      · cases parts with
        | nil => exact h1.elim
        | cons q l => exact ⟨first_iff_short hf, h1⟩
      · cases parts with
        | nil => exact h1.elim
        | cons q l => simp only [join, ← h2]; exact hf.1
      · simp only [replLoop, e, Bool.or_true, if_true, List.drop_left, h3]
        cases parts with
        | nil => exact h1.elim
        | cons q l => simp [join]
    · exact ⟨[s], hf, rfl, by simp [replLoop, e, join]⟩

/-- **C42** `fc -s old=new` fails exactly if `old` does not occur in the command. -/
theorem replace_fails (line pat rep : Bytes) (global : Bool) :
    replace line (some (pat, rep)) global = none ↔ ∀ i, ¬ At pat line i := by
  have any : ∀ k out s, (replLoop pat rep global k true out s).1 = true := by
    intro k
    induction k with
    | zero => intro out s; rfl
    | succ k ih =>
      intro out s
      simp only [replLoop]
      split
      · split
        · exact ih _ _
        · rfl
      · rfl
  simp only [replace, replLoop]
  rcases strstr_spec pat line with ⟨a, b, e, hf⟩ | ⟨e, hf⟩
  · simp only [e, Bool.not_false, Bool.true_or, if_true]
    have := any line.length ([] ++ a ++ rep) ((pat ++ b).drop pat.length)
    split
    · simp only [reduceCtorEq, false_iff]
      exact fun h => h _ ⟨a, b, hf.1, rfl⟩
    · rename_i h; rw [h] at this; simp at this
  · simp [e, hf]

/-- **C42** Without `-g` the first occurrence is replaced and nothing else. -/
theorem replace_first (line pat rep out : Bytes) (h : replace line (some (pat, rep)) false = some out) :
    ∃ a b, First pat line a b ∧ out = a ++ rep ++ b := by
  simp only [replace, replLoop] at h
  rcases strstr_spec pat line with ⟨a, b, e, hf⟩ | ⟨e, hf⟩
  · refine ⟨a, b, hf, ?_⟩
    simp only [e, Bool.not_false, Bool.true_or, if_true, List.drop_left, List.nil_append] at h
    have one : ∀ k out s, replLoop pat rep false k true out s = (true, out ++ s) := by
      intro k out s
      cases k with
      | zero => rfl
      | succ k =>
        simp only [replLoop, Bool.not_true, Bool.or_self, Bool.false_eq_true, if_false]
        split <;> rfl
    rw [one] at h
    simpa using h.symm
  · simp [e] at h

/-- **C42** With `-g` every occurrence is replaced, left to right and without overlap, and the
rest is unchanged. -/
theorem replace_all (line pat rep out : Bytes) (hp : pat ≠ []) (h : replace line (some (pat, rep)) true = some out) :
    ∃ parts, 2 ≤ parts.length ∧ Cut pat parts ∧ line = join pat parts ∧ out = join rep parts := by
  simp only [replace, replLoop] at h
  rcases strstr_spec pat line with ⟨a, b, e, hf⟩ | ⟨e, hf⟩
  · simp only [e, Bool.or_true, if_true, List.drop_left, List.nil_append] at h
    have hlen : b.length < line.length := by
      have := congrArg List.length hf.1
      simp only [List.length_append] at this
      have := List.length_pos_iff.2 hp
      omega
    obtain ⟨parts, h1, h2, h3⟩ := replLoop_global pat rep hp line.length (a ++ rep) b hlen
    rw [h3] at h
    simp only [Option.some.injEq] at h
    cases parts with
    | nil => exact h1.elim
    | cons q l =>
      refine ⟨a :: q :: l, by simp, ⟨first_iff_short hf, h1⟩, ?_, ?_⟩
      · simp only [join, ← h2]; exact hf.1
      · rw [← h]; simp [join]
  · simp [e] at h

/-- The pieces of `Cut` are determined by the text, so `replace_all` fixes the result. -/
theorem cut_unique (pat : Bytes) (l m : List Bytes) (hl : Cut pat l) (hm : Cut pat m) (h : join pat l = join pat m) : l = m := by
  induction l generalizing m with
  | nil => exact hl.elim
  | cons p l ih =>
    have two : ∀ (p q : Bytes) (x y : Bytes), p ++ pat ++ x = q ++ pat ++ y → (∀ i < p.length, ¬ At pat (p ++ pat) i) → p.length ≤ q.length := by
      intro p q x y e hp
      refine Nat.le_of_not_lt fun hlt => hp q.length hlt ?_
      have e1 : (p ++ pat).take (q.length + pat.length) = q ++ pat := by
        have := congrArg (List.take (q.length + pat.length)) e
        rw [List.take_append_of_le_length (l₁ := p ++ pat) (by simp only [List.length_append]; omega),
          List.take_append_of_le_length (l₁ := q ++ pat) (by simp)] at this
        rw [this]
        exact List.take_of_length_le (by simp)
      refine ⟨q, (p ++ pat).drop (q.length + pat.length), ?_, rfl⟩
      rw [← e1]
      exact (List.take_append_drop _ _).symm
    cases l with
    | nil =>
      cases m with
      | nil => exact hm.elim
      | cons q m =>
        cases m with
        | nil => simp only [join] at h; rw [h]
        | cons r m =>
          exact absurd ⟨q, join pat (r :: m), h, rfl⟩ (hl q.length)
    | cons r l =>
      cases m with
      | nil => exact hm.elim
      | cons q m =>
        cases m with
        | nil => exact absurd ⟨p, join pat (r :: l), h.symm, rfl⟩ (hm p.length)
        | cons t m =>
          simp only [join] at h
          have h1 := two _ _ _ _ h hl.1
          have h2 := two _ _ _ _ h.symm hm.1
          have hpq : p.length = q.length := by omega
          rw [List.append_assoc, List.append_assoc] at h
          obtain ⟨e1, e2⟩ := List.append_inj h hpq
          have e3 := List.append_cancel_left e2
          rw [e1, ih (t :: m) hl.2 hm.2 e3]

/-- **C42** The argument `old=new` is cut at the first `=` that is not its first byte, so `old` is
never empty. -/
theorem split_arg (w old new : Bytes) :
    splitArg w = some (old, new) ↔ w = old ++ 0x3d :: new ∧ old ≠ [] ∧ 0x3d ∉ old.tail := by
  cases w with
  | nil => simp [splitArg]
  | cons c s =>
    simp only [splitArg]
    have tw : ∀ (a b : Bytes), 0x3d ∉ a → (a ++ 0x3d :: b).takeWhile (· != 0x3d) = a ∧ (a ++ 0x3d :: b).dropWhile (· != 0x3d) = 0x3d :: b := by
      intro a b
      induction a with
      | nil => intro _; simp
      | cons d a ih =>
        intro h
        simp only [List.mem_cons, not_or] at h
        have hd : (d != 0x3d) = true := by simpa using Ne.symm h.1
        simp [hd, ih h.2]
    constructor
    · intro h
      split at h
      · rename_i hm
        obtain ⟨a, b, e⟩ := List.append_of_mem hm
        -- the first one
        have hfirst : ∃ a b, s = a ++ 0x3d :: b ∧ (0x3d : Byte) ∉ a := by
          clear h e a b
          induction s with
          | nil => simp at hm
          | cons d s ih =>
            by_cases hd : d = 0x3d
            · exact ⟨[], s, by simp [hd], by simp⟩
            · have hm' : (0x3d : Byte) ∈ s := by
                rcases List.mem_cons.1 hm with h | h
                · exact absurd h.symm hd
                · exact h
              obtain ⟨a, b, e1, e2⟩ := ih hm'
              exact ⟨d :: a, b, by simp [e1], by simp [e2, Ne.symm hd]⟩
        obtain ⟨a, b, e, ha⟩ := hfirst
        obtain ⟨t1, t2⟩ := tw a b ha
        simp only [e, t1, t2, List.drop_succ_cons, List.drop_zero, Option.some.injEq, Prod.mk.injEq] at h
        obtain ⟨rfl, rfl⟩ := h
        exact ⟨by simp [e], by simp, by simpa using ha⟩
      · simp at h
    · rintro ⟨h1, h2, h3⟩
      cases old with
      | nil => exact absurd rfl h2
      | cons d a =>
        simp only [List.cons_append, List.cons.injEq] at h1
        obtain ⟨rfl, rfl⟩ := h1
        simp only [List.tail_cons] at h3
        obtain ⟨t1, t2⟩ := tw a new h3
        simp [t1, t2]

/-- `aa=b` on `xaaaay`: one and all occurrences. -/
example : splitArg "aa=b".toUTF8.toList = some ("aa".toUTF8.toList, "b".toUTF8.toList) ∧
    replace "xaaaaay".toUTF8.toList (some ("aa".toUTF8.toList, "b".toUTF8.toList)) false = some "xbaaay".toUTF8.toList ∧
    replace "xaaaaay".toUTF8.toList (some ("aa".toUTF8.toList, "b".toUTF8.toList)) true = some "xbbay".toUTF8.toList ∧
    replace "xay".toUTF8.toList (some ("aa".toUTF8.toList, "b".toUTF8.toList)) true = none := by decide +kernel

end Ksh.History
