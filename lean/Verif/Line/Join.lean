import Verif.Line.Props

/-!
# Continued lines: backslash-newline is removed (C103)

The sources are flat here: `rest` is what getsc_ will deliver (for a file this is the text of its
lines, C102).
-/

namespace Ksh.Line

open Ksh.Shf

/-! ## Model -/

def BSL : Byte := 0x5c
def NL : Byte := 0x0a

/-- The reader: the text that follows, `backslash_skip` and `ignore_backslash_newline` (lex.c:94-95) -/
structure Rd where
  rest : Bytes
  skip : Nat
  ign : Bool
  deriving DecidableEq, Repr

/-- getsc_ (lex.c:110, 985-1072): the next character, or 0 at the end (`none`) -/
def getscU (r : Rd) : Option Byte × Rd :=
  match r.rest with
  | [] => (none, r)
  | c :: t => (some c, { r with rest := t })

/-- ungetsc (lex.c:1619-1640); the end of the input is not put back. -/
def ungetsc (c : Option Byte) (r : Rd) : Rd :=
  match c with
  | none => { r with skip := r.skip - 1 }
  | some c => { r with skip := r.skip - 1, rest := c :: r.rest }

/-- The loop of getsc_bn (lex.c:1659-1669).  `fuel` bounds the rounds, each of which reads a character. -/
def bnLoop : Nat → Rd → Option Byte × Rd
  | 0, r => (none, r)
  | fuel + 1, r =>
    let a := getscU r
    if a.1 = some BSL then
      let b := getscU a.2
      if b.1 = some NL then bnLoop fuel b.2
      else (a.1, { ungetsc b.1 b.2 with skip := 1 })
    else a

/-- getsc_bn (lex.c:1644-1670) -/
def getscBn (r : Rd) : Option Byte × Rd :=
  if r.ign then getscU r
  else if r.skip = 1 then getscU { r with skip := 2 }
  else bnLoop (r.rest.length + 1) { r with skip := 0 }

/-- The macro getsc (lex.c:106-108); `more`: the current buffer is not at its end. -/
def getsc (more : Bool) (r : Rd) : Option Byte × Rd :=
  match r.rest with
  | c :: t => if more && c ≠ BSL && r.skip = 0 then (some c, { r with rest := t }) else getscBn r
  | [] => getscBn r

/-! ## Specification -/

/-- Spec: `j` is `t` without its backslash-newline pairs, where a character after a backslash is not
the beginning of a pair. -/
inductive Joined : Bytes → Bytes → Prop
  | nil : Joined [] []
  | pair {t j} (h : Joined t j) : Joined (BSL :: NL :: t) j
  | esc {c t j} (hc : c ≠ NL) (h : Joined t j) : Joined (BSL :: c :: t) (BSL :: c :: j)
  | last : Joined [BSL] [BSL]
  | plain {c t j} (hc : c ≠ BSL) (h : Joined t j) : Joined (c :: t) (c :: j)

/-- What the lexer does: get a character, or put back the one it got last. -/
inductive Op
  | get (more : Bool)
  | unget
  deriving DecidableEq, Repr

/-- The characters got; `l` is what was got by the operation before. -/
def run : List Op → Option (Option Byte) → Rd → List (Option Byte) × Rd
  | [], _, r => ([], r)
  | .get m :: os, _, r =>
    let g := getsc m r
    let t := run os (some g.1) g.2
    (g.1 :: t.1, t.2)
  | .unget :: os, l, r => run os none (match l with | some c => ungetsc c r | none => r)

/-- Spec: the same for a cursor `i` in the text `j` -/
def cursor (j : Bytes) : List Op → Option (Option Byte) → Nat → List (Option Byte)
  | [], _, _ => []
  | .get _ :: os, _, i => j[i]? :: cursor j os (some j[i]?) (if i < j.length then i + 1 else i)
  | .unget :: os, l, i =>
    cursor j os none (match l with | some (some _) => i - 1 | _ => i)

/-! ## Proofs -/

theorem joined_exists (t : Bytes) : ∃ j, Joined t j := by
  generalize hn : t.length = n
  induction n using Nat.strongRecOn generalizing t with
  | ind n ih =>
    match t with
    | [] => exact ⟨[], .nil⟩
    | c :: t =>
      by_cases hc : c = BSL
      · subst hc
        match t with
        | [] => exact ⟨_, .last⟩
        | d :: t =>
          obtain ⟨j, hj⟩ := ih t.length (by subst hn; simp; omega) t rfl
          by_cases hd : d = NL
          · subst hd; exact ⟨j, .pair hj⟩
          · exact ⟨_, .esc hd hj⟩
      · obtain ⟨j, hj⟩ := ih t.length (by subst hn; simp) t rfl
        exact ⟨_, .plain hc hj⟩

theorem joined_unique {t j k : Bytes} (h : Joined t j) (g : Joined t k) : j = k := by
  induction h generalizing k with
  | nil => cases g; rfl
  | pair h ih =>
    cases g with
    | pair g => exact ih g
    | esc hc g => exact absurd rfl hc
    | plain hc g => exact absurd rfl hc
  | esc hc h ih =>
    cases g with
    | pair g => exact absurd rfl hc
    | esc _ g => rw [ih g]
    | plain hd g => exact absurd rfl hd
  | last =>
    cases g with
    | last => rfl
    | plain hc g => exact absurd rfl hc
  | plain hc h ih =>
    cases g with
    | pair g => exact absurd rfl hc
    | esc _ g => exact absurd rfl hc
    | last => exact absurd rfl hc
    | plain _ g => rw [ih g]

/-- The text that remains to be delivered in the state `r` -/
inductive Todo : Rd → Bytes → Prop
  | zero {t j} (h : Joined t j) : Todo ⟨t, 0, false⟩ j
  | one {c t j} (hc : c ≠ NL) (h : Joined t j) : Todo ⟨c :: t, 1, false⟩ (c :: j)
  | oneEnd : Todo ⟨[], 1, false⟩ []
  | two {t j} (h : Joined t j) : Todo ⟨t, 2, false⟩ j

/-- what getting a character leads to: the same whether it is put back or not -/
structure Step (j : Bytes) (g : Option Byte × Rd) : Prop where
  got : g.1 = j.head?
  after : Todo g.2 j.tail
  back : Todo (ungetsc g.1 g.2) j

theorem bnLoop_spec (fuel : Nat) {t j : Bytes} (h : Joined t j) (hf : t.length < fuel) : Step j (bnLoop fuel ⟨t, 0, false⟩) := by
  induction fuel generalizing t with
  | zero => omega
  | succ fuel ih =>
    cases h with
    | nil => exact ⟨rfl, .zero .nil, .zero .nil⟩
    | pair h =>
      simp only [bnLoop, getscU, if_true]
      exact ih h (by simp at hf; omega)
    | @esc c t j hc h =>
      simp only [bnLoop, getscU, if_true, Option.some.injEq, if_neg hc, ungetsc]
      exact ⟨rfl, .one hc h, .zero (.esc hc h)⟩
    | last =>
      simp only [bnLoop, getscU, if_true, reduceCtorEq, if_false, ungetsc]
      exact ⟨rfl, .oneEnd, .zero .last⟩
    | @plain c t j hc h =>
      simp only [bnLoop, getscU, Option.some.injEq, if_neg hc]
      exact ⟨rfl, .zero h, .zero (.plain hc h)⟩

theorem getscBn_spec {r : Rd} {j : Bytes} (h : Todo r j) : Step j (getscBn r) := by
  cases h with
  | zero h =>
    simp only [getscBn, Bool.false_eq_true, if_false, if_neg (show ¬ (0 = 1) by omega)]
    exact bnLoop_spec _ h (by simp)
  | one hc h =>
    simp only [getscBn, Bool.false_eq_true, if_false, if_true, getscU]
    exact ⟨rfl, .two h, .one hc h⟩
  | oneEnd =>
    simp only [getscBn, Bool.false_eq_true, if_false, if_true, getscU]
    exact ⟨rfl, .two .nil, .oneEnd⟩
  | two h =>
    simp only [getscBn, Bool.false_eq_true, if_false, if_neg (show ¬ (2 = 1) by omega)]
    exact bnLoop_spec _ h (by simp)

theorem getsc_spec (more : Bool) {r : Rd} {j : Bytes} (h : Todo r j) : Step j (getsc more r) := by
  have g := getscBn_spec h
  simp only [getsc]
  split
  · rename_i c t hr
    split
    · rename_i hc
      simp at hc
      obtain ⟨⟨_, hb⟩, hs⟩ := hc
      cases h with
      | zero h =>
        simp only at hr
        subst hr
        cases h with
        | pair h => exact absurd rfl hb
        | esc hc h => exact absurd rfl hb
        | last => exact absurd rfl hb
        | plain hc h => exact ⟨rfl, .zero h, .zero (.plain hc h)⟩
      | one hc h => simp at hs
      | oneEnd => simp at hs
      | two h => simp at hs
    · exact g
  · exact g

theorem run_spec (j : Bytes) (os : List Op) : ∀ (l : Option (Option Byte)) (r : Rd) (i : Nat), i ≤ j.length → Todo r (j.drop i) →
    (∀ c, l = some c → Todo (ungetsc c r) (j.drop (match c with | some _ => i - 1 | none => i))) →
    (run os l r).1 = cursor j os l i := by
  induction os with
  | nil => intro _ _ _ _ _ _; rfl
  | cons o os ih =>
    intro l r i hi h hl
    cases o with
    | get m =>
      simp only [run, cursor]
      obtain ⟨s1, s2, s3⟩ := getsc_spec m h
      have e : (getsc m r).1 = j[i]? := by rw [s1, List.head?_drop]
      rw [e] at s3 ⊢
      congr 1
      by_cases hlt : i < j.length
      · rw [if_pos hlt]
        apply ih
        · omega
        · rwa [List.tail_drop] at s2
        · intro c hc
          obtain rfl := Option.some.inj hc
          rw [List.getElem?_eq_getElem hlt] at s3 ⊢
          simpa using s3
      · rw [if_neg hlt]
        obtain rfl : i = j.length := by omega
        apply ih
        · omega
        · simpa using s2
        · intro c hc
          obtain rfl := Option.some.inj hc
          simpa using s3
    | unget =>
      simp only [run, cursor]
      match l, hl with
      | none, _ => exact ih _ _ _ hi h (by intro c hc; cases hc)
      | some none, hl => exact ih _ _ _ hi (hl none rfl) (by intro c hc; cases hc)
      | some (some c), hl => exact ih _ _ _ (by show i - 1 ≤ _; omega) (hl (some c) rfl) (by intro c hc; cases hc)

/-- **C103**: what the lexer gets, with any look-ahead of a character that is put back, is the text
without its backslash-newline pairs; it does not matter where the buffers end. -/
theorem continued_lines (t j : Bytes) (h : Joined t j) (os : List Op) :
    (run os none ⟨t, 0, false⟩).1 = cursor j os none 0 :=
  run_spec j os none ⟨t, 0, false⟩ 0 (by simp) (.zero h) (by intro c hc; cases hc)

/-- **C103**: where `ignore_backslash_newline` is set (single quotes, comments, quoted here
documents) every character is delivered, and put back, as it is; afterwards joining goes on. -/
theorem quoted_text (q t : Bytes) (os : List Op) :
    (run os none ⟨q ++ t, 0, true⟩).1 = cursor (q ++ t) os none 0 ∧
    (∀ ms : List Bool, ms.length = q.length → run (ms.map .get) none ⟨q ++ t, 0, true⟩ = (q.map some, ⟨t, 0, true⟩)) := by
  have raw : ∀ m (u : Bytes), getsc m ⟨u, 0, true⟩ = (u.head?, ⟨u.tail, 0, true⟩) := by
    intro m u
    cases u with
    | nil => rfl
    | cons c u =>
      simp only [getsc, getscBn, if_true, getscU]
      split <;> rfl
  constructor
  · generalize q ++ t = j
    suffices H : ∀ (l : Option (Option Byte)) (i : Nat), i ≤ j.length →
        (∀ c, l = some (some c) → 0 < i ∧ j[i - 1]? = some c) →
        (run os l ⟨j.drop i, 0, true⟩).1 = cursor j os l i from H none 0 (by simp) (by simp)
    induction os with
    | nil => intro _ _ _ _; rfl
    | cons o os ih =>
      intro l i hi hl
      cases o with
      | get m =>
        simp only [run, cursor, raw, List.head?_drop, List.tail_drop]
        congr 1
        by_cases hlt : i < j.length
        · rw [if_pos hlt]
          exact ih _ _ hlt (by intro c hc; exact ⟨by omega, by simpa using hc⟩)
        · rw [if_neg hlt]
          have e : j.drop (i + 1) = j.drop i := by
            rw [List.drop_eq_nil_of_le (by omega), List.drop_eq_nil_of_le (by omega)]
          rw [e]
          exact ih _ _ hi (by intro c hc; rw [List.getElem?_eq_none (by omega)] at hc; simp at hc)
      | unget =>
        simp only [run, cursor]
        match l, hl with
        | none, _ => exact ih _ _ hi (by intro c hc; simp at hc)
        | some none, _ => exact ih _ _ hi (by intro c hc; simp at hc)
        | some (some c), hl =>
          obtain ⟨h1, h2⟩ := hl c rfl
          have := ih none (i - 1) (by omega) (by simp)
          simp only [ungetsc]
          have e : j.drop (i - 1) = c :: j.drop i := by
            obtain ⟨hx, hy⟩ := List.getElem?_eq_some_iff.1 h2
            rw [List.drop_eq_getElem_cons hx, hy, show i - 1 + 1 = i by omega]
          rw [e] at this
          exact this
  · intro ms hm
    generalize hnone : (none : Option (Option Byte)) = l
    clear hnone
    induction q generalizing ms l with
    | nil => obtain rfl := List.length_eq_zero_iff.1 hm; rfl
    | cons c q ih =>
      cases ms with
      | nil => simp at hm
      | cons m ms =>
        simp only [List.map_cons, run, raw, List.cons_append, List.head?_cons, List.tail_cons]
        rw [ih ms (by simpa using hm)]

-- `a\<newline>b\\<newline>`: the first pair is removed, the second backslash is escaped
example : Joined [97, BSL, NL, 98, BSL, BSL, NL] [97, 98, BSL, BSL, NL] :=
  .plain (by decide) (.pair (.plain (by decide) (.esc (by decide) (.plain (by decide) .nil))))
example : (run [.get true, .get true, .unget, .get false, .get true, .unget, .get true, .get true, .unget, .get true, .get true, .get true] none
    ⟨[97, BSL, NL, 98, BSL, BSL, NL], 0, false⟩).1
  = [some 97, some 98, some 98, some BSL, some BSL, some BSL, some BSL, some NL, none] := by decide
example : (run [.get true, .get true, .get true] none ⟨[97, BSL, NL, 98], 0, true⟩).1 = [some 97, some BSL, some NL] := by decide

/-- The condition that one character is put back at a time is needed: `backslash_skip` does not
remember more.  Of `\\\\<newline>a` the newline is got, but if it and the escaped backslash are put
back, the two become a pair.  (The only place that puts back more, lex.c:257, goes back to the
beginning of a word, where nothing is escaped.) -/
theorem putback_two :
    let r0 : Rd := ⟨[BSL, BSL, NL, 97], 0, false⟩
    let g1 := getsc true r0
    let g2 := getsc true g1.2
    let g3 := getsc true g2.2
    let b := ungetsc g2.1 (ungetsc g3.1 g3.2)
    (g2.1, g3.1) = (some BSL, some NL) ∧ (getsc true b).1 = some 97 := by decide

end Ksh.Line
