import Verif.Glob.Model
/-!
# What patterns mean

An abstract syntax of patterns, the set of strings each one denotes, and the text the
expander (eval.c:467-486, 634-660, 706-718) hands to the matcher for it.  None of this
refers to the matching code.
-/

namespace Ksh.Glob

/-- A character inside a bracket: `marked` when the expander puts MAGIC before it (an
unquoted special character, or the byte 7). -/
structure BChar where
  marked : Bool
  c : B
  deriving DecidableEq, Repr

/-- The members listed in a bracket expression. -/
inductive Item
  | one (a : BChar)
  | range (a b : BChar)
  | cls (name : List B)
  deriving DecidableEq, Repr

structure Brk where
  neg : Bool
  items : List Item
  deriving DecidableEq, Repr

/-- `?(..)`, `*(..)`, `+(..)`, `@(..)`, `(..)`, `!(..)` -/
inductive Op
  | opt | many | plus | at | bare | not
  deriving DecidableEq, Repr

mutual
/-- Patterns, as sequences. -/
inductive Pat
  | eps
  | lit (c : B) (r : Pat)
  /-- a special character that stands for itself (`!`, `-`, `]`, ...), or byte 7 -/
  | esc (c : B) (r : Pat)
  | any (r : Pat)
  | star (r : Pat)
  | brk (b : Brk) (r : Pat)
  | ext (o : Op) (a : Alts) (r : Pat)
inductive Alts
  | one (p : Pat)
  | or (p : Pat) (a : Alts)
end

/-! ## Denotation -/

abbrev Lang := List B → Prop

/-- one or more members of `A`, concatenated -/
inductive Plus (A : Lang) : Lang
  | one {u} : A u → Plus A u
  | more {u v} : A u → Plus A v → Plus A (u ++ v)

def Op.lang (o : Op) (A : Lang) : Lang :=
  match o with
  | .opt => fun u => u = [] ∨ A u
  | .many => fun u => u = [] ∨ Plus A u
  | .plus => Plus A
  | .at => A
  | .bare => A
  | .not => fun u => ¬ A u

/-- Membership in a character class, by name (POSIX locale). -/
def ClassMem (name : String) (c : B) : Prop :=
  match name with
  | "alnum" => (97 ≤ c ∧ c ≤ 122) ∨ (65 ≤ c ∧ c ≤ 90) ∨ (48 ≤ c ∧ c ≤ 57)
  | "alpha" => (97 ≤ c ∧ c ≤ 122) ∨ (65 ≤ c ∧ c ≤ 90)
  | "cntrl" => c ≤ 31 ∨ c = 127
  | "digit" => 48 ≤ c ∧ c ≤ 57
  | "graph" => 33 ≤ c ∧ c ≤ 126
  | "lower" => 97 ≤ c ∧ c ≤ 122
  | "print" => 32 ≤ c ∧ c ≤ 126
  | "punct" => (33 ≤ c ∧ c ≤ 47) ∨ (58 ≤ c ∧ c ≤ 64) ∨ (91 ≤ c ∧ c ≤ 96) ∨ (123 ≤ c ∧ c ≤ 126)
  | "space" => c = 32 ∨ (9 ≤ c ∧ c ≤ 13)
  | "upper" => 65 ≤ c ∧ c ≤ 90
  | "xdigit" => (48 ≤ c ∧ c ≤ 57) ∨ (97 ≤ c ∧ c ≤ 102) ∨ (65 ≤ c ∧ c ≤ 70)
  | _ => False

def classNames : List String :=
  ["alnum", "alpha", "cntrl", "digit", "graph", "lower", "print", "punct", "space", "upper", "xdigit"]

def bytes (s : String) : List B := s.toList.map Char.toNat

def Item.Mem (c : B) : Item → Prop
  | .one a => c = a.c
  | .range a b => a.c ≤ c ∧ c ≤ b.c
  | .cls n => ∃ s ∈ classNames, bytes s = n ∧ ClassMem s c

/-- An item POSIX gives a meaning to: an ascending range, a known class. -/
def Item.Valid : Item → Prop
  | .one _ => True
  | .range a b => a.c ≤ b.c
  | .cls n => ∃ s ∈ classNames, bytes s = n

/-- A bracket denotes a set of characters; one with an invalid item matches nothing. -/
def Brk.Mem (b : Brk) (c : B) : Prop :=
  (∀ i ∈ b.items, i.Valid) ∧ ((∃ i ∈ b.items, i.Mem c) ↔ b.neg = false)

mutual
def Pat.Den : Pat → Lang
  | .eps => fun s => s = []
  | .lit c r => fun s => ∃ t, s = c :: t ∧ r.Den t
  | .esc c r => fun s => ∃ t, s = c :: t ∧ r.Den t
  | .any r => fun s => ∃ c t, s = c :: t ∧ r.Den t
  | .star r => fun s => ∃ u t, s = u ++ t ∧ r.Den t
  | .brk b r => fun s => ∃ c t, s = c :: t ∧ b.Mem c ∧ r.Den t
  | .ext o a r => fun s => ∃ u t, s = u ++ t ∧ o.lang a.Den u ∧ r.Den t
def Alts.Den : Alts → Lang
  | .one p => p.Den
  | .or p a => fun s => p.Den s ∨ a.Den s
end

/-! ## The text of a pattern -/

def Op.byte : Op → B
  | .opt => 128 + 63
  | .many => 128 + 42
  | .plus => 128 + 43
  | .at => 128 + 64
  | .bare => 128 + 32
  | .not => 128 + 33

def BChar.enc (a : BChar) : List B := if a.marked then [MAGIC, a.c] else [a.c]

def Item.enc : Item → List B
  | .one a => a.enc
  | .range a b => a.enc ++ [MAGIC, 45] ++ b.enc
  | .cls n => [MAGIC, 91, 58] ++ n ++ [58, MAGIC, 93]

def itemsEnc : List Item → List B
  | [] => []
  | i :: l => i.enc ++ itemsEnc l

def Brk.enc (b : Brk) : List B :=
  [MAGIC, 91] ++ (if b.neg then [MAGIC, 33] else []) ++ itemsEnc b.items ++ [MAGIC, 93]

mutual
def Pat.enc : Pat → List B
  | .eps => []
  | .lit c r => c :: r.enc
  | .esc c r => MAGIC :: c :: r.enc
  | .any r => MAGIC :: 63 :: r.enc
  | .star r => MAGIC :: 42 :: r.enc
  | .brk b r => b.enc ++ r.enc
  | .ext o a r => MAGIC :: o.byte :: (a.enc ++ r.enc)
/-- alternatives up to and including the closing parenthesis -/
def Alts.enc : Alts → List B
  | .one p => p.enc ++ [MAGIC, 41]
  | .or p a => p.enc ++ (MAGIC :: 124 :: a.enc)
end

/-! ## Which abstract patterns are the reading of their text -/

/-- A character of a bracket list: plain, or one of `[ ! * ? -` / byte 7 with its mark.
(`]` and the list-initial `!` are dealt with by position.) -/
def BChar.Ok (a : BChar) : Prop :=
  if a.marked then a.c = 91 ∨ a.c = 33 ∨ a.c = 42 ∨ a.c = 63 ∨ a.c = MAGIC
  else a.c ≠ 0 ∧ a.c ≠ MAGIC

/-- A class name: no colon, no MAGIC. -/
def NameOk (n : List B) : Prop := ∀ c ∈ n, c ≠ 58 ∧ c ≠ MAGIC ∧ c ≠ 0

def Item.Ok : Item → Prop
  | .one a => a.Ok
  | .range a b => a.Ok ∧ b.Ok
  | .cls n => NameOk n

/-- `[` directly followed by `:` reads as the start of a class. -/
def startsColon : List B → Prop
  | c :: _ => c = 58
  | [] => False

/-- the last character of an item, when it is one that a `:` could turn into `[:` -/
def Item.headOpen : Item → Bool
  | .one a => a.c == 91
  | _ => false

def hyphen : Item := .one ⟨true, 45⟩
def rbrack : Item := .one ⟨true, 93⟩

/-- The items behind the first: ordinary items, `[` never before `:`, with an optional
final `-`. -/
def TailOk : List Item → Prop
  | [] => True
  | i :: l => ((i = hyphen ∧ l = []) ∨ i.Ok) ∧
      (i.headOpen = true → ¬ startsColon (itemsEnc l)) ∧ TailOk l

/-- The list of a bracket: the first item may be `]` or `-`; in a list that is not
negated it is neither the (marked) `!` nor, because of misc.c:756, byte 7. -/
def HeadOk (neg : Bool) : List Item → Prop
  | [] => False
  | i :: l =>
      (i = hyphen ∨ i = rbrack ∨ i.Ok) ∧
      (i.headOpen = true → ¬ startsColon (itemsEnc l)) ∧
      (neg = false → ∀ a, (i = .one a ∨ ∃ b, i = .range a b) → a.marked = true → a.c ≠ 33 ∧ a.c ≠ MAGIC) ∧
      TailOk l

def Brk.Ok (b : Brk) : Prop := HeadOk b.neg b.items

mutual
def Pat.Ok : Pat → Prop
  | .eps => True
  | .lit c r => c ≠ 0 ∧ c ≠ MAGIC ∧ r.Ok
  | .esc c r => (c = 33 ∨ c = 45 ∨ c = 93 ∨ c = MAGIC ∨ c = 123 ∨ c = 44 ∨ c = 125) ∧ r.Ok
  | .any r => r.Ok
  | .star r => r.Ok
  | .brk b r => b.Ok ∧ r.Ok
  | .ext _ a r => a.Ok ∧ r.Ok
def Alts.Ok : Alts → Prop
  | .one p => p.Ok
  | .or p a => p.Ok ∧ a.Ok
end

/-- A C string. -/
def CStr (s : List B) : Prop := ∀ c ∈ s, c ≠ 0

/-- No pattern construct, only characters that stand for themselves. -/
def Pat.plain : Pat → Bool
  | .eps => true
  | .lit _ r => r.plain
  | .esc _ r => r.plain
  | _ => false

/-- The characters of a plain pattern. -/
def Pat.text : Pat → List B
  | .lit c r => c :: r.text
  | .esc c r => c :: r.text
  | _ => []

end Ksh.Glob
