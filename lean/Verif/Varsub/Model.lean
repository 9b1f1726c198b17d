/-!
# `${...}`: which branch is taken

`varsub` (eval.c:736-878) decides what `${name}`, `${#name}` and `${name op word}` become, for every kind of
parameter: variables and array elements, positional and special parameters, `$*` and `$@`, and whole
arrays.

Simplifications.  The variable part arrives decoded (`Par`; reading it is `Lex` and `Names`); `strchr(sp, '[')`
(eval.c:761, 832) is true exactly of whole arrays.  The pointer `xp->str` is `none` when it is `null`: that is what
`str_val` gives for a parameter that is not set (var.c:308-309), and a set parameter never has that pointer, since
its text is allocated (var.c:401) or follows the name in the variable's memory.  What happens with the word
afterwards is `Subst` (C76), how fields are made is `Ifs` (C18, C57).
-/
namespace Ksh.Varsub

abbrev Str := List Char

/-- The variable part. -/
inductive Par where
  | none                          -- nothing: `${}` or `${.}`
  | ref (r : Str)                 -- a variable or an array element with its subscript
  | pos (n : Nat)                 -- `${1}`, also `$0`
  | special (c : Char)            -- `#`, `!`, `$`, `-`, `?`
  | star
  | ats
  | arr (name : Str) (isAt : Bool)  -- `name[*]`, `name[@]`
  deriving DecidableEq, Repr

/-- The codes of the word part (sh.h:120-134). -/
inductive W where
  | char (c : Char)
  | csubst
  | other (n : Nat)
  deriving DecidableEq, Repr

structure Env where
  args : List Str                     -- `argv + 1`
  zero : Str                          -- `argv[0]`
  ref : Str → Option Str              -- str_val(global(sp)); none: not set
  special : Char → Option Str
  elems : Str → List Str              -- str_val of the set elements, in order
  declared : Str → Bool               -- the flags ISSET or ARRAY of the first element
  nounset : Bool

/-- The answer of `varsub`. -/
inductive Res where
  | bad                               -- -1: "bad substitution"
  | unset                             -- errorf("parameter not set")
  | xsub (s : Str)                    -- the text
  | xarg (l : List Str) (split : Bool)
  | xnullsub
  | xbase (colon : Bool) (c : Char)   -- the word is to be expanded; `stype`
  deriving DecidableEq, Repr

/-- `ctype(c, C_SUBOP1)`, `ctype(c, C_SUBOP2)` (misc.c:58-59); `c == 0` is not in them. -/
def subop1 (c : Option Char) : Bool := c = some '=' || c = some '-' || c = some '+' || c = some '?'
def subop2 (c : Option Char) : Bool := c = some '#' || c = some '%'

/-- `word[i] == CHAR ? word[i + 1] : 0` -/
def chr (w : List W) : Option Char :=
  match w with
  | .char c :: _ => some c
  | _ => none

/-- The qualifier (eval.c:784-807): the bit 0x80 and the character, or `none` for -1. -/
def qual (w : List W) : Option (Bool × Option Char) :=
  let c := chr w
  let colon := c = some ':'
  let w1 := if colon then w.drop 1 else w
  let c1 := if colon then chr w1 else c
  if subop1 c1 then some (colon, c1)
  else if subop2 c1 then some (decide (chr (w1.drop 1) = c1), c1)
  else if colon then none
  else if !colon && w.head? ≠ some .csubst then none
  else some (colon, none)

/-- `global(sp)` and `str_val` for what is not a vector (var.c:187-243, 300-330); a number above `$#` leaves `vtemp` unset (var.c:211). -/
def strVal (e : Env) : Par → Option Str
  | .ref r => e.ref r
  | .pos 0 => some e.zero
  | .pos (n + 1) => e.args[n]?
  | .special c => e.special c
  | _ => none

/-- `${#...}` (eval.c:754-782). -/
def lenSub (e : Env) (p : Par) (w : List W) : Res :=
  if w.head? ≠ some .csubst then .bad
  else
    let (c, zeroOk) : Nat × Bool :=
      match p with
      | .arr a _ => ((e.elems a).length, e.declared a)
      | .star | .ats => (e.args.length, false)
      | p => (((strVal e p).getD []).length, (strVal e p).isSome)
    if e.nounset && c = 0 && !zeroOk then .unset else .xsub (toString c).toList

/-- The bit `stype & 0x80` test of the value (eval.c:872): is the parameter to be taken as missing? -/
def undef (colon : Bool) (str : Option Str) : Bool :=
  if colon then (str.getD []).isEmpty else str.isNone

/-- The end of `varsub` (eval.c:868-878). -/
def pick (e : Env) (colon : Bool) (c : Option Char) (str : Option Str) (zeroOk : Bool) (state : Res) : Res :=
  let base := subop2 c || (if undef colon str then c = some '=' || c = some '-' || c = some '?' else c = some '+')
  if e.nounset && str.isNone && !zeroOk && (subop2 c || (!base && c ≠ some '+')) then .unset
  else if base then .xbase colon (c.getD ' ') else state

/-- `varsub` (eval.c:736-878); `len` is the `#` in front. -/
def varsub (e : Env) (len : Bool) (p : Par) (w : List W) : Res :=
  if p = .none then .bad
  else if len then lenSub e p w
  else
    match qual w with
    | none => .bad
    | some (colon, c) =>
      match p with
      | .star | .ats =>
        if c = some '=' || c = some '%' || c = some '#' then .bad
        else
          match e.args with
          | [] => pick e colon c none true (if p = .ats then .xnullsub else .xsub [])
          | a :: l => pick e colon c (some a) true (.xarg (a :: l) (decide (p = .ats)))
      | .arr n isAt =>
        if c = some '=' || c = some '%' || c = some '#' || c = some '?' then .bad
        else
          match e.elems n with
          | [] => pick e colon c none false (if isAt then .xnullsub else .xsub [])
          | a :: l => pick e colon c (some a) false (.xarg (a :: l) isAt)
      | p =>
        if c = some '=' && (match p with | .ref _ => false | _ => true) then .bad
        else pick e colon c (strVal e p) false (.xsub ((strVal e p).getD []))

end Ksh.Varsub
