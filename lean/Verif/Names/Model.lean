import Verif.Lex.Model

/-!
# Model of names: variables, array references, assignments, functions
(var.c:144-176, 609-640, 785-855, 1194-1228; lex.c:817-825; syn.c:233-241, 316-322, 530-547;
tree.c:540-606)

Strings are lists of characters without NUL.  Words are the coded words of `Verif/Lex`.  The
value of a subscript (`substitute` and `evaluate`) is left out: the model says which text is the
subscript.  `depth` in the C code is an `int` and does not overflow here.
-/

namespace Ksh.Names

open Ksh.Lex (Sym)

abbrev Str := List Char

/-- `letter` (sh.h:288; misc.c:50-54) -/
def letter (c : Char) : Bool :=
  (97 ≤ c.toNat && c.toNat ≤ 122) || (65 ≤ c.toNat && c.toNat ≤ 90) || c == '_'

/-- `digit` (sh.h:289) -/
def digit (c : Char) : Bool := 48 ≤ c.toNat && c.toNat ≤ 57

/-- `letnum` (sh.h:290) -/
def letnum (c : Char) : Bool := letter c || digit c

/-- `array_ref_len` (var.c:1198-1212): `n` characters have been read. -/
def refLen (depth : Int) (n : Nat) : Str → Nat
  | [] => 0
  | c :: r =>
    if c = ']' then if depth - 1 = 0 then n + 1 else refLen (depth - 1) (n + 1) r
    else if c = '[' then refLen (depth + 1) (n + 1) r
    else refLen depth (n + 1) r

def arrayRefLen (s : Str) : Nat := refLen 0 0 s

/-- The rest after the characters of a name. -/
def skipLetnum : Str → Str
  | [] => []
  | c :: r => if letnum c then skipLetnum r else c :: r

/-- `skip_varname` (var.c:790-803): the rest of the string. -/
def skipVarname (aok : Bool) : Str → Str
  | [] => []
  | c :: r =>
    if letter c then
      if aok && (skipLetnum r).head? == some '[' && arrayRefLen (skipLetnum r) ≠ 0 then
        (skipLetnum r).drop (arrayRefLen (skipLetnum r))
      else skipLetnum r
    else c :: r

/-- `arrayname` (var.c:1216-1226) -/
def arrayname (s : Str) : Str := s.takeWhile (· ≠ '[')

/-- What `array_index_calc` (var.c:149-175) makes of a name: the name to look up and the text of
the subscript. -/
def target (n : Str) : Str × Option Str :=
  if (skipVarname false n).length ≠ n.length && (skipVarname false n).head? == some '[' &&
      arrayRefLen (skipVarname false n) ≠ 0 then
    (n.take (n.length - (skipVarname false n).length),
      some (((skipVarname false n).take (arrayRefLen (skipVarname false n) - 1)).drop 1))
  else (n, none)

/-- var.c:636-645: the name and the value, if there is a `=`. -/
def valueAt (imp : Bool) (var val : Str) : Option (Str × Option Str) :=
  match val with
  | '=' :: v => some (var.take (var.length - val.length), some v)
  | _ => if imp then none else some (var, none)

/-- `typeset` (var.c:609-645) up to the look-up: `none` if it answers `NULL`. -/
def splitAssign (imp : Bool) (var : Str) : Option (Str × Option Str) :=
  if (skipVarname false var).length = var.length then none
  else if (skipVarname false var).head? == some '[' then
    if arrayRefLen (skipVarname false var) = 0 then none
    else if imp && !(((skipVarname false var).take
        (arrayRefLen (skipVarname false var) - 1)).drop 1).all digit then none
    else valueAt imp var ((skipVarname false var).drop (arrayRefLen (skipVarname false var)))
  else valueAt imp var (skipVarname false var)

/-- var.c:811-813: the rest after the unquoted characters of a name. -/
def skipWdLetnum : List Sym → List Sym
  | .chr c :: r => if letnum c then skipWdLetnum r else .chr c :: r
  | w => w

/-- var.c:819-832: the rest after an unquoted subscript; `none` if there is no end to it. -/
def skipWdSub (depth : Int) : List Sym → Option (List Sym)
  | .chr c :: r =>
    if c = '[' then skipWdSub (depth + 1) r
    else if c = ']' then if depth - 1 = 0 then some r else skipWdSub (depth - 1) r
    else skipWdSub depth r
  | _ => none

/-- `skip_wdvarname` (var.c:805-836) -/
def skipWdVarname (aok : Bool) : List Sym → List Sym
  | .chr c :: r =>
    if letter c then
      if aok && (skipWdLetnum r).head? == some (.chr '[') then
        (skipWdSub 0 (skipWdLetnum r)).getD (skipWdLetnum r)
      else skipWdLetnum r
    else .chr c :: r
  | w => w

/-- `is_wdvarname` (var.c:838-844) -/
def isWdVarname (aok : Bool) (w : List Sym) : Bool :=
  (skipWdVarname aok w).length ≠ w.length && (skipWdVarname aok w).isEmpty

/-- `is_wdvarassign` (var.c:847-853) -/
def isWdVarassign (w : List Sym) : Bool :=
  (skipWdVarname true w).length ≠ w.length && (skipWdVarname true w).head? == some (.chr '=')

/-- lex.c:819-820: the characters copied into `ident`, and whether the loop ended at the end of
the word (`c == EOS`).  `n` is the room left, `IDENT` (64) at first. -/
def identLoop : Nat → List Sym → Str × Bool
  | 0, _ => ([], false)
  | _ + 1, [] => ([], true)
  | n + 1, .chr c :: r => (c :: (identLoop n r).1, (identLoop n r).2)
  | _ + 1, _ => ([], false)

/-- lex.c:817-824: `ident` -/
def ident (w : List Sym) : Str := if (identLoop 64 w).2 then (identLoop 64 w).1 else []

/-- syn.c:316-322: the variable of `for` and `select`; `none` for a syntax error. -/
def loopVar (w : List Sym) : Option Str := if isWdVarname true w then some (ident w) else none

/-- `wdstrip` (tree.c:540-606).  After `COMSUB` and `EXPRSUB` the pointer is left at the NUL that
ends the text, which is then read as `EOS`. -/
def wdstrip : List Sym → Str
  | [] => []
  | .chr c :: r => c :: wdstrip r
  | .qchr c :: r => c :: wdstrip r
  | .com s :: _ => '$' :: '(' :: s ++ [')']
  | .exp s :: _ => '$' :: '(' :: '(' :: s ++ [')', ')']
  | .oq :: r => wdstrip r
  | .cq :: r => wdstrip r
  | .osub b n :: r => '$' :: (if b then ['{'] else []) ++ n ++ wdstrip r
  | .csub b :: r => (if b then ['}'] else []) ++ wdstrip r
  | .opat c :: r => c :: '(' :: wdstrip r
  | .spat :: r => '|' :: wdstrip r
  | .cpat :: r => ')' :: wdstrip r

/-- `C_QUOTE` (misc.c:60) -/
def cquote : Str :=
  [' ', '\n', '\t', '"', '#', '$', '&', '\'', '(', ')', '*', ';', '<', '>', '?', '[', '\\', '`', '|']

/-- syn.c:538-547: the name of a function; `none` for a syntax error. -/
def funcName (w : List Sym) : Option Str :=
  if (wdstrip w).any fun c => cquote.contains c || c == '=' then none else some (wdstrip w)

end Ksh.Names
