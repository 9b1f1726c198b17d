import Verif.Vars.Scopes
import Verif.Getopt.Props
import Verif.Num.Props
import Verif.Lex.Model

/-!
# `typeset`, `export` and `readonly`: options and lists

`c_typeset` (c_ksh.c:557-851).  The options are read by `Getopt.run`, what is done to a variable is
`Vars.act`, and arrays are lists of elements.  Functions (`-f`) are left out.
-/

namespace Ksh.Typeset
open Ksh.Vars (Attr Cell Str)

/-- the flags of table.h that c_typeset handles; `INT_L` has no option -/
inductive Flag
  | int | expo | rdonly | ljust | rjust | zerofil | lcase | ucase | intu | trace
  deriving DecidableEq, Repr

/-- a set of flags -/
abbrev FS := Flag → Bool

def FS.empty : FS := fun _ => false

/-- c_ksh.c:606-657 -/
def flagOf : Char → Option Flag
  | 'L' => some .ljust
  | 'R' => some .rjust
  | 'U' => some .intu
  | 'Z' => some .zerofil
  | 'i' => some .int
  | 'l' => some .lcase
  | 'r' => some .rdonly
  | 't' => some .trace
  | 'u' => some .ucase
  | 'x' => some .expo
  | _ => none

/-- the variables of c_typeset -/
structure T where
  fset : FS := FS.empty
  fclr : FS := FS.empty
  /-- `thing`: 0, `-` or `+` -/
  thing : Option Char := none
  func : Bool := false
  pflag : Bool := false
  fieldstr : Option (List Char) := none
  basestr : Option (List Char) := none

/-- one turn of the loop c_ksh.c:602-667 -/
def step (t : T) (plus : Bool) (c : Char) (optarg : Option (List Char)) : T :=
  let t := if c = 'L' ∨ c = 'R' ∨ c = 'Z' then { t with fieldstr := optarg } else t
  let t := if c = 'i' then { t with basestr := optarg } else t
  let t := if c = 'f' then { t with func := true } else t
  let t := if c = 'p' then { t with pflag := true } else t
  let flag : FS := fun f => flagOf c = some f
  if plus then
    { t with fclr := fun f => t.fclr f || flag f, fset := fun f => t.fset f && !flag f, thing := some '+' }
  else
    { t with fset := fun f => t.fset f || flag f, fclr := fun f => t.fclr f && !flag f, thing := some '-' }

/-- the loop; `none` is `return 1` -/
def options (t : T) : List Getopt.Ev → Option T
  | [] => some t
  | e :: es => if e.ret = '?' then none else options (step t e.plus e.ret e.optarg) es

/-- `LJUST | RJUST | ZEROFIL | UCASEV_AL | LCASEV | INTEGER | INT_U | INT_L` -/
def group : Flag → Bool
  | .ljust | .rjust | .zerofil | .ucase | .lcase | .int | .intu => true
  | _ => false

def anyGroup (s : FS) : Bool := s .ljust || s .rjust || s .zerofil || s .ucase || s .lcase || s .int || s .intu

def minus (s : FS) (g : Flag) : FS := fun f => s f && !decide (f = g)
def plus (s : FS) (g : Flag) : FS := fun f => s f || decide (f = g)

/-- c_ksh.c:693-702, if there are operands -/
def prefer (fset fclr : FS) : FS × FS :=
  let fset := if fset .lcase then minus fset .ucase else fset
  let fset := if fset .ljust then minus fset .rjust else fset
  if fset .zerofil && !fset .ljust then (plus fset .rjust, minus fclr .rjust) else (fset, fclr)

/-- c_ksh.c:693-709 -/
def exclude (fset fclr : FS) : FS × FS :=
  let q := prefer fset fclr
  (q.1, if anyGroup q.1 then fun f => q.2 f || (!q.1 f && group f) else q.2)

/-- `(flag | set) & ~clr`, var.c:709 -/
def change (a set clr : FS) : FS := fun f => (a f || set f) && !clr f

/-- the options of `typeset` (c_ksh.c:563); those of `export` and `readonly` are `p` -/
def optstring : List Char := ['L', '#', 'R', '#', 'U', 'Z', '#', 'f', 'i', '#', 'l', 'p', 'r', 't', 'u', 'x']

/-- what c_typeset gives to typeset() for each operand: the flags, `field` and `base`; `none` is an
error.  The operand `-` or `+` (c_ksh.c:676-682) is left out. -/
def request (t : T) : Option (FS × FS × Int × Int) :=
  match (match t.fieldstr with | none => some 0 | some s => Num.getn s),
        (match t.basestr with | none => some 0 | some s => Num.getn s) with
  | some field, some base => some ((exclude t.fset t.fclr).1, (exclude t.fset t.fclr).2, field, base)
  | _, _ => none

/-! ## Lists -/

/-- `%d` -/
def dec (n : Nat) : List Char := (Num.u64ton n 10).getD []

/-- the options c_ksh.c:789-813 shows for a variable -/
def optWords (a : FS) (field : Nat) : List (List Char) :=
  (if a .int then [['-', 'i']] else []) ++ (if a .expo then [['-', 'x']] else []) ++ (if a .rdonly then [['-', 'r']] else []) ++
  (if a .trace then [['-', 't']] else []) ++ (if a .ljust then ['-' :: 'L' :: dec field] else []) ++ (if a .rjust then ['-' :: 'R' :: dec field] else []) ++
  (if a .zerofil then [['-', 'Z']] else []) ++ (if a .lcase then [['-', 'l']] else []) ++ (if a .ucase then [['-', 'u']] else []) ++
  (if a .intu then [['-', 'U']] else [])

/-- the line of `typeset` without arguments, c_ksh.c:788-814 -/
def typesetLine (name : List Char) (a : FS) (field : Nat) : List Char :=
  ['t', 'y', 'p', 'e', 's', 'e', 't', ' '] ++ ((optWords a field).map (· ++ [' '])).flatten ++ name ++ ['\n']

/-- one `struct tbl` of a list: index, flags and the value if it is set -/
structure Elem where
  idx : Nat
  flags : FS
  val : Option (List Char)

/-- a name in a table; `elems` begins with the `struct tbl` in the table itself -/
structure Entry where
  name : List Char
  array : Bool := false
  /-- `USERATTRIB` of the first -/
  user : Bool
  first : Elem
  more : List Elem := []

/-- the line c_ksh.c:816-840 -/
def valueLine (pflag : Bool) (flag : FS) (thing : Option Char) (anySet : Bool) (n : Entry) (e : Elem) : List Char :=
  (if pflag then (if flag .expo then ['e', 'x', 'p', 'o', 'r', 't', ' '] else ['r', 'e', 'a', 'd', 'o', 'n', 'l', 'y', ' ']) else []) ++
  n.name ++ (if n.array && anySet then ['['] ++ dec e.idx ++ [']'] else []) ++
  (match thing, e.val with
    | some '-', some s => '=' :: (if e.flags .int && !e.flags .ljust && !e.flags .rjust then s else Lex.printQuoted s)
    | _, _ => []) ++ ['\n']

def someFlag (s : FS) : Bool := anyGroup s || s .expo || s .rdonly || s .trace

/-- the loop over the elements c_ksh.c:773-846, with `field` of each element as a function -/
def elemLines (pflag : Bool) (flag : FS) (thing : Option Char) (anySet : Bool) (field : Elem → Nat) (n : Entry) : List Elem → List Char
  | [] => []
  | e :: es =>
    if n.array && anySet && e.val.isNone then elemLines pflag flag thing anySet field n es
    else if thing.isNone && !someFlag flag then
      typesetLine n.name e.flags (field e) ++
        (if n.array || !anySet then [] else elemLines pflag flag thing anySet field n es)
    else
      valueLine pflag flag thing anySet n e ++ (if !anySet then [] else elemLines pflag flag thing anySet field n es)

/-- one name, c_ksh.c:748-847 -/
def entryLines (pflag : Bool) (flag : FS) (thing : Option Char) (field : Elem → Nat) (n : Entry) : List Char :=
  let els := n.first :: n.more
  let anySet := els.any (·.val.isSome)
  if !anySet && !n.user then []
  else if someFlag flag && !(someFlag fun f => flag f && n.first.flags f) then []
  else elemLines pflag flag thing anySet field n els

/-- c_ksh.c:725-726 and 746-849: the scopes from the innermost, each table sorted by name -/
def list (t : T) (field : Elem → Nat) (scopes : List (List Entry)) : List Char :=
  (scopes.map fun sc => (sc.map (entryLines t.pflag (fun f => t.fset f || t.fclr f) t.thing field)).flatten).flatten

end Ksh.Typeset
