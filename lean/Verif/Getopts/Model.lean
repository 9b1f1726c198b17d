import Verif.Getopt.Model
/-!
# The getopts command

Model of c_getopts (c_ksh.c:1267-1362) on top of ksh_getopt (`Verif/Getopt`), of assignments to OPTIND (var.c:990-994,
getopts_reset, c_ksh.c:1257-1265) and of what function calls do to its state (exec.c:603-608, var.c:97-98).

Left out: the messages for wrong use of getopts itself (no name, not an identifier), the attributes of OPTARG (readonly and integer
are removed), set -o allexport, local variables OPTIND.  Characters from 128 on stand for bytes; char is signed.
-/

namespace Ksh.Getopts
open Ksh.Getopt (Arg G Msg getopt)

/-- user_opt (sh.h:304-317) and the parameter OPTARG. -/
structure U where
  g : G
  /-- what `$OPTIND` shows -/
  uoptind : Nat
  /-- GF_PLUSOPT in flags -/
  plusopt : Bool
  /-- the parameter OPTARG, none if unset -/
  optarg : Option Arg
deriving DecidableEq

/-- What a call of getopts shows. -/
structure Res where
  status : Nat
  /-- the value given to the parameter `name`, if any -/
  name : Option Arg
  msg : Option Msg
deriving DecidableEq

/-- The value of ksh_getopt as an int is negative: -1 for the end, or a char with the sign bit (c_ksh.c:1319-1329). -/
def neg : Option Char → Bool
  | none => true
  | some c => 128 ≤ c.toNat

/-- buf (c_ksh.c:1321-1331). -/
def shown (optc : Option Char) (plus : Bool) : Arg :=
  match optc with
  | none => ['?']
  | some c =>
    if neg (some c) = false ∧ c ≠ '?' ∧ plus = true then ['+', c]
    else if neg (some c) then ['?'] else [c]

/-- The check on the saved state (c_ksh.c:1308-1316). -/
def changed (argv : List Arg) (g : G) : Option Bool :=
  if argv.length < g.optind then some true
  else if g.p = 0 then some false
  else match argv[g.optind - 1]? with
    | none => none
    | some a => some (decide (a.length < g.p))

/-- c_getopts (c_ksh.c:1302-1361).  `argv` are the arguments to be parsed, with `$0` in front; `ro` says that `name` cannot be set.
`none` for an access out of bounds. -/
def call (ro : Bool) (options : List Char) (argv : List Arg) (u : U) : Option (Res × U) :=
  match changed argv u.g with
  | none => none
  | some true => some (⟨1, none, none⟩, u)
  | some false =>
    match getopt u.plusopt options argv { u.g with optarg := none } with
    | none => none
    | some (optc, msg, g) =>
      some (⟨if neg optc then 1 else if ro then 1 else 0, if ro then none else some (shown optc g.plus), msg⟩,
        { u with g := g, uoptind := if optc = some '?' then u.uoptind else g.optind, optarg := g.optarg })

/-- getopts_reset (c_ksh.c:1257-1265). -/
def reset (posix : Bool) (val : Int) (u : U) : U :=
  if 1 ≤ val then { u with g := { Getopt.reset with optind := val.toNat }, uoptind := val.toNat, plusopt := !posix } else u

/-- An int64_t made an int (var.c:992). -/
def toInt (v : Int) : Int := Int.bmod v (2 ^ 32)

/-- What a script can do to this state. -/
inductive Prog where
  | done
  /-- `OPTIND=v`, with or without set -o posix -/
  | assign (posix : Bool) (v : Int) (k : Prog)
  /-- `getopts options name args` -/
  | call (ro : Bool) (options : List Char) (argv : List Arg) (k : Prog)
  /-- calling a function; `fksh` says that it was defined with `function` -/
  | func (fksh posix : Bool) (body k : Prog)

def exec : Prog → U → Option U
  | .done, u => some u
  | .assign posix v k, u => exec k (reset posix (toInt v) u)
  | .call ro options argv k, u =>
    match call ro options argv u with
    | none => none
    | some (_, u') => exec k u'
  | .func fksh posix body k, u =>
    match exec body (if fksh then reset posix 1 u else u) with
    | none => none
    | some u' => exec k (if fksh then { u' with g := u.g, uoptind := u.uoptind, plusopt := u.plusopt } else u')

/-- `while getopts options name args; do ..; done`: what name, OPTARG and the messages are in each round, the value of name after the
loop, and the state then. -/
def loop : Nat → List Char → List Arg → U → Option (List (Option Arg × Option Arg × Option Msg) × Option Arg × U)
  | 0, _, _, _ => none
  | n + 1, options, argv, u =>
    match call false options argv u with
    | none => none
    | some (r, u') =>
      if r.status = 0 then
        match loop n options argv u' with
        | none => none
        | some (es, x) => some ((r.name, u'.optarg, r.msg) :: es, x)
      else some ([], r.name, u')

end Ksh.Getopts
