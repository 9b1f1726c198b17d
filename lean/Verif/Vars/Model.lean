import Verif.Num.Model
/-!
# Model of variables and scopes (var.c)

Modelled: the stack of blocks with their variable tables (var.c:55-99), `global` and
`local` for ordinary names (var.c:206-302), `arraysearch` (var.c:1154-1189), `setstr`,
`setint`, `setint_v` (var.c:372-518), `typeset` (var.c:612-757), `unset` (var.c:762-785),
`set_array` (var.c:1231-1255), `makenv` (var.c:860-896), the checks of their callers
(`assign_check`, expr.c:553-561; `c_unset`, c_sh.c:669-676; `c_getopts`,
c_ksh.c:1341-1350) and the two places that store without a check (`getspec`,
var.c:935-979; `check_sigwinch`, edit.c:61-88).

A table (`struct table`, modelled in Table) is an association list; an entry without
`DEFINED` is one that is absent.  The elements of an array are an association list as well
(their order, var.c:1164-1168, is not modelled).  The evaluation of integer expressions
(`v_evaluate`, modelled in Expr) is an oracle given with each operation: the outcome is the
number with its base, or an error; the assignments an expression makes are operations of
their own.  Side effects of special variables (`setspec`), the `TRACE` flag, memory and
messages are left out; names are taken to be valid, subscripts evaluated.
-/

namespace Ksh.Vars
open Ksh.Num

abbrev Str := List Char

/-- The flags of table.h:30-47 that are kept across assignments. -/
structure Attr where
  int : Bool := false
  expo : Bool := false
  rdonly : Bool := false
  ljust : Bool := false
  rjust : Bool := false
  zerofil : Bool := false
  lcase : Bool := false
  ucase : Bool := false
  intu : Bool := false
  deriving DecidableEq, Repr, Inhabited

/-- `(flag | set) & ~clr` -/
def Attr.change (a set clr : Attr) : Attr where
  int := (a.int || set.int) && !clr.int
  expo := (a.expo || set.expo) && !clr.expo
  rdonly := (a.rdonly || set.rdonly) && !clr.rdonly
  ljust := (a.ljust || set.ljust) && !clr.ljust
  rjust := (a.rjust || set.rjust) && !clr.rjust
  zerofil := (a.zerofil || set.zerofil) && !clr.zerofil
  lcase := (a.lcase || set.lcase) && !clr.lcase
  ucase := (a.ucase || set.ucase) && !clr.ucase
  intu := (a.intu || set.intu) && !clr.intu

/-- `val`; `addr s` is the pointer to `s` taken for a number. -/
inductive Val
  | str (s : Str)
  | int (n : Int)
  | addr (s : Str)
  deriving DecidableEq, Repr

/-- One `struct tbl`: the value is `none` without `ISSET`; `base` is `type` of an integer. -/
structure Cell where
  attr : Attr := {}
  val : Option Val := none
  base : Nat := 0
  field : Nat := 0
  deriving DecidableEq, Repr, Inhabited

structure Var where
  c0 : Cell := {}
  rest : List (Nat × Cell) := []
  deriving DecidableEq, Repr, Inhabited

def Var.cell (v : Var) (i : Nat) : Option Cell := if i = 0 then some v.c0 else v.rest.lookup i

def Var.setCell (v : Var) (i : Nat) (c : Cell) : Var :=
  if i = 0 then { v with c0 := c } else { v with rest := (i, c) :: v.rest.filter (·.1 ≠ i) }

/-- `arraysearch`, var.c:1154-1189: an element that has no value starts anew with the
attributes of the base. -/
def Var.search (v : Var) (i : Nat) : Var :=
  if i = 0 then v
  else match v.rest.lookup i with
    | some c => if c.val.isSome then v else v.setCell i { v.c0 with val := none }
    | none => v.setCell i { v.c0 with val := none }

/-- the cell found by `search` -/
def Var.at (v : Var) (i : Nat) : Cell := ((v.search i).cell i).getD {}

def fmtOf (c : Cell) : FmtAttr := ⟨c.attr.rjust, c.attr.ljust, c.attr.zerofil, c.attr.lcase, c.attr.ucase, c.field⟩

/-- `formatstr` with the default width stored, var.c:531-533 -/
def newField (c : Cell) (s : Str) : Nat :=
  if (c.attr.rjust || c.attr.ljust) && c.field = 0 then s.length else c.field

/-- `str_val`, var.c:305-358 -/
def text (c : Cell) : Str :=
  match c.val with
  | none => []
  | some (.str s) => s
  | some (.int n) =>
    let s := (strVal ⟨c.base, c.attr.intu, c.attr.ucase⟩ n).1
    if c.attr.rjust || c.attr.ljust then formatstr (fmtOf c) s else s
  | some (.addr s) => s

/-- `setstr`, var.c:372-418; `none` is a failure, with nothing stored. -/
def setstr (c : Cell) (s : Str) (ignore : Bool) (res : Option (Int × Nat)) : Option Cell :=
  if c.attr.rdonly && !ignore then none
  else if !c.attr.int then
    let fs := if c.attr.ucase || c.attr.lcase || c.attr.ljust || c.attr.rjust then formatstr (fmtOf c) s else s
    let fld := if c.attr.ucase || c.attr.lcase || c.attr.ljust || c.attr.rjust then newField c s else c.field
    some { c with val := some (.str fs), base := 0, field := fld }
  else match res with
    | none => none
    | some (n, b) => some { c with val := some (.int n), base := if c.base = 0 then b else c.base }

/-- `setint`, var.c:421-437 (`none`: `setstr` refused) -/
def setint (c : Cell) (n : Int) : Option Cell :=
  if c.attr.int then some { c with val := some (.int n) }
  else setstr c (strVal ⟨0, false, false⟩ n).1 false none

/-- What is done to a variable. -/
inductive Act
  /-- `global` only, var.c:206-266 -/
  | ref (i : Nat)
  /-- `setstr(global(..), s, ..)`: read, for, `${x=..}`, `getopts`, cd -/
  | assign (i : Nat) (s : Str) (res : Option (Int × Nat))
  /-- an arithmetic assignment: expr.c:332, 452-456, 539-546 -/
  | arith (i : Nat) (n : Int) (b : Nat)
  /-- `typeset` with an optional subscript; `res j` is the outcome of evaluating the old
  value of element `j`, `resv` that of the new value. -/
  | typeset (i : Nat) (set clr : Attr) (field base : Nat) (val : Option Str)
      (res : Nat → Option (Int × Nat)) (resv : Option (Int × Nat))
  | unset (i : Option Nat)
  | setA (reset : Bool) (vals : List Str) (res : Nat → Option (Int × Nat))
  /-- `c_getopts` storing `OPTARG` -/
  | optarg (s : Option Str)
  /-- `setint` without looking at `RDONLY`: var.c:935-979, edit.c:79-86 -/
  | refresh (n : Int)

def Attr.isEmpty (a : Attr) : Bool := a = {}

/-- one turn of the loop var.c:682-737 for element `j`: the new cell and whether the
assignment went well.  `assigned` says that the new value is for this very element. -/
def retype (c : Cell) (set clr : Attr) (field base : Nat) (assigned : Bool) (res : Option (Int × Nat)) : Cell × Bool :=
  let fake := c.val.isSome && !assigned && ((set.ucase || set.lcase || set.ljust || set.rjust || set.zerofil) ||
    (c.attr.int && clr.int) || (!c.attr.int && set.int))
  let base1 := if !c.attr.int && set.int then 0 else c.base
  let ign := !c.attr.rdonly && set.rdonly
  let attr := c.attr.change set clr
  let base2 := if set.int && base > 0 && !assigned then base else base1
  let fld := if set.ljust || set.rjust || set.zerofil then field else c.field
  -- the bytes of `val` stay when INTEGER is switched without an assignment
  let val := match c.val with
    | some (.str s) => if !c.attr.int && attr.int then some (.addr s) else c.val
    | v => v
  if fake then
    match setstr { c with attr := attr, base := base2, field := fld } (text c) ign res with
    | some c' => (c', true)
    | none => (if attr.int then { c with attr := attr, base := base2, field := fld, val := none }
        else { c with attr := attr, base := 0, field := fld, val := none }, false)
  else ({ c with attr := attr, base := base2, field := fld, val := val }, true)

/-- The effect of an operation on the variable it found (or the blank one just made): the
new variable, `none` if it is gone, and whether the operation went well. -/
def act : Act → Var → Option Var × Bool
  | .ref i, v => (some (v.search i), true)
  | .assign i s res, v =>
    match setstr (v.at i) s false res with
    | some c => (some ((v.search i).setCell i c), true)
    | none => (some (v.search i), false)
  | .arith i n b, v =>
    if (v.at i).attr.rdonly then (some (v.search i), false)
    else if (v.at i).attr.int then
      (some ((v.search i).setCell i { v.at i with val := some (.int n), base := if (v.at i).base = 0 then b else (v.at i).base }), true)
    else match setint (v.at i) n with
      | some c => (some ((v.search i).setCell i c), true)
      | none => (some (v.search i), false)
  | .typeset i set clr field base val res resv, v =>
    let v := v.search i
    -- var.c:664-667
    if v.c0.attr.rdonly && (val.isSome || !clr.isEmpty || !({ set with expo := false } : Attr).isEmpty) then (some v, false)
    else
      let ts (j : Nat) (c : Cell) := retype c set clr field base (val.isSome && j = i) (res j)
      let ok := (set.isEmpty && clr.isEmpty) || ((ts 0 v.c0).2 && v.rest.all fun (j, c) => (ts j c).2)
      let v := if set.isEmpty && clr.isEmpty then v
        else ⟨(ts 0 v.c0).1, v.rest.map fun (j, c) => (j, (ts j c).1)⟩
      if !ok then (some v, false)
      else match val with
        | none => (some v, true)
        | some s =>
          let c := (v.cell i).getD {}
          match setstr c s true resv with
          | none => (some v, false)
          | some c' => (some (v.setCell i (if c.attr.int && base > 0 then { c' with base := base } else c')), true)
  | .unset i, v =>
    let w := v.search (i.getD 0)
    if (v.at (i.getD 0)).attr.rdonly then (some w, false)
    else match i with
      | none => (none, true)
      | some j => (some (w.setCell j { v.at j with attr := {}, val := none }), true)
  | .setA reset vals res, v =>
    if v.c0.attr.rdonly then (some v, false)
    else
      let v0 := if reset then {} else v
      if reset && vals.isEmpty then (none, true)
      else
        (some (vals.zipIdx.foldl (fun v (s, i) =>
          match setstr (v.at i) s false (res i) with
          | some c => (v.search i).setCell i c
          | none => v.search i) v0), true)
  | .optarg s, v =>
    -- c_ksh.c:1342-1345
    let c := { v.c0 with attr := { v.c0.attr with rdonly := false, int := false }, val := v.c0.val.map fun _ => .str (text v.c0) }
    match s with
    | none => (none, true)
    | some s => (some { v with c0 := (setstr c s false none).getD c }, true)
  | .refresh n, v =>
    match setint v.c0 n with
    | some c => (some { v with c0 := c }, true)
    | none => (some v, false)

/-! ## Scopes -/

/-- `l->vars` -/
abbrev Scope := List (Str × Var)

def find (sc : Scope) (n : Str) : Option Var := List.lookup n sc

/-- store or remove an entry -/
def write (sc : Scope) (n : Str) : Option Var → Scope
  | none => sc.filter (·.1 ≠ n)
  | some v => if (find sc n).isSome then sc.map fun (m, w) => if m = n then (m, v) else (m, w) else sc ++ [(n, v)]

/-- `genv->loc`, innermost block first -/
abbrev St := List Scope

/-- `global` (var.c:251-266) followed by what is done to the variable: the innermost block
that has the name, or else the outermost one. -/
def onGlobal (n : Str) (f : Var → Option Var) : St → St
  | [] => []
  | [sc] => [write sc n (f ((find sc n).getD {}))]
  | sc :: r =>
    match find sc n with
    | some v => write sc n (f v) :: r
    | none => sc :: onGlobal n f r

/-- the innermost variable of that name -/
def visible (n : Str) : St → Option Var
  | [] => none
  | sc :: r => match find sc n with
    | some v => some v
    | none => visible n r

/-- the blank variable of `local`, var.c:284-297 -/
def localBlank (n : Str) (copy : Bool) (outer : St) : Var :=
  match copy, visible n outer with
  | true, some v => { c0 := { attr := v.c0.attr, base := if v.c0.attr.int then v.c0.base else 0, field := v.c0.field } }
  | _, _ => {}

/-- `local` followed by what is done to the variable. -/
def onLocal (n : Str) (copy : Bool) (f : Var → Option Var) : St → St
  | [] => []
  | sc :: r => write sc n (f ((find sc n).getD (localBlank n copy r))) :: r

inductive Op
  | push
  | pop
  | glob (n : Str) (a : Act)
  | loc (n : Str) (copy : Bool) (a : Act)

/-- `newblock`, `popblock`, and operations on variables.  The outermost block is never
popped. -/
def step (s : St) : Op → St
  | .push => [] :: s
  | .pop => match s with
    | _ :: sc :: r => sc :: r
    | s => s
  | .glob n a => onGlobal n (fun v => (act a v).1) s
  | .loc n copy a => onLocal n copy (fun v => (act a v).1) s

def run (s : St) (ops : List Op) : St := ops.foldl step s

/-! ## The environment -/

def exported (v : Var) : Bool := v.c0.attr.expo && v.c0.val.isSome

/-- the value put into the environment: integers become strings, var.c:880-887 -/
def envText (c : Cell) : Str :=
  if c.attr.int then text ((setstr { c with attr := { c.attr with int := false, rdonly := false } } (text c) false none).getD c)
  else text c

def unexport (names : List Str) (sc : Scope) : Scope :=
  sc.map fun (n, v) => if names.contains n then (n, { v with c0 := { v.c0 with attr := { v.c0.attr with expo := false } } }) else (n, v)

/-- `makenv`, var.c:860-896: names and values, inner blocks first; outer instances are
unexported on the way. -/
def makenv : St → List (Str × Str)
  | [] => []
  | sc :: r =>
    let here := sc.filter fun e => exported e.2
    here.map (fun e => (e.1, envText e.2.c0)) ++ makenv (r.map (unexport (here.map (·.1))))
termination_by s => s.length

end Ksh.Vars
