import Verif.Options.Props
import Verif.Findcom.Props
import Verif.Vars.Props

/-!
# Model of the restricted shell

The checks of `Flag(FRESTRICTED)` are put around the models of the parts they guard: `cd`
(c_ksh.c:45), the open of a redirection (exec.c:1072-1128), `typeset` (var.c:651-654), the lookup
of commands (exec.c:478, 535; Findcom), the options (misc.c:264-465; Options), the read-only flag
(var.c; Vars) and the start of the shell (main.c:402-447).

What a command can do that matters here is recorded as a list of events.  `search_path` is not
modelled: it is set from instances of `PATH` only (var.c:82-101, 1000-1003).  Other programs the
shell runs are not modelled, nor are files the shell itself writes: the history, temporary files.
-/

namespace Ksh.Restricted
open Ksh.Vars (Str Var Act Attr Scope)

/-- The names compared in var.c:652-653. -/
def guarded : List Str := ["PATH".toList, "ENV".toList, "SHELL".toList]

inductive Access
  | rdonly | wronly | rdwr
  deriving DecidableEq, Repr

/-- The flags given to `open`. -/
structure OFlags where
  acc : Access
  append : Bool := false
  creat : Bool := false
  trunc : Bool := false
  excl : Bool := false
  deriving DecidableEq, Repr

/-- The kinds of redirection (tree.h:84-92). -/
inductive Io
  | read
  | write (clob : Bool)
  | rdwr
  | here
  | cat
  | dup
  deriving DecidableEq, Repr

/-- The switch of `iosetup` (exec.c:1069-1091): the flags, `none` if there is no open.  `special`
says that the name exists and is not an ordinary file. -/
def ioflags (noclobber special : Bool) : Io → Option OFlags
  | .read => some { acc := .rdonly }
  | .cat => some { acc := .wronly, append := true, creat := true }
  | .write clob => some { acc := .wronly, creat := true, trunc := true, excl := noclobber && !clob && !special }
  | .rdwr => some { acc := .rdwr, creat := true }
  | .here => none
  | .dup => none

/-- What `iosetup` opens (exec.c:1121-1127). -/
def ioopen (restricted noclobber special : Bool) (io : Io) : Option OFlags :=
  match ioflags noclobber special io with
  | none => none
  | some o => if restricted && o.creat then none else some o

/-- Names of special variables into which the shell stores by itself (var.c:935-979,
edit.c:79-86). -/
def selfSet : List Str :=
  ["SECONDS".toList, "RANDOM".toList, "HISTSIZE".toList, "OPTIND".toList, "LINENO".toList, "COLUMNS".toList, "LINES".toList]

/-- How `typeset` looks up the variable: `global`, `local`, or `local` with the flags copied. -/
inductive Mode
  | global | loc | copy
  deriving DecidableEq, Repr

inductive Cmd (W : Type)
  /-- the builtin `set`; `me` is `procpid == kshpid` -/
  | set (me : Bool) (args : List Getopt.Arg)
  /-- the builtin `cd`: whether its options are wrong, and where `chdir` would go -/
  | cd (badopt : Bool) (to : Option W)
  | redir (io : Io) (special : Bool)
  /-- looking up a command and running it, in any state of the rest of the shell -/
  | word (S : Findcom.St W) (words : List Findcom.Name)
  /-- `newblock` and `popblock` -/
  | push
  | pop
  /-- `typeset` (var.c:609): the name, a subscript, and the arguments of `Act.typeset`.  All
  assignments written as words of a command come here, as do `read`, `export` and `readonly`. -/
  | typeset (n : Str) (sub : Option Nat) (m : Mode) (set clr : Attr) (field base : Nat) (val : Option Str)
      (res : Nat → Option (Int × Nat)) (resv : Option (Int × Nat))
  /-- `global` only -/
  | ref (n : Str) (i : Nat)
  /-- `setstr(global(..))`: for, select, `${x=..}`, `getopts`, ... -/
  | assign (n : Str) (i : Nat) (s : Str) (res : Option (Int × Nat))
  /-- an arithmetic assignment -/
  | arith (n : Str) (i : Nat) (v : Int) (b : Nat)
  | unset (n : Str) (i : Option Nat)
  | setA (n : Str) (reset : Bool) (vals : List Str) (res : Nat → Option (Int × Nat))
  /-- `getopts` storing `OPTARG` -/
  | optarg (s : Option Str)
  /-- the shell's own stores -/
  | refresh (k : Nat) (v : Int)

inductive Ev (W : Type)
  | chdir (to : W)
  | opened (o : OFlags)
  | ran (w : Findcom.Name)

structure St where
  flags : Options.Flags
  vars : Vars.St

def St.restricted (s : St) : Bool := s.flags .restricted ≠ 0

/-- The operation of Vars that a command on variables stands for; `none` if the command is refused
before, or is none on variables. -/
def varOp {W : Type} (restricted : Bool) : Cmd W → Option Vars.Op
  | .push => some .push
  | .pop => some .pop
  | .typeset n sub m set clr field base val res resv =>
    -- `tvar` has the subscript in it, and then is none of the names
    if restricted && sub.isNone && guarded.contains n then none
    else
      let a := Act.typeset (sub.getD 0) set clr field base val res resv
      match m with
      | .global => some (.glob n a)
      | .loc => some (.loc n false a)
      | .copy => some (.loc n true a)
  | .ref n i => some (.glob n (.ref i))
  | .assign n i s res => some (.glob n (.assign i s res))
  | .arith n i v b => some (.glob n (.arith i v b))
  | .unset n i => some (.glob n (.unset i))
  | .setA n reset vals res => some (.glob n (.setA reset vals res))
  | .optarg s => some (.glob "OPTARG".toList (.optarg s))
  | .refresh k v => (selfSet[k]?).map fun n => .glob n (.refresh v)
  | _ => none

def stepVar (s : St) : Option Vars.Op → St
  | some op => { s with vars := Vars.step s.vars op }
  | none => s

/-- One command: the new state and what has been done. -/
def step {W : Type} (s : St) (c : Cmd W) : St × List (Ev W) :=
  match c with
  | .set me args =>
    match Options.parseArgs me Options.OF_SET ("set".toList :: args) s.flags with
    | some o => ({ s with flags := o.flags }, [])
    | none => (s, [])
  | .cd badopt to =>
    if badopt then (s, [])
    else if s.restricted then (s, [])
    else (s, to.toList.map .chdir)
  | .redir io special => (s, (ioopen s.restricted (s.flags .noclobber ≠ 0) special io).toList.map .opened)
  | .word S words =>
    match (Findcom.resolve { S with restricted := s.restricted } words).1 with
    | .run _ w _ => (s, [.ran w])
    | _ => (s, [])
  | c => (stepVar s (varOp s.restricted c), [])

def run {W : Type} (s : St) : List (Cmd W) → St × List (Ev W)
  | [] => (s, [])
  | c :: cs =>
    let (s1, e1) := step s c
    let (s2, e2) := run s1 cs
    (s2, e1 ++ e2)

/-- `typeset -r PATH ENV SHELL` in the outermost block and turning the option on (main.c:435-446);
`none`: one of them was read-only already, and the shell exits. -/
def start (fl : Options.Flags) (sc : Scope) : Option St :=
  let ro : Act := .typeset 0 { rdonly := true } {} 0 0 none (fun _ => none) none
  let one (o : Option Scope) (n : Str) : Option Scope := o.bind fun sc =>
    let r := Vars.act ro ((Vars.find sc n).getD {})
    if r.2 then some (Vars.write sc n r.1) else none
  (guarded.foldl one (some sc)).map fun sc => ⟨Options.upd fl .restricted 1, [sc]⟩

end Ksh.Restricted
