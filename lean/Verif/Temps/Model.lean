/-!
# Model of the temporary files of the shell (io.c:437-461, main.c:716-835, exec.c:379-388)

Several processes run the shell: each has its own stack of environments (`genv` and `oenv`), each
environment its list of temporary files.  Names are numbers.  The file system says of each name
whether there is a file and who made it: a process of the shell or somebody else.  Kept from the
environments is only `temps`; here documents (exec.c:1203) and `fc` (history.c:225) are `mktemp`.
-/

namespace Ksh.Temps

abbrev Pid := Nat
abbrev Name := Nat

/-- `struct temp`: `name` and `pid`. -/
structure Temp where
  name : Name
  pid : Pid
  deriving DecidableEq, Repr

/-- Who made a file. -/
inductive Maker
  | shell (p : Pid)
  | other
  deriving DecidableEq, Repr

/-- `procs p` is the stack of environments of a process that is alive, the innermost first.
`log` is every `unlink` done: by whom, of what name, and whose file it was. -/
structure World where
  procs : Pid → Option (List (List Temp))
  files : Name → Option Maker
  used : List Pid
  log : List (Pid × Name × Option Maker)

/-- What happens.  `mktemp p n` is a call of `maketemp` whose `mkstemp` makes `n`; in `mkfail p n`
it fails, leaving some name `n` in the buffer. -/
inductive Op
  | newenv (p : Pid)
  | quitenv (p : Pid)
  | reclaim (p : Pid)
  | mktemp (p : Pid) (n : Name)
  | mkfail (p : Pid) (n : Name)
  | fork (p c : Pid)
  | exec (p : Pid) (ok : Bool)
  | kill (p : Pid)
  | create (n : Name)
  deriving DecidableEq, Repr

def setProc (p : Pid) (e : Option (List (List Temp))) (w : World) : World :=
  { w with procs := fun q => if q = p then e else w.procs q }

/-- `unlink` -/
def unlink (p : Pid) (n : Name) (w : World) : World :=
  { w with files := fun m => if m = n then none else w.files m
           log := w.log ++ [(p, n, w.files n)] }

/-- `remove_temps` (main.c:827-835) in the process `p` -/
def removeTemps (p : Pid) : List Temp → World → World
  | [], w => w
  | t :: r, w => removeTemps p r (if t.pid = p then unlink p t.name w else w)

/-- `cleanup_proc_env` (main.c:808-816) -/
def cleanupProcEnv (p : Pid) : List (List Temp) → World → World
  | [], w => w
  | e :: r, w => cleanupProcEnv p r (removeTemps p e w)

/-- `maketemp` (io.c:437-461): the new entry is put first in the list of `genv`. -/
def record (p : Pid) (n : Name) : List (List Temp) → List (List Temp)
  | [] => []
  | e :: r => (⟨n, p⟩ :: e) :: r

/-- `reclaim` (main.c:818-825): the stack afterwards. -/
def emptied : List (List Temp) → List (List Temp)
  | [] => []
  | _ :: r => [] :: r

/-- `quitenv` (main.c:730-783): the stack afterwards; at the bottom the process exits. -/
def popped : List (List Temp) → Option (List (List Temp))
  | [] => none
  | [_] => none
  | _ :: e :: r => some (e :: r)

/-- The stack of a child: `genv->oenv = NULL` (main.c:785-806); the list of `genv` is inherited. -/
def childEnv : List (List Temp) → List (List Temp)
  | [] => []
  | e :: _ => [e]

/-- One event; those which cannot happen change nothing. -/
def step (w : World) : Op → World
  | .newenv p =>
    match w.procs p with
    | none => w
    | some s => setProc p (some ([] :: s)) w
  | .quitenv p =>
    match w.procs p with
    | none => w
    | some s => setProc p (popped s) (removeTemps p (s.headD []) w)
  | .reclaim p =>
    match w.procs p with
    | none => w
    | some s => setProc p (some (emptied s)) (removeTemps p (s.headD []) w)
  | .mktemp p n =>
    match w.procs p, w.files n with
    | some s, none =>
      setProc p (some (record p n s)) { w with files := fun m => if m = n then some (.shell p) else w.files m }
    | _, _ => w
  | .mkfail p n =>
    match w.procs p with
    | none => w
    | some s => setProc p (some (record p n s)) w
  | .fork p c =>
    match w.procs p, w.procs c with
    | some s, none => setProc c (some (childEnv s)) { w with used := c :: w.used }
    | _, _ => w
  | .exec p ok =>
    match w.procs p with
    | none => w
    | some s => setProc p (if ok then none else some s) (cleanupProcEnv p s w)
  | .kill p => setProc p none w
  | .create n =>
    match w.files n with
    | none => { w with files := fun m => if m = n then some .other else w.files m }
    | some _ => w

def run (w : World) (l : List Op) : World := l.foldl step w

/-- The start: one shell, `files` made by others. -/
def start (p : Pid) (others : Name → Bool) : World :=
  ⟨fun q => if q = p then some [[]] else none, fun n => if others n then some .other else none, [p], []⟩

end Ksh.Temps
