/-!
# Terminal modes

Modelled: who sets the modes of the terminal when.  `x_mode` (edit.c:153-211) with its callers
`x_read` (edit.c:92-113), `x_getc` (edit.c:117-132) and the interrupt keys (emacs.c:384-388,
vi.c:224-231); the flags a job gets in `exchild` (jobs.c:436-437); the end of `j_waitj`
(jobs.c:1030-1089); `j_resume` (jobs.c:748-800); `j_suspend` (jobs.c:206-256); `j_change`
(jobs.c:371-373).  The shell is interactive, has job control and owns its terminal
(`ttypgrp_ok`), and the system calls on it succeed.

A mode of the terminal is a number; `raw` gives the one the editor uses for a given mode
(edit.c:169-186).  A process that does not own the terminal cannot set its modes (it would be
stopped by SIGTTOU); the processes of a command substitution are in the shell's own process
group, and can.
-/
namespace Ksh.Ttymode

/-- What is kept of a job: JF_USETTYMODE, and JF_SAVEDTTY with `ttystate`. -/
structure J where
  useMode : Bool
  saved : Option Nat
  deriving DecidableEq

structure S where
  /-- the modes of the terminal -/
  mode : Nat
  /-- `tty_state` -/
  ttyState : Nat
  /-- `x_cur_mode` -/
  xcur : Bool
  /-- inside of `x_read` -/
  edit : Bool
  /-- the job that has the terminal -/
  fg : Option Nat
  job : Nat → J

/-- A shell that found the terminal in mode `m` (tty.c:55-56). -/
def init (m : Nat) : S := ⟨m, m, false, false, none, fun _ => ⟨false, none⟩⟩

/-- `x_mode` (edit.c:153-211). -/
def xMode (raw : Nat → Nat) (s : S) (on : Bool) : S :=
  if s.xcur = on then s
  else if on then { s with xcur := true, mode := raw s.ttyState }
  else { s with xcur := false, mode := s.ttyState }

def setJob (s : S) (i : Nat) (j : J) : S :=
  { s with job := fun k => if k = i then j else s.job k }

/-- What can happen. -/
inductive Ev
  /-- `x_read` is entered (edit.c:98) -/
  | editOn
  /-- it returns, with a line or at the end of file (edit.c:110) -/
  | editOff
  /-- the interrupt key in the editor (emacs.c:386, vi.c:229) -/
  | editIntr
  /-- a signal was caught in the editor: its trap is run (edit.c:125-126) -/
  | trapIn
  /-- the trap returned (edit.c:127) -/
  | trapOut
  /-- the trap, or the default action, leaves the editor for the main loop or the shell -/
  | trapUnwind
  /-- a job is started in the foreground -/
  | startFg (i : Nat)
  /-- a job is started in the background -/
  | startBg (i : Nat)
  /-- the job that has the terminal sets its modes -/
  | sets (m : Nat)
  /-- a process of a command substitution sets them -/
  | subst (m : Nat)
  /-- the job that has the terminal ends; whether with status 0 -/
  | ends (ok : Bool)
  /-- the job that has the terminal stops -/
  | stops
  /-- `fg` of a job that is stopped or runs in the background -/
  | resume (i : Nat)
  /-- the same, but it cannot be continued -/
  | resumeFails (i : Nat)
  /-- `suspend`, and the shell is continued with the terminal in mode `m` -/
  | suspend (m : Nat)
  /-- `set -m` -/
  | monitor
  deriving DecidableEq

/-- The shell executes commands itself: it is not in the editor, unless in a trap, and no job has
the terminal. -/
def idle (s : S) : Bool := !s.xcur && s.fg.isNone

/-- `ends`, for the job `i` (jobs.c:1069-1073). -/
def finish (s : S) (i : Nat) (ok : Bool) : S :=
  if ok && (s.job i).useMode then { s with fg := none, ttyState := s.mode }
  else { s with fg := none, mode := s.ttyState }

/-- `stops`, for the job `i` (jobs.c:1055-1058, 1073, 1085-1086). -/
def halt (s : S) (i : Nat) : S :=
  setJob { s with fg := none, mode := s.ttyState } i ⟨false, some s.mode⟩

/-- One event; nothing happens when it cannot. -/
def step (raw : Nat → Nat) (s : S) : Ev → S
  | .editOn => if idle s && !s.edit then { xMode raw s true with edit := true } else s
  | .editOff => if s.edit && s.xcur then { xMode raw s false with edit := false } else s
  | .editIntr => if s.edit && s.xcur then { xMode raw s false with edit := false } else s
  | .trapIn => if s.edit && s.xcur then xMode raw s false else s
  | .trapOut => if s.edit && idle s then xMode raw s true else s
  | .trapUnwind => if s.edit && idle s then { s with edit := false } else s
  | .startFg i => if idle s then setJob { s with fg := some i } i ⟨true, none⟩ else s
  | .startBg i => if idle s then setJob s i ⟨false, none⟩ else s
  | .sets m => if s.fg.isSome then { s with mode := m } else s
  | .subst m => if idle s then { s with mode := m } else s
  | .ends ok =>
    match s.fg with
    | none => s
    | some i => finish s i ok
  | .stops =>
    match s.fg with
    | none => s
    | some i => halt s i
  | .resume i =>
    if idle s then
      setJob { s with mode := (s.job i).saved.getD s.mode, fg := some i } i
        { s.job i with saved := none }
    else s
  | .resumeFails i =>
    if idle s then
      (match (s.job i).saved with
       | some _ => { s with mode := s.ttyState }
       | none => s)
    else s
  | .suspend m => if idle s then { s with mode := m, ttyState := m } else s
  | .monitor => if idle s then { s with ttyState := s.mode } else s

def run (raw : Nat → Nat) : S → List Ev → S
  | s, [] => s
  | s, e :: l => run raw (step raw s e) l

end Ksh.Ttymode
