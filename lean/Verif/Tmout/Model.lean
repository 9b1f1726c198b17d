/-!
# TMOUT: leaving a shell nobody types at

Modelled: `getsc_line` (lex.c:1086-1089 and lex.c:1141-1144, with the reading between them as
far as signals go: `x_getc`, edit.c:118-132, and the loop at lex.c:1112-1121), `alarm_catcher`
(trap.c:76-91), `trapsig` (trap.c:124-140), the start of `runtraps` (trap.c:191-206), the
assignment to TMOUT (var.c:1069-1077) and its removal (var.c:1134).  The shell is interactive
and reads from a terminal (`have_tty`).

Time passes in seconds.  A signal that comes while the shell is in `read` interrupts it; one
that comes while the shell is busy with what was read does not, and is not looked for before
the next `read` is over.
-/
namespace Ksh.Tmout

/-- `ksh_tmout_state` (sh.h:261-265). -/
inductive TState
  | executing | reading | leaving
  deriving DecidableEq

/-- Where the shell is. -/
inductive Phase
  /-- not in `getsc_line` -/
  | exec
  /-- in `getsc_line`, between two reads -/
  | busy
  /-- in `read` -/
  | blocked
  /-- it left with `timed out waiting for input` -/
  | gone
  deriving DecidableEq

structure S where
  phase : Phase
  st : TState
  /-- seconds until SIGALRM, none when no alarm is set -/
  alarm : Option Nat
  /-- `trap`: some signal was caught and its trap not run -/
  trap : Bool
  /-- `ksh_tmout` -/
  tmout : Nat
  /-- the variable TMOUT; none when unset -/
  var : Option Int
  /-- seconds since the last prompt (not in the code) -/
  waited : Nat
  /-- `ksh_tmout` at the last prompt (not in the code) -/
  asked : Nat
  deriving DecidableEq

/-- A shell after start-up. -/
def init : S := ⟨.exec, .executing, none, false, 0, none, 0, 0⟩

/-- Assigning an integer to TMOUT (var.c:1075-1076): `ksh_tmout` is an unsigned int.
Ignored when TMOUT was unset before, as it is no longer special then; the flag that says so is
not kept here, and a caller that unsets TMOUT does not assign again. -/
def setTm (s : S) (v : Int) : S :=
  { s with var := some v, tmout := if v ≥ 0 then (v % 4294967296).toNat else 0 }

/-- `unset TMOUT` (var.c:1134): the value stays. -/
def unsetTm (s : S) : S := { s with var := none }

/-- What the traps that are run do to TMOUT. -/
def act (s : S) : Option Int → S
  | none => s
  | some v => setTm s v

/-- `runtraps(0)` (trap.c:191-206). -/
def runtraps (s : S) (v : Option Int) : S :=
  if s.st = .leaving then { s with phase := .gone, st := .executing }
  else act { s with st := .executing, trap := false } v

/-- After a signal was caught: `read` fails with EINTR (edit.c:123-128, lex.c:1115-1120). -/
def interrupted (s : S) (v : Option Int) : S :=
  match s.phase with
  | .blocked => if s.trap then runtraps s v else s
  | _ => s

/-- `alarm_catcher` (trap.c:80-88); called by `trapsig`, which sets `trap` (trap.c:130). -/
def alarmCatcher (s : S) : S :=
  let s := { s with trap := true }
  if s.st = .reading then
    match s.alarm with
    | none => { s with st := .leaving }
    | some n => { s with alarm := some n }
  else s

/-- What can happen. -/
inductive Ev
  /-- a line is to be read (lex.c:1086-1089) -/
  | prompt
  /-- the shell calls `read` -/
  | read
  /-- something is typed, but not a whole line -/
  | key
  /-- a whole line is there (lex.c:1141-1144) -/
  | line
  /-- a second passes -/
  | tick
  /-- SIGALRM from another process -/
  | alrm
  /-- another signal is caught; its trap may assign to TMOUT -/
  | sig (v : Option Int)
  /-- the same, and the trap, or the default for SIGINT, leads back to the main loop -/
  | intr
  /-- a command is about to be executed (exec.c:77-78) -/
  | command
  /-- `TMOUT=v` -/
  | assign (v : Int)
  /-- `unset TMOUT` -/
  | unset
  deriving DecidableEq

/-- A second passes. -/
def tick (s : S) : S :=
  let s := { s with waited := s.waited + 1 }
  match s.alarm with
  | none => s
  | some 0 => s
  | some 1 => interrupted (alarmCatcher { s with alarm := none }) none
  | some (n + 2) => { s with alarm := some (n + 1) }

/-- One event; nothing happens when it cannot. -/
def step (s : S) : Ev → S
  | .prompt =>
    match s.phase with
    | .exec =>
      let s := { s with phase := .busy, waited := 0, asked := s.tmout }
      if s.tmout ≠ 0 then { s with st := .reading, alarm := some s.tmout } else s
    | _ => s
  | .read => if s.phase = .busy then { s with phase := .blocked } else s
  | .key => if s.phase = .blocked then { s with phase := .busy } else s
  | .line =>
    if s.phase = .blocked then
      let s := { s with phase := .exec }
      if s.tmout ≠ 0 then { s with st := .executing, alarm := none } else s
    else s
  | .tick => if s.phase = .gone then s else tick s
  | .alrm => if s.phase = .gone then s else interrupted (alarmCatcher s) none
  | .sig v => if s.phase = .gone then s else interrupted { s with trap := true } v
  | .intr =>
    if s.phase = .blocked then
      let s := runtraps { s with trap := true } none
      if s.phase = .gone then s else { s with phase := .exec }
    else s
  | .command => if s.phase = .exec && s.trap then runtraps s none else s
  | .assign v => if s.phase = .exec then setTm s v else s
  | .unset => if s.phase = .exec then unsetTm s else s

/-- Any number of events. -/
def run : S → List Ev → S
  | s, [] => s
  | s, e :: l => run (step s e) l

end Ksh.Tmout
