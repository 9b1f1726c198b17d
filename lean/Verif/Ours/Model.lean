import Verif.Trap.Sig

/-!
# The process group of an interactive shell and the terminal, from start to end

`j_change` (jobs.c:299-391), `j_suspend` (jobs.c:206-256), the end of `j_exit` (jobs.c:284-300), the
end of a foreground job in `j_waitj` (jobs.c:1033-1054), and `exec` of a program, found but not
executable after all (exec.c:681-697, 380-389), in the main process of an interactive shell with a
controlling terminal.

The kernel is two numbers: the process group of the shell and the group the terminal belongs to.
Trusted: setpgid and tcsetpgrp succeed for the group `pid` of the shell itself (the shell is not a
session leader when it is in another group; SIGTTOU is ignored, jobs.c:347-349), and for the group it
was started in exactly if there is such a group still, which every use is told (`ex`).  getpgrp,
tcgetpgrp and opening /dev/tty succeed, so `ttypgrp_ok` is not lost to errors.

Of the signals only SIGCHLD is here, with the record of `Ksh.Sig`.
-/
namespace Ksh.Ours

open Ksh.Sig (R settrap setsig)

structure St where
  /-- kernel: the process group of the shell -/
  me : Nat
  /-- kernel: the group the terminal belongs to -/
  tty : Nat
  /-- Flag(FMONITOR) -/
  monitor : Bool := false
  /-- `ttypgrp_ok`, jobs.c:143 -/
  ttyok : Bool := false
  /-- `restore_ttypgrp`, jobs.c:144; none is -1 -/
  restore : Option Nat := none
  /-- `our_pgrp`, jobs.c:145 -/
  our : Nat := 0
  /-- the record of SIGCHLD -/
  chld : R
  /-- ghost: each time the shell took the terminal for the group `pid`, whose it was -/
  took : List Nat := []
  /-- ghost: group of the shell and owner of the terminal each time the shell was suspended -/
  susp : List (Nat × Nat) := []

/-- SIGCHLD after inittraps and j_init, trap.c:46-61 and jobs.c:173-174, if it was not ignored when
the shell was started: TF_SHELL_USES, handler j_sigchld. -/
def chld0 : R := setsig true { shellUses := true, kern := .dfl } .trapsig .orig true false

/-- A shell in group `g`, the terminal with group `t`, before `j_change` is called by `j_init`
(jobs.c:198-200). -/
def start (g t : Nat) : St := { me := g, tty := t, chld := chld0 }

/-- `j_change` with Flag(FMONITOR), jobs.c:304-373.  The loop (jobs.c:326-342) ends only when the
terminal belongs to the group of the shell; until then the shell stops itself and others have to
give it the terminal. -/
def changeOn (pid : Nat) (s : St) : St :=
  let s := { s with ttyok := true, our := s.me, tty := s.me }
  if s.ttyok && s.our != pid then
    { s with me := pid, took := s.tty :: s.took, tty := pid, restore := some s.our, our := pid }
  else s

/-- `j_change` without, jobs.c:374-390. -/
def changeOff (s : St) : St := { s with ttyok := false }

/-- `change_flag`, misc.c:273-277. -/
def setm (pid : Nat) (s : St) (b : Bool) : St :=
  if b = s.monitor then s
  else if b then changeOn pid { s with monitor := true } else changeOff { s with monitor := false }

/-- `j_suspend`, jobs.c:206-256.  `ex`: the group to go back to exists; `back`: the owner of the
terminal when the shell is continued. -/
def suspend (pid : Nat) (s : St) (ex : Bool) (back : Nat) : St :=
  let s := if s.ttyok then
    match s.restore with
    | some g => if ex then { s with tty := g, me := g } else s
    | none => s
  else s
  let s := { s with susp := (s.me, s.tty) :: s.susp, tty := back }
  if s.ttyok then
    if s.restore.isSome then { s with me := pid, took := s.tty :: s.took, tty := pid } else s
  else s

/-- The end of `j_exit`, jobs.c:286-300, in the main process (`kshpid == procpid`). -/
def jexit (s : St) (ex : Bool) : St :=
  let s := match s.restore with
    | some g => if ex then { s with tty := g, me := g } else s
    | none => s
  if s.monitor then changeOff { s with monitor := false } else s

/-- `restoresigs` for SIGCHLD, trap.c:281-291. -/
def restoresig (r : R) : R :=
  if r.execIgn || r.execDfl then setsig true r (if r.execIgn then .ign else .dfl) .curr true false else r

inductive Op
  /-- `set -m`, `set +m` -/
  | setm (b : Bool)
  /-- `suspend` -/
  | suspend (ex : Bool) (back : Nat)
  /-- a foreground job runs to its end or is stopped; with job control it may have left the
  terminal with any group -/
  | job (o : Nat)
  /-- `exec prog`: the program is found, `j_exit` is called (exec.c:682-683), the signals are
  restored (exec.c:382), execve fails, `errorf` goes back to the command loop of the interactive
  shell (main.c:573-593) -/
  | execFails (ex : Bool)
  /-- `trap action CHLD` -/
  | trap (a : Option (List Char))

def step (pid : Nat) (s : St) : Op → St
  | .setm b => setm pid s b
  | .suspend ex back => suspend pid s ex back
  | .job o =>
    -- without job control the job is in the group of the shell and leaves the terminal alone
    if s.monitor && s.ttyok then
      let s := { s with tty := o }
      -- j_waitj, jobs.c:1049
      { s with tty := s.our }
    else s
  | .execFails ex => let s := jexit s ex; { s with chld := restoresig s.chld }
  | .trap a => { s with chld := settrap true s.chld a }

def run (pid : Nat) (s : St) (l : List Op) : St := l.foldl (step pid) s

end Ksh.Ours
