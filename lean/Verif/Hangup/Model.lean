/-!
# Signals to jobs: `kill %job` and the end of the shell

Modelled: `kill_job` (jobs.c:1649-1659), `j_kill` (jobs.c:669-703), `j_exit`
(jobs.c:258-303, the signals), `j_stopped_running` (jobs.c:806-828) and where it is asked
(c_sh.c:549-552, main.c:639-642, exec.c:682-683), over the processes of the system: the shell
starts jobs (`exchild`, jobs.c:413-480) and reaps their processes (`j_sigchld`,
jobs.c:1137-1200), these and others fork, move to a process group of their own and end.

Simplified: the processes of a job are started in one step; the state of a job and its
foreground flag may change at any time; a process that moves goes to a group of its own.
Permission to signal a process is not modelled.
-/
namespace Ksh.Hangup

/-- A process of the system. -/
structure Pr where
  pgrp : Nat
  /-- the job it belongs to: one of the processes the shell started for it or, if the job has
  a process group, their children in that group (not known to any code) -/
  tag : Option Nat
  zombie : Bool
  deriving DecidableEq

/-- `struct proc` (jobs.c:36-45): `done` for the states PEXITED and PSIGNALLED. -/
structure P where
  pid : Nat
  done : Bool
  deriving DecidableEq

/-- `j->state` (jobs.c:28-33). -/
inductive JState
  | running | exited | signalled | stopped
  deriving DecidableEq

/-- `struct job` (jobs.c:88-105). -/
structure Job where
  /-- tells jobs apart; not in the code -/
  id : Nat
  /-- 0 when job control was off -/
  pgrp : Nat
  ppid : Nat
  procs : List P
  state : JState
  /-- JF_FG -/
  fg : Bool
  deriving DecidableEq

inductive Sig
  | hup | cont | term | other (n : Nat)
  deriving DecidableEq

/-- What the shell asks of the system. -/
inductive Act
  /-- `kill(pid, sig)` -/
  | proc (pid : Nat) (sig : Sig)
  /-- `killpg(pgrp, sig)` -/
  | group (pgrp : Nat) (sig : Sig)
  deriving DecidableEq

/-- `kill_job` (jobs.c:1649-1659): the calls. -/
def killJob (j : Job) (sig : Sig) : List Act :=
  (j.procs.filter (·.pid != 0)).map fun p => .proc p.pid sig

/-- The choice made at jobs.c:271-274, jobs.c:276-279 and jobs.c:684-697. -/
def signalJob (j : Job) (sig : Sig) : List Act :=
  if j.pgrp == 0 then killJob j sig else [.group j.pgrp sig]

/-- The processes of the system. -/
abbrev Os := Nat → Option Pr

/-- `kill` finds the process: a zombie will do. -/
def killOk (os : Os) (pid : Nat) : Bool := (os pid).isSome

/-- `j_kill` once the job is found: the calls (jobs.c:684-697). -/
def jKill (j : Job) (sig : Sig) : List Act :=
  if j.pgrp == 0 then killJob j sig
  else (if j.state == .stopped && (sig == .term || sig == .hup) then [.group j.pgrp .cont]
    else []) ++ [.group j.pgrp sig]

/-- What `kill` returns for a job without a process group (jobs.c:685-688). -/
def jKillFails (os : Os) (j : Job) : Bool :=
  (j.procs.filter (·.pid != 0)).any fun p => !killOk os p.pid

/-- What `j_exit` and `j_stopped_running` know: `procpid`, `kshpid`, and the options login and
nohup. -/
structure Me where
  procpid : Nat
  kshpid : Nat
  login : Bool
  nohup : Bool

/-- The condition at jobs.c:265-269. -/
def doomed (m : Me) (j : Job) : Bool :=
  j.ppid == m.procpid && (j.state == .stopped ||
    (j.state == .running && (j.fg || (m.login && !m.nohup && m.procpid == m.kshpid))))

/-- The calls for one job (jobs.c:270-280). -/
def hangup (j : Job) : List Act :=
  signalJob j .hup ++ (if j.state == .stopped then signalJob j .cont else [])

/-- `j_exit` (jobs.c:264-282). -/
def jExit (m : Me) : List Job → List Act
  | [] => []
  | j :: l => (if doomed m j then hangup j else []) ++ jExit m l

/-- `j_stopped_running` (jobs.c:812-819): the bits of `which`. -/
def stoppedRunning (m : Me) : List Job → Bool × Bool
  | [] => (false, false)
  | j :: l =>
    let r := stoppedRunning m l
    (r.1 || (j.ppid == m.procpid && j.state == .stopped),
     r.2 || (m.login && !m.nohup && m.procpid == m.kshpid && j.ppid == m.procpid &&
       j.state == .running))

/-- How the shell comes to leave. -/
inductive How
  /-- the command exit, or the end of input at the terminal -/
  | exit
  /-- the command exec (exec.c:682-683) -/
  | exec
  deriving DecidableEq

/-- c_sh.c:549-552 and main.c:639-642: whether the shell leaves, and if so the calls; else
`really_exit` is set. -/
def leave (m : Me) (really : Bool) (how : How) (jobs : List Job) : Option (List Act) :=
  match how with
  | .exit =>
    if !really && ((stoppedRunning m jobs).1 || (stoppedRunning m jobs).2) then none
    else some (jExit m jobs)
  | .exec => some (jExit m jobs)

/-! ## The system -/

/-- The system and the shell's table of jobs. -/
structure W where
  os : Os
  jobs : List Job
  /-- the next job -/
  next : Nat
  /-- the shell -/
  me : Nat

/-- What can happen. -/
inductive Ev
  /-- the shell starts a job with these processes; `mon` when it gets a process group -/
  | start (mon fg : Bool) (pids : List Nat)
  /-- a process forks -/
  | fork (parent child : Nat)
  /-- a process moves to a group of its own -/
  | move (pid : Nat)
  /-- a process ends -/
  | exit (pid : Nat)
  /-- the shell waits for a process that ended -/
  | reap (pid : Nat)
  /-- the state of the `n`th job changes -/
  | change (n : Nat) (s : JState) (fg : Bool)
  /-- the `n`th job is dropped from the table -/
  | drop (n : Nat)

/-- Set the processes of a map. -/
def upd (os : Os) (pid : Nat) (p : Option Pr) : Os := fun q => if q = pid then p else os q

/-- Several new processes. -/
def addAll (os : Os) (l : List Nat) (a : Pr) : Os := fun q => if q ∈ l then some a else os q

/-- Does this job give its tag to children?  Only if it is known by its process group. -/
def inherits (jobs : List Job) (t : Option Nat) : Option Nat :=
  if jobs.any (fun j => some j.id == t && j.pgrp != 0) then t else none

/-- Is the process one a job still waits for? -/
def awaited (jobs : List Job) (pid : Nat) : Bool :=
  jobs.any fun j => j.procs.any fun p => p.pid == pid && !p.done

/-- Mark the first process with this number (jobs.c:1156-1159, 1177-1183). -/
def markP (pid : Nat) : List P → List P
  | [] => []
  | p :: l => if p.pid == pid then { p with done := true } :: l else p :: markP pid l

/-- The first job that has it. -/
def mark (pid : Nat) : List Job → List Job
  | [] => []
  | j :: l =>
    if j.procs.any (·.pid == pid) then { j with procs := markP pid j.procs } :: l
    else j :: mark pid l

/-- A number the kernel may give to a new process: not that of a process or of a group. -/
def Free (os : Os) (pid : Nat) : Prop :=
  pid ≠ 0 ∧ os pid = none ∧ ∀ q a, os q = some a → a.pgrp ≠ pid

/-- The numbers the table remembers. -/
def remembered (jobs : List Job) : List Nat := jobs.flatMap fun j => j.procs.map (·.pid)

/-- One event; it does nothing when it cannot happen.  `start` asks, beyond what the kernel
guarantees, that the numbers are not among those the table remembers (`Fresh` of
`Verif/Jobs`). -/
inductive Step : W → Ev → W → Prop
  | start {w : W} {mon fg : Bool} {p : Nat} {ps : List Nat} {g : Pr}
      (hf : ∀ q ∈ p :: ps, Free w.os q) (hr : ∀ q ∈ p :: ps, q ∉ remembered w.jobs)
      (hn : (p :: ps).Nodup) (hg : w.os w.me = some g) :
      Step w (.start mon fg (p :: ps))
        { w with
          os := addAll w.os (p :: ps) ⟨if mon then p else g.pgrp, some w.next, false⟩
          jobs := ⟨w.next, if mon then p else 0, w.me, (p :: ps).map (⟨·, false⟩), .running,
            fg⟩ :: w.jobs
          next := w.next + 1 }
  | fork {w : W} {q c : Nat} {a : Pr} (ha : w.os q = some a) (hz : a.zombie = false)
      (hf : Free w.os c) :
      Step w (.fork q c)
        { w with os := upd w.os c (some ⟨a.pgrp, inherits w.jobs a.tag, false⟩) }
  | move {w : W} {q : Nat} {a : Pr} (ha : w.os q = some a) (hz : a.zombie = false)
      (hm : q ≠ w.me) (hp : a.pgrp ≠ q) :
      Step w (.move q)
        { w with os := upd w.os q (some ⟨q,
            if (inherits w.jobs a.tag).isSome then none else a.tag, false⟩) }
  | exit {w : W} {q : Nat} {a : Pr} (ha : w.os q = some a) (hz : a.zombie = false)
      (hm : q ≠ w.me) :
      Step w (.exit q)
        { w with os := upd w.os q (if awaited w.jobs q then some { a with zombie := true }
            else none) }
  | reap {w : W} {q : Nat} {a : Pr} (ha : w.os q = some a) (hz : a.zombie = true) :
      Step w (.reap q) { w with os := upd w.os q none, jobs := mark q w.jobs }
  | change {w : W} {n : Nat} {s : JState} {fg : Bool} :
      Step w (.change n s fg)
        { w with jobs := w.jobs.modify n fun j => { j with state := s, fg := fg } }
  | drop {w : W} {n : Nat} : Step w (.drop n) { w with jobs := w.jobs.eraseIdx n }

/-- Any number of events. -/
inductive Steps : W → W → Prop
  | refl (w : W) : Steps w w
  | step {w w' w'' : W} (e : Ev) (h : Steps w w') (s : Step w' e w'') : Steps w w''

/-- At the start there are no jobs, and no process belongs to one; the shell is there. -/
def Init (w : W) : Prop :=
  w.jobs = [] ∧ (∀ q a, w.os q = some a → a.tag = none) ∧
    ∃ g, w.os w.me = some g ∧ g.zombie = false

end Ksh.Hangup
