/-!
# Notices about jobs

`check_job` (jobs.c:1217-1312), `j_notify` (jobs.c:893-917), the flags of `j_jobs` (jobs.c:847-891)
and `j_print` (jobs.c:1331-1340), `j_waitj` (jobs.c:997-1028, 1128-1136) as called by `waitfor`
(jobs.c:619-667), `j_resume` (jobs.c:703-798) and `waitlast`.

A job has one state: the states of its processes, and what exactly is printed, are in
`Ksh.Joblist`.  The order of the list is left out, as are co-processes, the terminal
(`Ksh.Ttymode`) and command substitutions (JF_XXCOM).  The log records, newest first, what happens
to jobs and what the user is told.
-/
namespace Ksh.Notify

/-- `j->state` -/
inductive St
  | running
  | stopped
  | ended (status : Nat)
  deriving DecidableEq

def St.isEnded : St → Bool
  | .ended _ => true
  | _ => false

/-- The fields of a job that matter: JF_CHANGED, JF_WAITING, JF_W_ASYNCNOTIFY, JF_FG, JF_ZOMBIE and
whether it is `async_job` or JF_KNOWN. -/
structure Job where
  id : Nat
  st : St := .running
  changed : Bool := false
  waiting : Bool := false
  async : Bool := false
  fg : Bool := false
  zombie : Bool := false
  known : Bool := false
  deriving DecidableEq

/-- How the user is told: a notice, the answer to `jobs`, or by the end of `wait` or `fg`. -/
inductive How
  | notice | asked | waited
  deriving DecidableEq

inductive Log
  /-- the processes of the job stopped or ended -/
  | change (id : Nat) (st : St)
  /-- continued by fg or bg -/
  | resume (id : Nat)
  | report (id : Nat) (st : St) (how : How)
  deriving DecidableEq

/-- The shell: `job_list`, the options monitor and notify. -/
structure S where
  jobs : List Job
  monitor : Bool
  notify : Bool
  next : Nat
  log : List Log
  deriving DecidableEq

def upd (id : Nat) (f : Job → Job) (l : List Job) : List Job := l.map fun j => if j.id = id then f j else j
def del (id : Nat) (l : List Job) : List Job := l.filter fun j => j.id ≠ id
def find (id : Nat) (l : List Job) : Option Job := l.find? fun j => j.id = id

/-- `j->state = …; j->flags |= JF_CHANGED` (jobs.c:1237, 1274) -/
def setChanged (st : St) (j : Job) : Job := { j with st := st, changed := true }

/-- `j_print` clears JF_CHANGED (jobs.c:1340). -/
def clear (j : Job) : Job := { j with changed := false }

def setZombie (j : Job) : Job := { j with zombie := true }

/-- `check_job` when the last process of the job has stopped or ended. -/
def checkJob (id : Nat) (st : St) (s : S) : S :=
  match find id s.jobs with
  | none => s
  | some j =>
    let s := { s with jobs := upd id (setChanged st) s.jobs, log := .change id st :: s.log }
    if s.monitor then
      if s.notify && !(j.waiting && !j.async) then
        let s := { s with jobs := upd id clear s.jobs, log := .report id st .notice :: s.log }
        if !j.waiting && st ≠ .stopped then { s with jobs := del id s.jobs } else s
      else s
    else if !(j.waiting || j.fg) && st ≠ .stopped then
      if j.known then { s with jobs := upd id setZombie s.jobs }
      else { s with jobs := del id s.jobs }
    else s

/-- SIGCHLD: the job must have been running or stopped. -/
def chld (id : Nat) (st : St) (s : S) : S :=
  match find id s.jobs with
  | none => s
  | some j => if j.st.isEnded || st = .running then s else checkJob id st s

/-- Several of them. -/
def chlds (l : List (Nat × St)) (s : S) : S := l.foldl (fun s e => chld e.1 e.2 s) s

/-- `j_notify` (jobs.c:893-917) -/
def notifyAll (s : S) : S :=
  let told := s.jobs.filter fun j => s.monitor && j.changed
  { s with
    jobs := (s.jobs.map fun j => if s.monitor && j.changed then clear j else j).filter
      fun j => !j.st.isEnded
    log := (told.map fun j => .report j.id j.st .notice) ++ s.log }

/-- The jobs that `jobs` prints (jobs.c:862-882). -/
def shown (sel : Option Nat) (n : Bool) (j : Job) : Bool :=
  !j.zombie && (!n || j.changed) && (match sel with | none => true | some id => j.id = id)

/-- `jobs` (jobs.c:847-891); `p` for -p, `n` for -n. -/
def jobsCmd (sel : Option Nat) (p n : Bool) (s : S) : S :=
  { s with
    jobs := (s.jobs.filter fun j => !(shown sel n j && j.st.isEnded)).map fun j =>
      if shown sel n j && !p then clear j else j
    log := if p then s.log
      else ((s.jobs.filter (shown sel n)).map fun j => .report j.id j.st .asked) ++ s.log }

def setWait (async fg : Bool) (j : Job) : Job := { j with waiting := true, async := async, fg := fg || j.fg }
def endWait (j : Job) : Job := { j with waiting := false, async := false }
def endFg (j : Job) : Job := { j with fg := false }

/-- `j_waitj` (jobs.c:997-1136): `l` is what happens meanwhile; the wait is over, or interrupted if
the job still runs.  `async` is JW_ASYNCNOTIFY, for a `wait` without operands. -/
def waitj (async fg : Bool) (id : Nat) (l : List (Nat × St)) (s : S) : S :=
  let s := chlds l { s with jobs := upd id (setWait async fg) s.jobs }
  let s := { s with jobs := upd id endWait s.jobs }
  match find id s.jobs with
  | none => s
  | some j =>
    if j.st = .running ∨ (s.monitor = false ∧ j.st = .stopped) then s
    else
      let s := { s with jobs := upd id endFg s.jobs }
      let s := if !async && (!s.monitor || j.st ≠ .stopped) then
          { s with jobs := upd id clear s.jobs, log := .report id j.st .waited :: s.log }
        else s
      if j.st ≠ .stopped && (!s.monitor || !async) then { s with jobs := del id s.jobs } else s

def cont (j : Job) : Job := { j with st := .running }

/-- Continuing a stopped job (jobs.c:730-742). -/
def resume (id : Nat) (s : S) : S :=
  match find id s.jobs with
  | none => s
  | some j =>
    if j.st = .stopped then { s with jobs := upd id cont s.jobs, log := .resume id :: s.log } else s

/-- What the user and the system do. -/
inductive Ev
  | start (known : Bool)
  | chld (id : Nat) (st : St)
  | prompt
  | jobs (sel : Option Nat) (p n : Bool)
  /-- `wait %n`, `fg` and commands in the foreground; `fg` tells the latter two -/
  | wait (fg : Bool) (id : Nat) (l : List (Nat × St))
  /-- `wait` -/
  | waitAny (id : Nat) (l : List (Nat × St))
  | bg (id : Nat)
  | fg (id : Nat) (l : List (Nat × St))
  | setNotify (b : Bool)
  | setMonitor (b : Bool)
  deriving DecidableEq

def step (s : S) : Ev → S
  | .start k => { s with jobs := { id := s.next, known := k } :: s.jobs, next := s.next + 1 }
  | .chld id st => Notify.chld id st s
  | .prompt => notifyAll s
  | .jobs sel p n => jobsCmd sel p n s
  | .wait fg id l => waitj false fg id l s
  | .waitAny id l => waitj true false id l s
  | .bg id => resume id s
  | .fg id l => waitj false true id l (resume id s)
  | .setNotify b => { s with notify := b }
  | .setMonitor b => { s with monitor := b }

def run (s : S) (l : List Ev) : S := l.foldl step s

/-- A shell with job control. -/
def init : S := ⟨[], true, false, 0, []⟩

end Ksh.Notify
