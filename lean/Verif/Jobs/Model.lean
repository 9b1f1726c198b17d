/-
Model of the job table of the shell, /repo/jobs.c.

What is simplified, once for the whole file:

* A `Job *` is a number `id`, given out in increasing order by `new_job`; this
  is also the `age` of a job (jobs.c:445).  A record that is reused from the
  free list gets a fresh `id`, so a pointer to a removed job stays recognisable
  as such.
* Only jobs of this shell are in the list (`ppid == procpid`); the copies a
  subshell inherits are not modelled.
* The terminal, times, co-processes and messages are left out.  `JF_CHANGED` is
  kept because `jobs -n` looks at it.
* SIGCHLD is blocked while the list is handled (jobs.c:415, 564, 599 ...), so
  the operations below are atomic and one call of the handler is one operation,
  `Op.sigchld l`, where `l` is what its `waitpid` calls return one after the
  other.  `l` is arbitrary: the scheduler decides.
* `nzombie` is the number of zombies in the list.
* `log` is a trace of the system calls about processes, newest first: `fork`
  returned, `waitpid` returned, `killpg(SIGCONT)` sent.  No operation reads it.
-/
namespace Ksh.Jobs

/-- What `waitpid` reports (jobs.c:1195-1200): the branches of WIFSTOPPED,
WIFSIGNALED and the rest, with WSTOPSIG, WTERMSIG and WEXITSTATUS. -/
inductive W
  | exited (n : Nat)
  | signalled (n : Nat)
  | stopped (n : Nat)
  deriving DecidableEq, Repr

/-- `p->state` and `p->status` of a Proc, jobs.c:48-51. -/
inductive PS
  | running
  | did (w : W)
  deriving DecidableEq, Repr

/-- The numbers of PRUNNING, PEXITED, PSIGNALLED and PSTOPPED, jobs.c:48-51. -/
def PS.rank : PS → Nat
  | .running => 0
  | .did (.exited _) => 1
  | .did (.signalled _) => 2
  | .did (.stopped _) => 3

/-- The status of a process, jobs.c:1239-1249 and again jobs.c:1110-1120. -/
def PS.code : PS → Nat
  | .did (.exited n) => n
  | .did (.signalled n) => 128 + n
  | _ => 0

/-- jobs.c:54-60 -/
structure Proc where
  pid : Nat
  cmd : List Char
  st : PS
  deriving DecidableEq, Repr

/-- jobs.c:75-105.  `state` is the number of the state, see `PS.rank`. -/
structure Job where
  id : Nat
  num : Int
  procs : List Proc
  state : Nat := 0
  status : Nat := 0
  pgrp : Nat := 0
  started : Bool := false
  waiting : Bool := false
  asyncN : Bool := false
  xxcom : Bool := false
  fg : Bool := false
  known : Bool := false
  zombie : Bool := false
  changed : Bool := false
  pipefail : Bool := false
  deriving DecidableEq, Repr

/-- A system call about a process. -/
inductive Ev
  | born (pid : Nat)
  | report (pid : Nat) (w : W)
  | cont (pid : Nat)
  deriving DecidableEq, Repr

/-- `job_list`, `last_job`, `async_job`, jobs.c:129-131, and the flags used. -/
structure S where
  jobs : List Job := []
  next : Nat := 0
  last : Option Nat := none
  async : Option Nat := none
  monitor : Bool := false
  notify : Bool := false
  pipefail : Bool := false
  log : List Ev := []
  /-- an `internal_warningf` about a job that is not in the list was given -/
  warned : Bool := false
  deriving DecidableEq, Repr

def S.get (s : S) (i : Nat) : Option Job := s.jobs.find? (fun j => j.id == i)

def S.upd (s : S) (i : Nat) (f : Job → Job) : S :=
  { s with jobs := s.jobs.map (fun j => if j.id == i then f j else j) }

/-- new_job, jobs.c:1539-1546: count up from `i` until no job has the number.
The loop is bounded by one more than the number of jobs, which is enough. -/
def freeNum (nums : List Int) : Nat → Nat → Nat
  | 0, i => i
  | f + 1, i => if nums.contains (i : Int) then freeNum nums f (i + 1) else i

def newNum (jobs : List Job) : Nat := freeNum (jobs.map Job.num) jobs.length 1

/-- remove_job, jobs.c:1574-1607. -/
def removeJob (s : S) (i : Nat) : S :=
  match s.get i with
  | none => { s with warned := true }
  | some _ =>
    { s with
      jobs := s.jobs.filter (fun j => j.id != i)
      last := if s.last = some i then none else s.last
      async := if s.async = some i then none else s.async }

/-- put_job of PJ_PAST_STOPPED, jobs.c:1633-1640, on a list without `j`. -/
def pastStopped (j : Job) : List Job → List Job
  | [] => [j]
  | c :: cs => if c.state = 3 then c :: pastStopped j cs else j :: c :: cs

/-- put_job, jobs.c:1614-1643. -/
def putJob (s : S) (j : Job) (front : Bool) : S :=
  let l := s.jobs.filter (fun c => c.id != j.id)
  { s with jobs := if front then j :: l else pastStopped j l }

def maxRank (ps : List Proc) : Nat := ps.foldl (fun a p => if p.st.rank > a then p.st.rank else a) 0

def lastCode (ps : List Proc) : Nat :=
  match ps.getLast? with
  | some p => p.st.code
  | none => 0

/-- check_job from jobs.c:1274 on: `j` is the job with its new state. -/
def settle (s : S) (j : Job) : S :=
  if s.monitor then
    if j.xxcom then s
    else
      let s := if j.state = 3 then putJob s j true else s
      if s.notify && !(j.waiting && !j.asyncN) then
        -- j_print clears JF_CHANGED, jobs.c:1340
        let s := s.upd j.id (fun j => { j with changed := false })
        if !j.waiting && j.state != 3 then removeJob s j.id else s
      else s
  else if !(j.waiting || j.fg) && j.state != 3 then
    if s.async = some j.id || j.known then
      s.upd j.id (fun j => { j with zombie := true, num := -1 })
    else removeJob s j.id
  else s

/-- The job with its new state, jobs.c:1230-1249 and 1274. -/
def settled (j : Job) : Job :=
  { j with state := maxRank j.procs, status := lastCode j.procs, changed := true }

/-- check_job, jobs.c:1217-1312. -/
def checkJob (s : S) (i : Nat) : S :=
  match s.get i with
  | none => s
  | some j =>
    if !j.started then s
    else if j.procs.any (fun p => p.st.rank == 0) then s
    else settle (s.upd i (fun _ => settled j)) (settled j)

/-- The process `pid` of a job gets a new state. -/
def setProc (pid : Nat) (w : PS) : List Proc → List Proc
  | [] => []
  | p :: ps => if p.pid = pid then { p with st := w } :: ps else p :: setProc pid w ps

/-- One round of the loop of j_sigchld, jobs.c:1166-1202. -/
def reap (s : S) (pid : Nat) (w : W) : S :=
  let s := { s with log := .report pid w :: s.log }
  match s.jobs.find? (fun j => j.procs.any (fun p => p.pid == pid)) with
  | none => s
  | some j =>
    let s := s.upd j.id (fun j => { j with procs := setProc pid (.did w) j.procs })
    checkJob s j.id

/-- j_sigchld, jobs.c:1144-1207.  While a job is being started nothing is
reaped; the statuses stay in the kernel and show up in a later `l`
(`held_sigchld`, jobs.c:985-989). -/
def sigchld (s : S) (l : List (Nat × W)) : S :=
  if s.jobs.any (fun j => !j.started) then s
  else l.foldl (fun s e => reap s e.1 e.2) s

/-- The number of zombies and the loop of j_set_async, jobs.c:952-968.  The
oldest zombie is the one with the smallest `id`. -/
def nzombie (s : S) : Nat := s.jobs.countP Job.zombie

def oldest (s : S) (keep : Nat) : Option Nat :=
  ((s.jobs.filter (fun j => j.zombie && j.id != keep)).map Job.id).min?

def purge (childMax keep : Nat) : Nat → S → S
  | 0, s => s
  | f + 1, s =>
    if nzombie s > childMax then
      match oldest s keep with
      | none => s
      | some i => purge childMax keep f (removeJob s i)
    else s

/-- j_set_async, jobs.c:939-969.  `j` is the record the caller holds: it is
looked at even if line 945 has just removed it from the list. -/
def setAsync (childMax : Nat) (s : S) (j : Job) : S :=
  let s := match s.async with
    | none => s
    | some a =>
      -- `async_job` may point to a record that is not in the list any more; what its flags
      -- say then is not modelled, taken as an unknown zombie
      match s.get a with
      | none => removeJob s a
      | some ja => if ja.zombie && !ja.known then removeJob s a else s
  if !j.started then s
  else
    let s := { s with async := some j.id }
    purge childMax j.id s.jobs.length s

/-- What follows the fork of the last process of a job (jobs.c:546-568),
without the wait: j_startjob and j_set_async. -/
def finish (childMax : Nat) (s : S) (i : Nat) (bg : Bool) : S :=
  let s := s.upd i (fun j => { j with started := true })
  if bg then
    match s.get i with
    | some j => setAsync childMax s j
    | none => s
  else s

/-- The job exchild makes, jobs.c:432-447 and 476-480. -/
def newJob (s : S) (pid : Nat) (cmd : List Char) (bg xxcom : Bool) : Job :=
  { id := s.next, num := newNum s.jobs, procs := [{ pid := pid, cmd := cmd, st := .running }],
    xxcom := xxcom, fg := !xxcom && !bg, pipefail := s.pipefail,
    pgrp := if s.monitor && !xxcom then pid else 0 }

/-- exchild without XPIPEI, jobs.c:431-451, in the parent.  `ends` is
false with XPIPEO, when more processes follow. -/
def fork (childMax : Nat) (s : S) (pid : Nat) (cmd : List Char) (bg xxcom : Bool) (ends : Bool) : S :=
  let j := newJob s pid cmd bg xxcom
  let s := putJob { s with next := s.next + 1, last := some j.id, log := .born pid :: s.log } j false
  if ends then finish childMax s j.id bg else s

/-- exchild with XPIPEI, jobs.c:424-430.  A job that is already started is not
continued: execute() passes XPIPEI only between the first and the last process
of one pipeline (exec.c:139-165). -/
def pipe (childMax : Nat) (s : S) (pid : Nat) (cmd : List Char) (bg : Bool) (ends : Bool) : S :=
  match s.last.bind s.get with
  | none => s
  | some j =>
    if j.started then s
    else
      let s := { s with log := .born pid :: s.log }
      let s := s.upd j.id (fun j => { j with procs := j.procs ++ [{ pid := pid, cmd := cmd, st := .running }] })
      if ends then finish childMax s j.id bg else s

/-- fork failed, jobs.c:463-468, for the first (`none`: the new job is removed
again) or a later process of a job. -/
def forkFail (s : S) (later : Bool) : S :=
  if later then
    match s.last.bind s.get with
    | none => s
    | some j => if j.started then s else removeJob s j.id
  else { s with next := s.next + 1, last := none }

/-- startlast, jobs.c:576-589. -/
def startlast (s : S) : S :=
  match s.last with
  | none => s
  | some i => s.upd i (fun j => { j with waiting := true, started := true })

/-- The beginning of j_waitj, jobs.c:1007-1009. -/
def waitBegin (s : S) (i : Nat) (asyncNotify : Bool) : S :=
  s.upd i (fun j => { j with waiting := true, asyncN := j.asyncN || asyncNotify })

/-- The exit of j_waitj because of a trap, jobs.c:1023-1026. -/
def waitIntr (s : S) (i : Nat) : S :=
  s.upd i (fun j => { j with waiting := false, asyncN := false })

/-- The value j_waitj returns, jobs.c:1104-1125. -/
def waitValue (j : Job) : Nat :=
  if j.pipefail then
    j.procs.foldl (fun rv p => if p.st.code ≠ 0 then p.st.code else rv) 0
  else j.status

/-- The end of j_waitj, jobs.c:1014-1137.  `none`: it is still waiting. -/
def waitEnd (s : S) (i : Nat) (asyncNotify : Bool) : Option (Nat × S) :=
  match s.get i with
  | none => none
  | some j =>
    if j.state = 0 || (!s.monitor && j.state == 3) then none
    else
      let s1 := s.upd i (fun j => { j with waiting := false, asyncN := false, fg := false })
      let s2 := if j.state != 3 && (!s.monitor || !asyncNotify) then removeJob s1 i else s1
      some (waitValue j, s2)

/-- j_resume up to the wait, jobs.c:724-774.  That the terminal cannot be
handed over or SIGCONT not be sent is not modelled. -/
def resume (childMax : Nat) (s : S) (i : Nat) (bg : Bool) : S :=
  match s.get i with
  | none => s
  | some j =>
    if j.pgrp = 0 then s
    else
      let stopped := j.procs.filter (fun p => p.st.rank == 3)
      let j' : Job :=
        { j with
          procs := j.procs.map (fun p => if p.st.rank == 3 then { p with st := .running } else p)
          state := if stopped.isEmpty then j.state else 0 }
      let s := putJob { s with log := stopped.map (fun p => .cont p.pid) ++ s.log } j' false
      if bg then setAsync childMax s j'
      else
        let s := s.upd i (fun j => { j with fg := true, known := false })
        { s with async := if s.async = some i then none else s.async }

/-- j_jobs, jobs.c:847-891: what is printed, and what is removed. -/
def listed (s : S) (only : Option Nat) (nflag zflag : Bool) : List Job :=
  s.jobs.filter (fun j => (!j.zombie || zflag) && (!nflag || j.changed) &&
    (only = none || only = some j.id))

def removeAll (s : S) : List Nat → S
  | [] => s
  | i :: l => removeAll (removeJob s i) l

def jobsCmd (s : S) (only : Option Nat) (nflag zflag : Bool) : S :=
  let l := (listed s only nflag zflag).map Job.id
  let gone := ((listed s only nflag zflag).filter (fun j => j.state == 1 || j.state == 2)).map Job.id
  removeAll { s with jobs := s.jobs.map (fun j => if l.contains j.id then { j with changed := false } else j) } gone

/-- j_notify, jobs.c:894-917. -/
def notifyAll (s : S) : S :=
  let gone := (s.jobs.filter (fun j => j.state == 1 || j.state == 2)).map Job.id
  removeAll { s with jobs := s.jobs.map (fun j => if s.monitor then { j with changed := false } else j) } gone

/-- j_async (`$!`), jobs.c:920-933. -/
def dollarBang (s : S) : S :=
  match s.async with
  | none => s
  | some i => s.upd i (fun j => { j with known := true })

/-- Everything that happens to the table. -/
inductive Op
  | fork (pid : Nat) (cmd : List Char) (bg xxcom ends : Bool)
  | pipe (pid : Nat) (cmd : List Char) (bg ends : Bool)
  | forkFail (later : Bool)
  | startlast
  | sigchld (l : List (Nat × W))
  | waitBegin (i : Nat) (an : Bool)
  | waitIntr (i : Nat)
  | waitEnd (i : Nat) (an : Bool)
  | resume (i : Nat) (bg : Bool)
  | jobs (only : Option Nat) (nflag zflag : Bool)
  | notify
  | bang
  | set (monitor notify pipefail : Bool)
  deriving DecidableEq, Repr

def step (childMax : Nat) (s : S) : Op → S
  | .fork pid cmd bg xx e => fork childMax s pid cmd bg xx e
  | .pipe pid cmd bg e => pipe childMax s pid cmd bg e
  | .forkFail l => forkFail s l
  | .startlast => startlast s
  | .sigchld l => sigchld s l
  | .waitBegin i an => waitBegin s i an
  | .waitIntr i => waitIntr s i
  | .waitEnd i an => match waitEnd s i an with | some r => r.2 | none => s
  | .resume i bg => if s.monitor then resume childMax s i bg else s
  | .jobs o n z => jobsCmd s o n z
  | .notify => notifyAll s
  | .bang => dollarBang s
  | .set m n p => { s with monitor := m, notify := n, pipefail := p }

def run (childMax : Nat) (s : S) (l : List Op) : S := l.foldl (step childMax) s

/-! ### j_lookup -/

inductive Look
  | found (j : Job)
  | noSuch
  | ambig
  | invalid
  deriving DecidableEq, Repr

def isDigit (c : Char) : Bool := '0' ≤ c && c ≤ '9'

/-- `strtonum(s, 1, INT_MAX, &errstr)` on a text that begins with a digit
(libc, jobs.c:1435, 1475). -/
def strtonum (s : List Char) : Option Nat :=
  if s.all isDigit then
    let n := s.foldl (fun a c => a * 10 + (c.toNat - 48)) 0
    if 1 ≤ n ∧ n ≤ 2147483647 then some n else none
  else none

/-- `strncmp(cp, s, strlen(cp)) == 0` -/
def isPrefix (cp s : List Char) : Bool := cp.isPrefixOf s

/-- `strstr(s, cp) != NULL` -/
def contains : List Char → List Char → Bool
  | [], cp => cp.isPrefixOf []
  | c :: s, cp => cp.isPrefixOf (c :: s) || contains s cp

/-- The loops with `last_match`, jobs.c:1484-1496 and 1501-1512, over the
matches in order. -/
def lastMatch : List Job → Option Job → Look
  | [], none => .noSuch
  | [], some j => .found j
  | _ :: _, some _ => .ambig
  | j :: l, none => lastMatch l (some j)

/-- j_lookup, jobs.c:1426-1518.  `last_proc` is set when the job is started,
before that it is left over from an earlier use of the record; nothing calls
j_lookup while a job is partly started, so such jobs are passed over. -/
def lookup (jobs : List Job) (cp : List Char) : Look :=
  let first (o : Option Job) := match o with | some j => Look.found j | none => Look.noSuch
  match cp with
  | [] => .invalid
  | c :: rest =>
    if isDigit c then
      match strtonum cp with
      | none => .noSuch
      | some n =>
        match jobs.find? (fun j => j.started && (j.procs.getLast?.map Proc.pid == some n)) with
        | some j => .found j
        | none => first (jobs.find? (fun j => j.pgrp != 0 && j.pgrp == n))
    else if c ≠ '%' then .invalid
    else
      match rest with
      | [] => first jobs.head?
      | d :: more =>
        if d = '+' || d = '%' then first jobs.head?
        else if d = '-' then first (jobs.drop 1).head?
        else if isDigit d then
          match strtonum rest with
          | none => .noSuch
          | some n => first (jobs.find? (fun j => j.num == (n : Int)))
        else if d = '?' then
          lastMatch (jobs.flatMap (fun j => (j.procs.filter (fun p => contains p.cmd more)).map (fun _ => j))) none
        else
          lastMatch (jobs.filter (fun j => match j.procs.head? with
            | some p => isPrefix rest p.cmd
            | none => false)) none

end Ksh.Jobs
