/-!
# Co-processes (io.c:350-430, exec.c:175-233, exec.c:1166-1175, jobs.c:501-503, 550-556, 1255-1272, c_sh.c:421)

The shell's own descriptors of the pipes to and from co-processes.  A pipe is a number, an end of it the number and whether it is
the end for writing.  The descriptors 0 and 1 that TCOPROC sets up for the child and takes back afterwards (savefd, quitenv) are
not in the table; nor are the copies the user makes (`exec 3>&p`), which are theirs to close.
-/

namespace Ksh.Coproc

/-- A co-process that has not ended. -/
structure Job where
  jid : Nat
  /-- `j->coproc_id` -/
  cid : Nat
  /-- the pipes it reads from and writes to -/
  inp : Nat
  out : Nat
  deriving DecidableEq, Repr

/-- `struct coproc` (sh.h:322-329) and what belongs to it. -/
structure S where
  /-- the descriptors the shell has open, with the ends of pipes they are -/
  tab : List (Nat × Nat × Bool) := []
  /-- `coproc.read`, `coproc.readw`, `coproc.write`; `none` is -1 -/
  rd : Option Nat := none
  rw : Option Nat := none
  wr : Option Nat := none
  njobs : Int := 0
  id : Nat := 0
  /-- `coproc.job` -/
  job : Option Nat := none
  live : List Job := []
  /-- between openpipe and exchild: the pipes of the child to be -/
  pend : Option (Nat × Nat) := none
  nextPipe : Nat := 0
  nextJob : Nat := 0
  /-- a descriptor was closed that was not open -/
  fault : Bool := false
  deriving DecidableEq, Repr

/-- close(2) -/
def close (s : S) (fd : Nat) : S :=
  { s with tab := s.tab.filter (fun e => e.1 ≠ fd), fault := s.fault || !(s.tab.any (fun e => e.1 = fd)) }

/-- coproc_readw_close, io.c:372-379 -/
def readwClose (s : S) (fd : Option Nat) : S :=
  match s.rw, s.rd with
  | some w, some r => if fd = some r then { close s w with rw := none } else s
  | _, _ => s

/-- coproc_read_close, io.c:359-367 -/
def readClose (s : S) (fd : Option Nat) : S :=
  match s.rd with
  | some r =>
    if fd = some r then
      let s := readwClose s fd
      { close s r with rd := none }
    else s
  | none => s

/-- coproc_write_close, io.c:384-391 -/
def writeClose (s : S) (fd : Option Nat) : S :=
  match s.wr with
  | some w => if fd = some w then { close s w with wr := none } else s
  | none => s

/-- coproc_getfd, io.c:396-406; `none` is the message "no coprocess" -/
def getfd (s : S) (read : Bool) : Option Nat := if read then s.rd else s.wr

/-- coproc_cleanup, io.c:411-430 -/
def cleanup (s : S) (reuse : Bool) : S :=
  let s :=
    if !reuse || s.rw.isNone || s.rd.isNone then
      let s := match s.rd with | some r => { close s r with rd := none } | none => s
      match s.rw with | some w => { close s w with rw := none } | none => s
    else s
  match s.wr with | some w => { close s w with wr := none } | none => s

/-- The pipe a descriptor belongs to. -/
def pipeOf (s : S) (fd : Nat) : Nat := ((s.tab.find? (fun e => e.1 = fd)).map (fun e => e.2.1)).getD 0

/-- What happens. -/
inductive Op
  /-- `|&` up to exchild, exec.c:192-223; the new descriptors for the end of the first pipe and both of the second -/
  | start (w r rw : Nat)
  /-- the same, but the second pipe(2) fails -/
  | startFail (w : Nat)
  /-- exchild, jobs.c:550-556 -/
  | fork
  /-- fork(2) fails, jobs.c:461-466 -/
  | forkFail
  /-- a co-process has ended, jobs.c:1255-1272 -/
  | ended (jid : Nat)
  /-- `read -p` has come to the end, c_sh.c:420-421 -/
  | eof
  /-- `exec n<&p` and `exec n>&p`, exec.c:1166-1174 -/
  | execIn
  | execOut
  deriving DecidableEq, Repr

/-- exec.c:193: "coprocess already exists" -/
def refuses (s : S) : Bool := s.job.isSome && s.wr.isSome

/-- The first pipe, exec.c:197-209. -/
def firstPipe (s : S) (w : Nat) : S :=
  let s := cleanup s true
  { s with tab := (w, s.nextPipe, true) :: s.tab, wr := some w, job := none, nextPipe := s.nextPipe + 1 }

def step (s : S) : Op → S
  | .start w r rw =>
    if refuses s then s
    else
      let p := s.nextPipe
      let s := firstPipe s w
      match s.rw with
      | some x => { s with pend := some (p, pipeOf s x) }
      | none =>
        let q := s.nextPipe
        { s with tab := (r, q, false) :: (rw, q, true) :: s.tab, rd := some r, rw := some rw, njobs := 0, id := s.id + 1,
                 nextPipe := q + 1, pend := some (p, q) }
  | .startFail w => if refuses s then s else firstPipe s w
  | .fork =>
    match s.pend with
    | none => s
    | some (p, q) =>
      { s with live := { jid := s.nextJob, cid := s.id, inp := p, out := q } :: s.live, njobs := s.njobs + 1,
               job := some s.nextJob, nextJob := s.nextJob + 1, pend := none }
  | .forkFail => { s with pend := none }
  | .ended i =>
    match s.live.find? (fun j => j.jid = i) with
    | none => s
    | some j =>
      let s := { s with live := s.live.filter (fun j => j.jid ≠ i) }
      let s := if s.job = some i then writeClose { s with job := none } s.wr else s
      if j.cid ≠ 0 ∧ j.cid = s.id then
        let s := { s with njobs := s.njobs - 1 }
        if s.njobs = 0 then readwClose s s.rd else s
      else s
  | .eof => readClose s (getfd s true)
  | .execIn => readClose s (getfd s true)
  | .execOut => writeClose s (getfd s false)

/-- c_print, c_ksh.c:371: writes to this descriptor do not kill the shell. -/
def guarded (s : S) (fd : Nat) : Bool := s.wr.isSome && s.wr == some fd

end Ksh.Coproc
