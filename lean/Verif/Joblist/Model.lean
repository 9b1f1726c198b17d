import Verif.Jobs.Model

/-!
# What `jobs` and the notices about jobs say

Modelled: `j_print` (jobs.c:1319-1420) as the text it writes, `j_jobs` (jobs.c:847-891) and
`c_jobs` (c_ksh.c:1057-1092).  A job is a position in `job_list`; the pointers compared at
jobs.c:1342-1345 are compared by `id`, which is different for each job.  Operands are looked
up by `Jobs.lookup`, the model of `j_lookup`.  The messages for signals are a parameter
(`sigtraps[].mess`).
-/
namespace Ksh.Joblist

/-- `p->state` with what is looked at in `p->status` (jobs.c:48-51): the status of a running
process is 0 (jobs.c:420, 737). -/
inductive St
  | running
  | stopped (sig : Nat)
  | exited (n : Nat)
  | signalled (sig : Nat) (core : Bool)
  deriving DecidableEq

/-- jobs.c:54-60 -/
structure Proc where
  pid : Nat
  st : St
  cmd : List Char
  deriving DecidableEq

/-- jobs.c:75-105, the fields that are printed or decide what is. `state` is `j->state`. -/
structure Job where
  id : Nat
  num : Int
  pgrp : Nat
  procs : List Proc
  /-- PEXITED or PSIGNALLED -/
  ended : Bool
  zombie : Bool
  changed : Bool
  deriving DecidableEq

/-- JP_SHORT, JP_MEDIUM, JP_LONG, JP_PGRP (jobs.c:64-68). -/
inductive How
  | short | medium | long | pgrp
  deriving DecidableEq

/-- Decimal digits. -/
def dec (n : Nat) : List Char := Nat.toDigits 10 n

/-- `%d` -/
def decI (n : Int) : List Char := if n < 0 then '-' :: dec n.natAbs else dec n.natAbs

/-- `%5d` -/
def pad5 (n : Nat) : List Char := List.replicate (5 - (dec n).length) ' ' ++ dec n

/-- `%-20s` -/
def pad20 (s : List Char) : List Char := s ++ List.replicate (20 - s.length) ' '

/-- `buf` (jobs.c:1348-1380); its 64 bytes are enough for every message. -/
def buf (mess : Nat → List Char) (how : How) : St → List Char
  | .running => ['R', 'u', 'n', 'n', 'i', 'n', 'g']
  | .stopped n => mess n
  | .exited n =>
    if how = .short then []
    else if n = 0 then ['D', 'o', 'n', 'e']
    else ['D', 'o', 'n', 'e', ' ', '('] ++ dec n ++ [')']
  | .signalled n core =>
    if how = .short && !core && (n = 2 || n = 13) then [] else mess n

def coredumped : St → Bool
  | .signalled _ c => c
  | _ => false

def coreText (b : Bool) : List Char :=
  if b then [' ', '(', 'c', 'o', 'r', 'e', ' ', 'd', 'u', 'm', 'p', 'e', 'd', ')'] else []

/-- `p->next ? "|" : ""` -/
def bar (rest : List Proc) : List Char := if rest.isEmpty then [] else ['|']

/-- `filler` (jobs.c:1341). -/
def filler (num : Int) : List Char :=
  '\n' :: List.replicate (if num > 10 then 7 else 6) ' '

/-- The inner loop, jobs.c:1408-1416: what it writes, and where it stops. -/
def same (how : How) (fill : List Char) (st : St) : List Proc → List Char × List Proc
  | [] => ([], [])
  | p :: ps =>
    if p.st = st then
      let r := same how fill st ps
      let t := match how with
        | .long => fill ++ pad5 p.pid ++ [' '] ++ pad20 [' '] ++ [' '] ++ p.cmd ++ bar ps
        | .medium => ' ' :: p.cmd ++ bar ps
        | _ => []
      (t ++ r.1, r.2)
    else ([], p :: ps)

/-- The outer loop, jobs.c:1347-1417, started no more often than there are processes.
`first` is `p == j->proc_list`.  The result says whether `output` was set. -/
def loop (mess : Nat → List Char) (how : How) (num : Int) (mark : Char) :
    Nat → Bool → List Proc → List Char × Bool
  | 0, _, _ => ([], false)
  | _, _, [] => ([], false)
  | fuel + 1, first, p :: ps =>
    let b := buf mess how p.st
    let pre := if how ≠ .short then
        (if first then '[' :: decI num ++ [']', ' ', mark, ' '] else filler num)
      else []
    let pid := if how = .long then pad5 p.pid ++ [' '] else []
    let body := if how = .short then
        (if b = [] then [] else b ++ coreText (coredumped p.st) ++ [' '])
      else pad20 b ++ [' '] ++ p.cmd ++ bar ps ++ coreText (coredumped p.st)
    let out := if how = .short then b ≠ [] else True
    let r := same how (filler num) p.st ps
    let r' := loop mess how num mark fuel false r.2
    (pre ++ pid ++ body ++ r.1 ++ r'.1, decide out || r'.2)

/-- `jobchar` (jobs.c:1342-1345). -/
def mark (t : List Job) (j : Job) : Char :=
  if t.head?.map Job.id = some j.id then '+'
  else if (t.drop 1).head?.map Job.id = some j.id then '-' else ' '

/-- `j_print` (jobs.c:1319-1420). -/
def jPrint (mess : Nat → List Char) (how : How) (t : List Job) (j : Job) : List Char :=
  if how = .pgrp then
    dec (if j.pgrp ≠ 0 then j.pgrp else match j.procs.getLast? with
      | some p => p.pid
      | none => 0) ++ ['\n']
  else
    let r := loop mess how j.num (mark t j) j.procs.length true j.procs
    if r.2 then r.1 ++ ['\n'] else r.1

/-- For `j_lookup`. -/
def toW : St → Jobs.PS
  | .running => .running
  | .stopped n => .did (.stopped n)
  | .exited n => .did (.exited n)
  | .signalled n _ => .did (.signalled n)

/-- For `j_lookup`. -/
def toJob (j : Job) : Jobs.Job :=
  { id := j.id, num := j.num, pgrp := j.pgrp, started := true, zombie := j.zombie
    procs := j.procs.map fun p => ⟨p.pid, p.cmd, toW p.st⟩ }

/-- `j_lookup` as far as j_jobs goes: which job. -/
def look (t : List Job) (cp : List Char) : Option Nat :=
  match Jobs.lookup (t.map toJob) cp with
  | .found j => some j.id
  | _ => none

/-- Which jobs are printed (jobs.c:876-877). -/
def shown (nflag zflag : Bool) (j : Job) : Bool := (!j.zombie || zflag) && (!nflag || j.changed)

/-- What j_print does to the flags (jobs.c:1340). -/
def clear (how : How) (j : Job) : Job := if how = .pgrp then j else { j with changed := false }

/-- The two loops of `j_jobs` (jobs.c:875-889), `q` being the jobs the first one prints: what is
written, and the list after it. -/
def listing (mess : Nat → List Char) (how : How) (t : List Job) (q : Job → Bool) :
    List Char × List Job :=
  (t.flatMap fun j => if q j then jPrint mess how t j else [],
   (t.filter fun j => !(q j && j.ended)).map fun j => if q j then clear how j else j)

/-- `j_jobs` (jobs.c:847-891): what is written, the list after it, and the return value. -/
def jJobs (mess : Nat → List Char) (t : List Job) (cp : Option (List Char)) (how : How)
    (nflag zflag : Bool) : List Char × List Job × Nat :=
  match cp with
  | none =>
    let r := listing mess how t (shown nflag zflag)
    (r.1, r.2, 0)
  | some cp =>
    match look t cp with
    | none => ([], t, 1)
    | some i =>
      let r := listing mess how t (fun j => j.id == i && shown nflag zflag j)
      (r.1, r.2, 0)

/-- The options (c_ksh.c:1065-1081): `how`, `nflag`, `zflag`. -/
def options : List Char → How × Bool × Bool → Option (How × Bool × Bool)
  | [], r => some r
  | 'l' :: l, r => options l (.long, r.2)
  | 'p' :: l, r => options l (.pgrp, r.2)
  | 'n' :: l, r => options l (r.1, true, false)
  | 'z' :: l, r => options l (r.1, false, true)
  | _ :: _, _ => none

/-- The loop over the operands, c_ksh.c:1087-1089. -/
def operands (mess : Nat → List Char) (o : How × Bool × Bool) :
    List (List Char) → List Job → List Char × List Job × Nat
  | [], t => ([], t, 0)
  | cp :: l, t =>
    let r := jJobs mess t (some cp) o.1 o.2.1 o.2.2
    let r' := operands mess o l r.2.1
    (r.1 ++ r'.1, r'.2.1, if r.2.2 ≠ 0 then 1 else r'.2.2)

/-- `c_jobs` (c_ksh.c:1057-1092), the options already split into letters by `ksh_getopt`. -/
def cJobs (mess : Nat → List Char) (opts : List Char) (args : List (List Char)) (t : List Job) :
    List Char × List Job × Nat :=
  match options opts (.medium, false, false) with
  | none => ([], t, 1)
  | some o =>
    if args = [] then jJobs mess t none o.1 o.2.1 o.2.2 else operands mess o args t

end Ksh.Joblist
