/-!
# Redirections: the descriptor table under `iosetup`, `savefd`, `restfd`, `quitenv` and `exec`

The kernel's descriptor table is a function from numbers to open files.  System calls take the
lowest free number, as POSIX says, and may fail whenever the oracle says so.
-/

namespace Ksh.Redir

variable {F : Type}

/-- The descriptor table, the limit of descriptor numbers and the number of system calls made. -/
structure K (F : Type) where
  tab : Nat → Option F
  lim : Nat
  t : Nat

/-- What the outside decides, as a function of the time. -/
structure Oracle (F : Type) where
  /-- `open`, `mkstemp` succeed (if a number is free) -/
  opens : Nat → Bool
  /-- `fcntl(F_DUPFD)` succeeds (if a number is free) -/
  dups : Nat → Bool
  /-- `dup2` in `iosetup` succeeds (if its arguments are fine) -/
  dup2s : Nat → Bool
  /-- the expansion of a file name or here-document succeeds -/
  evals : Nat → Bool
  /-- writing the temporary file of a here-document succeeds -/
  writes : Nat → Bool
  /-- a simple command ends normally -/
  cmds : Nat → Bool
  /-- `setrlimit` succeeds -/
  limits : Nat → Bool
  /-- the open file a temporary file is written through -/
  tmp : F

def set (T : Nat → Option F) (n : Nat) (v : Option F) : Nat → Option F := fun m => if m = n then v else T m

/-- The lowest free number that is at least `b`. -/
def K.free (k : K F) (b : Nat) : Option Nat := (List.range' b (k.lim - b)).find? fun n => (k.tab n).isNone

def K.tick (k : K F) : K F := { k with t := k.t + 1 }

/-- `open(2)` of a file; `f` is the open file that results. -/
def kopen (O : Oracle F) (f : F) (k : K F) : Option Nat × K F :=
  if O.opens k.t then
    match k.free 0 with
    | some n => (some n, { k.tick with tab := set k.tab n (some f) })
    | none => (none, k.tick)
  else (none, k.tick)

def kclose (n : Nat) (k : K F) : K F := { k.tick with tab := set k.tab n none }

/-- `dup2(src, dst)`; `may` is false where the call is assumed not to fail without a reason. -/
def kdup2 (may : Nat → Bool) (src dst : Nat) (k : K F) : Bool × K F :=
  if (k.tab src).isSome && decide (dst < k.lim) && may k.t then (true, { k.tick with tab := set k.tab dst (k.tab src) })
  else (false, k.tick)

/-- The conversion to `short` when a number is stored in `savefd[]` (exec.c:109). -/
def toShort (n : Nat) : Int := if n % 65536 < 32768 then (n % 65536 : Nat) else (n % 65536 : Nat) - 65536

/-- `savefd` (io.c:257-275): a copy of the descriptor at 10 or above; -1 if it is not open; `none`
stands for `errorf("too many files open in shell")`.  The result is as stored in a `short`. -/
def savefd (O : Oracle F) (fd : Nat) (k : K F) : Option Int × K F :=
  if (k.tab fd).isNone then (some (-1), k.tick)
  else if O.dups k.t then
    match k.free 10 with
    | some n => (some (toShort n), { k.tick with tab := set k.tab n (k.tab fd) })
    | none => (none, k.tick)
  else (none, k.tick)

/-- `restfd` (io.c:277-288). -/
def restfd (fd : Nat) (ofd : Int) (k : K F) : K F :=
  if ofd < 0 then kclose fd k
  else if (fd : Int) ≠ ofd then kclose ofd.toNat (kdup2 (fun _ => true) ofd.toNat fd k).2
  else k

/-- The part of `quitenv` that restores descriptors (main.c:737-742), `NUFILE` being 32. -/
def quitenv (sv : Nat → Int) (k : K F) : K F :=
  (List.range 32).foldl (fun k fd => if sv fd ≠ 0 then restfd fd (sv fd) k else k) k

/-- One redirection; the unit is a digit (lex.c:737).  `>&p` and `<&p` are not modelled. -/
inductive Redir (F : Type)
  | file (unit : Fin 10) (f : F)
  | here (unit : Fin 10) (f : F)
  | dup (unit src : Fin 10)
  | close (unit : Fin 10)
  /-- a name after `>&` that is not a descriptor -/
  | bad (unit : Fin 10)

inductive Res
  | ok | fail | jump | tooMany
  deriving DecidableEq, Repr

/-- `herein` (exec.c:1185-1243): a file written through one descriptor and read through another.
The expansion of the text does not change the table. -/
def herein (O : Oracle F) (f : F) (k : K F) : Option Nat × K F :=
  match kopen O O.tmp k with
  | (none, k) => (none, k)
  | (some w, k) =>
    match kopen O f k with
    | (none, k) => (none, kclose w k)
    | (some r, k) =>
      if O.evals k.t = false then (none, kclose r (kclose w k))
      else if O.writes k.t = false then (none, kclose r (kclose w k))
      else (some r, kclose w k)

def upd (sv : Nat → Int) (n : Nat) (v : Int) : Nat → Int := fun m => if m = n then v else sv m

/-- The second half of `iosetup`, exec.c:1136-1180: save the unit unless it has been saved and
put the descriptor `u` there; `own` says that `u` was opened here and is closed. -/
def install (O : Oracle F) (unit u : Nat) (own : Bool) (sv : Nat → Int) (k : K F) : Res × (Nat → Int) × K F :=
  let saved : Option Int × K F :=
    if sv unit = 0 then (if u = unit then (some (-1), k) else savefd O unit k) else (some (sv unit), k)
  match saved with
  | (none, k) => (.tooMany, sv, k)
  | (some s, k) =>
    let sv := upd sv unit s
    if u = unit then (.ok, sv, k)
    else
      match kdup2 O.dup2s u unit k with
      | (true, k) => (.ok, sv, if own then kclose u k else k)
      | (false, k) => (.fail, sv, if own then kclose u k else k)

/-- `iosetup` (exec.c:1047-1181).  Tracing, messages and `shf_reopen` leave the table alone. -/
def iosetup (O : Oracle F) : Redir F → (Nat → Int) → K F → Res × (Nat → Int) × K F
  | .file unit f, sv, k =>
    if O.evals k.t = false then (.jump, sv, k.tick)
    else match kopen O f k with
      | (none, k) => (.fail, sv, k)
      | (some u, k) => install O unit u true sv k
  | .here unit f, sv, k =>
    match herein O f k with
    | (none, k) => (.fail, sv, k)
    | (some u, k) => install O unit u true sv k
  | .dup unit src, sv, k =>
    if (k.tab src).isNone then (.fail, sv, k.tick)
    else if src = unit then (.ok, sv, k)
    else install O unit src false sv k
  | .close unit, sv, k =>
    -- u is 1009 here, which is no unit
    match (if sv unit = 0 then savefd O unit k else (some (sv unit), k) : Option Int × K F) with
    | (none, k) => (.tooMany, sv, k)
    | (some s, k) => (.ok, upd sv unit s, kclose unit k)
  | .bad _, sv, k => (.fail, sv, k.tick)

/-- The loop over the redirections in `execute` (exec.c:115-131). -/
def setup (O : Oracle F) : List (Redir F) → (Nat → Int) → K F → Res × (Nat → Int) × K F
  | [], sv, k => (.ok, sv, k)
  | r :: rs, sv, k =>
    match iosetup O r sv k with
    | (.ok, sv, k) => setup O rs sv k
    | x => x

/-- Commands as far as the table is concerned.  Subshells and other processes have a table of
their own. -/
inductive Cmd (F : Type)
  /-- a command without redirections that leaves the table alone -/
  | simple
  /-- `ulimit -n` -/
  | limit (n : Nat)
  | seq (a b : Cmd F)
  /-- a command with redirections; `sp` says it is a special builtin other than `exec` -/
  | redir (sp : Bool) (rs : List (Redir F)) (c : Cmd F)
  /-- `exec` without arguments -/
  | exec (rs : List (Redir F))

/-- `c_exec` (c_sh.c:826-849): the saved descriptors are closed, so that `quitenv` has nothing to
restore. -/
def commit (sv : Nat → Int) (k : K F) : K F :=
  (List.range 32).foldl (fun k fd => if sv fd > 0 then kclose (sv fd).toNat k else k) k

/-- `execute` (exec.c:106-131, 389-392) and the unwinding through environments, which all go
through `quitenv`. -/
def run (O : Oracle F) : Cmd F → K F → Res × K F
  | .simple, k => (if O.cmds k.t then .ok else .jump, k.tick)
  | .limit n, k => if O.limits k.t then (.ok, { k.tick with lim := n }) else (.fail, k.tick)
  | .seq a b, k =>
    match run O a k with
    | (.ok, k) => run O b k
    | (.fail, k) => run O b k
    | x => x
  | .redir sp rs c, k =>
    match setup O rs (fun _ => 0) k with
    | (.ok, sv, k) => match run O c k with | (r, k) => (r, quitenv sv k)
    | (.fail, sv, k) => (if sp then .jump else .fail, quitenv sv k)
    | (r, sv, k) => (r, quitenv sv k)
  | .exec rs, k =>
    match setup O rs (fun _ => 0) k with
    | (.ok, sv, k) => (.ok, commit sv k)
    | (r, sv, k) => (r, quitenv sv k)

end Ksh.Redir
