/-!
# Who closes the descriptors of buffered files

`shf_open`, `shf_close` and `shf_fdclose` (shf.c:36-72, 219-254) with the places of the shell that open a
file for reading commands (`include`, main.c:476-539, with the end of file in `getsc_line`, lex.c:1148-1151),
for a here document (`herein`, exec.c:1185-1244, `maketemp`, io.c:436-461) and for a command substitution
(`comsub`, eval.c:901-931, read in `expand`, eval.c:548-575), nested in each other in any way, with jumps
(`unwind`, main.c:669-711) out of any of them.

The descriptors are the set of open numbers; `bad` records that `close` was called for a number that is not
open, that is, twice, or for a number that may by then belong to something else.  The numbers that the
kernel returns are arguments; a number that is in use is not returned (then the call counts as failed).

Left out: what the commands do otherwise with descriptors (Redir, Pipes, Coproc), the buffer (Shf), the
memory of `struct shf`, the failing of `fork` in a substitution (Pipes), a failing `close`.
-/
namespace Ksh.Own

/-- sh.h: `FDBASE` -/
def FDBASE : Nat := 10

structure St where
  isOpen : Nat → Bool
  bad : Bool

def St.add (s : St) (n : Nat) : St := { s with isOpen := fun m => if m = n then true else s.isOpen m }

/-- `close(n)` -/
def St.close (s : St) (n : Nat) : St :=
  { isOpen := fun m => if m = n then false else s.isOpen m, bad := s.bad || !s.isOpen n }

/-- `open`, `mkstemp` -/
def sysOpen (o : Option Nat) (s : St) : Option Nat × St :=
  match o with
  | none => (none, s)
  | some n => if s.isOpen n then (none, s) else (some n, s.add n)

/-- `fcntl(fd, F_DUPFD, FDBASE)` -/
def sysDup (d : Option Nat) (s : St) : Option Nat × St :=
  match d with
  | none => (none, s)
  | some n => if s.isOpen n || n < FDBASE then (none, s) else (some n, s.add n)

/-- `shf_open` with `SHF_MAPHI`, shf.c:51-66: the field `fd`, or `NULL` -/
def shfOpen (o d : Option Nat) (s : St) : Option Nat × St :=
  match sysOpen o s with
  | (none, s) => (none, s)
  | (some n, s) =>
    if n < FDBASE then
      match sysDup d s with
      | (none, s) => (none, s.close n)
      | (some m, s) => (some m, s.close n)
    else (some n, s)

/-- `shf_close`, shf.c:219-235; `none` is the `fd` of -1 -/
def shfClose (fd : Option Nat) (s : St) : St :=
  match fd with
  | none => s
  | some n => s.close n

/-- `shf_fdclose`, shf.c:238-254: the new `fd` -/
def shfFdclose (fd : Option Nat) (s : St) : Option Nat × St :=
  match fd with
  | none => (none, s)
  | some n => (none, s.close n)

/-- How a part of a program ends. -/
inductive Res
  | ok
  /-- `unwind`; `true` for `LRETURN` and `LERROR`, which `include` stops -/
  | jump (k : Bool)
  deriving DecidableEq, Repr

inductive P
  | done
  | jump (k : Bool)
  | seq (a b : P)
  /-- `.` or a start file: what is run before the end of the file is read, whether it is read, what
  is run then (a command that the end of the file has ended) -/
  | dot (o d : Option Nat) (before : P) (eof : Bool) (after : P)
  /-- a here document: `mkstemp`, `open`, the substitutions in it, whether writing fails -/
  | here (o o2 : Option Nat) (body : P) (werr : Bool)
  /-- a substitution: for each pattern among its words whether `intrcheck` finds a signal -/
  | sub (o d : Option Nat) (words : List Bool)

/-- `shell(s, false)` in `include`: how it ends, and `s->u.shf->fd` -/
def runFile (before after : St → Res × St) (eof : Bool) (fd : Option Nat) (s : St) : Res × Option Nat × St :=
  match before s with
  | (.jump k, s) => (.jump k, fd, s)
  | (.ok, s) =>
    if eof then
      -- lex.c:1149-1150
      match shfFdclose fd s with
      | (fd, s) =>
        match after s with
        | (r, s) => (r, fd, s)
    else (.ok, fd, s)

def run : P → St → Res × St
  | .done, s => (.ok, s)
  | .jump k, s => (.jump k, s)
  | .seq a b, s =>
    match run a s with
    | (.jump k, s) => (.jump k, s)
    | (.ok, s) => run b s
  | .dot o d before eof after, s =>
    match shfOpen o d s with
    | (none, s) => (.ok, s)
    | (some n, s) =>
      match runFile (run before) (run after) eof (some n) s with
      -- main.c:499, 533: quitenv closes it in each case
      | (.ok, fd, s) => (.ok, shfClose fd s)
      | (.jump true, fd, s) => (.ok, shfClose fd s)
      | (.jump false, fd, s) => (.jump false, shfClose fd s)
  | .here o o2 body werr, s =>
    match sysOpen o s with
    | (none, s) => (.ok, s)
    | (some n, s) =>
      match sysOpen o2 s with
      | (none, s) => (.ok, shfClose (some n) s)
      | (some m, s) =>
        match run body s with
        -- exec.c:1216-1221
        | (.jump _, s) => (.ok, (shfClose (some n) s).close m)
        | (.ok, s) =>
          -- exec.c:1236-1243; the descriptor returned is closed in iosetup (exec.c:1154-1165)
          if werr then (.ok, (shfClose (some n) s).close m)
          else (.ok, (shfClose (some n) s).close m)
  | .sub o d words, s =>
    match shfOpen o d s with
    | (none, s) => (.ok, s)
    | (some n, s) =>
      -- eval.c:1035, trap.c:145-150
      if words.any id then (.jump false, s)
      -- eval.c:564-567
      else (.ok, shfClose (some n) s)

/-- No substitution is interrupted. -/
def P.quiet : P → Bool
  | .done => true
  | .jump _ => true
  | .seq a b => a.quiet && b.quiet
  | .dot _ _ a _ b => a.quiet && b.quiet
  | .here _ _ b _ => b.quiet
  | .sub _ _ w => !w.any id

end Ksh.Own
