/-!
# Names of descriptors

`check_fd` (io.c:316-347), `coproc_getfd` (io.c:396-406) and their callers: `read -u -p`
(c_sh.c:268-292), `print -u -p` (c_ksh.c:260-295) and `x<&name`, `x>&name` in iosetup (exec.c:1100-1117).
Bytes are `Char`s; `fcntl(fd, F_GETFL)` is a table of open descriptors with their access mode.
-/
namespace Ksh.Fdname

/-- `flags & O_ACCMODE` -/
inductive Acc
  | rd | wr | rdwr
  deriving DecidableEq, Repr

/-- `R_OK`, `W_OK`, `X_OK` -/
structure Mode where
  r : Bool
  w : Bool
  x : Bool
  deriving DecidableEq, Repr

/-- The open descriptors and `coproc.read`, `coproc.write` (`none` is -1). -/
structure Env where
  fds : Nat → Option Acc
  coRead : Option Nat
  coWrite : Option Nat

inductive Msg
  | bad | notReading | notWriting | illegal | noCoproc
  deriving DecidableEq, Repr

/-- `coproc_getfd`, io.c:396-406 -/
def coprocGetfd (e : Env) (m : Mode) : Except Msg Nat :=
  match (if m.r then e.coRead else e.coWrite) with
  | some fd => .ok fd
  | none => .error .noCoproc

/-- io.c:332-334 -/
def refused (m : Mode) (fl : Acc) : Bool :=
  !m.x && decide (fl ≠ .rdwr) && ((m.r && decide (fl ≠ .rd)) || (m.w && decide (fl ≠ .wr)))

/-- `check_fd`, io.c:316-347 -/
def checkFd (e : Env) (name : List Char) (m : Mode) : Except Msg Nat :=
  match name with
  | [c] =>
    if c.isDigit then
      match e.fds (c.toNat - '0'.toNat) with
      | none => .error .bad
      | some fl =>
        if refused m fl then .error (if fl = .wr then .notReading else .notWriting)
        else .ok (c.toNat - '0'.toNat)
    else if c = 'p' then coprocGetfd e m
    else .error .illegal
  | _ => .error .illegal

/-- The options of `read` and `print` that choose a descriptor. -/
inductive Opt
  | p
  | u (arg : List Char)
  deriving DecidableEq, Repr

/-- c_sh.c:268-292 with `R_OK`, c_ksh.c:260-295 with `W_OK`; in both `-u` without a number is 0. -/
def options (e : Env) (m : Mode) : List Opt → Nat → Except Msg Nat
  | [], fd => .ok fd
  | .p :: l, _ =>
    match coprocGetfd e m with
    | .ok fd => options e m l fd
    | .error x => .error x
  | .u arg :: l, _ =>
    if arg = [] then options e m l 0
    else
      match checkFd e arg m with
      | .ok fd => options e m l fd
      | .error x => .error x

/-- `read`, c_sh.c:260 -/
def readFd (e : Env) (l : List Opt) : Except Msg Nat := options e ⟨true, false, false⟩ l 0

/-- `print`, c_ksh.c:212 -/
def printFd (e : Env) (l : List Opt) : Except Msg Nat := options e ⟨false, true, false⟩ l 1

inductive Dup
  | close
  | same
  | from (fd : Nat)
  | fail (m : Msg)
  deriving DecidableEq, Repr

/-- exec.c:1100-1117; `rdup` is `IORDUP`.  `u` is 1009 for `-`, which is no unit. -/
def dup (e : Env) (unit : Nat) (rdup : Bool) (name : List Char) : Dup :=
  if name = ['-'] then .close
  else
    match checkFd e name ⟨rdup, !rdup, true⟩ with
    | .error x => .fail x
    | .ok u => if u = unit then .same else .from u

end Ksh.Fdname
