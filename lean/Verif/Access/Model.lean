/-!
# May the file be read, written, executed?

`test -r`, `-w`, `-x` (`test_eaccess`, c_test.c:360-382) and the check of a candidate in the search for a command
(`search_access`, exec.c:956-977), with the permissions of a file as the kernel keeps them.

`access(2)` is modelled by its rule: the class of the caller (owner, group, others) by the *real* ids decides;
the user 0 may read and write everything; whether it is told that it may execute a file nobody may execute
differs between systems and is the argument `lax` (the comment in c_test.c:365-368 says that most tell so).
Left out: access control lists, read-only file systems, the permissions of directories on the way.
-/
namespace Ksh.Access

inductive Kind
  | reg | dir | other
  deriving DecidableEq, Repr

inductive Want
  | r | w | x
  deriving DecidableEq, Repr

/-- The bits of one class. -/
structure Bits where
  r : Bool
  w : Bool
  x : Bool
  deriving DecidableEq, Repr

def Bits.get (b : Bits) : Want → Bool
  | .r => b.r
  | .w => b.w
  | .x => b.x

structure File where
  kind : Kind
  owner : Nat
  group : Nat
  u : Bits
  g : Bits
  o : Bits
  deriving DecidableEq, Repr

/-- A user id with its groups. -/
structure Id where
  uid : Nat
  gids : List Nat
  deriving DecidableEq, Repr

/-- `st_mode & (S_IXUSR|S_IXGRP|S_IXOTH)` -/
def File.anyX (f : File) : Bool := f.u.x || f.g.x || f.o.x

/-- The bits of the class the caller is in. -/
def File.bits (f : File) (i : Id) : Bits :=
  if i.uid = f.owner then f.u else if i.gids.contains f.group then f.g else f.o

/-- `access(path, amode) == 0` for a file that exists, `i` are the real ids -/
def access (lax : Bool) (i : Id) (f : File) (m : Want) : Bool :=
  if i.uid = 0 then
    match m with
    | .x => lax || f.anyX || decide (f.kind = .dir)
    | _ => true
  else (f.bits i).get m

/-- `test_eaccess(path, amode) == 0`, c_test.c:360-382; `none` is a file that does not exist. -/
def testEaccess (lax : Bool) (real eff : Id) (f : Option File) (m : Want) : Bool :=
  match f with
  | none => false
  | some f =>
    if access lax real f m && decide (eff.uid = 0) && decide (m = .x) then
      if f.kind = .dir then true else f.anyX
    else access lax real f m

inductive Err
  | acces | isdir
  deriving DecidableEq, Repr

/-- `search_access(path, X_OK, errnop)`, exec.c:956-977: whether it returns 0, and the error
it notes in an `*errnop` that was 0. Simplified: a failing `access` on a file that `stat` found sets `EACCES`. -/
def searchAccess (lax : Bool) (real : Id) (f : Option File) : Bool × Option Err :=
  match f with
  | none => (false, none)
  | some f =>
    if !access lax real f .x then (false, some .acces)
    else if decide (f.kind ≠ .reg) || !f.anyX then (false, some (if f.kind = .dir then .isdir else .acces))
    else (true, none)

end Ksh.Access
