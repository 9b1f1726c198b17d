/-!
# What redirections do to files (`iosetup`, exec.c:1069-1091, 1121-1127)

The file system: names, which are regular files, symbolic links, directories or something else
(devices, fifos), and the contents of the regular files.  `stat` and `open` are two system calls;
what other processes do between them is a parameter.  Restricted shells are in `Ksh.Restricted`,
here documents and `>&` in `Ksh.Here` and `Ksh.Redir`.  Permissions are a parameter: an `open` may
be refused, and then changes nothing.
-/
namespace Ksh.Clobber

abbrev Bytes := List UInt8

/-- What is in a directory under a name. -/
inductive Ent
  | reg (inode : Nat)
  | link (target : Nat)
  | dir
  | dev
  deriving DecidableEq

/-- Names (numbers), contents of the regular files, and how many there are. -/
structure FS where
  ents : Nat → Option Ent
  data : Nat → Bytes
  next : Nat

/-- Following links; `none` for too many of them.  The name found last, and what is there. -/
def resolve (fs : FS) : Nat → Nat → Option (Nat × Option Ent)
  | 0, _ => none
  | k + 1, n =>
    match fs.ents n with
    | some (.link m) => resolve fs k m
    | e => some (n, e)

/-- SYMLOOP_MAX -/
def hops : Nat := 32

/-- `stat` (exec.c:1083): the thing, `none` if it fails. -/
def stat (fs : FS) (n : Nat) : Option Ent := (resolve fs hops n).bind (·.2)

/-- The flags of `open`; reading and writing. -/
structure Flags where
  write : Bool
  creat : Bool := false
  trunc : Bool := false
  append : Bool := false
  excl : Bool := false
  deriving DecidableEq

/-- What a descriptor refers to. -/
inductive File
  | reg (inode : Nat) (append : Bool)
  | other
  deriving DecidableEq

/-- A new file under a name. -/
def create (fs : FS) (n : Nat) : FS :=
  ⟨fun m => if m = n then some (.reg fs.next) else fs.ents m,
   fun i => if i = fs.next then [] else fs.data i, fs.next + 1⟩

/-- O_TRUNC -/
def truncate (fs : FS) (i : Nat) : FS := { fs with data := fun j => if j = i then [] else fs.data j }

/-- `open(2)`: `none` for -1; `deny` says that the permissions forbid it. -/
def openf (deny : Bool) (f : Flags) (n : Nat) (fs : FS) : Option File × FS :=
  if deny then (none, fs)
  else if f.creat && f.excl then
    -- a link is not followed
    match fs.ents n with
    | some _ => (none, fs)
    | none => (some (.reg fs.next f.append), create fs n)
  else
    match resolve fs hops n with
    | none => (none, fs)
    | some (_, some (.reg i)) => (some (.reg i f.append), if f.trunc then truncate fs i else fs)
    | some (_, some .dir) => if f.write then (none, fs) else (some .other, fs)
    | some (_, some _) => (some .other, fs)
    | some (m, none) => if f.creat then (some (.reg fs.next f.append), create fs m) else (none, fs)

/-- The redirections that open files: `<`, `>>`, `>` and `>|`, `<>`. -/
inductive Io
  | read
  | cat
  | write (clob : Bool)
  | rdwr
  deriving DecidableEq

/-- Not a regular file, but there (exec.c:1082-1084). -/
def special : Option Ent → Bool
  | some (.reg _) => false
  | some _ => true
  | none => false

/-- The flags (exec.c:1069-1091); `st` is what `stat` says. -/
def flags (noclobber : Bool) (st : Option Ent) : Io → Flags
  | .read => { write := false }
  | .cat => { write := true, append := true, creat := true }
  | .write clob => { write := true, creat := true, trunc := true,
                     excl := noclobber && !clob && !special st }
  | .rdwr => { write := true, creat := true }

/-- A redirection: `stat`, what others do, `open`. -/
def redirect (noclobber deny : Bool) (io : Io) (n : Nat) (others : FS → FS) (fs : FS) :
    Option File × FS :=
  openf deny (flags noclobber (stat fs n) io) n (others fs)

/-- `write(2)` at an offset, or at the end with O_APPEND. -/
def writef (i : Nat) (append : Bool) (off : Nat) (b : Bytes) (fs : FS) : FS :=
  { fs with data := fun j =>
      if j = i then
        if append then fs.data j ++ b
        else (fs.data j).take off ++ b ++ (fs.data j).drop (off + b.length)
      else fs.data j }

/-! ## Shells that contend for a lock: `set -C; until > lock; do :; done …; rm lock` -/

/-- Where a shell is. -/
inductive Pc
  /-- before `stat` -/
  | idle
  /-- between `stat` and `open`, with the flags -/
  | between (f : Flags)
  /-- it has the lock -/
  | holds
  deriving DecidableEq

/-- Shells and the file system. -/
structure Sys where
  pc : Nat → Pc
  fs : FS

def setPc (s : Sys) (k : Nat) (p : Pc) : Nat → Pc := fun j => if j = k then p else s.pc j

def remove (fs : FS) (n : Nat) : FS := { fs with ents := fun m => if m = n then none else fs.ents m }

/-- The k-th shell goes on.  It takes the lock named 0; who does not get it starts again; who has
it removes it. -/
def step (noclobber : Bool) (s : Sys) (k : Nat) : Sys :=
  match s.pc k with
  | .idle => ⟨setPc s k (.between (flags noclobber (stat s.fs 0) (.write false))), s.fs⟩
  | .between f =>
    let r := openf false f 0 s.fs
    ⟨setPc s k (if r.1.isSome then .holds else .idle), r.2⟩
  | .holds => ⟨setPc s k .idle, remove s.fs 0⟩

def run (noclobber : Bool) (s : Sys) (ks : List Nat) : Sys := ks.foldl (step noclobber) s

end Ksh.Clobber
