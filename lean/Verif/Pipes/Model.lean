/-!
# The pipes of pipelines and command substitutions

`execute`, TPIPE (exec.c:141-167), `comsub` (eval.c:916-928), the part of `exchild` that deals
with descriptors (jobs.c:496-528), `savefd`, `restfd`, `openpipe`, `closepipe`, `ksh_dup2`
(io.c:243-310), `cleanup_parents_env` (main.c:785-806), the part of `quitenv` that restores
descriptors (main.c:737-741).

The kernel: a table from descriptors to open files with the close-on-exec flag, of a limited
size; `pipe`, `open` and `F_DUPFD` take the lowest free descriptors and fail when there are none.
`fork` fails when an oracle says so (jobs.c:464-475).  Left out: `tty_close` in the child,
co-processes (`Ksh.Coproc`), and the narrowing of a saved descriptor to `short`, which
`Ksh.Redir` has.
-/
namespace Ksh.Pipes

/-- What a descriptor refers to: what the shell had before, the ends of the i-th pipe, and
/dev/null. -/
inductive Obj
  | file (n : Nat)
  | rd (i : Nat)
  | wr (i : Nat)
  | null
  deriving DecidableEq

/-- A table of descriptors, with close-on-exec. -/
abbrev Tab := Nat → Option (Obj × Bool)

def put (t : Tab) (n : Nat) (v : Option (Obj × Bool)) : Tab := fun m => if m = n then v else t m

def free (lim b : Nat) (t : Tab) : Option Nat := (List.range' b (lim - b)).find? fun n => (t n).isNone

def close (n : Nat) (t : Tab) : Tab := put t n none

/-- `dup2` (io.c:243-251); close-on-exec is off for the copy. -/
def dup2 (src dst : Nat) (t : Tab) : Tab :=
  match t src with
  | some (o, c) => if src = dst then put t dst (some (o, c)) else put t dst (some (o, false))
  | none => t

/-- A system call that failed: `errorf`, with the table as it is. -/
abbrev Res (α : Type) := Except Tab α

/-- `savefd` (io.c:258-275); `none` for -1. -/
def savefd (lim fd : Nat) (t : Tab) : Res (Option Nat × Tab) :=
  if fd < 10 then
    match t fd with
    | none => .ok (none, t)
    | some (o, _) =>
      match free lim 10 t with
      | none => .error t
      | some n => .ok (some n, put t n (some (o, true)))
  else .ok (some fd, put t fd ((t fd).map fun v => (v.1, true)))

/-- `restfd` (io.c:278-288). -/
def restfd (fd : Nat) (ofd : Option Nat) (t : Tab) : Tab :=
  match ofd with
  | none => close fd t
  | some n => if fd = n then t else close n (dup2 n fd t)

/-- `pipe(2)` -/
def pipe (lim i : Nat) (t : Tab) : Res (Nat × Nat × Tab) :=
  match free lim 0 t with
  | none => .error t
  | some a =>
    match free lim 0 (put t a (some (.rd i, false))) with
    | none => .error t
    | some b => .ok (a, b, put (put t a (some (.rd i, false))) b (some (.wr i, false)))

/-- One end is moved up (io.c:297-302). -/
def moveUp (lim a : Nat) (t : Tab) : Res (Nat × Tab) :=
  match savefd lim a t with
  | .error t => .error t
  | .ok (none, t) => .ok (a, t)
  | .ok (some p, t) => .ok (p, if p = a then t else close a t)

/-- `openpipe` (io.c:291-303). -/
def openpipe (lim i : Nat) (t : Tab) : Res (Nat × Nat × Tab) :=
  match pipe lim i t with
  | .error t => .error t
  | .ok (a, b, t) =>
    match moveUp lim a t with
    | .error t => .error t
    | .ok (p, t) =>
      match moveUp lim b t with
      | .error t => .error t
      | .ok (q, t) => .ok (p, q, t)

/-- The child closes what the environments saved (main.c:796-803). -/
def cleanup (saved : List Nat) (t : Tab) : Tab := saved.foldl (fun t n => close n t) t

/-- A child in the background that is not fed by a pipe gets /dev/null (jobs.c:518-528). -/
def toNull (lim : Nat) (t : Tab) : Tab :=
  match free lim 0 t with
  | none => t
  | some fd =>
    let t := put t fd (some (.null, false))
    if fd = 0 then t else close fd (dup2 fd 0 t)

/-- One turn of the loop (exec.c:146-159): the table of the child and that of the shell. -/
def stage (lim : Nat) (fork : Nat → Bool) (bg : Bool) (saved : List Nat) (i : Nat) (t : Tab) :
    Res (Tab × Tab) :=
  match openpipe lim i t with
  | .error t => .error t
  | .ok (p, q, t) =>
    let t := dup2 q 1 t
    if fork i then
      let c := cleanup saved (close p t)
      let c := if bg && i == 0 then toNull lim c else c
      .ok (c, close q (close p (dup2 p 0 t)))
    else .error t

/-- The loop: `n` pipes from the i-th on; the children so far come first. -/
def stages (lim : Nat) (fork : Nat → Bool) (bg : Bool) (saved : List Nat) :
    Nat → Nat → Tab → List Tab × Res Tab
  | 0, _, t => ([], .ok t)
  | n + 1, i, t =>
    match stage lim fork bg saved i t with
    | .error t => ([], .error t)
    | .ok (c, t) =>
      let r := stages lim fork bg saved n (i + 1) t
      (c :: r.1, r.2)

/-- `quitenv` (main.c:737-741) for the descriptors 0 and 1; `none` when nothing was saved. -/
def quit (s0 s1 : Option (Option Nat)) (t : Tab) : Tab :=
  let t := match s0 with | some s => restfd 0 s t | none => t
  match s1 with | some s => restfd 1 s t | none => t

/-- What comes of it: the tables of the children when they start their commands, the table of the
shell afterwards, and whether all went well. -/
structure Out where
  kids : List Tab
  shell : Tab
  ok : Bool

/-- A pipeline with `n + 1` pipes (exec.c:141-167); `outer` is what the environments around it
saved. -/
def pipeline (lim : Nat) (fork : Nat → Bool) (bg : Bool) (outer : List Nat) (n : Nat) (t : Tab) : Out :=
  match savefd lim 0 t with
  | .error t => ⟨[], quit none none t, false⟩
  | .ok (s0, t) =>
    match savefd lim 1 t with
    | .error t => ⟨[], quit (some s0) none t, false⟩
    | .ok (s1, t) =>
      let r := stages lim fork bg (s0.toList ++ s1.toList ++ outer) (n + 1) 0 t
      match r.2 with
      | .error t => ⟨r.1, quit (some s0) (some s1) t, false⟩
      | .ok t =>
        let t := restfd 1 s1 t
        if fork (n + 1) then
          ⟨r.1 ++ [cleanup (s0.toList ++ outer) t], quit (some s0) none (close 0 t), true⟩
        else ⟨r.1, quit (some s0) none t, false⟩

/-- A command substitution (eval.c:916-928): the child, the shell, and where it reads. -/
def comsub (lim : Nat) (fork : Bool) (outer : List Nat) (t : Tab) : List Tab × Tab × Option Nat :=
  match openpipe lim 0 t with
  | .error t => ([], t, none)
  | .ok (p, q, t) =>
    match savefd lim 1 t with
    | .error t => ([], t, none)
    | .ok (s, t) =>
      let t := if q = 1 then t else close q (dup2 q 1 t)
      if fork then ([cleanup outer t], restfd 1 s t, some p)
      -- `errorf` in `exchild`; nothing restores descriptor 1
      else ([], t, none)

/-- What a program finds after `execve`. -/
def execd (t : Tab) : Nat → Option Obj := fun n =>
  match t n with
  | some (o, false) => some o
  | _ => none

end Ksh.Pipes
