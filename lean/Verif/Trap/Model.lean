/-!
# Pending traps

`trapsig`, `runtraps` and `runtrap` of trap.c, with the safe points of the shell
(exec.c:77-78, main.c:615-616, main.c:675-677) around them.  A signal may arrive between any
two steps, also in the middle of `runtraps`.

The machine has a stack.  A `loop i` frame is a call of `runtraps(0)` that is about to look at the
signal `i`; `hit i` is the same call after it has seen `p->set` and before runtrap has cleared it;
an `action` frame is the call of `command(trapstr)` in runtrap.  When the top of the stack is no
`loop` or `hit`, the shell runs commands: those of the action on top, or of the script if the stack
is empty.

Not modelled here: the calls `runtraps(TF_DFL_INTR|TF_FATAL)` and `runtraps(TF_FATAL)`
(intrcheck, j_waitj), which only ever leave by unwind, `TMOUT`, and the shell's own handlers
(`shtrap`).
-/
namespace Ksh.Trap

/-- The members of `Trap` used here, sh.h:215-225. -/
structure T where
  act : Option (List Char) := none
  set : Bool := false
  /-- TF_CHANGED -/
  changed : Bool := false
  /-- TF_DFL_INTR or TF_FATAL -/
  fatal : Bool := false
  deriving DecidableEq, Repr

inductive Frame
  | loop (i : Nat)
  | hit (i : Nat)
  | action (n : Nat) (str : List Char) (oexstat : Nat) (oldChanged : Bool)
  deriving DecidableEq, Repr

/-- What happened, for the statements only. -/
inductive Ev
  /-- trapsig was called -/
  | arrive (n : Nat)
  /-- runtrap took notice of the signal -/
  | handled (n : Nat)
  /-- `trap` set the action -/
  | set (n : Nat) (a : Option (List Char))
  /-- runtrap began to execute the text -/
  | ran (n : Nat) (str : List Char)
  deriving DecidableEq, Repr

/-- `sigtraps`, `trap`, `exstat`; `nsig` is NSIG, the number of ERR. -/
structure S where
  nsig : Nat
  tr : Nat → T := fun _ => {}
  trap : Bool := false
  exstat : Nat := 0
  stack : List Frame := []
  log : List Ev := []
  /-- runtrap left the shell or the command by unwind, trap.c:232-243 -/
  gone : Bool := false

def S.upd (s : S) (n : Nat) (f : T → T) : S :=
  { s with tr := fun k => if k = n then f (s.tr k) else s.tr k }

/-- EXIT or ERR: `i == SIGEXIT_ || i == SIGERR_`, sh.h:248-249 -/
def S.special (s : S) (n : Nat) : Bool := n == 0 || n == s.nsig

/-- trapsig, trap.c:122-138. -/
def trapsig (s : S) (n : Nat) : S :=
  { (s.upd n (fun t => { t with set := true })) with trap := true, log := .arrive n :: s.log }

/-- settrap, trap.c:294-300, as far as the action is concerned (see `Sig.lean` for the
signal's disposition). -/
def settrap (s : S) (n : Nat) (a : Option (List Char)) : S :=
  { (s.upd n (fun t => { t with act := a, changed := true })) with log := .set n a :: s.log }

/-- runtrap, trap.c:221-257, up to the call of command(). -/
def runtrap (s : S) (n : Nat) : S :=
  let str := (s.tr n).act
  let s := { (s.upd n (fun t => { t with set := false })) with log := .handled n :: s.log }
  match str with
  | none => if (s.tr n).fatal then { s with exstat := 128 + n, gone := true } else s
  | some [] => s
  | some str =>
    let oldChanged := s.special n && (s.tr n).changed
    let s := if s.special n then s.upd n (fun t => { t with act := none, changed := false }) else s
    { s with stack := .action n str s.exstat oldChanged :: s.stack, log := .ran n str :: s.log }

/-- runtrap after command() has returned, trap.c:258-266. -/
def afterAction (s : S) (n : Nat) (str : List Char) (oexstat : Nat) (oldChanged : Bool) : S :=
  let s := { s with exstat := oexstat }
  if s.special n then
    s.upd n (fun t =>
      { t with
        act := if t.changed then t.act else some str
        changed := t.changed || oldChanged })
  else s

/-- The stack is not in runtraps: commands are executed. -/
def user : List Frame → Bool
  | .loop _ :: _ => false
  | .hit _ :: _ => false
  | _ => true

inductive Op
  /-- a signal arrives; or a command fails, which calls trapsig(SIGERR_) (exec.c:397) -/
  | arrive (n : Nat)
  /-- `trap action n` -/
  | settrap (n : Nat) (a : Option (List Char))
  /-- a command ends with this status -/
  | status (v : Nat)
  /-- `if (trap) runtraps(0)` -/
  | safe
  /-- runtraps goes on -/
  | step
  /-- the action ends -/
  | finish
  /-- the shell exits: runtrap(&sigtraps[SIGEXIT_]), main.c:677 -/
  | exit
  /-- a siglongjmp that leaves `k` frames: `return` in a function or `.` script, an
  error or an interrupt -/
  | unwind (k : Nat)
  deriving DecidableEq, Repr

/-- The operations but `unwind` and `arrive`. -/
def act (s : S) : Op → S
  | .settrap n a => if user s.stack then settrap s n a else s
  | .status v => if user s.stack then { s with exstat := v } else s
  | .safe =>
    -- runtraps, trap.c:193-217: `trap = 0`, then the loop
    if user s.stack && s.trap then { s with trap := false, stack := .loop 0 :: s.stack } else s
  | .step =>
    match s.stack with
    | .loop i :: st =>
      if i ≤ s.nsig then
        { s with stack := (if (s.tr i).set then Frame.hit i else Frame.loop (i + 1)) :: st }
      else { s with stack := st }
    | .hit i :: st => runtrap { s with stack := .loop (i + 1) :: st } i
    | _ => s
  | .finish =>
    match s.stack with
    | .action n str oex och :: st => afterAction { s with stack := st } n str oex och
    | _ => s
  | .exit =>
    if user s.stack then runtrap { s with log := .arrive 0 :: s.log } 0 else s
  | _ => s

/-- The machine.  An operation that does not fit the stack does nothing. -/
def step (s : S) : Op → S
  | .arrive n => if n ≤ s.nsig then trapsig s n else s
  | .unwind k =>
    if (user s.stack || s.gone) && user (s.stack.drop k) then { s with stack := s.stack.drop k, gone := false } else s
  | op => if s.gone then s else act s op

def run (s : S) (l : List Op) : S := l.foldl step s

/-- The shell at its start; `f` tells the signals with TF_DFL_INTR or TF_FATAL. -/
def init (nsig : Nat) (f : Nat → Bool) : S := { nsig := nsig, tr := fun n => { fatal := f n } }

end Ksh.Trap
