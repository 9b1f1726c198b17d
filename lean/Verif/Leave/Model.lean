/-!
# Leaving the shell (main.c: shell, unwind, quitenv; trap.c: runtrap; c_sh.c: c_exitreturn; exec.c: the handlers)

The stack of environments and what `unwind` does with it.  An environment is what its `sigsetjmp` handler needs to know;
variables, redirections, temporary files and memory are left out (they are in `Func`, `Redir`, `Here`, `Alloc`).  What a trap
action does is a parameter: it changes the state of the shell and either comes to its end or calls `unwind` in a place where
nothing in the action itself catches it.  Pending traps of signals (main.c:675, 680) are not modelled.
-/

namespace Ksh.Leave

/-- The reasons of `unwind`, sh.h:108-117.  LBREAK, LCONTIN and LAEXPR are always caught where they belong (c_sh.c:567-619,
expr.c:192) and belong to `Exec` and `Expr`. -/
inductive Why
  | ret | exit | error | leave | intr | shell
  deriving DecidableEq, Repr

/-- Environments by their handlers. -/
inductive Env
  /-- E_NONE: no handler; the bottom of the main shell, main.c:176-179 -/
  | base
  /-- E_EXEC: no handler, exec.c:76 -/
  | exec
  /-- E_PARSE: shell(), main.c:569-617, with the local `interactive` -/
  | parse (interactive : Bool)
  /-- E_FUNC: a function, exec.c:616-654 -/
  | func
  /-- E_INCL: include(), main.c:496-524, with the argument `intr_ok` -/
  | incl (intrOk : Bool)
  /-- E_LOOP (exec.c:282-293, 322-334) and the E_ERRH of TCOPROC (exec.c:184-190) and of v_evaluate (expr.c:183-199): what is
  not theirs is passed on -/
  | pass
  /-- E_ERRH of herein, exec.c:1214-1221 -/
  | here
  /-- E_ERRH of set_prompt, lex.c:1189-1203 -/
  | prompt
  deriving DecidableEq, Repr

/-- `sigtraps[].trap` of EXIT or ERR. -/
inductive T (A : Type)
  | none | ignore | act (a : A)
  deriving DecidableEq, Repr

inductive Kind | exit | err
  deriving DecidableEq, Repr

/-- What actions can change. -/
structure Sh (A : Type) where
  /-- `Flag(FERREXIT)` -/
  ee : Bool := false
  exitT : T A := .none
  errT : T A := .none
  /-- TF_CHANGED of the two traps -/
  exitC : Bool := false
  errC : Bool := false
  exstat : Nat := 0
  deriving DecidableEq, Repr

/-- With the actions run so far, the latest first. -/
structure St (A : Type) where
  sh : Sh A
  log : List (Kind × A) := []
  deriving DecidableEq, Repr

/-- Where execution goes on. -/
inductive How
  /-- the loop of the interactive shell() -/
  | atPrompt
  /-- behind the call of the function, with a status -/
  | function (rv : Nat)
  /-- behind include(), with its value -/
  | included (rv : Nat)
  /-- herein fails; so does the redirection -/
  | hereFails
  /-- set_prompt uses the safe prompt -/
  | safePrompt
  deriving DecidableEq, Repr

inductive Final (A : Type)
  /-- exit(3); `fake`: EF_FAKE_SIGDIE -/
  | exited (fake : Bool) (st : St A)
  /-- `below` is the stack then -/
  | resumed (how : How) (below : List Env) (st : St A)
  deriving DecidableEq, Repr

/-- What an action comes to. -/
inductive Res | done | jump (w : Why)
  deriving DecidableEq, Repr

variable {A : Type}

def Sh.trap (s : Sh A) : Kind → T A
  | .exit => s.exitT
  | .err => s.errT

/-- Before the action, trap.c:241-245. -/
def Sh.enter (s : Sh A) : Kind → Sh A
  | .exit => { s with exitT := .none, exitC := false }
  | .err => { s with errT := .none, errC := false }

/-- After the action, trap.c:251-259: `s` is the state before. -/
def Sh.back (s s' : Sh A) : Kind → Sh A
  | .exit => { s' with exstat := s.exstat, exitT := if s'.exitC then s'.exitT else s.exitT, exitC := s'.exitC || s.exitC }
  | .err => { s' with exstat := s.exstat, errT := if s'.errC then s'.errT else s.errT, errC := s'.errC || s.errC }

/-- What the handler of an environment makes of it: it goes on here, or the environment is left with the same reason. -/
def handler (s : Sh A) : Env → Why → Option How
  | .parse true, .intr => some .atPrompt
  | .parse true, .error => some .atPrompt
  | .parse true, .shell => some .atPrompt
  | .func, .ret => some (.function s.exstat)
  | .func, .error => some (.function s.exstat)
  | .incl _, .ret => some (.included (s.exstat % 256))
  | .incl _, .error => some (.included (s.exstat % 256))
  -- SIGTERM is 15; an exstat below 128 is not 143 either
  | .incl true, .intr => if s.exstat ≠ 143 then some (.included 1) else none
  | .here, _ => some .hereFails
  | .prompt, _ => some .safePrompt
  | _, _ => none

/-- The loop of unwind, main.c:685-710, with the handlers; `k` is the call of unwind by a handler.  quitenv exits the process
when it is called on the bottom, main.c:742-765; include and herein call it before they return (main.c:499, exec.c:1218), and
so does set_prompt (lex.c:1203): in a child the handler of the bottom is the end, too.  shell() at its prompt and a function
do not call it. -/
def jump (k : Why → List Env → St A → Option (Final A)) (w : Why) : List Env → St A → Option (Final A)
  | [], st => some (.exited false st)
  | e :: rest, st =>
    match e with
    | .base => if rest.isEmpty then some (.exited (decide (w = .intr)) st) else jump k w rest st
    | .exec => if rest.isEmpty then some (.exited false st) else jump k w rest st
    | e =>
      match handler st.sh e w with
      | some .atPrompt => some (.resumed .atPrompt (e :: rest) st)
      | some (.function rv) => some (.resumed (.function rv) (e :: rest) st)
      | some h => if rest.isEmpty then some (.exited false st) else some (.resumed h rest st)
      | none => if rest.isEmpty then some (.exited false st) else k w rest st

/-- Which trap unwind runs, main.c:672-684. -/
def which (s : Sh A) (w : Why) : Option Kind :=
  if w = .exit ∨ (s.ee = true ∧ (w = .error ∨ w = .intr) ∧ (match s.exitT with | .none => false | _ => true) = true) then some .exit
  else if s.ee = true ∧ (w = .error ∨ w = .intr) then some .err
  else none

/-- unwind, main.c:668-711, with runtrap (trap.c:214-260) and command (main.c:545-554) for the action. -/
def unwind (sem : A → Sh A → Res × Sh A) : Nat → Why → List Env → St A → Option (Final A)
  | 0, _, _, _ => none
  | f + 1, w, env, st =>
    match which st.sh w with
    | none => jump (unwind sem f) w env st
    | some k =>
      match st.sh.trap k with
      | .act a =>
        match sem a (st.sh.enter k) with
        | (.done, s') => jump (unwind sem f) .leave env { sh := st.sh.back s' k, log := (k, a) :: st.log }
        | (.jump w', s') => unwind sem f w' (.parse false :: env) { sh := s', log := (k, a) :: st.log }
      | _ => jump (unwind sem f) .leave env st

/-! ## The ways to an end -/

/-- c_exitreturn for `exit`, c_sh.c:549-555: `stopped` is what j_stopped_running says.  The first environment is that of the
command itself, which quitenv leaves.  The new value of `really_exit` comes with it. -/
def exitWhy (really stopped : Bool) : Why × Bool :=
  if !really && stopped then (.shell, true) else (.exit, really)

/-- The end of a child that execute() runs with XEXEC: comexec ends it for a simple command (exec.c:699-703), otherwise
execute (exec.c:393-395). -/
def childWhy (simple : Bool) : Why := if simple then .leave else .exit

/-! ## The loop of the interactive shell -/

/-- What is read at the prompt: an end of file, a command line that is executed to its end, one that an error or an interrupt
ends, an empty line, or `exit`; with what j_stopped_running would say. -/
inductive In
  | eof | line | fails | empty | exit
  deriving DecidableEq, Repr

structure Loop where
  /-- `attempts` of shell(), main.c:564 -/
  attempts : Nat := 13
  /-- `really_exit` -/
  really : Bool := false
  deriving DecidableEq, Repr

/-- One turn of the loop in shell(), main.c:618-662, for a terminal (`wastty`) and an interactive shell; `none` when the shell
is left (unwind(LEXIT), of which the first part says what follows). -/
def turn (ignoreeof : Bool) (l : Loop) : In × Bool → Option Loop
  | (.eof, stopped) =>
    if ignoreeof = true ∧ 0 < l.attempts - 1 then some { l with attempts := l.attempts - 1 }
    else
      let l := if ignoreeof then { l with attempts := l.attempts - 1 } else l
      if l.really = false ∧ stopped = true then some { l with really := true }
      else none
  | (.line, _) => some { l with really := false }
  | (.fails, _) => some l
  | (.empty, _) => some l
  | (.exit, stopped) =>
    match exitWhy l.really stopped with
    | (.exit, _) => none
    | (_, r) => some { l with really := r }

/-- The turns; `none` when one of them left the shell. -/
def turns (ignoreeof : Bool) : Loop → List (In × Bool) → Option Loop
  | l, [] => some l
  | l, i :: r => match turn ignoreeof l i with
    | none => none
    | some l => turns ignoreeof l r

end Ksh.Leave
