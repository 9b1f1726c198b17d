/-!
# Calls of built-in commands, their complaints and their output

Modelled, function by function:

* `call_builtin` (exec.c:1026-1042), the flags of the built-ins (exec.c:805-828, the tables
  c_sh.c:887-912 and c_ksh.c:1404-1427) and the prefix `command` (exec.c:459-495);
* `bi_errorf` (io.c:61-88), `shprintf` and its test of `shl_stdout_ok` (io.c:153-163),
  `internal_errorf` (io.c:114-123);
* the built-ins that work off a list of operands and may complain of some of them: `c_jobs` with
  `j_jobs` (c_ksh.c:1060-1094, jobs.c:846-891), `c_fgbg` with `j_resume` (c_ksh.c:1096-1120,
  jobs.c:705-803), the sending part of `c_kill` with `j_kill` (c_ksh.c:1230-1255, jobs.c:669-702),
  `c_wait` with `waitfor` (c_sh.c:404-425, jobs.c:618-667), `c_bind` with `x_bind`
  (c_ksh.c:1122-1143, emacs.c:1382-1467);
* where these block SIGCHLD and where they restore the mask, and the mask a child gets
  (`exchild`, jobs.c:415, 504).

Simplifications.  Standard output is a list of texts; buffered texts are `pend`, dropped by
`shf_reopen` (shf.c:151-152) and written by `shf_flush`.  What the system, the job table and the table of
keys answer is a parameter (`World`) that may depend on everything done so far (`effs`); within one
operand the answers are those for what was done before it.  Left out: option parsing (`Getopt`),
operands of `bind` are already split at `=` (c_ksh.c:1136-1138), interrupted `wait` (`Wait`), the
terminal modes (`Ttymode`), `wait`, `jobs`, `fg`, `bg` without operands, and that a second complaint
may meet a closed standard error.
-/
namespace Ksh.Callbi

/-- `KEEPASN` and `SPEC_BI` (table.h:65, 69). -/
structure Flags where
  spec : Bool
  keep : Bool
  deriving DecidableEq, Repr

/-- A job, as far as these functions look: its number, whether it has a process group of its own
(`pgrp != 0`), the texts of its processes, and whether it is running after its stopped processes were
marked as running (jobs.c:734-744). -/
structure Job where
  num : Nat
  ctl : Bool
  cmds : List String
  active : Bool
  deriving DecidableEq, Repr

/-- What the built-ins do to the world. -/
inductive Eff where
  | async (j : Job)          -- j_set_async (jobs.c:750)
  | tty (j : Job)            -- the terminal is given to the job (jobs.c:753-770)
  | cont (j : Job)           -- killpg(j->pgrp, SIGCONT) succeeded (jobs.c:778)
  | waited (j : Job)         -- j_waitj (jobs.c:799, 659)
  | sent (op : String)       -- a signal was sent to what `op` names
  | gone (j : Job)           -- remove_job (jobs.c:884-888)
  | bind (key fn : String)   -- kb_del, kb_add_string (emacs.c:1455-1462)
  | unbind (key : String)    -- kb_del (emacs.c:1430-1436)
  deriving DecidableEq, Repr

structure World where
  /-- `j_lookup` (jobs.c:1390-1490): a job, or a message and whether it is JL_NOSUCH -/
  look : List Eff → String → Except (String × Bool) Job
  /-- tcsetpgrp (jobs.c:757-760) and killpg (jobs.c:778) -/
  tcOk : List Eff → Job → Bool
  contOk : List Eff → Job → Bool
  /-- what `j_waitj` returns, not interrupted -/
  rv : List Eff → Job → Nat
  /-- whether the job is a child of this shell (jobs.c:647) -/
  mine : List Eff → Job → Bool
  /-- kill, killpg, kill_job: an error, if any -/
  killErr : List Eff → String → Option String
  /-- `getn` reads the operand (misc.c:468-484) -/
  num : String → Bool
  /-- whether `j_jobs` shows the job (jobs.c:874-875), what it shows, whether it has ended -/
  shown : List Eff → Job → Bool
  line : List Eff → Job → String
  ended : List Eff → Job → Bool
  /-- `x_tty`, what `bind key` prints, and the functions that can be bound -/
  xtty : Bool
  binding : List Eff → String → String
  isFn : String → Bool

/-- The state of the shell around calls of built-ins. -/
structure St where
  ok : Bool := false               -- shl_stdout_ok
  flags : Flags := ⟨false, false⟩  -- builtin_flag
  argv0 : Option String := none    -- builtin_argv0
  posix : Bool := false            -- Flag(FPOSIX)
  blocked : Bool := false          -- SIGCHLD is in the signal mask
  omask : Bool := false            -- the local variable `omask`
  pend : List String := []         -- in the buffer of shl_stdout
  out : List String := []          -- written to standard output
  errs : List (Option String × String) := []  -- messages, with the name of the built-in
  effs : List Eff := []
  deriving DecidableEq, Repr

/-- A function returned, or it left by `unwind(LERROR)`. -/
inductive R (α : Type) where
  | done (a : α)
  | unwound (s : St)
  deriving DecidableEq, Repr

/-- The message of `shprintf` when `shl_stdout_ok` is not set (io.c:158-159). -/
def notValid : String := "internal error: shl_stdout not valid"

/-- The steps the functions are made of. -/
inductive Act where
  | block              -- sigprocmask(SIG_BLOCK, &sm_sigchld, &omask)
  | restore            -- sigprocmask(SIG_SETMASK, &omask, NULL)
  | say (t : String)   -- shprintf
  | put (t : String)   -- shf_fprintf(shl_stdout, ...), not guarded
  | flush              -- shf_flush(shl_stdout)
  | err (m : String)   -- bi_errorf
  | eff (e : Eff)
  deriving DecidableEq, Repr

/-- Whether `bi_errorf` unwinds (io.c:83-84). -/
def leaves (s : St) : Bool := s.flags.spec || (s.posix && s.flags.keep)

/-- `bi_errorf` (io.c:61-88); `exstat = 1` is left out. -/
def biErrorf (m : String) (s : St) : R St :=
  let s' := { s with ok := false, errs := s.errs ++ [(s.argv0, m)] }
  if leaves s then .unwound { s' with argv0 := none } else .done s'

/-- `shprintf` (io.c:153-163) and `internal_errorf` (io.c:114-123). -/
def shprintf (t : String) (s : St) : R St :=
  if s.ok then .done { s with pend := s.pend ++ [t] }
  else .unwound { s with errs := s.errs ++ [(none, notValid)] }

def act1 (a : Act) (s : St) : R St :=
  match a with
  | .block => .done { s with omask := s.blocked, blocked := true }
  | .restore => .done { s with blocked := s.omask }
  | .say t => shprintf t s
  | .put t => .done { s with pend := s.pend ++ [t] }
  | .flush => .done { s with out := s.out ++ s.pend, pend := [] }
  | .err m => biErrorf m s
  | .eff e => .done { s with effs := s.effs ++ [e] }

def run : List Act → St → R St
  | [], s => .done s
  | a :: l, s =>
    match act1 a s with
    | .done s' => run l s'
    | .unwound s' => .unwound s'

/-- `j_jobs` with an operand (jobs.c:846-891). -/
def jJobs (w : World) (h : List Eff) (x : String) : List Act × Int :=
  match w.look h x with
  | .error m => ([.block, .restore, .err (x ++ ": " ++ m.1)], 1)
  | .ok j =>
    ([.block] ++ (if w.shown h j then [.put (w.line h j)] else []) ++
      (if w.shown h j && w.ended h j then [.eff (.gone j)] else []) ++ [.restore], 0)

/-- `j_resume` (jobs.c:705-803). -/
def jResume (w : World) (bg : Bool) (h : List Eff) (x : String) : List Act × Int :=
  match w.look h x with
  | .error m => ([.block, .restore, .err (x ++ ": " ++ m.1)], 1)
  | .ok j =>
    if !j.ctl then ([.block, .restore, .err "job not job-controlled"], 1)
    else
      let said := [.block] ++ (if bg then [Act.say ("[" ++ toString j.num ++ "] ")] else []) ++
        j.cmds.map Act.say ++ [.say "\n", .flush]
      if bg then
        if j.active && !w.contOk h j then
          (said ++ [.eff (.async j), .restore, .err ("cannot continue job " ++ x)], 1)
        else (said ++ [.eff (.async j)] ++ (if j.active then [.eff (.cont j)] else []) ++ [.restore], 0)
      else
        if j.active && !w.tcOk h j then (said ++ [.restore, .err "1st tcsetpgrp failed"], 1)
        else if j.active && !w.contOk h j then
          (said ++ [.eff (.tty j), .restore, .err ("cannot continue job " ++ x)], 1)
        else
          (said ++ (if j.active then [.eff (.tty j), .eff (.cont j)] else []) ++
            [.eff (.waited j), .restore], w.rv h j)

/-- An operand of `kill` (c_ksh.c:1234-1253) with `j_kill` (jobs.c:669-702). -/
def killOne (w : World) (h : List Eff) (x : String) : List Act × Int :=
  if x.startsWith "%" then
    match w.look h x with
    | .error m => ([.block, .restore, .err (x ++ ": " ++ m.1)], 1)
    | .ok _ =>
      match w.killErr h x with
      | some e => ([.block, .err (x ++ ": " ++ e), .restore], 1)
      | none => ([.block, .eff (.sent x), .restore], 0)
  else if !w.num x then ([.err (x ++ ": arguments must be jobs or process IDs")], 1)
  else
    match w.killErr h x with
    | some e => ([.err (x ++ ": " ++ e)], 1)
    | none => ([.eff (.sent x)], 0)

/-- `waitfor` with an operand (jobs.c:618-667). -/
def waitFor (w : World) (h : List Eff) (x : String) : List Act × Int :=
  match w.look h x with
  | .error m => ([.block, .restore] ++ (if m.2 then [] else [.err (x ++ ": " ++ m.1)]), -1)
  | .ok j =>
    if w.mine h j then ([.block, .eff (.waited j), .restore], w.rv h j)
    else ([.block, .restore], -1)

/-- An operand of `bind` (c_ksh.c:1135-1141), split at `=`, with `x_bind` (emacs.c:1382-1467). -/
def bindOne (w : World) (h : List Eff) (x : String × Option String) : List Act × Int :=
  if !w.xtty then ([.err "cannot bind, not a tty"], 1)
  else
    match x.2 with
    | none => ([.say (w.binding h x.1)], 0)
    | some f =>
      if f = "" then ([.eff (.unbind x.1)], 0)
      else if w.isFn f then ([.eff (.bind x.1 f)], 0) else ([.err (f ++ ": no such function")], 1)

/-- The loops over the operands.  `comb` is how the status is put together. -/
def loop {Op : Type} (f : List Eff → Op → List Act × Int) (comb : Int → Int → Int) :
    List Op → Int → St → R (Int × St)
  | [], rv, s => .done (rv, s)
  | x :: l, rv, s =>
    match run (f s.effs x).1 s with
    | .done s' => loop f comb l (comb rv (f s.effs x).2) s'
    | .unwound s' => .unwound s'

/-- `if (...) rv = 1;` -/
def anyOf (rv r : Int) : Int := if r ≠ 0 then 1 else rv

/-- `rv = ...;` -/
def lastOf (_ r : Int) : Int := r

/-- The built-ins with their operands. -/
inductive Call where
  | jobs (l : List String)
  | fg (l : List String)
  | bg (l : List String)
  | kill (l : List String)
  | wait (l : List String)
  | bind (l : List (String × Option String))
  deriving DecidableEq, Repr

def Call.name : Call → String
  | .jobs _ => "jobs" | .fg _ => "fg" | .bg _ => "bg" | .kill _ => "kill"
  | .wait _ => "wait" | .bind _ => "bind"

/-- The names in the tables of built-ins (c_sh.c:887-911, c_ksh.c:1404-1427). -/
def tables : List String :=
  ["*=.", "*=:", "[", "*=break", "=builtin", "*=continue", "*=eval", "*=exec", "*=exit", "+false",
   "*=return", "*=set", "*=shift", "*=times", "*=trap", "+=wait", "+read", "test", "+true", "ulimit",
   "+umask", "*=unset", "suspend",
   "+alias", "+cd", "+command", "echo", "*=export", "+fc", "+getopts", "+jobs", "+kill", "let", "print",
   "pwd", "*=readonly", "type", "=typeset", "+unalias", "whence", "+bg", "+fg", "bind"]

/-- `builtin` (exec.c:805-828): the marks in front of the name. -/
def readMarks : List Char → Flags → Flags × List Char
  | '=' :: l, f => readMarks l { f with keep := true }
  | '*' :: l, f => readMarks l { f with spec := true }
  | '+' :: l, f => readMarks l f
  | l, f => (f, l)

def installed : List (String × Flags) :=
  tables.map fun t => let r := readMarks t.toList ⟨false, false⟩; (String.ofList r.2, r.1)

def flagsOf (n : String) : Flags :=
  match installed.find? (fun p => p.1 == n) with
  | some p => p.2
  | none => ⟨false, false⟩

/-- The bodies: `c_jobs`, `c_fgbg` (its last line is c_ksh.c:1119), `c_kill`, `c_wait`, `c_bind`. -/
def body (w : World) (c : Call) (s : St) : R (Int × St) :=
  match c with
  | .jobs l => loop (jJobs w) anyOf l 0 s
  | .fg l =>
    match loop (jResume w false) lastOf l 0 s with
    | .done (rv, s') => .done (if s'.posix then 0 else rv, s')
    | .unwound s' => .unwound s'
  | .bg l =>
    match loop (jResume w true) lastOf l 0 s with
    | .done (_, s') => .done (0, s')
    | .unwound s' => .unwound s'
  | .kill l => loop (killOne w) anyOf l 0 s
  | .wait l =>
    match loop (waitFor w) lastOf l 0 s with
    | .done (rv, s') => .done (if rv < 0 then 127 else rv, s')
    | .unwound s' => .unwound s'
  | .bind l => loop (bindOne w) anyOf l 0 s

/-- `call_builtin` (exec.c:1026-1042). -/
def callBuiltin (f : Flags) (name : String) (b : St → R (Int × St)) (s : St) : R (Int × St) :=
  match b { s with argv0 := some name, flags := f, pend := [], ok := true } with
  | .done (rv, s') =>
    .done (rv, { s' with out := s'.out ++ s'.pend, pend := [], ok := false,
                         flags := ⟨false, false⟩, argv0 := none })
  | .unwound s' => .unwound s'

/-- A call of one of these built-ins by its name. -/
def call (w : World) (c : Call) (s : St) : R (Int × St) :=
  callBuiltin (flagsOf c.name) c.name (body w c) s

/-- A built-in that only complains (`set -o nonsense`, `. nofile`, `wait %ambiguous`). -/
def complain (m : String) (s : St) : R (Int × St) :=
  match biErrorf m s with
  | .done s' => .done (1, s')
  | .unwound s' => .unwound s'

/-- `comexec` (exec.c:459-495, 541-543): `command` is stripped, what is called is the built-in as it
stands in the table. -/
def comexec (prefixed : Bool) (name : String) (b : St → R (Int × St)) (s : St) : R (Int × St) :=
  let _keepasn_ok := !prefixed
  callBuiltin (flagsOf name) name b s

/-- The mask a child process runs its program with (jobs.c:415, 504): `omask` of `exchild`. -/
def childMask (s : St) : Bool := s.blocked

/-- Going on after a call: an interactive shell reads the next line whether or not there was an error
(main.c:585-606). -/
def after (r : R (Int × St)) : St :=
  match r with
  | .done (_, s) => s
  | .unwound s => s

/-- A session: built-ins called one after the other. -/
def session (w : World) : List Call → St → St
  | [], s => s
  | c :: l, s => session w l (after (call w c s))

end Ksh.Callbi
