/-!
# Executing command trees: model

`execute` (exec.c:43-402), the part of `comexec` that calls functions (exec.c:532-646),
`exchild` as far as it makes a child process (jobs.c:395-573), `c_brkcont` (c_sh.c:560-612),
`c_exitreturn` (c_sh.c:518-558), `c_eval` (c_sh.c:426-474), `include` (main.c:476-540),
`shell` (main.c:559-666), `unwind` (main.c:669-711), `newenv` and `quitenv` (main.c:713-781).

What a simple command does is an oracle: it sees everything that happened, changes the world,
and ends with a status or is one of the commands that steer execution.  `longjmp` is a
result of its own, carrying the stack of environments as the handler finds it.

Simplified: redirections work (Redir has them); the handler of the ERR trap is not run but
its run is logged; pipelines, asynchronous commands, coprocesses, `select`, `time` and job
control are left out; `errorf` does not happen; a chain of TLIST nodes is one node.
-/

namespace Ksh.Exec

/-- `env.type`, sh.h:88-94 (E_ERRH does not occur here) -/
inductive E
  | none | parse | func | incl | exec | loop
  deriving DecidableEq, Repr

/-- `struct env`: the type and EF_BRKCONT_PASS -/
structure Env where
  ty : E
  pass : Bool
  deriving DecidableEq, Repr

/-- `STOP_BRKCONT`, sh.h:103 -/
def stopBrk : E → Bool
  | .none | .parse | .func | .incl => true
  | _ => false

/-- `STOP_RETURN`, sh.h:106 -/
def stopRet : E → Bool
  | .func | .incl => true
  | _ => false

/-- the types with a `jbuf`, main.c:687-691 -/
def hasJbuf : E → Bool
  | .parse | .func | .incl | .loop => true
  | _ => false

/-- Command trees (`struct op`).  The numbers name the words of the node for the oracle. -/
inductive Cmd
  /-- no tree (`NULL`) -/
  | nil
  /-- TCOM; also TDBRACKET and TFUNCT, whose status is the oracle's -/
  | com (a : Nat)
  | paren (c : Cmd)
  /-- a chain of TLIST nodes -/
  | list (l : List Cmd) (last : Cmd)
  /-- TAND or TOR -/
  | andor (isAnd : Bool) (l r : Cmd)
  | bang (c : Cmd)
  /-- TWHILE or TUNTIL -/
  | loop (isWhile : Bool) (cond body : Cmd)
  | for (w : Nat) (body : Cmd)
  | ite (c t e : Cmd)
  | case (w : Nat) (alts : List Cmd)
  | brace (c : Cmd)

/-- What a simple command turns out to be. -/
inductive Act
  | status (n : Nat)
  /-- `set -e`, `set +e` -/
  | setE (b : Bool)
  | brk (n : Int)
  | cont (n : Int)
  | ret (n : Option Nat)
  | exit (n : Option Nat)
  | func (body : Cmd)
  | dot (script : List Cmd)
  | eval (script : List Cmd)

structure Oracle (σ : Type) where
  /-- the simple command `a`, given `$?` -/
  step : Nat → Nat → σ → σ × Act
  /-- the words of a `for`: for each, the assignment of the variable -/
  words : Nat → σ → σ × List (σ → σ)
  /-- the alternative of a `case` -/
  pick : Nat → σ → σ × Nat
  /-- the world after a child process: what is the shell's own stays as it was -/
  merge : σ → σ → σ

inductive Ev
  | com (a : Nat)
  /-- the handler of ERR runs -/
  | err
  deriving DecidableEq, Repr

structure St (σ : Type) where
  w : σ
  exstat : Nat
  /-- `Flag(FERREXIT)` -/
  ee : Bool
  /-- ERR is pending (`trapsig(SIGERR_)`) -/
  pend : Bool
  log : List Ev

/-- the `L...` values of `unwind`; LEXIT, LLEAVE and LERROR under `set -e` are one, the flag
tells the last -/
inductive Why
  | brk | cont | ret
  | leave (err : Bool)
  deriving DecidableEq, Repr

/-- How `execute` ends: it returns, jumps to the environment that is on top of the stack, or
the process exits.  `x` is the value of `*xerrok`. -/
inductive R (σ : Type)
  | ret (rv : Nat) (x : Bool) (env : List Env) (st : St σ)
  | jmp (why : Why) (x : Bool) (env : List Env) (st : St σ)
  | exited (err : Bool) (st : St σ)
  /-- `internal_errorf` -/
  | bad
  | fuel

variable {σ : Type}

/-- `runtraps(0)` -/
def start (st : St σ) : St σ := if st.pend then { st with pend := false, log := st.log ++ [.err] } else st

/-- `unwind`, main.c:685-710: leave environments until one has a handler. -/
def unwind (why : Why) (x : Bool) (env : List Env) (st : St σ) : R σ :=
  match env.dropWhile (fun e => !hasJbuf e.ty) with
  | [] => .exited (match why with | .leave e => e | _ => false) st
  | env => .jmp why x env st

/-- The loop of `c_brkcont`, c_sh.c:583-589: `quit`, the stack, and the index of `last_ep`. -/
def walk : Nat → List Env → Nat → Option Nat → Nat × List Env × Option Nat
  | q, [], _, last => (q, [], last)
  | q, e :: r, i, last =>
    if stopBrk e.ty then (q, e :: r, last)
    else if e.ty = .loop then
      if q - 1 = 0 then (0, e :: r, last)
      else
        let y := walk (q - 1) r (i + 1) (some i)
        (y.1, { e with pass := true } :: y.2.1, y.2.2)
    else
      let y := walk q r (i + 1) last
      (y.1, e :: y.2.1, y.2.2)

/-- `last_ep->flags &= ~EF_BRKCONT_PASS` -/
def clearAt : Option Nat → List Env → List Env
  | none, env => env
  | some i, env => env.modify i fun e => { e with pass := false }

/-- `c_brkcont`, c_sh.c:575-611 -/
def brkcont (why : Why) (n : Int) (x : Bool) (env : List Env) (st : St σ) : R σ :=
  if n ≤ 0 then .ret 1 x env st
  else
    let y := walk n.toNat env 0 none
    if y.1 ≠ 0 then
      if n.toNat = y.1 then .ret 0 x env st
      else unwind why x (clearAt y.2.2 y.2.1) st
    else unwind why x y.2.1 st

/-- the caller passed no pointer -/
def setX (x : Bool) : R σ → R σ
  | .ret rv _ env st => .ret rv x env st
  | .jmp why _ env st => .jmp why x env st
  | r => r

/-- From `Break:`, exec.c:388-401; the environment of the node is on top. -/
def finM (errok xexec : Bool) : R σ → R σ
  | .ret rv x env st =>
    let st := { st with exstat := rv }
    let env := env.tail
    if xexec then unwind (.leave false) x env st
    else if rv ≠ 0 ∧ errok = false ∧ x = false then
      let st := { st with pend := true }
      if st.ee then unwind (.leave true) x env st else .ret rv x env st
    else .ret rv x env st
  | r => r

/-- `execute` with given flags: tree, XERROK, XEXEC, `*xerrok`, environments, state -/
abbrev RecM (σ : Type) := Cmd → Bool → Bool → Bool → List Env → St σ → R σ

/-- `shell` on a script, main.c:573-664; E_PARSE is on top. -/
def shellM (rec : RecM σ) : List Cmd → Bool → List Env → St σ → R σ
  | [], x, env, st => .ret 0 x env.tail (start st)
  | t :: ts, x, env, st =>
    match setX x (rec t false false false env (start st)) with
    | .ret rv _ env st => shellM rec ts x env { st with exstat := rv }
    | .jmp .ret x env st => unwind .ret x env.tail st
    | .jmp (.leave e) x env st => unwind (.leave e) x env.tail st
    | .jmp _ _ _ _ => .bad
    | r => r

/-- TCOM; E_EXEC is on top. -/
def comM (O : Oracle σ) (rec : RecM σ) (a : Nat) (errok x : Bool) (env : List Env) (st0 : St σ) : R σ :=
  let y := O.step a st0.exstat st0.w
  let st := { st0 with w := y.1, log := st0.log ++ [.com a] }
  match y.2 with
  | .status n => .ret n x env st
  | .setE b => .ret 0 x env { st with ee := b }
  | .brk n => brkcont .brk n x env st
  | .cont n => brkcont .cont n x env st
  | .ret n =>
    let st := { st with exstat := n.getD st.exstat }
    if env.any (fun e => stopRet e.ty) then unwind .ret x env.tail st else unwind (.leave false) x env.tail st
  | .exit n => unwind (.leave false) x env.tail { st with exstat := n.getD st.exstat }
  | .func b =>
    match rec b errok false x (⟨.func, false⟩ :: env.tail) st with
    | .ret rv x env st => .ret rv x env { st with exstat := rv }
    | .jmp .ret x env st => .ret st.exstat x env st
    | .jmp (.leave e) x env st => unwind (.leave e) x env.tail st
    | .jmp _ _ _ _ => .bad
    | r => r
  | .dot l =>
    match shellM rec l x (⟨.parse, false⟩ :: ⟨.incl, false⟩ :: env) st with
    | .ret _ x env st => .ret (st.exstat % 256) x env.tail st
    | .jmp .ret x env st => .ret (st.exstat % 256) x env.tail st
    | .jmp (.leave e) x env st => unwind (.leave e) x env.tail st
    | .jmp _ _ _ _ => .bad
    | r => r
  | .eval l =>
    match shellM rec l x (⟨.parse, false⟩ :: env) { st with ee := false, exstat := 0 } with
    | .ret _ x env st' => .ret st'.exstat x env { st' with ee := st.ee }
    | r => r

/-- TPAREN: `execute` with XFORK, hence `exchild`, unless this is a child already. -/
def parenM (O : Oracle σ) (rec : RecM σ) (c : Cmd) (errok xexec x : Bool) (env : List Env) (st : St σ) : R σ :=
  if xexec then rec c errok true x env st
  else
    let back (s : St σ) : R σ := .ret (s.exstat % 256) x env { st with w := O.merge st.w s.w, log := s.log }
    match rec c errok true false [⟨.exec, false⟩] { st with pend := false } with
    | .exited _ s => back s
    | .ret _ _ _ s => back s
    | .jmp _ _ _ s => back s
    | r => r

/-- TLIST, exec.c:185-191 -/
def listM (rec : RecM σ) : List Cmd → Cmd → Bool → Bool → List Env → St σ → R σ
  | [], last, errok, x, env, st => rec last errok false x env st
  | c :: l, last, errok, x, env, st =>
    match setX x (rec c errok false false env st) with
    | .ret _ _ env st => listM rec l last errok x env st
    | r => r

/-- The handler of a loop, exec.c:291-301 and 333-343: `again` is a `continue`. -/
def handler (again : Bool → List Env → St σ → R σ) : R σ → R σ
  | .jmp why x env st =>
    match env with
    | [] => .bad
    | e :: r =>
      if e.pass then unwind why x r st
      else match why with
        | .brk => .ret 0 x (e :: r) st
        | .cont => again x (e :: r) st
        | why => unwind why x r st
  | r => r

/-- TWHILE and TUNTIL, exec.c:330-348; E_LOOP is on top. -/
def whileM (rec : RecM σ) (isWhile : Bool) (c b : Cmd) (errok : Bool) : Nat → Nat → Bool → List Env → St σ → R σ
  | 0, _, _, _, _ => .fuel
  | m + 1, rv, x, env, st =>
    match setX x (rec c true false false env st) with
    | .ret s x env st =>
      if (s == 0) == isWhile then
        match rec b errok false x env st with
        | .ret rv x env st => whileM rec isWhile c b errok m rv x env st
        | r => handler (fun x env st => whileM rec isWhile c b errok m 0 x env st) r
      else .ret rv x env st
    | r => handler (fun x env st => whileM rec isWhile c b errok m 0 x env st) r

/-- TFOR, exec.c:303-314; E_LOOP is on top, `save` is `save_xerrok`. -/
def forM (rec : RecM σ) (b : Cmd) (errok : Bool) : List (σ → σ) → Nat → Bool → Bool → List Env → St σ → R σ
  | [], rv, _, x, env, st => .ret rv x env st
  | f :: l, _, save, _, env, st =>
    match rec b errok false save env { st with w := f st.w } with
    | .ret rv x env st => forM rec b errok l rv save x env st
    | r => handler (fun x env st => forM rec b errok l 0 x x env st) r

/-- The `switch` of `execute`, exec.c:138-386; the environment of the node is on top. -/
def bodyM (O : Oracle σ) (n : Nat) (rec : RecM σ) (c : Cmd) (errok xexec x : Bool) (env : List Env) (st : St σ) : R σ :=
  match c with
  | .nil => .ret 0 x env st
  | .com a => comM O rec a errok x env st
  | .paren c => parenM O rec c errok xexec x env st
  | .list l last => listM rec l last errok x env st
  | .andor isAnd l r =>
    match rec l true false x env st with
    | .ret rv x env st => if (rv == 0) == isAnd then rec r errok false x env st else .ret rv true env st
    | r => r
  | .bang c =>
    match rec c true false x env st with
    | .ret rv _ env st => .ret (if rv = 0 then 1 else 0) true env st
    | r => r
  | .loop isWhile c b => whileM rec isWhile c b errok n 0 x (⟨.loop, false⟩ :: env.tail) st
  | .for w b =>
    let y := O.words w st.w
    forM rec b errok y.2 0 x x (⟨.loop, false⟩ :: env.tail) { st with w := y.1 }
  | .ite c t e =>
    match setX x (rec c true false false env st) with
    | .ret s x env st => if s = 0 then rec t errok false x env st else rec e errok false x env st
    | r => r
  | .case w alts =>
    let y := O.pick w st.w
    match alts[y.2]? with
    | some c => rec c errok false x env { st with w := y.1 }
    | none => .ret 0 x env { st with w := y.1 }
  | .brace c => rec c errok false x env st

/-- `execute` -/
def exec (O : Oracle σ) : Nat → RecM σ
  | 0, _, _, _, _, _, _ => .fuel
  | n + 1, c, errok, xexec, x, env, st =>
    match c with
    | .nil => .ret 0 x env st
    | c => finM errok xexec (bodyM O n (exec O n) c errok xexec x (⟨.exec, false⟩ :: env) (start st))

end Ksh.Exec
