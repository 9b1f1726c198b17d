/-!
# The exit status of a command made of substitutions

`x=$(cmd)` has no command name, and so no status of its own: the shell reports the status of
the last command substitution it performed, which it keeps in the global `subst_exstat`
(main.c:40).  Modelled:

* `comsub` (eval.c:884-930) and the end of a substitution in `expand` (eval.c:548-577);
* the simple command in `execute` (exec.c:79-126) and `comexec` (exec.c:405-545);
* `c_set` (c_sh.c:613-647), `c_eval` (c_sh.c:426-473) and what `shell` (main.c:560-666)
  returns to it.

The substitutions of a word are what counts here; the text they leave, the words it is split
into, the commands themselves, redirections and assignments are oracles over a world `σ`.
What `execute` does after the label Break (`set -e`, traps) is in `Verif/Exec`.
-/
namespace Ksh.Substat

/-- A command substitution, as `comsub` tells them apart (eval.c:895-925). -/
inductive Sub
  /-- nothing between the parentheses: `compile` gives no tree -/
  | empty
  /-- `$(<file)` -/
  | file (n : Nat)
  /-- any other -/
  | cmd (n : Nat)
  deriving DecidableEq

/-- A word: the substitutions in it, left to right, and the rest of its text. -/
structure Word where
  subs : List Sub
  text : Nat
  deriving DecidableEq

/-- What `findcom` finds, as far as `comexec` looks (exec.c:444-496). -/
inductive Kind
  | builtin
  | exec
  | command
  | set
  | eval
  | other
  deriving DecidableEq

/-- The rest of the shell and of the system. -/
structure Oracle (σ : Type) where
  /-- run a substitution; `waitlast` (jobs.c:593-616) gives the status -/
  perform : σ → Nat → σ × Nat
  /-- open the file of `$(<file)` -/
  openf : σ → Nat → σ × Bool
  /-- the words that come of the arguments -/
  names : σ → List Word → List Nat
  /-- `findcom(name, FC_BI|FC_FUNC)` -/
  find : σ → Nat → Option Kind
  /-- `findcom(name, FC_BI)` -/
  findBi : σ → Nat → Option Kind
  /-- the options of `command`: how many words they take with the name, and whether `-p` was
  among them; none for `-v`, `-V` and bad ones -/
  opts : List Nat → Option (Nat × Bool)
  /-- make a redirection -/
  redir : σ → Word → σ × Bool
  /-- make an assignment; none when it is refused -/
  assign : σ → Word → Option σ
  /-- a special builtin other than exec (exec.c:119-122) -/
  special : σ → Nat → Bool
  /-- any other command -/
  other : σ → List Nat → Nat
  /-- `set` with nothing after it (`c_typeset`) -/
  listing : σ → Nat
  /-- `parse_args` accepts the words -/
  parse : List Nat → Bool
  /-- `eval` has no bad option -/
  evalOpt : List Nat → Bool
  /-- the commands `eval` runs, given `$?`; none when there is nothing to run -/
  run : σ → Nat → List Nat → Option Nat

/-- A substitution that was performed. -/
structure Ev where
  /-- the command's own, and not the trace prompt's -/
  own : Bool
  /-- there was something to do -/
  ran : Bool
  st : Nat
  deriving DecidableEq

/-- The shell. -/
structure St (σ : Type) where
  w : σ
  /-- `subst_exstat` -/
  subst : Nat
  /-- `exstat`, that is `$?` -/
  exstat : Nat
  /-- the substitutions performed for this command, oldest first -/
  log : List Ev
  deriving DecidableEq

/-- Options. -/
structure Opts where
  /-- `-x` -/
  xtrace : Bool
  /-- `-o posix` -/
  posix : Bool
  /-- `-r` -/
  restricted : Bool
  /-- what PS4 holds -/
  ps4 : Word

/-- A simple command. -/
structure Simple where
  args : List Word
  redirs : List Word
  vars : List Word

variable {σ : Type}

/-- One substitution: `comsub` and, for all but the empty one, the EOF in `expand`
(eval.c:899-900, eval.c:564-571). -/
def doSub (O : Oracle σ) (own : Bool) (s : St σ) : Sub → St σ
  | .empty => { s with log := s.log ++ [⟨own, false, 0⟩] }
  | .file n =>
    let st := if (O.openf s.w n).2 then 0 else 1
    { s with w := (O.openf s.w n).1, subst := st, log := s.log ++ [⟨own, true, st⟩] }
  | .cmd n =>
    let st := (O.perform s.w n).2
    { s with w := (O.perform s.w n).1, subst := st, log := s.log ++ [⟨own, true, st⟩] }

/-- Expanding a word. -/
def word (O : Oracle σ) (own : Bool) (s : St σ) (wd : Word) : St σ :=
  wd.subs.foldl (doSub O own) s

/-- Expanding words. -/
def words (O : Oracle σ) (s : St σ) (l : List Word) : St σ := l.foldl (word O true) s

/-- PS4_SUBSTITUTE (exec.c:95-97, exec.c:517-520). -/
def trace (O : Oracle σ) (o : Opts) (s : St σ) : St σ :=
  if o.xtrace then word O false s o.ps4 else s

/-- Redirections (exec.c:111-126); `false` when one failed. -/
def redirs (O : Oracle σ) : St σ → List Word → St σ × Bool
  | s, [] => (s, true)
  | s, r :: l =>
    let s1 := word O true s r
    let s2 := { s1 with w := (O.redir s1.w r).1 }
    if (O.redir s1.w r).2 then redirs O s2 l else (s2, false)

/-- What the loop over builtin, exec and command leaves (exec.c:444-496). -/
inductive Res
  /-- go on with these words; `subst_exstat` was set to zero if the flag is set -/
  | go (ap : List Nat) (tp : Option Kind) (zero : Bool)
  /-- a status at once -/
  | leave (rv : Nat)
  /-- `errorf` -/
  | error
  deriving DecidableEq

/-- exec.c:444-496.  The first number bounds the rounds: each drops at least one word, so
one more than there are words will do. -/
def resolve (O : Oracle σ) (o : Opts) (w : σ) : Nat → List Nat → Option Kind → Res
  | 0, ap, tp => .go ap tp false
  | n + 1, ap, tp =>
    match tp with
    | some .builtin =>
      match ap.tail with
      | [] => .go [] none false
      | c :: l =>
        match O.findBi w c with
        | none => .error
        | some k => resolve O o w n (c :: l) (some k)
    | some .exec =>
      match ap.tail with
      | [] => .go ap (some .exec) false
      | c :: l => resolve O o w n (c :: l) (O.find w c)
    | some .command =>
      match O.opts ap with
      | none => .go ap (some .command) false
      | some (k, p) =>
        if p && o.restricted then .leave 1
        else
          match ap.drop k with
          | [] => .go [] (some .command) true
          | c :: l => resolve O o w n (c :: l) (O.find w c)
    | _ => .go ap tp false

/-- The assignments (exec.c:513-529); none when one is refused (`typeset` calls `errorf`). -/
def assigns (O : Oracle σ) (o : Opts) : Bool → St σ → List Word → Option (St σ)
  | _, s, [] => some s
  | first, s, v :: l =>
    let s1 := word O true s v
    let s2 := if first then trace O o s1 else s1
    match O.assign s2.w v with
    | none => none
    | some w => assigns O o false { s2 with w := w } l

/-- `c_set` (c_sh.c:613-647). -/
def cSet (O : Oracle σ) (o : Opts) (s : St σ) (ap : List Nat) : Nat :=
  match ap.tail with
  | [] => O.listing s.w
  | _ => if O.parse ap then (if o.posix then 0 else s.subst) else 1

/-- `c_eval` (c_sh.c:426-473): `shell` leaves `exstat` as it is when there is nothing to run
(main.c:655-656) and returns it (main.c:665). -/
def cEval (O : Oracle σ) (o : Opts) (s : St σ) (ap : List Nat) : Nat :=
  if O.evalOpt ap then
    let e := if o.posix then s.exstat else s.subst
    (O.run s.w e ap).getD e
  else 1

/-- How a simple command ends. -/
inductive End (σ : Type)
  | done (s : St σ) (rv : Nat)
  /-- `errorf`: the command is abandoned -/
  | error
  deriving DecidableEq

/-- The end of `comexec` (exec.c:531-545). -/
def call (O : Oracle σ) (o : Opts) (s : St σ) (ap : List Nat) (tp : Option Kind) : Nat :=
  match ap with
  | [] => s.subst
  | _ =>
    match tp with
    | some .set => cSet O o s ap
    | some .eval => cEval O o s ap
    | _ => O.other s.w ap

/-- `comexec` (exec.c:405-545). -/
def comexec (O : Oracle σ) (o : Opts) (s : St σ) (ap : List Nat) (tp : Option Kind)
    (vars : List Word) : End σ :=
  match resolve O o s.w (ap.length + 1) ap tp with
  | .error => .error
  | .leave rv => .done s rv
  | .go ap' tp zero =>
    match assigns O o true (if zero then { s with subst := 0 } else s) vars with
    | none => .error
    | some s' => .done s' (call O o s' ap' tp)

/-- The words of the command, expanded (exec.c:84-102). -/
def expanded (O : Oracle σ) (o : Opts) (s : St σ) (c : Simple) : St σ × List Nat :=
  let s1 := words O { s with subst := 0, log := [] } c.args
  let ap := O.names s1.w c.args
  (if ap.isEmpty then s1 else trace O o s1, ap)

/-- A simple command in `execute` (exec.c:79-132). -/
def simple (O : Oracle σ) (o : Opts) (s : St σ) (c : Simple) : End σ :=
  let s1 := (expanded O o s c).1
  let ap := (expanded O o s c).2
  let tp := ap.head?.bind (O.find s1.w)
  let r := redirs O s1 c.redirs
  if r.2 then comexec O o r.1 ap tp c.vars
  else if (ap.head?.map (O.special s1.w)).getD false then .error
  else .done r.1 1

end Ksh.Substat
