import Verif.Glob.Model
/-!
# Model of parameter expansion in `expand` and `varsub` (eval.c:150-880)

The loop of `expand` over a compiled word with the forms `${x}`, `${#x}`, `${x-w}`, `${x=w}`, `${x+w}`,
`${x?w}` (with and without `:`), `${x#w}`, `${x##w}`, `${x%w}` and `${x%%w}`, nested in any way, with its
stack of `SubType`s.  Left out: `$*`, `$@` and arrays (for them see `Ifs`), tilde and brace expansion,
`DONTRUNCOMMAND`, and what is done with a finished word (globbing or `debunk`).
-/

namespace Ksh.Subst

open Ksh.Glob (Trim debunk)

/-- bytes -/
abbrev B := Nat

/-- Names of parameters. -/
abbrev Nm := Nat

/-- The variables (`none` is unset) and the commands and expressions evaluated so far. -/
structure World where
  vars : Nm → Option (List B)
  log : List Nat

/-- eval.c:49-53 -/
inductive Word where
  | word | ws | nws | iws | quote
  deriving DecidableEq, Repr

/-- What `expand` depends on.  `trim` is `trimsub` with the pattern as coded text (see C17), `com` the
characters taken from the output of a command (see C21), `arith` the value of an expression, `conv` the value
a variable has after an assignment (attributes), `assignable` is false for names such as `1` and `!`, `long` is
true for names that do not fit `struct tbl` (of eight characters or more if pointers have 64 bits). -/
structure Env where
  ifs : B → Bool
  nounset : Bool
  ro : Nm → Bool
  assignable : Nm → Bool
  long : Nm → Bool
  conv : Nm → List B → List B
  trim : Trim → List B → List B → List B
  com : Nat → World → List B
  arith : Nat → World → Option (World × List B)

/-- `C_IFSWS` -/
def ws (c : B) : Bool := c == 32 || c == 9 || c == 10

/-- A compiled word, without its `EOS`. -/
inductive Code where
  | char (c : B)
  | qchar (c : B)
  | oquote
  | cquote
  | com (k : Nat)
  | arith (k : Nat)
  /-- `OSUBST`, `len` for a name that begins with `#` -/
  | osubst (len : Bool) (x : Nm)
  | csubst
  | opat (c : B)
  | spat
  | cpat
  deriving DecidableEq, Repr

inductive Op where
  | minus | plus | assign | err
  | trim (t : Trim)
  deriving DecidableEq

/-- The flags `DOBLANK`, `DOPAT` and `DOGLOB`. -/
structure F where
  blank : Bool
  pat : Bool
  glob : Bool
  deriving DecidableEq, Repr

/-- `SubType` -/
structure Frame where
  op : Op
  base : Nat
  f : F
  quote : Bool
  x : Nm

structure St where
  w : World
  ds : List B
  out : List (List B)
  quote : Bool
  word : Word
  f : F
  doblank : Nat
  stack : List Frame

/-- `errorf`: bad substitution, a parameter that is not set, `${x?w}`, a read-only variable, an
expression. -/
inductive Err where
  | bad
  | unset (x : Nm)
  | param (x : Nm) (msg : Option (List B))
  | readonly (x : Nm)
  | arith
  deriving DecidableEq

/-- How `expand` ends.  `wide` is a position in `ds` that does not fit the `short` of `SubType`: what
follows then happens at another place, in general outside the string.  `over` is a message with a name that is
read beyond the end of a `struct tbl`. -/
inductive Res where
  | words (out : List (List B)) (w : World)
  | error (e : Err) (w : World)
  | wide
  | over

/-- `wdscan(sp, CSUBST)`, tree.c:491-539: what is behind the matching `CSUBST`. -/
def skip : Nat → List Code → List Code
  | _, [] => []
  | n, .csubst :: r => match n with | 0 => r | n + 1 => skip n r
  | n, .osubst _ _ :: r => skip (n + 1) r
  | n, .opat _ :: r => skip (n + 1) r
  | n, .cpat :: r => skip (n - 1) r
  | n, _ :: r => skip n r

/-- eval.c:789-814: the qualifier of a substitution: `none` is an error, `some none` no qualifier; `colon`, the
action, and how many codes it takes. -/
def qualifier (word : List Code) : Option (Option (Bool × Op) × Nat) :=
  let colon : Bool := decide (word.head? = some (.char 58))
  let n := if colon then 1 else 0
  match (word.drop n).head? with
  | some (.char 61) => some (some (colon, .assign), n + 1)
  | some (.char 45) => some (some (colon, .minus), n + 1)
  | some (.char 43) => some (some (colon, .plus), n + 1)
  | some (.char 63) => some (some (colon, .err), n + 1)
  | some (.char 35) =>
    if (word.drop (n + 1)).head? = some (.char 35) then some (some (false, .trim .prefixLong), n + 2) else some (some (false, .trim .prefixShort), n + 1)
  | some (.char 37) =>
    if (word.drop (n + 1)).head? = some (.char 37) then some (some (false, .trim .suffixLong), n + 2) else some (some (false, .trim .suffixShort), n + 1)
  | _ => if colon = false ∧ word.head? = some .csubst then some (none, 0) else none

/-- What `varsub` finds. -/
inductive Found where
  | fail (e : Err)
  /-- `XSUB` -/
  | value (v : List B)
  /-- `XBASE`: the word is expanded -/
  | expand (op : Op) (n : Nat)

/-- The digits of `u64ton`. -/
def digits (n : Nat) : List B := (Nat.toDigits 10 n).map Char.toNat

/-- `varsub`, eval.c:740-880, for parameters that are not `*`, `@` or arrays. -/
def varsub (E : Env) (w : World) (len : Bool) (x : Nm) (word : List Code) : Found :=
  let v := w.vars x
  if len then
    if word.head? ≠ some .csubst then .fail .bad
    else if E.nounset = true ∧ v = none then .fail (.unset x)
    else .value (digits (v.getD []).length)
  else
    match qualifier word with
    | none => .fail .bad
    | some (q, n) =>
      if (q.map Prod.snd = some .assign) ∧ E.assignable x = false then .fail .bad
      else
        match q with
        | none => if E.nounset = true ∧ v = none then .fail (.unset x) else .value (v.getD [])
        | some (_, .trim t) => if E.nounset = true ∧ v = none then .fail (.unset x) else .expand (.trim t) n
        | some (colon, .plus) => if (if colon then v.getD [] = [] else v = none) then .value (v.getD []) else .expand .plus n
        | some (colon, op) =>
          if (if colon then v.getD [] = [] else v = none) then .expand op n else .value (v.getD [])

/-- eval.c:643-735: how a character is stored. -/
def code (f : F) (quote : Bool) (c : B) : List B :=
  if quote = false ∧ (f.pat || f.glob) = true ∧ (c = 91 ∨ c = 33 ∨ c = 45 ∨ c = 93 ∨ c = 42 ∨ c = 63) then [7, c]
  else if c = 7 then [7, 7]
  else [c]

/-- eval.c:597-619 -/
def emit (s : St) : St := { s with out := s.out ++ [s.ds], ds := [] }

/-- The condition at eval.c:580-581. -/
def splits (s : St) : Bool := !s.quote && s.f.blank && decide (0 < s.doblank)

/-- eval.c:580-735 for a character that is not 0; `fresh` is `type == XSUB` (and not yet `XSUBMID`). -/
def put (E : Env) (split : Bool) (q : Bool) (fresh : Bool) (s : St) (c : B) : St × Bool :=
  if split && E.ifs c then
    let s' := if s.word = .word ∨ s.word = .quote ∨ ((s.word = .iws ∨ s.word = .nws) ∧ ws c = false) then emit s else s
    (if s.word ≠ .nws then { s' with word := if ws c then .ws else .nws } else s', fresh)
  else
    let s' := if fresh = true ∧ s.word = .nws ∧ s.ds = [] then { s with out := s.out ++ [[]] } else s
    ({ s' with ds := s'.ds ++ code s.f q c, word := .word }, false)

/-- The characters of a value or an output. -/
def puts (E : Env) : Bool → List B → St → St
  | _, [], s => s
  | fresh, c :: v, s =>
    let r := put E (splits s) s.quote fresh s c
    puts E r.2 v r.1

/-- `doblank++` and `doblank--` under `f & DOBLANK`. -/
def inc (s : St) : St := if s.f.blank then { s with doblank := s.doblank + 1 } else s
def dec (s : St) : St := if s.f.blank then { s with doblank := s.doblank - 1 } else s

/-- `XSUB`: a value is expanded (eval.c:497-504). -/
def sub (E : Env) (v : List B) (s : St) : St := dec (puts E true v s)

/-- What happens with the codes that follow: nothing, the qualifier is skipped, the word is skipped. -/
inductive Drop where
  | none | qual (n : Nat) | word

def Drop.app : Drop → List Code → List Code
  | .none, r => r
  | .qual n, r => r.drop n
  | .word, r => skip 0 r

inductive Next where
  | go (d : Drop) (s : St)
  | stop (r : Res)

/-- eval.c:306-371: the word of a substitution is begun. -/
def entered (op : Op) (x : Nm) (s : St) : St :=
  let s1 := { s with stack := ⟨op, s.ds.length, s.f, s.quote, x⟩ :: s.stack }
  match op with
  | .trim _ => { s1 with f := ⟨false, true, false⟩, quote := false, ds := s.ds ++ [7, 192] }
  | .assign => { s1 with f := ⟨false, s.f.pat, false⟩ }
  | .err => { s1 with f := { s.f with blank := false }, word := if s.quote then .word else if s.ds = [] then .iws else s.word }
  | _ => { s1 with word := if s.quote then .word else if s.ds = [] then .iws else s.word }

/-- The position is used again by these actions only. -/
def Op.usesBase : Op → Bool
  | .minus | .plus => false
  | _ => true

def enter (op : Op) (n : Nat) (x : Nm) (s : St) : Next :=
  if op.usesBase = true ∧ 32768 ≤ s.ds.length then .stop .wide else .go (.qual n) (entered op x s)

/-- A command or an expression is evaluated. -/
def note (k : Nat) (w : World) : World := { w with log := w.log ++ [k] }

def World.set (w : World) (x : Nm) (v : List B) : World := { w with vars := fun y => if y = x then some v else w.vars y }

/-- An error that names the variable.  `st->var` is what `varcpy` (eval.c:1343-1354) makes of it: for a
read-only variable a copy of `sizeof(struct tbl)` bytes, in which a long name has no end. -/
def named (E : Env) (x : Nm) (e : Err) (w : World) : Res := if E.ro x && E.long x then .over else .error e w

/-- eval.c:376-463: the word of a substitution is complete. -/
def leave (E : Env) (fr : Frame) (st : List Frame) (s : St) : Next :=
  let s1 := dec { s with quote := fr.quote, f := fr.f, stack := st }
  match fr.op with
  | .trim t =>
    let pat := s.ds.drop fr.base ++ [7, 41]
    let v := E.trim t ((s.w.vars fr.x).getD []) pat
    let s2 := inc { s1 with ds := s.ds.take fr.base }
    if v ≠ [] then .go .none (sub E v { s2 with word := .iws })
    else if fr.quote then .go .none (sub E v { s2 with word := .word })
    else
      -- XNULLSUB, eval.c:483-495
      let s3 := if s2.ds = [] then { s2 with word := .iws } else s2
      let s4 := dec s3
      .go .none (if s4.f.blank = true ∧ s4.ds = [] ∧ s4.word ≠ .word then { s4 with word := .iws } else s4)
  | .assign =>
    if E.ro fr.x then .stop (named E fr.x (.readonly fr.x) s.w)
    else
      let v := E.conv fr.x (debunk (s.ds.drop fr.base))
      let s2 := inc { s1 with ds := s.ds.take fr.base, w := s.w.set fr.x v }
      .go .none (sub E v { s2 with word := if fr.quote ∨ v = [] then .word else .iws })
  | .err =>
    let t := s.ds.drop fr.base
    .stop (named E fr.x (.param fr.x (if t = [] then none else some (debunk t))) s.w)
  | _ => .go .none s1

/-- One round of the loop with type `XBASE` (eval.c:210-481), together with the rounds for the value it
begins; `r` is what follows in the word. -/
def step (E : Env) (c : Code) (r : List Code) (s : St) : Next :=
  match c with
  | .char c => .go .none (put E (splits s) s.quote false s c).1
  | .qchar c => .go .none (put E false true false s c).1
  | .oquote => .go .none { s with quote := true, word := match s.word with | .quote => .word | .word => .word | _ => .quote }
  | .cquote => .go .none { s with quote := false }
  | .com k => .go .none (dec (puts E false (E.com k (note k s.w)) { inc s with w := note k s.w }))
  | .arith k =>
    match E.arith k (note k s.w) with
    | none => .stop (.error .arith (note k s.w))
    | some (w, v) => .go .none { s with w := w, ds := s.ds ++ v, word := .word }
  | .osubst len x =>
    match varsub E s.w len x r with
    | .fail e => .stop (.error e s.w)
    | .value v =>
      let s := inc s
      .go .word (sub E v (if s.word = .quote then { s with word := .word } else s))
    | .expand op n =>
      let s := inc s
      enter op n x (if s.word = .quote then { s with word := .word } else s)
  | .csubst =>
    match s.stack with
    | [] => .stop (.error .bad s.w)
    | fr :: st => leave E fr st s
  | .opat c => .go .none { s with ds := s.ds ++ [7, c + 128], word := .word }
  | .spat => .go .none { s with ds := s.ds ++ [7, 124], word := .word }
  | .cpat => .go .none { s with ds := s.ds ++ [7, 41], word := .word }

theorem skip_length : ∀ (l : List Code) (n : Nat), (skip n l).length ≤ l.length
  | [], n => by simp [skip]
  | c :: l, n => by
    have h := fun m => skip_length l m
    cases c <;> simp only [skip, List.length_cons] <;> first
      | exact Nat.le_succ_of_le (h _)
      | (cases n with
         | zero => simp
         | succ n => exact Nat.le_succ_of_le (h _))

theorem Drop.length (d : Drop) (r : List Code) : (d.app r).length ≤ r.length := by
  cases d <;> simp [Drop.app, skip_length]

/-- eval.c:593-619 for `c == 0` -/
def finish (s : St) : Res := .words (if s.word = .word ∨ s.word = .quote then s.out ++ [s.ds] else s.out) s.w

/-- The loop of `expand`. -/
def run (E : Env) : List Code → St → Res
  | [], s => finish s
  | c :: r, s =>
    match step E c r s with
    | .stop res => res
    | .go d s' => run E (d.app r) s'
termination_by l => l.length
decreasing_by
  have := d.length r
  simp only [List.length_cons]
  omega

/-- eval.c:181-200 -/
def init (f : F) (w : World) : St := ⟨w, [], [], false, if f.blank then .ws else .word, f, 0, []⟩

def expand (E : Env) (f : F) (w : World) (l : List Code) : Res := run E l (init f w)

end Ksh.Subst
