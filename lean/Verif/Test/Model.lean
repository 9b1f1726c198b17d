/-!
# Model of `test`, `[` and `[[ ]]` (c_test.c; exec.c:1354-1427 for `[[`)

Modelled: the recursive descent parser (c_test.c:387-496) over an abstract token type,
instantiated for `test` and `[` (arguments as tokens, c_test.c:505-545) and for `[[` (the
compiled words of the second pass, exec.c:1356-1427); the special cases for few arguments
(c_test.c:105-178); the string operators of `test_eval`.  The other operators (files,
numbers, options) are an oracle that may depend on everything evaluated before and may set
`TEF_ERROR`.  Messages are left out.
-/

namespace Ksh.Test

/-- `Test_op`: the string operators by name, all others by their text. -/
inductive Op
  | nze | zer | eq | ne | lt | gt
  | un (t : List Char)
  | bin (t : List Char)
  deriving DecidableEq, Repr

/-- What is done to the outside: `evalstr` of an operand (for `[[`; `pat` is `DOPAT`) and
`test_eval` with `do_eval`. -/
inductive Ev (T : Type)
  | opnd (t : T) (pat : Bool)
  | test (op : Op) (a : T) (b : Option T)
  deriving DecidableEq, Repr

/-- `Test_env`: the `isa` tests on a token, `TEF_DBRACKET`, and `eval`, which sees the
history; its answer is the result and whether `TEF_ERROR` is set. -/
structure Env (T : Type) where
  isOr : T → Bool
  isAnd : T → Bool
  isNot : T → Bool
  isOpar : T → Bool
  isCpar : T → Bool
  unop : T → Option Op
  binop : T → Option Op
  db : Bool
  eval : List (Ev T) → Op → T → Option T → Bool × Bool

structure S (T : Type) where
  toks : List T
  err : Bool
  log : List (Ev T)
  deriving DecidableEq, Repr

variable {T : Type}

/-- `isa` for the single tokens, c_test.c:505-530: accept the token if it is one. -/
def isa (p : T → Bool) (s : S T) : Bool × S T :=
  match s.toks with
  | [] => (false, s)
  | t :: r => if p t then (true, { s with toks := r }) else (false, s)

/-- `isa` for operators -/
def isop (p : T → Option Op) (s : S T) : Option Op × S T :=
  match s.toks with
  | [] => (none, s)
  | t :: r => match p t with
    | some op => (some op, { s with toks := r })
    | none => (none, s)

/-- `getopnd`; for `[[` (exec.c:1394-1413) the word is expanded if `do_eval`, as a pattern
if it is the right side of `=` or `!=`. -/
def getopnd (E : Env T) (op : Option Op) (d : Bool) (s : S T) : Option T × S T :=
  match s.toks with
  | [] => (none, s)
  | t :: r => (some t, { s with toks := r, log := if E.db && d then s.log ++ [.opnd t (op = some .eq || op = some .ne)] else s.log })

/-- `test_eval` (c_test.c:200-205): nothing unless `do_eval`. -/
def evalOp (E : Env T) (op : Op) (a : T) (b : Option T) (d : Bool) (s : S T) : Bool × S T :=
  if d then
    let r := E.eval s.log op a b
    (r.1, { s with err := s.err || r.2, log := s.log ++ [.test op a b] })
  else (false, s)

def fail (s : S T) : Bool × S T := (false, { s with err := true })

/-- the lookahead of c_test.c:457-458 -/
def unaryAllowed (E : Env T) (s : S T) : Bool :=
  E.db || (match s.toks with
    | _ :: x :: _ => (E.binop x).isNone
    | _ => false)

/-- `test_primary` behind the parenthesized form, c_test.c:453-496 -/
def simple (E : Env T) (d : Bool) (s : S T) : Bool × S T :=
  let rest (_ : Unit) : Bool × S T :=
    match getopnd E none d s with
    | (none, s) => fail s
    | (some a, s) =>
      match isop E.binop s with
      | (some op, s) =>
        match getopnd E (some op) d s with
        | (none, s) => fail s
        | (some b, s) => evalOp E op a (some b) d s
      | (none, s) => if E.db then fail s else evalOp E .nze a none d s
  if unaryAllowed E s then
    match isop E.unop s with
    | (some op, s) =>
      match getopnd E (some op) d s with
      | (none, s) => fail s
      | (some a, s) => evalOp E op a none d s
    | (none, _) => rest ()
  else rest ()

mutual
/-- `test_oexpr`, c_test.c:400-411 -/
def oexpr (E : Env T) : Nat → Bool → S T → Option (Bool × S T)
  | 0, _, _ => none
  | n + 1, d, s =>
    match aexpr E n d s with
    | none => none
    | some (res, s) =>
      let d := if res then false else d
      if s.err then some (res, s)
      else match isa E.isOr s with
        | (false, s) => some (res, s)
        | (true, s) => (oexpr E n d s).map fun (r, s) => (r || res, s)
/-- `test_aexpr`, c_test.c:413-424 -/
def aexpr (E : Env T) : Nat → Bool → S T → Option (Bool × S T)
  | 0, _, _ => none
  | n + 1, d, s =>
    match nexpr E n d s with
    | none => none
    | some (res, s) =>
      let d := if !res then false else d
      if s.err then some (res, s)
      else match isa E.isAnd s with
        | (false, s) => some (res, s)
        | (true, s) => (aexpr E n d s).map fun (r, s) => (r && res, s)
/-- `test_nexpr`, c_test.c:426-432 -/
def nexpr (E : Env T) : Nat → Bool → S T → Option (Bool × S T)
  | 0, _, _ => none
  | n + 1, d, s =>
    if s.err then primary E n d s
    else match isa E.isNot s with
      | (true, s) => (nexpr E n d s).map fun (r, s) => (!r, s)
      | (false, s) => primary E n d s
/-- `test_primary`, c_test.c:434-496 -/
def primary (E : Env T) : Nat → Bool → S T → Option (Bool × S T)
  | 0, _, _ => none
  | n + 1, d, s =>
    if s.err then some (false, s)
    else match isa E.isOpar s with
      | (true, s) =>
        match oexpr E n d s with
        | none => none
        | some (res, s) =>
          if s.err then some (false, s)
          else match isa E.isCpar s with
            | (true, s) => some (res, s)
            | (false, s) => some (fail s)
      | (false, s) => some (simple E d s)
end

/-- `test_parse`, c_test.c:387-398: exit status and what was evaluated.  The fuel is enough
(`fuel_enough`); 99 if it were not. -/
def testParse (E : Env T) (toks : List T) : Nat × List (Ev T) :=
  match oexpr E (4 * toks.length + 4) true ⟨toks, false, []⟩ with
  | none => (99, [])
  | some (res, s) => (if s.err || !s.toks.isEmpty then 2 else if res then 0 else 1, s.log)

/-! ## `test` and `[` -/

abbrev W := List Char

/-- `u_ops`, c_test.c:51-77 -/
def uOps : List W := ["-a", "-b", "-c", "-d", "-e", "-f", "-G", "-g", "-h", "-H", "-k", "-L", "-n", "-O", "-o", "-p", "-r",
  "-s", "-S", "-t", "-u", "-w", "-x", "-z"].map String.toList

/-- `b_ops`, c_test.c:78-94 -/
def bOps : List W := ["=", "==", "!=", "<", ">", "-eq", "-ne", "-gt", "-ge", "-lt", "-le", "-ef", "-nt", "-ot"].map String.toList

/-- `test_isop` with `TM_UNOP`, c_test.c:184-199 -/
def unopW (t : W) : Option Op :=
  if t = ['-', 'n'] then some .nze else if t = ['-', 'z'] then some .zer
  else if uOps.contains t then some (.un t) else none

/-- `test_isop` with `TM_BINOP` -/
def binopW (t : W) : Option Op :=
  if t = ['='] ∨ t = ['=', '='] then some .eq else if t = ['!', '='] then some .ne
  else if t = ['<'] then some .lt else if t = ['>'] then some .gt
  else if bOps.contains t then some (.bin t) else none

/-- `strcmp(a, b) < 0` -/
def slt : W → W → Bool
  | _, [] => false
  | [], _ :: _ => true
  | a :: as, b :: bs => if a.toNat < b.toNat then true else if b.toNat < a.toNat then false else slt as bs

/-- `test_eval` for `test`, c_test.c:210-342; `O` decides the operators that are not about
strings. -/
def evalW (O : List (Ev W) → Op → W → Option W → Bool × Bool) (h : List (Ev W)) : Op → W → Option W → Bool × Bool
  | .nze, a, _ => (!a.isEmpty, false)
  | .zer, a, _ => (a.isEmpty, false)
  | .eq, a, some b => (a = b, false)
  | .ne, a, some b => (a ≠ b, false)
  | .lt, a, some b => (slt a b, false)
  | .gt, a, some b => (slt b a, false)
  | op, a, b => O h op a b

def plain (O : List (Ev W) → Op → W → Option W → Bool × Bool) : Env W where
  isOr t := t = ['-', 'o']
  isAnd t := t = ['-', 'a']
  isNot t := t = ['!']
  isOpar t := t = ['(']
  isCpar t := t = [')']
  unop := unopW
  binop := binopW
  db := false
  eval := evalW O

/-- The loop over few arguments, c_test.c:140-172: `some status`, or `none` to go on with
`test_parse`.  `argc` is the number of tokens left. -/
def few (E : Env W) : List W → Bool → Option Nat
  | [], _ => some 1
  | [a], inv => some (if ((E.eval [] .nze a none).1 != inv) then 0 else 1)
  | a :: b :: r, inv =>
    let next (_ : Unit) := if E.isNot a then few E (b :: r) (!inv) else none
    match r with
    | [c] =>
      match E.binop b with
      | some op =>
        let v := E.eval [] op a (some c)
        some (if v.2 then 2 else if (v.1 != inv) then 0 else 1)
      | none => next ()
    | _ => next ()

/-- `c_test`, c_test.c:105-178; `bracket` says that it is called as `[`. -/
def cTest (O : List (Ev W) → Op → W → Option W → Bool × Bool) (bracket : Bool) (args : List W) : Nat :=
  let go (args : List W) :=
    if args.length ≤ 4 then
      match few (plain O) args false with
      | some st => st
      | none => (testParse (plain O) args).1
    else (testParse (plain O) args).1
  if bracket then
    if args.getLast? = some [']'] then go args.dropLast else 2
  else go args

/-! ## `[[ ]]` -/

/-- A word of the second pass: one of the separators, or a word; `text` is its text if it
is unquoted (`uqword`). -/
inductive DW
  | oror | andand | opar | cpar
  | word (text : Option W) (id : Nat)
  deriving DecidableEq, Repr

/-- exec.c:1372-1380: the text is cut after seven characters. -/
def dop (f : W → Option Op) : DW → Option Op
  | .word (some t) _ => f (t.take 7)
  | _ => none

/-- `dbteste_*` -/
def dbracket (O : List (Ev DW) → Op → DW → Option DW → Bool × Bool) : Env DW where
  isOr t := t = .oror
  isAnd t := t = .andand
  isNot t := match t with | .word (some ['!']) _ => true | _ => false
  isOpar t := t = .opar
  isCpar t := t = .cpar
  unop := dop unopW
  binop := dop binopW
  db := true
  eval := O

end Ksh.Test
