/-!
# Model of the word lexer (lex.c) and of the printing of words

Modelled: the word-collecting loop of `yylex` in state `SBASE` and the states pushed from
it (lex.c:191-690), `getsc_bn`/`ungetsc`, `get_brace_var`.  Left out: csh-style history
(`!`), subscripts of assigned names (`x[..]=`), here-document and `ONEWORD`/`LETEXPR`
modes, aliases and keywords.  The input is one string; NUL does not occur in it and stands
for its end.  A word is a list of symbols instead of the byte encoding of tree.h.
-/

namespace Ksh.Lex

/-- One element of a compiled word (tree.h: `CHAR`, `QCHAR`, ..). -/
inductive Sym
  | chr (c : Char)
  | qchr (c : Char)
  | com (s : List Char)
  | exp (s : List Char)
  | oq
  | cq
  | osub (brace : Bool) (name : List Char)
  | csub (brace : Bool)
  | opat (c : Char)
  | spat
  | cpat
  deriving DecidableEq, Repr

/-- Lexer states (lex.c:23-38); the text collected by `$(`, `$((` and a backquote is kept
here until it is complete. -/
inductive St
  | base
  | squote
  | dquote
  | csparen (nparen cs : Nat) (buf : List Char)
  | asparen (nparen : Nat) (buf : List Char)
  | brace
  | braceq
  | tbrace
  | bquote (indq : Bool) (buf : List Char)
  | pattern
  deriving DecidableEq, Repr

/-- `C_LEX1`, misc.c:55 -/
def lex1 (c : Char) : Bool := [' ', '\t', '\n', '|', '&', ';', '<', '>', '(', ')'].contains c
/-- `C_VAR1`, misc.c:56 -/
def var1 (c : Char) : Bool := ['*', '@', '#', '!', '$', '-', '?'].contains c
def alpha (c : Char) : Bool := (97 ≤ c.toNat && c.toNat ≤ 122) || (65 ≤ c.toNat && c.toNat ≤ 90) || c == '_'
def digit (c : Char) : Bool := 48 ≤ c.toNat && c.toNat ≤ 57
def letnum (c : Char) : Bool := alpha c || digit c

/-- The loop of `getsc_bn` (lex.c, `while (1)`): drop backslash-newline pairs.  Answer:
character (`none` at the end), remaining input, `backslash_skip`. -/
def bn : List Char → Option Char × List Char × Nat
  | [] => (none, [], 0)
  | c :: r =>
    if c = '\\' then
      match r with
      | [] => (some c, r, 1)
      | d :: r' => if d = '\n' then bn r' else (some c, r, 1)
    else (some c, r, 0)

/-- `getsc` (lex.c:107-108 and `getsc_bn`); `ign` is `ignore_backslash_newline != 0`. -/
def getsc (ign : Bool) (skip : Nat) (i : List Char) : Option Char × List Char × Nat :=
  let raw (skip : Nat) : Option Char × List Char × Nat := match i with
    | [] => (none, [], skip)
    | c :: r => (some c, r, skip)
  if ign then raw skip
  else if skip = 1 then raw 2
  else bn i

/-- `ungetsc` -/
def ungetsc (c : Option Char) (i : List Char) (skip : Nat) : List Char × Nat :=
  match c with
  | none => (i, skip - 1)
  | some c => (c :: i, skip - 1)

/-- `ignore_backslash_newline` is raised exactly inside single quotes. -/
def ignoring : List St → Bool
  | .squote :: _ => true
  | .csparen _ 4 _ :: _ => true
  | _ => false

inductive Res
  | fuel
  /-- `yyerror("no closing quote\n")` -/
  | unclosed
  /-- `yyerror("missing ]\n")` -/
  | missing
  | word (w : List Sym) (rest : List Char)
  deriving DecidableEq, Repr

/-- What an iteration of the loop leaves: stack, input, `backslash_skip`, word. -/
structure LS where
  stack : List St
  inp : List Char
  skip : Nat
  out : List Sym
  deriving DecidableEq, Repr

/-- `PS_*` of `get_brace_var` -/
inductive PS
  | initial | hash | ident | number | var1
  deriving DecidableEq, Repr

/-- `arraysub` (lex.c:1593-1618) for `depth` open brackets; `none` if there is no closing one.  `n` bounds the
number of rounds, the length of the input suffices. -/
def arraySub : Nat → Nat → List Char → Nat → List Char → Option (List Char × List Char × Nat)
  | 0, _, _, _, _ => none
  | n + 1, depth, i, skip, acc =>
    let (c, i', skip') := getsc false skip i
    match c with
    | none => none
    | some c =>
      let depth' := if c = '[' then depth + 1 else if c = ']' then depth - 1 else depth
      if depth' = 0 then some (acc ++ [c], i', skip')
      else if c = '\n' then none
      else arraySub n depth' i' skip' (acc ++ [c])

/-- `get_brace_var`; `none` for an array subscript that is not closed.  Answer: the name, the input with the
terminating character pushed back, `backslash_skip`. -/
def braceVar : Nat → PS → List Char → Nat → List Char → Option (List Char × List Char × Nat)
  | 0, _, _, _, _ => none
  | n + 1, ps, i, skip, acc =>
    let (c, i', skip') := getsc false skip i
    let fin : Option (List Char × List Char × Nat) :=
      let (i'', s'') := ungetsc c i' skip'
      some (acc, i'', s'')
    match c with
    | none => fin
    | some c =>
      let first (_ : Unit) : Option (List Char × List Char × Nat) :=
        if alpha c then braceVar n .ident i' skip' (acc ++ [c])
        else if digit c then braceVar n .number i' skip' (acc ++ [c])
        else if var1 c then braceVar n .var1 i' skip' (acc ++ [c])
        else fin
      match ps with
      | .initial => if c = '#' then braceVar n .hash i' skip' (acc ++ [c]) else first ()
      | .hash => first ()
      | .ident => if letnum c then braceVar n .ident i' skip' (acc ++ [c]) else if c = '[' then
          match arraySub (i'.length + 1) 1 i' skip' [] with
          | none => none
          | some (t, i2, s2) =>
            let (d, i3, s3) := getsc false s2 i2
            let (i4, s4) := ungetsc d i3 s3
            some (acc ++ '[' :: t, i4, s4)
        else fin
      | .number => if digit c then braceVar n .number i' skip' (acc ++ [c]) else fin
      | .var1 => fin

/-- The characters of `$name` (lex.c:399-406, the `do` loop). -/
def nameRun : Nat → List Char → Nat → List Char → List Char × List Char × Nat
  | 0, i, skip, acc => (acc, i, skip)
  | n + 1, i, skip, acc =>
    let (c, i', skip') := getsc false skip i
    match c with
    | some c =>
      if letnum c then nameRun n i' skip' (acc ++ [c])
      else let (i'', s'') := ungetsc (some c) i' skip'; (acc, i'', s'')
    | none => let (i'', s'') := ungetsc none i' skip'; (acc, i'', s'')

/-- Is there an `SDQUOTE` below (lex.c:432-447)? -/
def inDq (st : List St) : Bool := st.contains .dquote

/-- `Subst:` (lex.c:325-457). -/
def subst (s : LS) (c : Char) : Option LS :=
  let put (s : LS) (l : List Sym) : Option LS := some { s with out := s.out ++ l }
  if c = '\\' then
    let (d, i, sk) := getsc (ignoring s.stack) s.skip s.inp
    let s := { s with inp := i, skip := sk }
    match d with
    | none => put s []
    | some d =>
      if d = '\\' || d = '$' || d = '`' || d = '"' then put s [.qchr d]
      else put s [.chr '\\', .chr d]
  else if c = '$' then
    let (d, i, sk) := getsc (ignoring s.stack) s.skip s.inp
    match d with
    | none => let (i, sk) := ungetsc none i sk; put { s with inp := i, skip := sk } [.chr '$']
    | some d =>
      if d = '(' then
        let (e, i2, sk2) := getsc (ignoring s.stack) sk i
        if e = some '(' then some { s with inp := i2, skip := sk2, stack := .asparen 2 [] :: s.stack }
        else
          let (i3, sk3) := ungetsc e i2 sk2
          some { s with inp := i3, skip := sk3, stack := .csparen 1 0 [] :: s.stack }
      else if d = '{' then
        match braceVar (i.length + 1) .initial i sk [] with
        | none => none
        | some (name, i, sk) =>
          let out := s.out ++ [.osub true name]
          let (e, i2, sk2) := getsc (ignoring s.stack) sk i
          let (out, e, i2, sk2) := if e = some ':' then
              let (e', i', sk') := getsc (ignoring s.stack) sk2 i2
              (out ++ [.chr ':'], e', i', sk')
            else (out, e, i2, sk2)
          let (i3, sk3) := ungetsc e i2 sk2
          let st := if e = some '#' || e = some '%' then St.tbrace
            else match s.stack with
              | .dquote :: _ => .braceq
              | .braceq :: _ => .braceq
              | _ => .brace
          some { s with inp := i3, skip := sk3, stack := st :: s.stack, out := out }
      else if alpha d then
        let (name, i, sk) := nameRun (i.length + 1) i sk [d]
        put { s with inp := i, skip := sk } [.osub false name, .csub false]
      else if var1 d || digit d then
        put { s with inp := i, skip := sk } [.osub false [d], .csub false]
      else
        let (i, sk) := ungetsc (some d) i sk
        put { s with inp := i, skip := sk } [.chr '$']
  else if c = '`' then
    some { s with stack := .bquote (inDq s.stack) [] :: s.stack }
  else put s [.chr c]

/-- `Sbase2:` (lex.c:298-323) -/
def sbase2 (s : LS) (c : Char) : Option LS :=
  if c = '\\' then
    let (d, i, sk) := getsc (ignoring s.stack) s.skip s.inp
    match d with
    | none => some { s with inp := i, skip := sk }
    | some d => some { s with inp := i, skip := sk, out := s.out ++ [.qchr d] }
  else if c = '\'' then
    match s.stack with
    | .braceq :: _ => some { s with out := s.out ++ [.chr c] }
    | _ => some { s with out := s.out ++ [.oq], stack := .squote :: s.stack }
  else if c = '"' then some { s with out := s.out ++ [.oq], stack := .dquote :: s.stack }
  else subst s c

/-- `Sbase1:` (lex.c:285-297) -/
def sbase1 (s : LS) (c : Char) : Option LS :=
  if c = '*' || c = '@' || c = '+' || c = '?' || c = '!' then
    let (d, i, sk) := getsc (ignoring s.stack) s.skip s.inp
    if d = some '(' then some { s with inp := i, skip := sk, out := s.out ++ [.opat c], stack := .pattern :: s.stack }
    else
      let (i, sk) := ungetsc d i sk
      sbase2 { s with inp := i, skip := sk } c
  else sbase2 s c

/-- `csstate` transitions of `SCSPAREN` (lex.c:481-526): the new count and state. -/
def csStep (nparen cs : Nat) (c : Char) : Nat × Nat :=
  if cs = 0 then
    if c = '(' then (nparen + 1, 0)
    else if c = ')' then (nparen - 1, 0)
    else if c = '\\' then (nparen, 1)
    else if c = '"' then (nparen, 2)
    else if c = '\'' then (nparen, 4)
    else (nparen, 0)
  else if cs = 1 then (nparen, 0)
  else if cs = 3 then (nparen, 2)
  else if cs = 2 then
    if c = '"' then (nparen, 0) else if c = '\\' then (nparen, 3) else (nparen, 2)
  else if c = '\'' then (nparen, 0) else (nparen, 4)

/-- The `switch (state)` (lex.c:194-689) for a character `c` just read. -/
def step (s : LS) (c : Char) : Option LS :=
  match s.stack with
  | [] => none
  | .base :: _ => sbase1 s c
  | .squote :: st =>
    if c = '\'' then
      match st with
      | .braceq :: _ => some { s with stack := st, out := s.out ++ [.chr c] }
      | _ => some { s with stack := st, out := s.out ++ [.cq] }
    else some { s with out := s.out ++ [.qchr c] }
  | .dquote :: st => if c = '"' then some { s with stack := st, out := s.out ++ [.cq] } else subst s c
  | .csparen nparen cs buf :: st =>
    let (np, cs') := csStep nparen cs c
    if np = 0 then some { s with stack := st, out := s.out ++ [.com buf] }
    else some { s with stack := .csparen np cs' (buf ++ [c]) :: st }
  | .asparen nparen buf :: st =>
    if c = '(' then some { s with stack := .asparen (nparen + 1) (buf ++ [c]) :: st }
    else if c = ')' then
      if nparen - 1 = 1 then
        let (d, i, sk) := getsc false s.skip s.inp
        if d = some ')' then some { s with inp := i, skip := sk, stack := st, out := s.out ++ [.exp buf] }
        else
          let (i, sk) := ungetsc d i sk
          some { s with inp := i, skip := sk, stack := .csparen 1 0 ('(' :: buf ++ [c]) :: st }
      else some { s with stack := .asparen (nparen - 1) (buf ++ [c]) :: st }
    else some { s with stack := .asparen nparen (buf ++ [c]) :: st }
  | .braceq :: st => if c = '}' then some { s with stack := st, out := s.out ++ [.csub true] } else sbase2 s c
  | .brace :: st => if c = '}' then some { s with stack := st, out := s.out ++ [.csub true] } else sbase1 s c
  | .tbrace :: st =>
    if c = '}' then some { s with stack := st, out := s.out ++ [.csub true] }
    else if c = '|' then some { s with out := s.out ++ [.spat] }
    else if c = '(' then some { s with out := s.out ++ [.opat ' '], stack := .pattern :: s.stack }
    else sbase1 s c
  | .bquote indq buf :: st =>
    if c = '`' then some { s with stack := st, out := s.out ++ [.com buf] }
    else if c = '\\' then
      let (d, i, sk) := getsc false s.skip s.inp
      match d with
      | none => some { s with inp := i, skip := sk }
      | some d =>
        let add := if d = '\\' || d = '$' || d = '`' || (d = '"' && indq) then [d] else ['\\', d]
        some { s with inp := i, skip := sk, stack := .bquote indq (buf ++ add) :: st }
    else some { s with stack := .bquote indq (buf ++ [c]) :: st }
  | .pattern :: st =>
    if c = ')' then some { s with stack := st, out := s.out ++ [.cpat] }
    else if c = '|' then some { s with out := s.out ++ [.spat] }
    else if c = '(' then some { s with out := s.out ++ [.opat ' '], stack := .pattern :: s.stack }
    else sbase1 s c

/-- The loop (lex.c:191-690) and what follows for a word (lex.c:692-694, 812). -/
def loop : Nat → LS → Res
  | 0, _ => .fuel
  | n + 1, s =>
    let (c, i, sk) := getsc (ignoring s.stack) s.skip s.inp
    let stop (_ : Unit) : Res := if s.stack = [.base] then .word s.out (ungetsc c i sk).1 else .unclosed
    match c with
    | none => stop ()
    | some ch =>
      if (match s.stack with | .base :: _ => true | _ => false) && lex1 ch then stop ()
      else match step { s with inp := i, skip := sk } ch with
        | none => .missing
        | some s' => loop n s'

/-- One word from the input, leading blanks already skipped. -/
def lexWord (n : Nat) (i : List Char) : Res := loop n ⟨[.base], i, 0, []⟩

/-! ## Printing -/

/-- `C_QUOTE`, misc.c:60 -/
def needsQuote (c : Char) : Bool :=
  [' ', '\n', '\t', '"', '#', '$', '&', '\'', '(', ')', '*', ';', '<', '>', '?', '[', '\\', '`', '|'].contains c

/-- The loop of `print_value_quoted` (misc.c:998-1010) -/
def quoteLoop : Bool → List Char → List Char
  | inq, [] => if inq then ['\''] else []
  | inq, c :: r =>
    if c = '\'' then (if inq then ['\'', '\\', '\''] else ['\\', '\'']) ++ quoteLoop false r
    else (if inq then [c] else ['\'', c]) ++ quoteLoop true r

/-- `print_value_quoted` (misc.c:984-1011) -/
def printQuoted (v : List Char) : List Char :=
  if v.any needsQuote then quoteLoop false v else v

/-- `tputC` (tree.c): control characters are shown with a circumflex or a dollar. -/
def tputC (c : Char) : List Char :=
  let n := c.toNat % 256
  if n &&& 0x60 = 0 then [if n &&& 0x80 ≠ 0 then '$' else '^', Char.ofNat ((n &&& 0x7F) ||| 0x40)]
  else if n &&& 0x7F = 0x7F then [if n &&& 0x80 ≠ 0 then '$' else '^', '?']
  else [c]

def tputs (l : List Char) : List Char := l.flatMap tputC

/-- `tputS` (tree.c) -/
def tputS : Bool → List Sym → List Char
  | _, [] => []
  | q, .chr c :: w => tputC c ++ tputS q w
  | q, .qchr c :: w => (if !q || (c = '"' || c = '`' || c = '$') then ['\\'] else []) ++ tputC c ++ tputS q w
  | q, .com s :: w => '$' :: '(' :: tputs s ++ ')' :: tputS q w
  | q, .exp s :: w => '$' :: '(' :: '(' :: tputs s ++ ')' :: ')' :: tputS q w
  | _, .oq :: w => '"' :: tputS true w
  | _, .cq :: w => '"' :: tputS false w
  | q, .osub b name :: w => '$' :: (if b then ['{'] else []) ++ tputs name ++ tputS q w
  | q, .csub b :: w => (if b then ['}'] else []) ++ tputS q w
  | q, .opat c :: w => c :: '(' :: tputS q w
  | q, .spat :: w => '|' :: tputS q w
  | q, .cpat :: w => ')' :: tputS q w

end Ksh.Lex
