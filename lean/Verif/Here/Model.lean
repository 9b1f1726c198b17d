import Verif.Lex.Model
/-!
# Model of here documents

`synio` for `<<` (syn.c:148-170) with the states `SHEREDELIM` and `SHEREDQUOTE` of `yylex` (lex.c:654-700) and
the copy into `ident` (lex.c:818-824); `gethere` and `readhere` (lex.c:857-927); `herein` (exec.c:1186-1245) with
`yylex(ONEWORD|HEREDOC)` (state `SWORD`, lex.c:325-453).

`getsc` and `ungetsc` are those of the lexer's model (`Lex`): the input is one string without NUL.  Left out: the
temporary file, prompts, `${`, `$(` and backquotes in an expanded document (outcome `none`), `nounset`; the values of
parameters are a function.
-/

namespace Ksh.Here

open Ksh.Lex

/-- Is `c` one of the characters that a backslash quotes inside double quotes? -/
def dqEsc (c : Char) : Bool := c == '\\' || c == '"' || c == '$' || c == '`'

inductive DSt where
  | plain | single | double

/-- The loop of `yylex` for a delimiter, lex.c:191-193, 455-465 (`SSQUOTE`), 654-700.  Answer: the word and the
input from the character that ends it.  `none`: no fuel, or `no closing quote`. -/
def delimLoop : Nat → DSt → List Char → Nat → List Sym → Option (List Sym × List Char)
  | 0, _, _, _, _ => none
  | n + 1, .plain, i, sk, out =>
    let (c, i', sk') := getsc false sk i
    match c with
    | none => some (out, (ungetsc none i' sk').1)
    | some c =>
      if lex1 c then some (out, (ungetsc (some c) i' sk').1)
      else if c = '\\' then
        let (d, i2, sk2) := getsc false sk' i'
        match d with
        | none => delimLoop n .plain i2 sk2 out
        | some d => delimLoop n .plain i2 sk2 (out ++ [.qchr d])
      else if c = '\'' then delimLoop n .single i' sk' (out ++ [.oq])
      else if c = '"' then delimLoop n .double i' sk' (out ++ [.oq])
      else delimLoop n .plain i' sk' (out ++ [.chr c])
  | n + 1, .single, i, sk, out =>
    let (c, i', sk') := getsc true sk i
    match c with
    | none => none
    | some c =>
      if c = '\'' then delimLoop n .plain i' sk' (out ++ [.cq])
      else delimLoop n .single i' sk' (out ++ [.qchr c])
  | n + 1, .double, i, sk, out =>
    let (c, i', sk') := getsc false sk i
    match c with
    | none => some (out, (ungetsc none i' sk').1)
    | some c =>
      if c = '"' then delimLoop n .plain i' sk' (out ++ [.cq])
      else if c = '\\' then
        let (d, i2, sk2) := getsc false sk' i'
        match d with
        | none => delimLoop n .double i2 sk2 out
        | some d => if dqEsc d then delimLoop n .double i2 sk2 (out ++ [.chr d]) else delimLoop n .double i2 sk2 (out ++ [.chr '\\', .chr d])
      else delimLoop n .double i' sk' (out ++ [.chr c])

def IDENT : Nat := 64

/-- lex.c:818-824: what is left in `ident`; `n` is the room. -/
def identLoop : Nat → List Sym → List Char → List Char
  | 0, _, _ => []
  | _ + 1, [], acc => acc
  | n + 1, .chr c :: w, acc => identLoop n w (acc ++ [c])
  | _ + 1, _ :: _, _ => []

/-- `IOEVAL`, syn.c:161 -/
def ioeval (w : List Sym) : Bool := decide (identLoop IDENT w [] ≠ [])

/-- `evalstr(iop->delim, 0)`, lex.c:882, for a delimiter: quotes are removed. -/
def delimText (w : List Sym) : List Char := w.flatMap fun
  | .chr c => [c]
  | .qchr c => [c]
  | _ => []

/-- lex.c:893-904: compare the beginning of a line with the delimiter; `tabs` is `skiptabs`.  Answer: the character
that ended the loop, what is left of the delimiter, the input, `backslash_skip`, the document. -/
def matchLine (ign : Bool) : Nat → Bool → List Char → List Char → Nat → List Char → Option (Option Char × List Char × List Char × Nat × List Char)
  | 0, _, _, _, _, _ => none
  | n + 1, tabs, eofp, i, sk, out =>
    let (c, i', sk') := getsc ign sk i
    match c with
    | none => some (none, eofp, i', sk', out)
    | some c =>
      if tabs = true ∧ c = '\t' then matchLine ign n tabs eofp i' sk' out
      else if eofp.head? = some c then matchLine ign n false eofp.tail i' sk' (out ++ [c])
      else some (some c, eofp, i', sk', out)

/-- lex.c:913-918: the rest of the line; `none`: `here document unclosed`. -/
def restLine (ign : Bool) : Nat → List Char → Nat → List Char → Option (List Char × Nat × List Char)
  | 0, _, _, _ => none
  | n + 1, i, sk, out =>
    let (c, i', sk') := getsc ign sk i
    match c with
    | none => none
    | some c => if c = '\n' then some (i', sk', out ++ [c]) else restLine ign n i' sk' (out ++ [c])

/-- `readhere`, lex.c:871-927: the document, the input after it, `backslash_skip`; `none`: not closed. -/
def readhere (ign skip : Bool) (eof : List Char) : Nat → List Char → Nat → List Char → Option (List Char × List Char × Nat)
  | 0, _, _, _ => none
  | n + 1, i, sk, out =>
    match matchLine ign (i.length + 1) skip eof i sk out with
    | none => none
    | some (c, eofp, i', sk', out') =>
      if eofp = [] ∧ (c = none ∨ c = some '\n') then some (out, i', sk')
      else
        let (i2, sk2) := ungetsc c i' sk'
        match restLine ign (i2.length + 1) i2 sk2 out' with
        | none => none
        | some (i3, sk3, out3) => readhere ign skip eof n i3 sk3 out3

/-- What `<<` or `<<-` (`skip`) with a delimiter asks for. -/
structure Iop where
  skip : Bool
  delim : List Sym

/-- `gethere`, lex.c:857-865; the input after a newline, where `backslash_skip` is 0 or 2. -/
def gethere : List Iop → List Char → Nat → Option (List (List Char) × List Char × Nat)
  | [], i, sk => some ([], i, sk)
  | p :: ps, i, sk =>
    match readhere (!ioeval p.delim) p.skip (delimText p.delim) (i.length + 1) i sk [] with
    | none => none
    | some (doc, i', sk') =>
      match gethere ps i' sk' with
      | none => none
      | some (docs, r) => some (doc :: docs, r)

/-- `Subst:` in the state `SWORD` with `HEREDOC` (lex.c:325-453).  Answer: the input, `backslash_skip`, the symbols;
`none` where the model ends. -/
def hereStep (c : Char) (i : List Char) (sk : Nat) : Option (List Char × Nat × List Sym) :=
  if c = '\\' then
    let (d, i', sk') := getsc false sk i
    match d with
    | none => some (i', sk', [])
    | some d => if d = '\\' ∨ d = '$' ∨ d = '`' then some (i', sk', [.qchr d]) else some (i', sk', [.chr '\\', .chr d])
  else if c = '$' then
    let (d, i', sk') := getsc false sk i
    match d with
    | none => let (i2, sk2) := ungetsc none i' sk'; some (i2, sk2, [.chr '$'])
    | some d =>
      if d = '(' ∨ d = '{' then none
      else if alpha d then
        let (name, i2, sk2) := nameRun (i'.length + 1) i' sk' [d]
        some (i2, sk2, [.osub false name, .csub false])
      else if var1 d || digit d then some (i', sk', [.osub false [d], .csub false])
      else let (i2, sk2) := ungetsc (some d) i' sk'; some (i2, sk2, [.chr '$'])
  else if c = '`' then none
  else some (i, sk, [.chr c])

/-- `yylex(ONEWORD|HEREDOC)` -/
def hereLex : Nat → List Char → Nat → List Sym → Option (List Sym)
  | 0, _, _, _ => none
  | n + 1, i, sk, out =>
    let (c, i', sk') := getsc false sk i
    match c with
    | none => some out
    | some c =>
      match hereStep c i' sk' with
      | none => none
      | some (i2, sk2, l) => hereLex n i2 sk2 (out ++ l)

/-- `evalstr(yylval.cp, 0)`, exec.c:1222 -/
def evalHere (env : List Char → List Char) (w : List Sym) : List Char := w.flatMap fun
  | .chr c => [c]
  | .qchr c => [c]
  | .osub _ name => env name
  | _ => []

/-- `herein`, exec.c:1186-1245: what the command reads. -/
def herein (env : List Char → List Char) (eval : Bool) (doc : List Char) : Option (List Char) :=
  if eval then (hereLex (doc.length + 1) doc 0 []).map (evalHere env) else some doc

end Ksh.Here
