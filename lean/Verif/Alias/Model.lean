/-!
# Model of alias expansion (lex.c)

Modelled: the stack of input sources as far as aliases are concerned, `getsc__` with its
three ways of leaving an alias (lex.c:974-1072), `ungetsc` (lex.c:1621-1640), and the part
of `yylex` that skips blanks and comments, collects a plain word, recognizes keywords and
pushes alias texts (lex.c:141-187, 191-193, 722-850).

Simplified: the bottom source is one string (what `getsc_line` would deliver line by
line; NUL does not occur and stands for the end).  A word that contains a quoting or
substitution character, an extended pattern or a `[` ends in the outcome `other`: such a
word is never an alias (the exception, a line continued with backslash-newline inside a
word, and array subscripts, are not modelled).  Csh-style history and the second character
of operators are left out, so is the pushing of `SREREAD` sources: in the modelled part a
character is only put back right after it was read, so `str > start` holds.
-/

namespace Ksh.Alias

/-- `C_LEX1`, misc.c:55 -/
def lex1 (c : Char) : Bool := [' ', '\t', '\n', '|', '&', ';', '<', '>', '(', ')'].contains c

/-- `isspace` in the C locale -/
def isspace (c : Char) : Bool := c = ' ' || (9 ≤ c.toNat && c.toNat ≤ 13)

/-- A source of type `SALIAS` (lex.h:14-34): `name` is `u.tblp->name`, `val` is
`u.tblp->val.s`, `text` what is left at `str`, `fin` is `SF_ALIASEND`, `fl` is
`SF_ALIAS`. -/
structure ASrc where
  name : List Char
  val : List Char
  text : List Char
  fin : Bool
  fl : Bool
  deriving DecidableEq, Repr

/-- The source stack: aliases, top first, and the rest of the bottom source with its
`SF_ALIAS` flag. -/
structure S where
  stk : List ASrc
  base : List Char
  bfl : Bool
  deriving DecidableEq, Repr

/-- lex.c:1006-1007: the alias text is not empty and ends with white space. -/
def endsSpace (v : List Char) : Bool :=
  match v.getLast? with
  | none => false
  | some c => isspace c

/-- `getsc__`, lex.c:974-1072; `k` is the `SF_ALIAS` flag handed down to the source that
becomes the top one.  `none` is the end of the input: every alias has been popped then
(lex.c:1036-1041). -/
def getscK : Bool → List ASrc → List Char → Bool → Option Char × S
  | k, [], [], f => (none, ⟨[], [], f || k⟩)
  | k, [], c :: b, f => (some c, ⟨[], b, f || k⟩)
  | k, s :: st, b, f =>
    match s.text with
    | c :: t => (some c, ⟨{ s with text := t, fl := s.fl || k } :: st, b, f⟩)
    | [] =>
      if s.fin then getscK (s.fl || k) st b f
      else if endsSpace s.val then getscK true st b f
      else
        match getscK (s.fl || k) st b f with
        | (some c, r) => (some c, ⟨{ s with fin := true, text := [], fl := s.fl || k } :: r.stk, r.base, r.bfl⟩)
        | (none, r) => (none, r)

def getsc (s : S) : Option Char × S := getscK false s.stk s.base s.bfl

/-- `ungetsc`, lex.c:1621-1640, right after `getsc`: `str--` in the top source. -/
def unget (c : Option Char) (s : S) : S :=
  match c, s.stk with
  | none, _ => s
  | some c, [] => { s with base := c :: s.base }
  | some c, a :: st => { s with stk := { a with text := c :: a.text } :: st }

/-- number of characters left, a bound for the loops below -/
def S.size (s : S) : Nat := (s.stk.map (·.text.length)).sum + s.base.length

/-- lex.c:170-171; the first argument bounds the iterations. -/
def skipBlank : Nat → S → Option (Option Char × S)
  | 0, _ => none
  | n+1, s =>
    match getsc s with
    | (none, r) => some (none, r)
    | (some c, r) => if c = ' ' || c = '\t' then skipBlank n r else some (some c, r)

/-- lex.c:174-175 -/
def skipComment : Nat → S → Option (Option Char × S)
  | 0, _ => none
  | n+1, s =>
    match getsc s with
    | (none, r) => some (none, r)
    | (some c, r) => if c = '\n' then some (some c, r) else skipComment n r

/-- Blanks and a comment before a word, lex.c:170-178. -/
def skip (s : S) : Option S :=
  match skipBlank (s.size + 1) s with
  | none => none
  | some (c, r) =>
    if c = some '#' then
      match skipComment (r.size + 1) r with
      | none => none
      | some (c, r) => some (unget c r)
    else some (unget c r)

/-- The source on top has `SF_ALIAS`, lex.c:180. -/
def S.topFl (s : S) : Bool :=
  match s.stk with
  | [] => s.bfl
  | a :: _ => a.fl

/-- lex.c:181 -/
def S.clearFl (s : S) : S :=
  match s.stk with
  | [] => { s with bfl := false }
  | a :: st => { s with stk := { a with fl := false } :: st }

/-- Characters that make the word one that is not modelled here. -/
def special (c : Char) : Bool := ['\\', '\'', '"', '$', '`', '['].contains c

/-- lex.c:295: may start an extended pattern -/
def patc (c : Char) : Bool := ['*', '@', '+', '?', '!'].contains c

inductive Col
  | word (w : List Char) (term : Option Char) (s : S)
  | other (s : S)
  deriving DecidableEq, Repr

/-- The loop collecting a plain word, lex.c:191-193, 295-305; `w` is the text so far. -/
def collect : Nat → List Char → S → Option Col
  | 0, _, _ => none
  | n+1, w, s =>
    match getsc s with
    | (none, r) => some (.word w none r)
    | (some c, r) =>
      if lex1 c then some (.word w (some c) r)
      else if special c then some (.other r)
      else if patc c then
        match getsc r with
        | (c2, q) => if c2 = some '(' then some (.other q) else collect n (w ++ [c]) (unget c2 q)
      else collect n (w ++ [c]) r

/-- The flags of `yylex` that matter here, lex.h:90-98. -/
structure Cf where
  contin : Bool
  keyword : Bool
  alias : Bool
  cmdword : Bool
  deriving DecidableEq, Repr

inductive Res
  | op (c : Option Char)
  | redir (c : Char)
  | keyword (w : List Char)
  | word (w : List Char)
  | other
  deriving DecidableEq, Repr

inductive Out
  | again (cf : Cf) (s : S)
  | ret (r : Res) (s : S)
  deriving DecidableEq, Repr

/-- The shell's tables: aliases (`ktsearch(&aliases, ..)` with `ISSET`), keywords, and
`Flag(FPOSIX)`. -/
structure Env where
  al : List (List Char × List Char)
  kw : List Char → Bool
  posix : Bool

def Env.find (e : Env) (w : List Char) : Option (List Char) := e.al.lookup w

/-- `IDENT`, lex.h:11 -/
def IDENT : Nat := 64

/-- lex.c:824-848: what happens with a word that has been collected; its terminator has
been put back. -/
def found (e : Env) (cf : Cf) (w : List Char) (s : S) : Out :=
  if w.length < IDENT && (cf.keyword || cf.alias) then
    if cf.keyword && e.kw w then .ret (.keyword w) s
    else if cf.alias then
      match e.find w with
      | none => .ret (.word w) s
      | some v =>
        if s.stk.any (fun a => a.name = w) then .ret (.word w) s
        else .again cf { s with stk := ⟨w, v, v, false, false⟩ :: s.stk }
    else .ret (.word w) s
  else .ret (.word w) s

/-- lex.c:726-729: a word of one digit before a redirection -/
def oneDigit (w : List Char) : Bool :=
  match w with
  | [d] => d.isDigit
  | _ => false

/-- lex.c:180-187 -/
def setCf (e : Env) (cf : Cf) (s : S) : Cf :=
  if s.topFl && (!e.posix || cf.cmdword) then { cf with alias := true } else cf

/-- lex.c:722-822: after the word has been collected. -/
def finish (e : Env) (cf : Cf) : Col → Out
  | .other s => .ret .other s
  | .word w c s =>
    if (c = some '<' || c = some '>') && (w = [] || oneDigit w) then .ret (.redir (c.getD ' ')) s
    else if w = [] then
      if c = some '\n' && cf.contin then .again cf s else .ret (.op c) s
    else found e cf w (unget c s)

/-- One pass of `yylex` from `Again:` to `return` or `goto Again`, lex.c:150-850. -/
def step (e : Env) (cf : Cf) (s : S) : Option Out :=
  match skip s with
  | none => none
  | some s =>
    match collect ((S.clearFl s).size + 1) [] (S.clearFl s) with
    | none => none
    | some col => some (finish e (setCf e cf s) col)

/-- `yylex`: passes until one returns; `none` when `n` passes do not suffice. -/
def yylex (e : Env) : Nat → Cf → S → Option (Res × S)
  | 0, _, _ => none
  | n+1, cf, s =>
    match step e cf s with
    | none => none
    | some (.ret r s) => some (r, s)
    | some (.again cf s) => yylex e n cf s

end Ksh.Alias
