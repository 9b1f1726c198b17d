/-!
# Model of the parser (syn.c)

The input is the sequence of tokens that the lexer finds (`Raw`); which of the plain words are
reserved words is decided, as in `yylex` (lex.c:783-840), when the parser asks for a token, by the
flags it passes.  A token that was handed back (`reject`) keeps the meaning it got when it was
read.

Words carry what the parser looks at: the text `tputS` prints, the text without quotes
(`wdstrip`), whether `ident` is set (no quotes or expansions and fewer than 64 characters), and
the answers of `is_wdvarassign` and `is_wdvarname`.  The flags that change the lexing of words
(`VARASN`, `ARRAYVAR`, `CMDWORD`, `HEREDELIM`, `LETEXPR`) are not modelled; `((` is followed by the
word of the expression.  Also left out: aliases (see Verif/Alias), the text of here documents
and the limit of 10 of them per line, line numbers, `nesting` (messages only), and the
allocation of trees (see Verif/Tree), so that the loops that append to a list in place (`tl`)
collect the members instead.
-/

namespace Ksh.Syn

/-- A word, see above. -/
structure Word where
  raw : List Char
  strip : List Char
  plain : Bool
  asn : Bool
  name : Bool
  deriving DecidableEq, Repr

/-- `ident` after the word has been read, lex.c:812-818. -/
def Word.ident (w : Word) : List Char := if w.plain then w.strip else []

/-- `IOTYPE`, tree.h -/
inductive RT
  | read | write | rdwr | here | cat | dup
  deriving DecidableEq, Repr

/-- `struct ioword` as the lexer makes it: the unit, the type and `IOCLOB`, `IOSKIP` or `IORDUP`. -/
structure Redir where
  unit : Nat
  ty : RT
  opt : Bool
  deriving DecidableEq, Repr

/-- `struct ioword` with its name or delimiter. -/
structure IO where
  r : Redir
  w : Word
  deriving DecidableEq, Repr

/-- What the lexer finds in the input; its end is the end of the list. -/
inductive Raw
  | word (w : Word)
  | redir (r : Redir)
  | pipe | amp | semi | lpar | rpar | andand | oror | dsemi | dlpar | coproc | nl
  deriving DecidableEq, Repr

/-- Reserved words. -/
inductive Kw
  | kif | kthen | kelse | kelif | kfi | kcase | kesac | kfor | kselect | kwhile | kuntil | kdo | kdone
  | kin | kfunction | ktime | klbrace | krbrace | kbang | kdbracket
  deriving DecidableEq, Repr

/-- `tokentab`, syn.c:600-632 -/
def kwOf (s : List Char) : Option Kw :=
  if s = ['i', 'f'] then some .kif
  else if s = ['t', 'h', 'e', 'n'] then some .kthen
  else if s = ['e', 'l', 's', 'e'] then some .kelse
  else if s = ['e', 'l', 'i', 'f'] then some .kelif
  else if s = ['f', 'i'] then some .kfi
  else if s = ['c', 'a', 's', 'e'] then some .kcase
  else if s = ['e', 's', 'a', 'c'] then some .kesac
  else if s = ['f', 'o', 'r'] then some .kfor
  else if s = ['s', 'e', 'l', 'e', 'c', 't'] then some .kselect
  else if s = ['w', 'h', 'i', 'l', 'e'] then some .kwhile
  else if s = ['u', 'n', 't', 'i', 'l'] then some .kuntil
  else if s = ['d', 'o'] then some .kdo
  else if s = ['d', 'o', 'n', 'e'] then some .kdone
  else if s = ['i', 'n'] then some .kin
  else if s = ['f', 'u', 'n', 'c', 't', 'i', 'o', 'n'] then some .kfunction
  else if s = ['t', 'i', 'm', 'e'] then some .ktime
  else if s = ['{'] then some .klbrace
  else if s = ['}'] then some .krbrace
  else if s = ['!'] then some .kbang
  else if s = ['[', '['] then some .kdbracket
  else none

/-- What `token` answers. -/
inductive Tok
  | eof
  | word (w : Word)
  | redir (r : Redir)
  | pipe | amp | semi | lpar | rpar | andand | oror | dsemi | dlpar | coproc | nl
  | kw (k : Kw)
  deriving DecidableEq, Repr

/-- `CONTIN`, `KEYWORD` and `ESACONLY`, lex.h:90-99 -/
structure Cf where
  contin : Bool := false
  keyword : Bool := false
  esac : Bool := false

/-- The meaning of a word, lex.c:820-828. -/
def wordTok (cf : Cf) (w : Word) : Tok :=
  if cf.keyword then
    match kwOf w.ident with
    | some k => if !cf.esac || k = .kesac || k = .krbrace then .kw k else .word w
    | none => .word w
  else .word w

/-- `yylex` behind the recognition of words and operators, lex.c:763-851. -/
def lex (cf : Cf) : List Raw → Tok × List Raw
  | [] => (.eof, [])
  | .nl :: r => if cf.contin then lex cf r else (.nl, r)
  | .word w :: r => (wordTok cf w, r)
  | .redir x :: r => (.redir x, r)
  | .pipe :: r => (.pipe, r)
  | .amp :: r => (.amp, r)
  | .semi :: r => (.semi, r)
  | .lpar :: r => (.lpar, r)
  | .rpar :: r => (.rpar, r)
  | .andand :: r => (.andand, r)
  | .oror :: r => (.oror, r)
  | .dsemi :: r => (.dsemi, r)
  | .dlpar :: r => (.dlpar, r)
  | .coproc :: r => (.coproc, r)

/-- `reject` with `symbol`, and the input. -/
structure St where
  pk : Option Tok
  rest : List Raw
  deriving DecidableEq, Repr

/-- `token(cf)`, syn.c:54-55 -/
def token (cf : Cf) (s : St) : Tok × St :=
  match s.pk with
  | some t => (t, ⟨none, s.rest⟩)
  | none => ((lex cf s.rest).1, ⟨none, (lex cf s.rest).2⟩)

/-- `reject = true` after `token` has answered `t`. -/
def unget (t : Tok) (s : St) : St := ⟨some t, s.rest⟩

/-- `tpeek(cf)`, syn.c:56-57 -/
def tpeek (cf : Cf) (s : St) : Tok × St :=
  ((token cf s).1, unget (token cf s).1 (token cf s).2)

/-- Answers: a value, `syntaxerr` or `yyerror`, or no more fuel. -/
inductive Res (α : Type)
  | ok (a : α) (s : St)
  | err
  | out
  deriving DecidableEq, Repr

def Res.bind {α β : Type} : Res α → (α → St → Res β) → Res β
  | .ok a s, f => f a s
  | .err, _ => .err
  | .out, _ => .out

/-- `musthave(c, cf)`, syn.c:165-170 -/
def musthave (c : Tok) (cf : Cf) (s : St) : Res Unit :=
  if (token cf s).1 = c then .ok () (token cf s).2 else .err

/-- `musthave(LWORD, cf)` and `yylval.cp` -/
def mustWord (cf : Cf) (s : St) : Res Word :=
  match (token cf s).1 with
  | .word w => .ok w (token cf s).2
  | _ => .err

/-- `synio(cf)`, syn.c:140-163 -/
def synio (cf : Cf) (s : St) : Res (Option IO) :=
  match (tpeek cf s).1 with
  | .redir r => (mustWord {} ⟨none, (tpeek cf s).2.rest⟩).bind fun w s => .ok (some ⟨r, w⟩) s
  | _ => .ok none (tpeek cf s).2

/-! ## Trees -/

/-- `type` of `struct op`; type 0 is that of the node made by `thenpart`. -/
inductive Ty
  | com | paren | pipe | list | or | and | bang | dbracket | for | select | case | if | elif | then
  | while | until | brace | coproc | async | funct | time | pat | eof
  deriving DecidableEq, Repr

/-- The other members of `struct op`; `str` of a `TCASE` is `word`. -/
structure Data where
  ev : Bool := false
  str : List Char := []
  word : Option Word := none
  vars : Option (List Word) := none
  args : Option (List Word) := none
  io : List IO := []
  deriving DecidableEq, Repr

/-- Trees, with `NULL`. -/
inductive Op
  | nil
  | node (ty : Ty) (d : Data) (left right : Op)
  deriving DecidableEq, Repr

def Op.isNil : Op → Bool
  | .nil => true
  | .node .. => false

/-- `block(type, t1, t2, NULL)`, syn.c:586-595 -/
def block (ty : Ty) (l r : Op) : Op := .node ty {} l r

/-- The tree of the members of a list (syn.c:126-131) or pipeline (syn.c:85-88). -/
def chain (ty : Ty) : List Op → Op
  | [] => .nil
  | [a] => a
  | a :: r => block ty a (chain ty r)

/-- The list of `TPAT` nodes, syn.c:488-494. -/
def patChain : List (List Word × Op) → Op
  | [] => .nil
  | (vs, l) :: r => .node .pat { vars := some vs } l (patChain r)

def NUFILE : Nat := 32

/-- Another redirection at the end of `iops`. -/
def addIo (i : IO) : Op → Op
  | .nil => .nil
  | .node ty d l r => .node ty { d with io := d.io ++ [i] } l r

def ioCount : Op → Nat
  | .nil => 0
  | .node _ d _ _ => d.io.length

/-- `Flag(FPOSIX)` and `Flag(FKEYWORD)`. -/
structure Cfg where
  posix : Bool
  keyword : Bool

/-- `assign_command`, syn.c:753-762 -/
def assignCommand (cfg : Cfg) (s : List Char) : Bool :=
  if cfg.posix || s = [] then false
  else s = ['a', 'l', 'i', 'a', 's'] || s = ['e', 'x', 'p', 'o', 'r', 't'] ||
    s = ['r', 'e', 'a', 'd', 'o', 'n', 'l', 'y'] || s = ['t', 'y', 'p', 'e', 's', 'e', 't']

/-- `C_QUOTE`, misc.c:60 -/
def cQuote (c : Char) : Bool :=
  c ∈ [' ', '\n', '\t', '"', '#', '$', '&', '\'', '(', ')', '*', ';', '<', '>', '?', '[', '\\', '`', '|']

/-- The check of a function's name, syn.c:545-547. -/
def validName (s : List Char) : Bool := s.all fun c => !(cQuote c || c = '=')

/-- The words `:` and `let`, which the parser makes up (syn.c:577-579, 283-286). -/
def plainWord (s : List Char) : Word := ⟨s, s, true, false, false⟩

def colon : Op := .node .com { vars := some [], args := some [plainWord [':']] } .nil .nil

/-- The words up to the next other token. -/
def takeWords : List Raw → List Word × List Raw
  | .word w :: r => (w :: (takeWords r).1, (takeWords r).2)
  | r => ([], r)

/-- `wordlist`, syn.c:560-581 -/
def wordlist (s : St) : Res (Option (List Word)) :=
  match token { contin := true, keyword := true } s with
  | (.kw .kin, s) =>
    match takeWords s.rest with
    | (ws, .nl :: r) => .ok (some ws) ⟨none, r⟩
    | (ws, .semi :: r) => .ok (some ws) ⟨none, r⟩
    | _ => .err
  | (.semi, s) => .ok none s
  | (c, s) => .ok none (unget c s)

/-! ## `[[` -/

/-- The words that stand for `||`, `&&`, `!`, `(`, `)`, `<` and `>` in the arguments of a
`TDBRACKET`, syn.c:789-801. -/
inductive DbTok
  | or | and | not | opar | cpar | lt | gt
  deriving DecidableEq, Repr

/-- syn.c:789-801 -/
def dbWord : DbTok → Word
  | .or => ⟨['|', '|'], ['|', '|'], true, false, false⟩
  | .and => ⟨['&', '&'], ['&', '&'], true, false, false⟩
  | .not => ⟨['!'], ['!'], true, false, false⟩
  | .opar => ⟨['('], ['('], true, false, false⟩
  | .cpar => ⟨[')'], [')'], true, false, false⟩
  | .lt => ⟨['<'], ['<'], true, false, false⟩
  | .gt => ⟨['>'], ['>'], true, false, false⟩

/-- The operators `test_isop` knows (c_test.c:37-91); `<` and `>` are no words of the input. -/
structure DbOps where
  un : List Char → Bool
  bin : List Char → Bool

/-- Answers of the parser for `[[`: the words collected and the state. -/
abbrev DbRes := Option (List Word × St)

/-- What can be tested with one look at the token, syn.c:810-850. -/
def dbIs (p : Tok → Option Word) (cf : Cf) (s : St) : Option Word × St :=
  match p (tpeek cf s).1 with
  | some w => (some w, ⟨none, (tpeek cf s).2.rest⟩)
  | none => (none, (tpeek cf s).2)

def pOr : Tok → Option Word
  | .oror => some (dbWord .or)
  | _ => none
def pAnd : Tok → Option Word
  | .andand => some (dbWord .and)
  | _ => none
/-- syn.c:825-826: the word itself is a plain `!`. -/
def pNot : Tok → Option Word
  | .word w => if w.plain && w.raw = ['!'] then some (dbWord .not) else none
  | _ => none
def pOpar : Tok → Option Word
  | .lpar => some (dbWord .opar)
  | _ => none
def pCpar : Tok → Option Word
  | .rpar => some (dbWord .cpar)
  | _ => none
def pEnd : Tok → Option Word
  | .word w => if w.plain && w.raw = [']', ']'] then some w else none
  | _ => none
def pUn (o : DbOps) : Tok → Option Word
  | .word w => if w.plain && o.un w.ident then some w else none
  | _ => none
/-- syn.c:831-837; `iop->flag` must have no other bit. -/
def pBin (o : DbOps) : Tok → Option Word
  | .redir r => if r.ty = .read then some (dbWord .lt)
    else if r.ty = .write && !r.opt then some (dbWord .gt) else none
  | .word w => if w.plain && o.bin w.ident then some w else none
  | _ => none
/-- `dbtestp_getopnd`, syn.c:852-864 -/
def pOpnd : Tok → Option Word
  | .word w => some w
  | _ => none

def CONTIN : Cf := { contin := true }

/-- `test_primary` behind the parenthesis, c_test.c:454-486, for `[[`. -/
def dbSimple (o : DbOps) (s : St) : DbRes :=
  match dbIs (pUn o) CONTIN s with
  | (some w, s) =>
    match dbIs pOpnd {} s with
    | (some v, s) => some ([w, v], s)
    | (none, _) => none
  | (none, s) =>
    match dbIs pOpnd {} s with
    | (none, _) => none
    | (some a, s) =>
      match dbIs (pBin o) {} s with
      | (none, _) => none
      | (some w, s) =>
        match dbIs pOpnd {} s with
        | (some b, s) => some ([a, w, b], s)
        | (none, _) => none

/-- Which of the mutually recursive functions of c_test.c:397-450. -/
inductive DbCall
  | oexpr | aexpr | nexpr | primary
  deriving DecidableEq

/-- `test_oexpr`, `test_aexpr`, `test_nexpr` and `test_primary`, c_test.c:397-488, as far as they
parse. -/
def dbParse (o : DbOps) : Nat → DbCall → St → DbRes
  | 0, _, _ => none
  | n + 1, .oexpr, s =>
    match dbParse o n .aexpr s with
    | none => none
    | some (ws, s) =>
      match dbIs pOr CONTIN s with
      | (some w, s) => (dbParse o n .oexpr s).map fun r => (ws ++ w :: r.1, r.2)
      | (none, s) => some (ws, s)
  | n + 1, .aexpr, s =>
    match dbParse o n .nexpr s with
    | none => none
    | some (ws, s) =>
      match dbIs pAnd CONTIN s with
      | (some w, s) => (dbParse o n .aexpr s).map fun r => (ws ++ w :: r.1, r.2)
      | (none, s) => some (ws, s)
  | n + 1, .nexpr, s =>
    match dbIs pNot CONTIN s with
    | (some w, s) => (dbParse o n .nexpr s).map fun r => (w :: r.1, r.2)
    | (none, s) => dbParse o n .primary s
  | n + 1, .primary, s =>
    match dbIs pOpar CONTIN s with
    | (some w, s) =>
      match dbParse o n .oexpr s with
      | none => none
      | some (ws, s) =>
        match dbIs pCpar CONTIN s with
        | (some v, s) => some (w :: ws ++ [v], s)
        | (none, _) => none
    | (none, s) => dbSimple o s

/-- `test_parse`, c_test.c:384-395, called for `[[` (syn.c:293-307); the fuel is enough
(`dbracket_complete`). -/
def dbracket (o : DbOps) (s : St) : Res (List Word) :=
  match dbParse o (4 * s.rest.length + 4) .oexpr s with
  | none => .err
  | some (ws, s) =>
    match dbIs pEnd CONTIN s with
    | (some _, s) => .ok ws s
    | (none, _) => .err

/-! ## The parser -/

/-- The functions of syn.c, their loops, and what remains of a function after a call. -/
inductive Call
  /-- `c_list(multi)` with the members read so far -/
  | clist (multi : Bool) (acc : List Op)
  | andor
  | andorLoop (t : Op)
  | pipeline (contin : Bool)
  | pipeLoop (acc : List Op)
  /-- `get_command(cf)` -/
  | command (contin : Bool)
  /-- `get_command` behind its first token -/
  | cmd (c : Tok)
  /-- the loop for simple commands -/
  | simple (ev : Bool) (vars args : List Word) (io : List IO)
  /-- the end of `get_command`: the redirections that follow -/
  | redirs (kw : Bool) (t : Op)
  | dogroup
  | thenpart
  | elsepart
  /-- the loop of `caselist` -/
  | cases (close : Kw) (acc : List (List Word × Op))
  /-- `casepart` from the first pattern on -/
  | pats (close : Kw) (acc : List (List Word × Op)) (ps : List Word)
  | funbody (w : Word) (ksh : Bool)
  deriving DecidableEq, Repr

/-- `KEYWORD|ALIAS` -/
def KW : Cf := { keyword := true }

/-- `nested`, syn.c:172-182, and the end of `get_command`. -/
def nested (rec : Call → St → Res Op) (ty : Ty) (close : Tok) (kw : Bool) (io : List IO) (s : St) : Res Op :=
  (rec (.clist true []) s).bind fun t s =>
  (musthave close KW s).bind fun _ s =>
  rec (.redirs kw (.node ty { io := io } t .nil)) s

/-- The loop for simple commands, syn.c:211-264. -/
def simpleBody (cfg : Cfg) (rec : Call → St → Res Op) (ev : Bool) (vars args : List Word) (io : List IO) (s : St) : Res Op :=
  match (tpeek {} s).1 with
  | .redir _ =>
    if io.length ≥ NUFILE then .err
    else (synio {} s).bind fun i s =>
      match i with
      | some i => rec (.simple ev vars args (io ++ [i])) s
      | none => .err
  | .word w =>
    let ev := if io = [] ∧ vars = [] ∧ args = [] ∧ assignCommand cfg w.ident = true then true else ev
    if (args = [] ∨ cfg.keyword = true) ∧ w.asn = true then rec (.simple ev (vars ++ [w]) args io) ⟨none, (tpeek {} s).2.rest⟩
    else rec (.simple ev vars (args ++ [w]) io) ⟨none, (tpeek {} s).2.rest⟩
  | .lpar =>
    if args = [] ∧ vars = [] then nested rec .paren .rpar false io ⟨none, (tpeek {} s).2.rest⟩
    else
      match io, args, vars with
      | [], [w], [] =>
        (musthave .rpar {} ⟨none, (tpeek {} s).2.rest⟩).bind fun _ s =>
        (rec (.funbody w false) s).bind fun t s => rec (.redirs false t) s
      | _, _, _ => .err
  | _ => rec (.redirs false (.node .com { ev := ev, vars := some vars, args := some args, io := io } .nil .nil)) (tpeek {} s).2

/-- `FOR` and `SELECT`, syn.c:311-323. -/
def forBody (rec : Call → St → Res Op) (ty : Ty) (s : St) : Res Op :=
  (mustWord {} s).bind fun w s =>
  if w.name then
    (wordlist s).bind fun vs s =>
    (rec .dogroup s).bind fun l s =>
    rec (.redirs true (.node ty { str := w.ident, vars := vs } l .nil)) s
  else .err

/-- `WHILE` and `UNTIL`, syn.c:325-334. -/
def whileBody (rec : Call → St → Res Op) (ty : Ty) (s : St) : Res Op :=
  (rec (.clist true []) s).bind fun l s =>
  if l.isNil then .err
  else (rec .dogroup s).bind fun r s => rec (.redirs true (block ty l r)) s

/-- `{` may stand for `in` and `do`, syn.c:432-437, 479-484. -/
def closeOf (word close : Kw) : Tok → Option Kw
  | .kw k => if k = word then some close else if k = .klbrace then some .krbrace else none
  | _ => none

/-- `get_command` behind its first token, syn.c:197-386. -/
def cmdBody (cfg : Cfg) (o : DbOps) (rec : Call → St → Res Op) (c : Tok) (s : St) : Res Op :=
  match c with
  | .word w => rec (.simple false [] [] []) (unget (.word w) s)
  | .redir r => rec (.simple false [] [] []) (unget (.redir r) s)
  | .lpar => nested rec .paren .rpar true [] s
  | .kw .klbrace => nested rec .brace (.kw .krbrace) true [] s
  | .dlpar =>
    (mustWord {} s).bind fun w s =>
    rec (.redirs true (.node .com { vars := some [], args := some [plainWord ['l', 'e', 't'], w] } .nil .nil)) s
  | .kw .kdbracket =>
    (dbracket o s).bind fun ws s =>
    rec (.redirs true (.node .dbracket { vars := some [], args := some ws } .nil .nil)) s
  | .kw .kfor => forBody rec .for s
  | .kw .kselect => forBody rec .select s
  | .kw .kwhile => whileBody rec .while s
  | .kw .kuntil => whileBody rec .until s
  | .kw .kcase =>
    (mustWord {} s).bind fun w s =>
    match closeOf .kin .kesac (token { contin := true, keyword := true } s).1 with
    | none => .err
    | some close =>
      (rec (.cases close []) (token { contin := true, keyword := true } s).2).bind fun l s =>
      rec (.redirs true (.node .case { word := some w } l .nil)) s
  | .kw .kif =>
    (rec (.clist true []) s).bind fun l s =>
    (rec .thenpart s).bind fun r s =>
    (musthave (.kw .kfi) KW s).bind fun _ s =>
    rec (.redirs true (block .if l r)) s
  | .kw .kbang =>
    (rec (.pipeline false) s).bind fun t s =>
    if t.isNil then .err else rec (.redirs false (block .bang .nil t)) s
  | .kw .ktime =>
    (rec (.pipeline false) s).bind fun t s => rec (.redirs false (block .time t .nil)) s
  | .kw .kfunction =>
    (mustWord {} s).bind fun w s =>
    (rec (.funbody w true) s).bind fun t s => rec (.redirs true t) s
  | _ => .ok .nil (unget c s)

/-- `c_list`, syn.c:102-138; `inalias` is false. -/
def clistBody (rec : Call → St → Res Op) (multi : Bool) (acc : List Op) (s : St) : Res Op :=
  (rec .andor s).bind fun p s =>
  if (token {} s).1 = .nl ∧ multi = true then
    rec (.clist multi (if p.isNil then acc else acc ++ [p])) (token {} s).2
  else if p.isNil then .ok (chain .list acc) (unget (token {} s).1 (token {} s).2)
  else
    match (token {} s).1 with
    | .amp => rec (.clist multi (acc ++ [block .async p .nil])) (token {} s).2
    | .coproc => rec (.clist multi (acc ++ [block .coproc p .nil])) (token {} s).2
    | .semi => rec (.clist multi (acc ++ [p])) (token {} s).2
    | c => .ok (chain .list (acc ++ [p])) (unget c (token {} s).2)

/-- One step of the call `c`, where `rec` does the calls it makes. -/
def body (cfg : Cfg) (o : DbOps) (rec : Call → St → Res Op) : Call → St → Res Op
  | .clist multi acc, s => clistBody rec multi acc s
  -- syn.c:86-100
  | .andor, s =>
    (rec (.pipeline false) s).bind fun t s =>
    if t.isNil then .ok .nil s else rec (.andorLoop t) s
  | .andorLoop t, s =>
    match (token {} s).1 with
    | .andand =>
      (rec (.pipeline true) (token {} s).2).bind fun p s =>
      if p.isNil then .err else rec (.andorLoop (block .and t p)) s
    | .oror =>
      (rec (.pipeline true) (token {} s).2).bind fun p s =>
      if p.isNil then .err else rec (.andorLoop (block .or t p)) s
    | c => .ok t (unget c (token {} s).2)
  -- syn.c:68-84
  | .pipeline contin, s =>
    (rec (.command contin) s).bind fun t s =>
    if t.isNil then .ok .nil s else rec (.pipeLoop [t]) s
  | .pipeLoop acc, s =>
    match (token {} s).1 with
    | .pipe =>
      (rec (.command true) (token {} s).2).bind fun p s =>
      if p.isNil then .err else rec (.pipeLoop (acc ++ [p])) s
    | c => .ok (chain .pipe acc) (unget c (token {} s).2)
  | .command contin, s =>
    rec (.cmd (token { contin := contin, keyword := true } s).1) (token { contin := contin, keyword := true } s).2
  | .cmd c, s => cmdBody cfg o rec c s
  | .simple ev vars args io, s => simpleBody cfg rec ev vars args io s
  -- syn.c:388-392
  | .redirs kw t, s =>
    (synio { keyword := kw } s).bind fun i s =>
    match i with
    | none => .ok t s
    | some i => if ioCount t ≥ NUFILE then .err else rec (.redirs kw (addIo i t)) s
  -- syn.c:416-437
  | .dogroup, s =>
    match closeOf .kdo .kdone (token { contin := true, keyword := true } s).1 with
    | none => .err
    | some close =>
      (rec (.clist true []) (token { contin := true, keyword := true } s).2).bind fun l s =>
      (musthave (.kw close) KW s).bind fun _ s => .ok l s
  -- syn.c:439-451
  | .thenpart, s =>
    (musthave (.kw .kthen) KW s).bind fun _ s =>
    (rec (.clist true []) s).bind fun l s =>
    if l.isNil then .err
    else (rec .elsepart s).bind fun r s => .ok (block .then l r) s
  -- syn.c:453-473
  | .elsepart, s =>
    match (token KW s).1 with
    | .kw .kelse =>
      (rec (.clist true []) (token KW s).2).bind fun t s => if t.isNil then .err else .ok t s
    | .kw .kelif =>
      (rec (.clist true []) (token KW s).2).bind fun l s =>
      (rec .thenpart s).bind fun r s => .ok (block .elif l r) s
    | c => .ok .nil (unget c (token KW s).2)
  -- syn.c:486-497, 507-509
  | .cases close acc, s =>
    if (tpeek { contin := true, keyword := true, esac := true } s).1 = .kw close then
      (musthave (.kw close) KW (tpeek { contin := true, keyword := true, esac := true } s).2).bind fun _ s =>
      .ok (patChain acc) s
    else
      match token { contin := true, keyword := true } (tpeek { contin := true, keyword := true, esac := true } s).2 with
      | (.lpar, s) => rec (.pats close acc []) s
      | (c, s) => rec (.pats close acc []) (unget c s)
  -- syn.c:510-524
  | .pats close acc ps, s =>
    (mustWord {} s).bind fun w s =>
    if (token {} s).1 = .pipe then rec (.pats close acc (ps ++ [w])) (token {} s).2
    else
      (musthave .rpar {} (unget (token {} s).1 (token {} s).2)).bind fun _ s =>
      (rec (.clist true []) s).bind fun l s =>
      if (tpeek { contin := true, keyword := true } s).1 = .kw close then
        rec (.cases close (acc ++ [(ps ++ [w], l)])) (tpeek { contin := true, keyword := true } s).2
      else
        (musthave .dsemi { contin := true, keyword := true } (tpeek { contin := true, keyword := true } s).2).bind fun _ s =>
        rec (.cases close (acc ++ [(ps ++ [w], l)])) s
  -- syn.c:526-558
  | .funbody w ksh, s =>
    if validName w.strip then
      if ksh then
        (musthave (.kw .klbrace) { contin := true, keyword := true } s).bind fun _ s =>
        (rec (.command true) (unget (.kw .klbrace) s)).bind fun l s =>
        .ok (.node .funct { str := w.strip, ev := true } (if l.isNil then colon else l) .nil) s
      else
        (rec (.command true) s).bind fun l s =>
        .ok (.node .funct { str := w.strip } (if l.isNil then colon else l) .nil) s
    else .err

/-- The parser, `fuel` bounding the depth of calls. -/
def parse (cfg : Cfg) (o : DbOps) : Nat → Call → St → Res Op
  | 0, _, _ => .out
  | n + 1, c, s => body cfg o (parse cfg o n) c s

/-- `yyparse`, syn.c:60-73; `multi` is `source->type == SSTRING`. -/
def yyparse (cfg : Cfg) (o : DbOps) (n : Nat) (multi : Bool) (l : List Raw) : Res Op :=
  (parse cfg o n (.clist multi []) ⟨none, l⟩).bind fun t s =>
  match (tpeek {} s).1 with
  | .eof => .ok (if t.isNil then .node .eof {} .nil .nil else t) (tpeek {} s).2
  | .nl => .ok t (tpeek {} s).2
  | _ => .err

end Ksh.Syn
