import Verif.Syn.Model
/-!
# The grammar of commands

An inductive definition of which sequences of tokens are commands, with the tree of each.  It
makes no use of the parser: no flags, no tokens handed back.  The index `End` says which token
may not follow, because it would belong to the phrase (the rule of the longest match).
-/

namespace Ksh.Syn

/-- The token is the reserved word `k`. -/
def IsKw (k : Kw) (r : Raw) : Prop := ∃ w, r = .word w ∧ kwOf w.ident = some k

/-- Reserved words that begin a command. -/
def Kw.starts : Kw → Bool
  | .kif | .kcase | .kfor | .kselect | .kwhile | .kuntil | .kfunction | .ktime | .klbrace | .kbang | .kdbracket => true
  | _ => false

/-- Tokens that begin a command. -/
def Raw.starts : Raw → Bool
  | .word w => match kwOf w.ident with
    | some k => k.starts
    | none => true
  | .redir _ | .lpar | .dlpar => true
  | _ => false

def Raw.isWord : Raw → Bool
  | .word _ => true
  | _ => false

def Raw.isRedir : Raw → Bool
  | .redir _ => true
  | _ => false

/-- How a phrase ends: a simple command (takes words, redirections and `(`), a compound command
(takes redirections), `>f ( ... )` (no reserved word is recognized behind it), a place where a
command might still come, also on another line. -/
inductive EK
  | simple | comp | rsub | noCmd | noCmdNl
  deriving DecidableEq, Repr

/-- The level: 0 command, 1 pipeline (takes `|`), 2 list on one line (takes also `&&`, `||`,
`;`, `&` and `|&`), 3 list (takes also newlines). -/
structure End where
  k : EK
  lvl : Nat
  deriving DecidableEq, Repr

def End.up (e : End) (n : Nat) : End := ⟨e.k, max e.lvl n⟩

def EK.ok : EK → Raw → Bool
  | .simple, r => !(r.isWord || r.isRedir || r = .lpar)
  | .comp, r => !r.isRedir
  | .rsub, r => !(r.isWord || r.isRedir)
  | .noCmd, r => !r.starts
  | .noCmdNl, r => !(r.starts || r = .nl)

/-- The token may follow. -/
def End.okR (e : End) (r : Raw) : Bool :=
  e.k.ok r && !(decide (e.lvl ≥ 1) && decide (r = .pipe)) &&
  !(decide (e.lvl ≥ 2) && decide (r ∈ [Raw.andand, .oror, .semi, .amp, .coproc])) &&
  !(decide (e.lvl ≥ 3) && decide (r = .nl))

/-- The rest of the input may follow. -/
def End.ok (e : End) : List Raw → Bool
  | [] => true
  | r :: _ => e.okR r

def nls (n : Nat) : List Raw := List.replicate n .nl

/-- Redirections. -/
def ioRaw : List IO → List Raw
  | [] => []
  | i :: r => .redir i.r :: .word i.w :: ioRaw r

/-- The parts of a simple command. -/
inductive Elem
  | io (i : IO)
  | wd (w : Word)
  deriving DecidableEq, Repr

def Elem.raw : Elem → List Raw
  | .io i => [.redir i.r, .word i.w]
  | .wd w => [.word w]

def elemsRaw : List Elem → List Raw
  | [] => []
  | e :: r => e.raw ++ elemsRaw r

def elemIos : List Elem → List IO
  | [] => []
  | .io i :: r => i :: elemIos r
  | .wd _ :: r => elemIos r

def elemWords : List Elem → List Word
  | [] => []
  | .io _ :: r => elemWords r
  | .wd w :: r => w :: elemWords r

/-- Assignments are the words of that form before the first other one; with `set -k`, all. -/
def asnWords (cfg : Cfg) (ws : List Word) : List Word :=
  if cfg.keyword then ws.filter (·.asn) else ws.takeWhile (·.asn)

def argWords (cfg : Cfg) (ws : List Word) : List Word :=
  if cfg.keyword then ws.filter (fun w => !w.asn) else ws.dropWhile (·.asn)

/-- The command is `alias`, `export`, `readonly` or `typeset`, and is the first token. -/
def declares (cfg : Cfg) : List Elem → Bool
  | .wd w :: _ => assignCommand cfg w.ident
  | _ => false

/-- The tree of a simple command. -/
def simpleTree (cfg : Cfg) (es : List Elem) : Op :=
  .node .com { ev := declares cfg es, vars := some (asnWords cfg (elemWords es)),
               args := some (argWords cfg (elemWords es)), io := elemIos es } .nil .nil

/-- Not a reserved word. -/
def Word.free (w : Word) : Prop := kwOf w.ident = none

/-- A simple command does not begin with a reserved word. -/
def freeStart : List Elem → Prop
  | [] => False
  | .wd w :: _ => w.free
  | .io _ :: _ => True

/-- Words between bars. -/
def patsRaw : List Word → List Raw
  | [] => []
  | [w] => [.word w]
  | w :: r => .word w :: .pipe :: patsRaw r

def consList (p u : Op) : Op := if u.isNil then p else block .list p u

/-- What a separator does to the command before it. -/
def sepTree (m : Bool) (r : Raw) (t : Op) : Option Op :=
  match r with
  | .semi => some t
  | .nl => if m then some t else none
  | .amp => some (block .async t .nil)
  | .coproc => some (block .coproc t .nil)
  | _ => none

/-- Expressions of `[[ ]]`: newlines may stand before every primary and operator, but not inside
a primary. -/
inductive Db (o : DbOps) : DbCall → List Raw → List Word → Prop
  | un (n : Nat) (w v : Word) : w.plain = true → o.un w.ident = true → w.raw ≠ ['!'] →
      Db o .primary (nls n ++ [.word w, .word v]) [w, v]
  | binW (n : Nat) (a w b : Word) : ¬ (a.plain = true ∧ (a.raw = ['!'] ∨ o.un a.ident = true)) →
      w.plain = true → o.bin w.ident = true →
      Db o .primary (nls n ++ [.word a, .word w, .word b]) [a, w, b]
  | binR (n : Nat) (a : Word) (r : Redir) (b : Word) : ¬ (a.plain = true ∧ (a.raw = ['!'] ∨ o.un a.ident = true)) →
      r.ty = .read →
      Db o .primary (nls n ++ [.word a, .redir r, .word b]) [a, dbWord .lt, b]
  | binG (n : Nat) (a : Word) (r : Redir) (b : Word) : ¬ (a.plain = true ∧ (a.raw = ['!'] ∨ o.un a.ident = true)) →
      r.ty = .write → r.opt = false →
      Db o .primary (nls n ++ [.word a, .redir r, .word b]) [a, dbWord .gt, b]
  | par (n m : Nat) (x : List Raw) (ws : List Word) : Db o .oexpr x ws →
      Db o .primary (nls n ++ .lpar :: (x ++ (nls m ++ [.rpar]))) (dbWord .opar :: ws ++ [dbWord .cpar])
  | prim (x : List Raw) (ws : List Word) : Db o .primary x ws → Db o .nexpr x ws
  | not (n : Nat) (w : Word) (x : List Raw) (ws : List Word) : w.plain = true → w.raw = ['!'] →
      Db o .nexpr x ws → Db o .nexpr (nls n ++ .word w :: x) (dbWord .not :: ws)
  | and1 (x : List Raw) (ws : List Word) : Db o .nexpr x ws → Db o .aexpr x ws
  | and (n : Nat) (x y : List Raw) (ws vs : List Word) : Db o .nexpr x ws → Db o .aexpr y vs →
      Db o .aexpr (x ++ (nls n ++ .andand :: y)) (ws ++ dbWord .and :: vs)
  | or1 (x : List Raw) (ws : List Word) : Db o .aexpr x ws → Db o .oexpr x ws
  | or (n : Nat) (x y : List Raw) (ws vs : List Word) : Db o .aexpr x ws → Db o .oexpr y vs →
      Db o .oexpr (x ++ (nls n ++ .oror :: y)) (ws ++ dbWord .or :: vs)

/-- A condition with its closing `]]`. -/
def DbCond (o : DbOps) (x : List Raw) (ws : List Word) : Prop :=
  ∃ y n w, Db o .oexpr y ws ∧ w.plain = true ∧ w.raw = [']', ']'] ∧ x = y ++ (nls n ++ [.word w])

/-- The words of a `for` loop: `in` words and a newline or `;`, or a `;` (not POSIX), or nothing. -/
inductive ForWords : List Raw → Option (List Word) → Prop
  | words (n : Nat) (r t : Raw) (ws : List Word) : IsKw .kin r → t = .nl ∨ t = .semi →
      ForWords (nls n ++ r :: (ws.map .word ++ [t])) (some ws)
  | semi (n : Nat) : ForWords (nls n ++ [.semi]) none
  | none : ForWords [] none

/-- Phrases. -/
inductive NT
  | list (multi : Bool)
  | andor
  | pipe
  | cmd
  /-- from `then` on -/
  | thenp
  /-- the parts of a `case` that is closed by `close` -/
  | cases (close : Kw)
  deriving DecidableEq, Repr

/-- The end of a list: it takes separators. -/
def listLvl (m : Bool) : Nat := if m then 3 else 2

inductive Der (cfg : Cfg) (o : DbOps) : NT → List Raw → End → Op → Prop
  -- lists
  | listNil (n : Nat) : Der cfg o (.list true) (nls n) ⟨.noCmdNl, 0⟩ .nil
  | listNil1 : Der cfg o (.list false) [] ⟨.noCmd, 0⟩ .nil
  | listOne (m : Bool) (n : Nat) (x : List Raw) (e : End) (t : Op) : (n > 0 → m = true) →
      Der cfg o .andor x e t → Der cfg o (.list m) (nls n ++ x) (e.up (listLvl m)) t
  | listMore (m : Bool) (n : Nat) (x y : List Raw) (e e' : End) (t u p : Op) (r : Raw) : (n > 0 → m = true) →
      Der cfg o .andor x e t → e.okR r = true → sepTree m r t = some p → Der cfg o (.list m) y e' u →
      Der cfg o (.list m) (nls n ++ (x ++ r :: y)) e' (consList p u)
  -- and-or lists associate to the left
  | andorOne (x : List Raw) (e : End) (t : Op) : Der cfg o .pipe x e t → Der cfg o .andor x e t
  | andorAnd (x y : List Raw) (n : Nat) (e e' : End) (t p : Op) : Der cfg o .andor x e t → e.okR .andand = true →
      Der cfg o .pipe y e' p → Der cfg o .andor (x ++ .andand :: (nls n ++ y)) e' (block .and t p)
  | andorOr (x y : List Raw) (n : Nat) (e e' : End) (t p : Op) : Der cfg o .andor x e t → e.okR .oror = true →
      Der cfg o .pipe y e' p → Der cfg o .andor (x ++ .oror :: (nls n ++ y)) e' (block .or t p)
  -- pipelines
  | pipeOne (x : List Raw) (e : End) (t : Op) : Der cfg o .cmd x e t → Der cfg o .pipe x (e.up 1) t
  | pipeMore (x y : List Raw) (n : Nat) (e e' : End) (t u : Op) : Der cfg o .cmd x e t → e.okR .pipe = true →
      Der cfg o .pipe y e' u → Der cfg o .pipe (x ++ .pipe :: (nls n ++ y)) e' (block .pipe t u)
  -- commands
  | simple (es : List Elem) : freeStart es → (elemIos es).length ≤ NUFILE →
      Der cfg o .cmd (elemsRaw es) ⟨.simple, 0⟩ (simpleTree cfg es)
  | rsub (is js : List IO) (x : List Raw) (e : End) (t : Op) : is ≠ [] → (is ++ js).length ≤ NUFILE →
      Der cfg o (.list true) x e t → e.okR .rpar = true →
      Der cfg o .cmd (ioRaw is ++ .lpar :: (x ++ .rpar :: ioRaw js)) ⟨.rsub, 0⟩ (.node .paren { io := is ++ js } t .nil)
  | fn (w : Word) (n : Nat) (x : List Raw) (e : End) (t : Op) : w.free → w.asn = false → validName w.strip = true →
      Der cfg o .cmd x e t →
      Der cfg o .cmd (.word w :: .lpar :: .rpar :: (nls n ++ x)) e (.node .funct { str := w.strip } t .nil)
  | fnNone (w : Word) (n : Nat) : w.free → w.asn = false → validName w.strip = true →
      Der cfg o .cmd (.word w :: .lpar :: .rpar :: nls n) ⟨.noCmdNl, 0⟩ (.node .funct { str := w.strip } colon .nil)
  | kfn (w : Word) (k b : Raw) (n : Nat) (x : List Raw) (e : End) (t : Op) : IsKw .kfunction k → validName w.strip = true →
      IsKw .klbrace b → Der cfg o .cmd (b :: x) e t →
      Der cfg o .cmd (k :: .word w :: (nls n ++ b :: x)) e (.node .funct { str := w.strip, ev := true } t .nil)
  | paren (js : List IO) (x : List Raw) (e : End) (t : Op) : js.length ≤ NUFILE →
      Der cfg o (.list true) x e t → e.okR .rpar = true →
      Der cfg o .cmd (.lpar :: (x ++ .rpar :: ioRaw js)) ⟨.comp, 0⟩ (.node .paren { io := js } t .nil)
  | brace (a b : Raw) (js : List IO) (x : List Raw) (e : End) (t : Op) : IsKw .klbrace a → IsKw .krbrace b → js.length ≤ NUFILE →
      Der cfg o (.list true) x e t → e.okR b = true →
      Der cfg o .cmd (a :: (x ++ b :: ioRaw js)) ⟨.comp, 0⟩ (.node .brace { io := js } t .nil)
  | letc (w : Word) (js : List IO) : js.length ≤ NUFILE →
      Der cfg o .cmd (.dlpar :: .word w :: ioRaw js) ⟨.comp, 0⟩
        (.node .com { vars := some [], args := some [plainWord ['l', 'e', 't'], w], io := js } .nil .nil)
  | dbr (a : Raw) (x : List Raw) (ws : List Word) (js : List IO) : IsKw .kdbracket a → DbCond o x ws → js.length ≤ NUFILE →
      Der cfg o .cmd (a :: (x ++ ioRaw js)) ⟨.comp, 0⟩ (.node .dbracket { vars := some [], args := some ws, io := js } .nil .nil)
  | for (a : Raw) (ty : Ty) (w : Word) (y : List Raw) (vs : Option (List Word)) (n : Nat) (b c : Raw) (x : List Raw) (e : End) (t : Op) (js : List IO) :
      (IsKw .kfor a ∧ ty = .for) ∨ (IsKw .kselect a ∧ ty = .select) → w.name = true → ForWords y vs →
      (IsKw .kdo b ∧ IsKw .kdone c) ∨ (IsKw .klbrace b ∧ IsKw .krbrace c) →
      Der cfg o (.list true) x e t → e.okR c = true → js.length ≤ NUFILE →
      Der cfg o .cmd (a :: .word w :: (y ++ (nls n ++ b :: (x ++ c :: ioRaw js)))) ⟨.comp, 0⟩
        (.node ty { str := w.ident, vars := vs, io := js } t .nil)
  | while (a : Raw) (ty : Ty) (x : List Raw) (e : End) (l : Op) (b c : Raw) (y : List Raw) (e' : End) (t : Op) (js : List IO) :
      (IsKw .kwhile a ∧ ty = .while) ∨ (IsKw .kuntil a ∧ ty = .until) →
      Der cfg o (.list true) x e l → l ≠ .nil → e.okR b = true →
      (IsKw .kdo b ∧ IsKw .kdone c) ∨ (IsKw .klbrace b ∧ IsKw .krbrace c) →
      Der cfg o (.list true) y e' t → e'.okR c = true → js.length ≤ NUFILE →
      Der cfg o .cmd (a :: (x ++ b :: (y ++ c :: ioRaw js))) ⟨.comp, 0⟩ (.node ty { io := js } l t)
  | case (a : Raw) (w : Word) (n : Nat) (b c : Raw) (k : Kw) (x : List Raw) (e : End) (t : Op) (js : List IO) : IsKw .kcase a →
      (IsKw .kin b ∧ k = .kesac) ∨ (IsKw .klbrace b ∧ k = .krbrace) → IsKw k c →
      Der cfg o (.cases k) x e t → e.okR c = true → js.length ≤ NUFILE →
      Der cfg o .cmd (a :: .word w :: (nls n ++ b :: (x ++ c :: ioRaw js))) ⟨.comp, 0⟩
        (.node .case { word := some w, io := js } t .nil)
  | if (a c : Raw) (x : List Raw) (e : End) (l : Op) (y : List Raw) (e' : End) (t : Op) (js : List IO) : IsKw .kif a →
      Der cfg o (.list true) x e l → e.ok y = true → Der cfg o .thenp y e' t → IsKw .kfi c → e'.okR c = true → js.length ≤ NUFILE →
      Der cfg o .cmd (a :: (x ++ (y ++ c :: ioRaw js))) ⟨.comp, 0⟩ (.node .if { io := js } l t)
  | bang (a : Raw) (x : List Raw) (e : End) (t : Op) : IsKw .kbang a → Der cfg o .pipe x e t →
      Der cfg o .cmd (a :: x) e (block .bang .nil t)
  | time (a : Raw) (x : List Raw) (e : End) (t : Op) : IsKw .ktime a → Der cfg o .pipe x e t →
      Der cfg o .cmd (a :: x) e (block .time t .nil)
  | timeNone (a : Raw) : IsKw .ktime a → Der cfg o .cmd [a] ⟨.noCmd, 0⟩ (block .time .nil .nil)
  -- parts of `if`
  | then (a : Raw) (x : List Raw) (e : End) (t : Op) : IsKw .kthen a → Der cfg o (.list true) x e t → t ≠ .nil →
      Der cfg o .thenp (a :: x) e (block .then t .nil)
  | thenElse (a b : Raw) (x y : List Raw) (e e' : End) (t u : Op) : IsKw .kthen a → Der cfg o (.list true) x e t → t ≠ .nil →
      IsKw .kelse b → e.okR b = true → Der cfg o (.list true) y e' u → u ≠ .nil →
      Der cfg o .thenp (a :: (x ++ b :: y)) e' (block .then t u)
  | thenElif (a b : Raw) (x y z : List Raw) (e e' e'' : End) (t l u : Op) : IsKw .kthen a → Der cfg o (.list true) x e t → t ≠ .nil →
      IsKw .kelif b → e.okR b = true → Der cfg o (.list true) y e' l → e'.ok z = true → Der cfg o .thenp z e'' u →
      Der cfg o .thenp (a :: (x ++ b :: (y ++ z))) e'' (block .then t (block .elif l u))
  -- parts of `case`; the last one needs no `;;`
  | caseNil (k : Kw) (n : Nat) : Der cfg o (.cases k) (nls n) ⟨.comp, 0⟩ .nil
  | caseLast (k : Kw) (n : Nat) (open? : Bool) (p : Word) (ps : List Word) (x : List Raw) (e : End) (t : Op) :
      (open? = false → kwOf p.ident ≠ some .kesac ∧ kwOf p.ident ≠ some .krbrace) →
      Der cfg o (.list true) x e t →
      Der cfg o (.cases k) (nls n ++ ((if open? then [.lpar] else []) ++ (patsRaw (p :: ps) ++ .rpar :: x))) e
        (.node .pat { vars := some (p :: ps) } t .nil)
  | caseMore (k : Kw) (n : Nat) (open? : Bool) (p : Word) (ps : List Word) (x y : List Raw) (e e' : End) (t u : Op) :
      (open? = false → kwOf p.ident ≠ some .kesac ∧ kwOf p.ident ≠ some .krbrace) →
      Der cfg o (.list true) x e t → e.okR .dsemi = true → Der cfg o (.cases k) y e' u →
      Der cfg o (.cases k) (nls n ++ ((if open? then [.lpar] else []) ++ (patsRaw (p :: ps) ++ .rpar :: (x ++ .dsemi :: y)))) e'
        (.node .pat { vars := some (p :: ps) } t u)

/-- A whole input: a list that is followed by its end, or by a newline if it is read line by line.
An input without commands is the tree `TEOF` at the end of the input and `NULL` otherwise. -/
def Program (cfg : Cfg) (o : DbOps) (m : Bool) (l rest : List Raw) (t : Op) : Prop :=
  ∃ x e u, l = x ++ rest ∧ Der cfg o (.list m) x e u ∧ e.ok rest = true ∧
    ((rest = [] ∧ t = if u.isNil then .node .eof {} .nil .nil else u) ∨ (∃ r, rest = .nl :: r ∧ t = u))

end Ksh.Syn
