import Verif.Syn.Props
/-!
# Model of the printing of trees (`ptree`, tree.c:26-195), as tokens

Functions are printed by `typeset -f` (c_ksh.c:721-727, 741-747) to a file, so that `%;` and `%N` are newlines
(tree.c:399-413).  What is printed is modelled as the tokens the lexer finds in it: words are
printed as what they were read from (Verif/Lex, property C49) and stand for themselves; names
that are kept as text (`str`) are printed as text and read as the word `rd` makes of it.
Redirections stand for themselves (see `redir_text` in Verif/Syn/Reprints.lean); the text of a here document and its delimiter are read
together with the newline before them, so that one newline is left where here documents are
printed.
-/

namespace Ksh.Syn

/-- A reserved word as it is printed. -/
def kwRaw (s : List Char) : Raw := .word (plainWord s)

/-- A name that is kept as text; an empty one prints nothing. -/
def textRaw (rd : List Char → Word) (s : List Char) : List Raw := if s = [] then [] else [.word (rd s)]

def words (ws : List Word) : List Raw := ws.map .word

def optWords : Option (List Word) → List Raw
  | none => []
  | some ws => words ws

/-- `IOHERE` among the redirections. -/
def hasHere (io : List IO) : Bool := io.any fun i => decide (i.r.ty = .here)

/-- The end of `ptree`, tree.c:164-194. -/
def prIo (io : List IO) : List Raw := ioRaw io ++ if hasHere io then [.nl] else []

/-- The arguments of `[[`: operators are kept as words of their characters. -/
def dbRaw (w : Word) : Raw :=
  if w = dbWord .or then .oror
  else if w = dbWord .and then .andand
  else if w = dbWord .opar then .lpar
  else if w = dbWord .cpar then .rpar
  else if w = dbWord .lt then .redir ⟨0, .read, false⟩
  else if w = dbWord .gt then .redir ⟨1, .write, false⟩
  else .word w

/-- `in` and the words of `for`, tree.c:83-88. -/
def prFor : Option (List Word) → List Raw
  | none => []
  | some ws => kwRaw ['i', 'n'] :: (words ws ++ [.nl])

/-- tree.c:99-101 -/
def prWord : Option Word → List Raw
  | none => []
  | some w => [.word w]

def prPats : Option (List Word) → List Raw
  | none => []
  | some ws => patsRaw ws

/-- The redirections that are printed behind `fi`: those of the last `then` node, because `t` was
moved there, tree.c:113-127, 164. -/
def thenIo : Op → List IO
  | .nil => []
  | .node _ d _ r =>
    match r with
    | .node .elif _ _ r => thenIo r
    | _ => d.io

mutual
/-- `ptree`, tree.c:26-195. -/
def pr (rd : List Char → Word) : Op → List Raw
  | .nil => []
  | .node ty d l r =>
    match ty with
    | .com => optWords d.vars ++ (optWords d.args ++ prIo d.io)
    | .paren => .lpar :: (pr rd l ++ .rpar :: prIo d.io)
    | .pipe => pr rd l ++ .pipe :: pr rd r
    | .list => pr rd l ++ .nl :: pr rd r
    | .or => pr rd l ++ .oror :: (pr rd r ++ prIo d.io)
    | .and => pr rd l ++ .andand :: (pr rd r ++ prIo d.io)
    | .bang => kwRaw ['!'] :: pr rd r
    | .dbracket => kwRaw ['[', '['] :: ((d.args.getD []).map dbRaw ++ kwRaw [']', ']'] :: prIo d.io)
    | .for => kwRaw ['f', 'o', 'r'] :: (textRaw rd d.str ++ (prFor d.vars ++ kwRaw ['d', 'o'] :: .nl ::
        (pr rd l ++ .nl :: kwRaw ['d', 'o', 'n', 'e'] :: prIo d.io)))
    | .select => kwRaw ['s', 'e', 'l', 'e', 'c', 't'] :: (textRaw rd d.str ++ (prFor d.vars ++ kwRaw ['d', 'o'] :: .nl ::
        (pr rd l ++ .nl :: kwRaw ['d', 'o', 'n', 'e'] :: prIo d.io)))
    | .case => kwRaw ['c', 'a', 's', 'e'] :: (prWord d.word ++ kwRaw ['i', 'n'] ::
        (prCases rd l ++ .nl :: kwRaw ['e', 's', 'a', 'c'] :: prIo d.io))
    | .if => kwRaw ['i', 'f'] :: (pr rd l ++ (prThen rd r ++ .nl :: kwRaw ['f', 'i'] :: prIo (thenIo r)))
    | .elif => kwRaw ['i', 'f'] :: (pr rd l ++ (prThen rd r ++ .nl :: kwRaw ['f', 'i'] :: prIo (thenIo r)))
    | .while => kwRaw ['w', 'h', 'i', 'l', 'e'] :: (pr rd l ++ .nl :: kwRaw ['d', 'o'] :: .nl ::
        (pr rd r ++ .nl :: kwRaw ['d', 'o', 'n', 'e'] :: prIo d.io))
    | .until => kwRaw ['u', 'n', 't', 'i', 'l'] :: (pr rd l ++ .nl :: kwRaw ['d', 'o'] :: .nl ::
        (pr rd r ++ .nl :: kwRaw ['d', 'o', 'n', 'e'] :: prIo d.io))
    | .brace => kwRaw ['{'] :: .nl :: (pr rd l ++ .nl :: kwRaw ['}'] :: prIo d.io)
    | .coproc => pr rd l ++ .coproc :: prIo d.io
    | .async => pr rd l ++ .amp :: prIo d.io
    | .funct => (if d.ev then kwRaw ['f', 'u', 'n', 'c', 't', 'i', 'o', 'n'] :: textRaw rd d.str else textRaw rd d.str ++ [.lpar, .rpar]) ++
        (pr rd l ++ prIo d.io)
    | .time => kwRaw ['t', 'i', 'm', 'e'] :: (pr rd l ++ prIo d.io)
    | .then => prIo d.io
    | .pat => prIo d.io
    | .eof => prIo d.io
/-- The loop for `then`, `elif` and `else`, tree.c:112-132. -/
def prThen (rd : List Char → Word) : Op → List Raw
  | .nil => []
  | .node _ _ l r => (if l.isNil then [] else .nl :: kwRaw ['t', 'h', 'e', 'n'] :: .nl :: pr rd l) ++
    match r with
    | .nil => []
    | .node ty d rl rr =>
      if ty = .elif then .nl :: kwRaw ['e', 'l', 'i', 'f'] :: (pr rd rl ++ prThen rd rr)
      else .nl :: kwRaw ['e', 'l', 's', 'e'] :: .nl :: pr rd (.node ty d rl rr)
/-- The loop for the parts of `case`, tree.c:101-107. -/
def prCases (rd : List Char → Word) : Op → List Raw
  | .nil => []
  | .node _ d l r => .nl :: .lpar :: (prPats d.vars ++ .rpar :: .nl :: (pr rd l ++ .nl :: .dsemi :: prCases rd r))
end

end Ksh.Syn
