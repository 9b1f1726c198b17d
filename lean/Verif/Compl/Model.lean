import Verif.Lex.Model
import Verif.Emacs.Model
import Verif.Edit.Model
import Verif.Fname.Model
/-!
# Model of finding and inserting completions (edit.c:404-755, 756-785, 857-971)

`x_locate_word`, `add_glob`, the reading of the word by `yylex(ONEWORD|UNESCAPE)` and by `evalstr`,
`x_try_array`, the sorting in `x_command_glob`, `path_order_cmp`, `glob_table`, `glob_path` and the text `x_escape`
inserts.  An index outside the buffer is a fault (`none`).  The buffer has no NUL in it.  Left out: allocation and
freeing, `lstat` on a single match in `x_file_glob`, the substitution and tilde expansion of the word (`Subst`, `Tilde`).
-/

namespace Ksh.Compl

/-- `IS_WORDC`, edit.c:584-585 -/
def wordc (c : Char) : Bool := !(Lex.lex1 c || c = '\'' || c = '"' || c = '`' || c = '=' || c = ':')

/-- `isspace` in the C locale -/
def space (c : Char) : Bool := c = ' ' || (9 ≤ c.toNat && c.toNat ≤ 13)

/-- ``strchr(";|&()`", c)`` -/
def sep (c : Char) : Bool := c = ';' || c = '|' || c = '&' || c = '(' || c = ')' || c = '`'

/-- edit.c:606-608, back to the start of the word -/
def back (buf : List Char) : Nat → Option Nat
  | 0 => some 0
  | s + 1 =>
    match buf[s]? with
    | none => none
    | some c => if wordc c || (decide (s > 0) && buf[s - 1]? == some '\\') then back buf s else some (s + 1)

/-- edit.c:610-613, forwards to the end; `n` bounds the number of rounds. -/
def fwd (buf : List Char) : Nat → Nat → Option Nat
  | 0, _ => none
  | n + 1, e =>
    if e < buf.length then
      match buf[e]? with
      | none => none
      | some c =>
        if wordc c then fwd buf n (if c = '\\' ∧ e + 1 < buf.length then e + 2 else e + 1) else some e
    else some e

/-- edit.c:619-621: the last character that is not a blank before index `p`. -/
def lastText (buf : List Char) : Nat → Option (Option Char)
  | 0 => some none
  | p + 1 =>
    match buf[p]? with
    | none => none
    | some c => if space c then lastText buf p else some (some c)

/-- edit.c:622-634: `p` is the last character before the word that is not a blank, if there is one. -/
def isCmd (p : Option Char) (word : List Char) : Bool :=
  (match p with
    | none => true
    | some c => sep c) && !word.contains '/'

/-- `x_locate_word`, edit.c:587-640: `*startp`, the length and `*is_commandp`. -/
def locate (buf : List Char) (pos : Nat) : Option (Nat × Nat × Bool) :=
  if pos > buf.length then some (pos, 0, false)
  else
    match back buf pos with
    | none => none
    | some start =>
      match fwd buf (buf.length + 1) start with
      | none => none
      | some stop =>
        match lastText buf start with
        | none => none
        | some p => some (start, stop - start, isCmd p ((buf.drop start).take (stop - start)))

/-! ## The word as a pattern -/

/-- edit.c:775-785: `none` if the loop was left by `break`, else `saw_slash`. -/
def globScan : List Char → Bool → Option Bool
  | [], saw => some saw
  | c :: r, saw =>
    if c = '\\' ∧ r ≠ [] then
      match r with
      | [] => some saw
      | _ :: r' => globScan r' saw
    else if c = '*' || c = '[' || c = '?' || c = '$' || ((c = '+' || c = '@' || c = '!') && r.head? == some '(') then none
    else globScan r (saw || c = '/')

/-- `add_glob`, edit.c:756-792 -/
def addGlob (str : List Char) : List Char :=
  match globScan str false with
  | none => str
  | some saw => if str.head? ≠ some '~' ∨ saw = true then str ++ ['*'] else str

open Lex

/-- What `Subst:` does with a backslash under `UNESCAPE` (lex.c:327-356). -/
def unescape (s : LS) : LS :=
  let (d, i, sk) := getsc (ignoring s.stack) s.skip s.inp
  match d with
  | none => { s with inp := i, skip := sk }
  | some d => { s with inp := i, skip := sk, out := s.out ++ [.qchr d] }

/-- The `switch (state)` for `ONEWORD`: the bottom of the stack, `base`, stands for `SWORD` (lex.c:599-600); `u` is
the flag `UNESCAPE`. -/
def stepW (u : Bool) (s : LS) (c : Char) : Option LS :=
  match s.stack with
  | [.base] => if c = '\\' ∧ u = true then some (unescape s) else subst s c
  | .dquote :: _ => if c = '\\' ∧ u = true then some (unescape s) else step s c
  | _ => step s c

/-- The loop (lex.c:191-690) for a word of which all characters are part (`SWORD` is not left at `C_LEX1`). -/
def loopW (u : Bool) : Nat → LS → Res
  | 0, _ => .fuel
  | n + 1, s =>
    let (c, i, sk) := getsc (ignoring s.stack) s.skip s.inp
    match c with
    | none => if s.stack = [.base] then .word s.out [] else .unclosed
    | some ch =>
      match stepW u { s with inp := i, skip := sk } ch with
      | none => .missing
      | some s' => loopW u n s'

/-- `yylex(ONEWORD|UNESCAPE)` in `x_file_glob` (edit.c:429-437, `u`) or `yylex(ONEWORD)` in `evalstr` (edit.c:511). -/
def oneWord (u : Bool) (n : Nat) (i : List Char) : Res := loopW u n ⟨[.base], i, 0, []⟩

/-! ## The words of an array -/

/-- A variable as `x_try_array` sees it: `ARRAY` and the values of the elements, of which the first is the variable
itself; `none` is an element that is not `ISSET`. -/
structure Var where
  array : Bool
  elems : List (Option (List Char))

/-- `~v->flag & (ISSET|ARRAY)` is 0 -/
def Var.usable (v : Var) : Bool := v.array && (match v.elems with | some _ :: _ => true | _ => false)

/-- edit.c:657-660, from `want` back to behind a separator -/
def cmdStart (buf : List Char) : Nat → Option Nat
  | 0 => some 0
  | p + 1 =>
    match buf[p]? with
    | none => none
    | some c => if sep c then some (p + 1) else cmdStart buf p

/-- edit.c:661-671 with the text from the start of the command to the word: the name of the command and the text. -/
def cmdName (t : List Char) : List Char × List Char :=
  let t := t.dropWhile space
  (t.takeWhile (!space ·), t)

/-- edit.c:673-677: `prev` is `cp[-1]`. -/
def argLoop : Char → List Char → Nat → Nat
  | _, [], n => n
  | prev, c :: t, n => argLoop c t (if !space prev && space c then n + 1 else n)

/-- edit.c:673-677 for the text `t` that begins with the name of the command. -/
def argCount (t : List Char) (cmdlen : Nat) : Nat :=
  match t.drop cmdlen with
  | [] => 1
  | c :: r => argLoop c r 1

/-- edit.c:695-711 for one element -/
def offers (want : List Char) (e : Option (List Char)) : Option (List Char) :=
  match e with
  | none => none
  | some s => if s.length < want.length then none else if s.take want.length = want then some s else none

/-- `alnum` or `_`, edit.c:668-671 -/
def nameChar (c : Char) : Bool := letnum c

/-- The digits `%d` prints. -/
def decimal (n : Nat) : List Char := Nat.toDigits 10 n

def complete_ : List Char := ['c', 'o', 'm', 'p', 'l', 'e', 't', 'e', '_']

/-- edit.c:679-692: the array `complete_CMD_N` or else `complete_CMD`. -/
def array (global : List Char → Var) (cmd : List Char) (n : Nat) : Option Var :=
  let v := global (complete_ ++ cmd ++ '_' :: decimal n)
  if v.usable then some v
  else
    let v := global (complete_ ++ cmd)
    if v.usable then some v else none

/-- `x_try_array`, edit.c:641-715, for the word at `start` with the length `len`; an empty list is the answer 0. -/
def tryArray (global : List Char → Var) (buf : List Char) (start len : Nat) : Option (List (List Char)) :=
  if start = 0 then some []
  else
    match cmdStart buf start with
    | none => none
    | some p =>
      let (cmd, t) := cmdName ((buf.take start).drop p)
      if cmd.all nameChar then
        match array global cmd (argCount t cmd.length) with
        | none => some []
        | some v => some (v.elems.filterMap (offers ((buf.drop start).take len)))
      else some []

/-! ## The words of a command -/

/-- edit.c:556-569: of equal neighbours the last is kept. -/
def uniq : List (List Char) → List (List Char)
  | [] => []
  | [a] => [a]
  | a :: b :: l => if a = b then uniq (b :: l) else a :: uniq (b :: l)

/-- `struct path_order_info`, edit.c:473-478 -/
structure Info where
  word : List Char
  base : Nat
  order : Nat
  deriving DecidableEq, Repr

/-- The test at edit.c:547-548: the directory is not that of `last_info`. -/
def newDir (last : Option (Nat × List Char)) (w : List Char) : Bool :=
  match last with
  | none => true
  | some (lb, lw) => Edit.basename w ≠ lb || w.take (Edit.basename w) ≠ lw.take (Edit.basename w)

/-- edit.c:544-554: `last` is `last_info`, the base and the word. -/
def infos : Option (Nat × List Char) → Nat → List (List Char) → List Info
  | _, _, [] => []
  | last, k, w :: ws =>
    if newDir last w then ⟨w, Edit.basename w, k + 1⟩ :: infos (some (Edit.basename w, w)) (k + 1) ws
    else ⟨w, Edit.basename w, k⟩ :: infos last k ws

/-- `strcmp(a, b) <= 0`, with bytes as characters -/
def strle : List Char → List Char → Bool
  | [], _ => true
  | _ :: _, [] => false
  | a :: s, b :: t => if a.toNat < b.toNat then true else if b.toNat < a.toNat then false else strle s t

/-- `path_order_cmp(a, b) <= 0`, edit.c:483-493 -/
def infole (a b : Info) : Bool :=
  let x := a.word.drop a.base
  let y := b.word.drop b.base
  if x = y then a.order ≤ b.order else strle x y

/-- edit.c:521-574: `full` is `XCF_FULLPATH`; `sort` and `isort` are qsort(3) with `xstrcmp` and `path_order_cmp`. -/
def arrange (sort : List (List Char) → List (List Char)) (isort : List Info → List Info) (full : Bool)
    (w : List (List Char)) : List (List Char) :=
  if w = [] then []
  else if full then (isort (infos none 0 w)).map (·.word)
  else uniq (sort w)

/-- `glob_table`, edit.c:861-871, for the names of a table in the order of `ktnext`. -/
def globTable (mt : List Char → Bool) (names : List (List Char)) : List (List Char) := names.filter mt

/-- edit.c:893-900: a directory of the path with each `MAGIC` doubled and a slash. -/
def stuff (dir : List Nat) : List Nat :=
  if dir = [] then [] else dir.flatMap (fun c => if c = 7 then [7, 7] else [c]) ++ [47]

/-- One round of `glob_path`, edit.c:884-930: `ok` is that `search_access` succeeds or says `EISDIR`. -/
def globDir (S : Fname.Sys) (ok : List Nat → Bool) (full : Bool) (pat dir : List Nat) : List (List Nat) :=
  ((Fname.globit S true [] (some (stuff dir ++ pat)) false false).filter ok).map fun w =>
    if full then w else w.drop (if dir = [] then 0 else dir.length + 1)

end Ksh.Compl
