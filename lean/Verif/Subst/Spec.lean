import Verif.Subst.Model
/-!
# What an expansion means

Words as trees, what they expand to by recursion, and fields when IFS has white space only.
-/

namespace Ksh.Subst

open Ksh.Glob (Trim debunk)

/-- A word: each constructor is a piece and what follows it. -/
inductive Wd where
  | nil
  | char (c : B) (r : Wd)
  | qchar (c : B) (r : Wd)
  /-- `"..."` or `'...'` -/
  | quoted (w r : Wd)
  | com (k : Nat) (r : Wd)
  | arith (k : Nat) (r : Wd)
  /-- `${x}`, or `${#x}` -/
  | sub (len : Bool) (x : Nm) (r : Wd)
  /-- `${x op w}`, `colon` for an operator with `:` -/
  | cond (x : Nm) (colon : Bool) (op : Op) (w r : Wd)
  /-- `c(...)` -/
  | group (c : B) (w r : Wd)
  | bar (r : Wd)

def opCodes : Op → List Code
  | .minus => [.char 45]
  | .plus => [.char 43]
  | .assign => [.char 61]
  | .err => [.char 63]
  | .trim .prefixShort => [.char 35]
  | .trim .prefixLong => [.char 35, .char 35]
  | .trim .suffixShort => [.char 37]
  | .trim .suffixLong => [.char 37, .char 37]

def colonCodes (colon : Bool) : List Code := if colon then [.char 58] else []

/-- The compiled form (tree.h:19-31, lex.c). -/
def compile : Wd → List Code
  | .nil => []
  | .char c r => .char c :: compile r
  | .qchar c r => .qchar c :: compile r
  | .quoted w r => .oquote :: (compile w ++ .cquote :: compile r)
  | .com k r => .com k :: compile r
  | .arith k r => .arith k :: compile r
  | .sub len x r => .osubst len x :: .csubst :: compile r
  | .cond x colon op w r => .osubst false x :: (colonCodes colon ++ (opCodes op ++ (compile w ++ .csubst :: compile r)))
  | .group c w r => .opat c :: (compile w ++ .cpat :: compile r)
  | .bar r => .spat :: compile r

/-- The first thing in the word of `#` (`%`) is not another one, which would make it `##`. -/
def okShort : Op → Wd → Prop
  | .trim .prefixShort, .char c _ => c ≠ 35
  | .trim .suffixShort, .char c _ => c ≠ 37
  | _, _ => True

/-- Words in which no quotes are directly inside quotes (in `"${x-"a"}"` they are; see
`inner_quotes_split`). -/
def WF : Bool → Wd → Prop
  | _, .nil => True
  | q, .char _ r | q, .qchar _ r | q, .com _ r | q, .arith _ r | q, .sub _ _ r | q, .bar r => WF q r
  | q, .quoted w r => q = false ∧ WF true w ∧ WF q r
  | q, .cond _ _ op w r => okShort op w ∧ WF (match op with | .trim _ => false | _ => q) w ∧ WF q r
  | q, .group _ w r => WF q w ∧ WF q r

/-- What a word expands to: characters as they are stored, each with the mark whether it may be split;
text that is never split; the beginning of quotes.  The other three are notes of places where the code may
split wrongly: a word is entered, a value follows that is made by `=`, `#` or `%`, an empty one does. -/
inductive Tok where
  | c (ch : B) (txt : List B) (sp : Bool)
  | raw (txt : List B)
  | mark
  | enter
  | val
  | anull

structure Ctx where
  f : F
  quote : Bool
  /-- inside an expansion -/
  inn : Bool

abbrev Den := Except (Err × World) (List Tok × World)

def Den.seq (a : Den) (k : World → Den) : Den :=
  match a with
  | .error e => .error e
  | .ok (t, w) =>
    match k w with
    | .error e => .error e
    | .ok (t', w') => .ok (t ++ t', w')

def Tok.text : Tok → List B
  | .c _ t _ => t
  | .raw t => t
  | _ => []

def text (l : List Tok) : List B := l.flatMap Tok.text

/-- Literal text. -/
def lit (C : Ctx) (c : B) : Tok := .c c (code C.f C.quote c) (C.f.blank && C.inn && !C.quote)

/-- The text of a value. -/
def value (C : Ctx) (v : List B) : List Tok := v.map (lit { C with inn := true })

def notes (C : Ctx) (t : Tok) : List Tok := if C.quote then [] else [t]

/-- Is the parameter absent for the operator? -/
def absent (colon : Bool) (v : Option (List B)) : Bool := if colon then (v.getD []) == [] else v.isNone

/-- The meaning of a word in a context: the parts are evaluated from left to right, the word of `${x-w}` only
if it is used. -/
def den (E : Env) : Ctx → Wd → World → Den
  | _, .nil, w => .ok ([], w)
  | C, .char c r, w => Den.seq (.ok ([lit C c], w)) (den E C r)
  | C, .qchar c r, w => Den.seq (.ok ([.c c (code C.f true c) false], w)) (den E C r)
  | C, .quoted u r, w => Den.seq (Den.seq (.ok ([.mark], w)) (den E { C with quote := true } u)) (den E C r)
  | C, .com k r, w => Den.seq (.ok (value C (E.com k (note k w)), note k w)) (den E C r)
  | C, .arith k r, w =>
    Den.seq (match E.arith k (note k w) with
      | none => .error (.arith, note k w)
      | some (w', v) => .ok ([.raw v], w')) (den E C r)
  | C, .sub len x r, w =>
    Den.seq (if E.nounset = true ∧ w.vars x = none then .error (.unset x, w)
      else .ok (value C (if len then digits ((w.vars x).getD []).length else (w.vars x).getD []), w)) (den E C r)
  | C, .cond x colon op u r, w =>
    let val : Den := .ok (value C ((w.vars x).getD []), w)
    Den.seq
      (match op with
      | .minus => if absent colon (w.vars x) then Den.seq (.ok (notes C .enter, w)) (den E { C with inn := true } u) else val
      | .plus => if absent colon (w.vars x) then val else Den.seq (.ok (notes C .enter, w)) (den E { C with inn := true } u)
      | .assign =>
        if E.assignable x = false then .error (.bad, w)
        else if absent colon (w.vars x) then
          match den E ⟨⟨false, C.f.pat, false⟩, C.quote, true⟩ u w with
          | .error e => .error e
          | .ok (t, w') =>
            if E.ro x then .error (.readonly x, w')
            else
              let v := E.conv x (debunk (text t))
              .ok (notes C (if v = [] then .anull else .val) ++ value C v, w'.set x v)
        else val
      | .err =>
        if absent colon (w.vars x) then
          match den E ⟨{ C.f with blank := false }, C.quote, true⟩ u w with
          | .error e => .error e
          | .ok (t, w') => .error (.param x (if text t = [] then none else some (debunk (text t))), w')
        else val
      | .trim T =>
        if E.nounset = true ∧ w.vars x = none then .error (.unset x, w)
        else
          match den E ⟨⟨false, true, false⟩, false, true⟩ u w with
          | .error e => .error e
          | .ok (t, w') =>
            let v := E.trim T ((w'.vars x).getD []) ([7, 192] ++ text t ++ [7, 41])
            .ok (notes C (if v = [] then .enter else .val) ++ value C v, w'))
      (den E C r)
  | C, .group c u r, w => Den.seq (Den.seq (Den.seq (.ok ([.raw [7, c + 128]], w)) (den E C u)) (fun w => .ok ([.raw [7, 41]], w))) (den E C r)
  | C, .bar r, w => Den.seq (.ok ([.raw [7, 124]], w)) (den E C r)

/-- An error with a name that the code cannot print: that of a read-only variable, and long. -/
def Err.long (E : Env) : Err → Prop
  | .param x _ | .readonly x => E.ro x = true ∧ E.long x = true
  | _ => False

/-! ## Fields -/

def Tok.isNote : Tok → Bool
  | .enter | .val | .anull => true
  | _ => false

def Tok.delim (E : Env) : Tok → Bool
  | .c ch _ sp => sp && E.ifs ch
  | _ => false

/-- The runs between delimiters. -/
def runs (E : Env) : List Tok → List (List Tok)
  | [] => [[]]
  | t :: l => if t.delim E then [] :: runs E l else
    match runs E l with
    | [] => [[t]]
    | r :: rs => (t :: r) :: rs

/-- The fields of a text when IFS has only white space: the runs between delimiters that are not empty (a
quote alone makes a run that is not empty). -/
def fields (E : Env) (l : List Tok) : List (List B) :=
  ((runs E (l.filter fun t => !t.isNote)).filter fun r => !r.isEmpty).map text

end Ksh.Subst
