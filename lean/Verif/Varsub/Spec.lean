import Verif.Varsub.Model

/-!
# `${...}`: what the manual says

"If name is set and not null" and its relatives, for every kind of parameter; the option nounset.
-/
namespace Ksh.Varsub

/-- What follows the name. -/
inductive Form where
  | plain
  | use (colon : Bool)      -- `-`
  | assign (colon : Bool)   -- `=`
  | alt (colon : Bool)      -- `+`
  | need (colon : Bool)     -- `?`
  | trim (colon : Bool) (suffix longest : Bool)   -- `#`, `##`, `%`, `%%`; a colon in front is ignored
  deriving DecidableEq, Repr

def colonCode (b : Bool) : List W := if b then [.char ':'] else []

/-- How the lexer writes a form. -/
def Form.code : Form → List W
  | .plain => []
  | .use b => colonCode b ++ [.char '-']
  | .assign b => colonCode b ++ [.char '=']
  | .alt b => colonCode b ++ [.char '+']
  | .need b => colonCode b ++ [.char '?']
  | .trim b suf long =>
    colonCode b ++ (if suf then .char '%' else .char '#') ::
      (if long then [if suf then .char '%' else .char '#'] else [])

/-- What may follow: the word and its end.  After a plain name the end; after a single `#` no second one. -/
def Form.fits (f : Form) (rest : List W) : Prop :=
  match f with
  | .plain => rest.head? = some .csubst
  | .trim _ suf false => rest.head? ≠ some (if suf then .char '%' else .char '#')
  | _ => True

/-- The value of a parameter: one text or none, or a list of texts. -/
inductive Val where
  | one (v : Option Str)
  | many (l : List Str)

def value (e : Env) : Par → Val
  | .none => .one none
  | .ref r => .one (e.ref r)
  | .pos n => .one ((e.zero :: e.args)[n]?)
  | .special c => .one (e.special c)
  | .star | .ats => .many e.args
  | .arr a _ => .many (e.elems a)

/-- A parameter is set; it is null if its text, for a list the texts joined by spaces, is empty. -/
def Val.set : Val → Bool
  | .one v => v.isSome
  | .many l => !l.isEmpty

def Val.null : Val → Bool
  | .one v => v.getD [] = []
  | .many l => [' '].intercalate l = []

/-- "Set", or with a colon "set and not null". -/
def Val.there (v : Val) (colon : Bool) : Bool := v.set && !(colon && v.null)

def vector : Par → Bool
  | .star | .ats | .arr _ _ => true
  | _ => false

/-- Only variables can be assigned to. -/
def assignable : Par → Bool
  | .ref _ => true
  | _ => false

/-- The value of the parameter, as fields or as a text. -/
def given (e : Env) : Par → Res
  | .star => if e.args = [] then .xsub [] else .xarg e.args false
  | .ats => if e.args = [] then .xnullsub else .xarg e.args true
  | .arr a isAt =>
    if e.elems a = [] then (if isAt then .xnullsub else .xsub []) else .xarg (e.elems a) isAt
  | p => match value e p with
    | .one v => .xsub (v.getD [])
    | .many _ => .bad

/-- nounset: a parameter that is not set is an error, except `$*` and `$@`. -/
def missing (e : Env) (p : Par) : Bool :=
  e.nounset && !(value e p).set && !(p = .star || p = .ats)

/-- The parameter, or the word. -/
def meaning (e : Env) (p : Par) (f : Form) : Res :=
  match f with
  | .plain => if missing e p then .unset else given e p
  | .use b => if (value e p).there b then given e p else .xbase b '-'
  | .assign b =>
    if assignable p then (if (value e p).there b then given e p else .xbase b '=') else .bad
  | .alt b => if (value e p).there b then .xbase b '+' else given e p
  | .need b => if (value e p).there b then given e p else .xbase b '?'
  | .trim _ suf long =>
    if vector p then .bad
    else if missing e p then .unset else .xbase long (if suf then '%' else '#')

/-- The length of the text, or the number of texts. -/
def size : Val → Nat
  | .one v => (v.getD []).length
  | .many l => l.length

def lenMeaning (e : Env) (p : Par) : Res :=
  match p with
  | .arr a _ =>
    if e.nounset && !e.declared a && (e.elems a).isEmpty then .unset
    else .xsub (toString (size (value e p))).toList
  | p => if missing e p then .unset else .xsub (toString (size (value e p))).toList

end Ksh.Varsub
