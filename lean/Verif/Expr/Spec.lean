import Verif.Expr.Model

/-!
# Specification of arithmetic expressions: C's lexical rules, grammar and meaning

Nothing here refers to the evaluator; from the model only the names of the
operators, `wrap64` and character classes are shared.
-/

namespace Ksh.Expr
open Ksh.Num

/-! ### Lexical rules -/

/-- Spelling of the operators. -/
def spell : Op → List Char
  | .plusplus => "++".toList | .minusminus => "--".toList | .eq => "==".toList | .ne => "!=".toList
  | .asn => "=".toList | .timesasn => "*=".toList | .divasn => "/=".toList | .modasn => "%=".toList
  | .plusasn => "+=".toList | .minusasn => "-=".toList | .lshasn => "<<=".toList
  | .rshasn => ">>=".toList | .bandasn => "&=".toList | .bxorasn => "^=".toList
  | .borasn => "|=".toList | .lsh => "<<".toList | .rsh => ">>".toList | .le => "<=".toList
  | .ge => ">=".toList | .lt => "<".toList | .gt => ">".toList | .land => "&&".toList
  | .lor => "||".toList | .times => "*".toList | .div => "/".toList | .mod => "%".toList
  | .plus => "+".toList | .minus => "-".toList | .band => "&".toList | .bxor => "^".toList
  | .bor => "|".toList | .tern => "?".toList | .comma => ",".toList | .bnot => "~".toList
  | .lnot => "!".toList | .oparen => "(".toList | .cparen => ")".toList | .ctern => ":".toList

/-- value of a list of digits in base `b`, most significant first -/
def digitsVal (b : Nat) (ds : List Nat) : Int := ds.foldl (fun (a : Int) (d : Nat) => a * b + d) 0

/-- `cs` spells the digits `ds` of base `b`. -/
def SpellsDigits (b : Nat) (cs : List Char) (ds : List Nat) : Prop :=
  cs ≠ [] ∧ cs.map digitVal = ds.map some ∧ ∀ d ∈ ds, d < b

/-- Number constants: decimal, octal with a leading `0`, hexadecimal with `0x`,
and `base#digits`.  Values are taken modulo 2^64 into the signed range. -/
inductive LitVal : List Char → Int → Prop
  | dec {cs ds} : SpellsDigits 10 cs ds → (cs.head? = some '0' → cs = ['0']) →
      LitVal cs (wrap64 (digitsVal 10 ds))
  | oct {cs ds} : SpellsDigits 8 cs ds → LitVal ('0' :: cs) (wrap64 (digitsVal 8 ds))
  | hex {cs ds} (x : Char) : (x = 'x' ∨ x = 'X') → SpellsDigits 16 cs ds →
      LitVal ('0' :: x :: cs) (wrap64 (digitsVal 16 ds))
  | based {ps pd cs ds} (b : Nat) : SpellsDigits 10 ps pd → ps.head? ≠ some '0' →
      digitsVal 10 pd = b → 2 ≤ b → b ≤ 36 → SpellsDigits b cs ds →
      LitVal (ps ++ '#' :: cs) (wrap64 (digitsVal b ds))

/-- Tokens. -/
inductive T
  | op (o : Op)
  | name (x : Name)
  | num (v : Int)
  deriving DecidableEq, Repr

/-- characters that continue a name / a number -/
def contName (c : Char) : Bool := letnum c || c == '['
def contNum (c : Char) : Bool := letnum c || c == '#'

/-- A text is cut into tokens by the maximal munch rule, blanks are skipped. -/
inductive Lexes : List Char → List T → Prop
  | nil {ws : List Char} : (∀ c ∈ ws, isSpace c = true) → Lexes ws []
  | op {ws rest : List Char} {ts : List T} (o : Op) : (∀ c ∈ ws, isSpace c = true) →
      (∀ o', (spell o).length < (spell o').length → ¬ spell o' <+: spell o ++ rest) →
      Lexes rest ts → Lexes (ws ++ (spell o ++ rest)) (.op o :: ts)
  | name {ws rest : List Char} {ts : List T} (c : Char) (x : List Char) :
      (∀ c ∈ ws, isSpace c = true) → isLetter c = true → (∀ c ∈ x, letnum c = true) →
      (∀ c, rest.head? = some c → contName c = false) →
      Lexes rest ts → Lexes (ws ++ ((c :: x) ++ rest)) (.name (c :: x) :: ts)
  | num {ws rest : List Char} {ts : List T} (t : List Char) (v : Int) :
      (∀ c ∈ ws, isSpace c = true) → LitVal t v →
      (∀ c, rest.head? = some c → contNum c = false) →
      Lexes rest ts → Lexes (ws ++ (t ++ rest)) (.num v :: ts)

/-! ### Grammar -/

inductive E
  | num (v : Int)
  | var (x : Name)
  | un (o : Op) (e : E)
  | bin (o : Op) (a b : E)
  | tern (c a b : E)
  | asn (o : Op) (x : Name) (e : E)
  | pre (o : Op) (x : Name)
  | post (o : Op) (x : Name)
  deriving DecidableEq, Repr

/-- C's precedence levels of the left-associative binary operators
(1 binds tightest). -/
def level : Op → Option Nat
  | .times | .div | .mod => some 1
  | .plus | .minus => some 2
  | .lsh | .rsh => some 3
  | .lt | .le | .gt | .ge => some 4
  | .eq | .ne => some 5
  | .band => some 6
  | .bxor => some 7
  | .bor => some 8
  | .land => some 9
  | .lor => some 10
  | .comma => some 13
  | _ => none

def isUnary : Op → Bool
  | .bnot | .lnot | .minus | .plus => true
  | _ => false

def isIncDec : Op → Bool
  | .plusplus | .minusminus => true
  | _ => false

/-- `=`, `*=`, ... -/
def isAsnOp : Op → Bool
  | .asn | .timesasn | .divasn | .modasn | .plusasn | .minusasn | .lshasn | .rshasn | .bandasn
  | .bxorasn | .borasn => true
  | _ => false

/-- The operand does not begin with a variable that is modified on the spot
(`x++`, `x = 1` as opposed to `(x = 1)`). -/
def SafeHead : List T → Prop
  | .name _ :: .op o :: _ => isIncDec o = false ∧ isAsnOp o = false
  | _ => True

/-- Lvalues: a variable, possibly in parentheses. -/
inductive LV : List T → Name → Prop
  | name (x : Name) : LV [.name x] x
  | paren {t x} : LV t x → LV (.op .oparen :: (t ++ [.op .cparen])) x

/-- The C expression grammar: `G strict k toks e` says that `toks` is an expression
of level `k` with abstract syntax `e` (0 primary and unary, 1-10 left-associative
binary operators, 11 conditional, 12 assignment, 13 comma).  With `strict` the
operands that `&&`, `||` and `?:` may skip must satisfy `SafeHead`. -/
inductive G (strict : Bool) : Nat → List T → E → Prop
  | num (v : Int) : G strict 0 [.num v] (.num v)
  | name (x : Name) : G strict 0 [.name x] (.var x)
  | paren {t e} : G strict 13 t e → G strict 0 (.op .oparen :: (t ++ [.op .cparen])) e
  | un {t e} (o : Op) : isUnary o = true → G strict 0 t e → G strict 0 (.op o :: t) (.un o e)
  | pre (o : Op) (x : Name) : isIncDec o = true → G strict 0 [.op o, .name x] (.pre o x)
  | post {t x} (o : Op) : isIncDec o = true → LV t x → G strict 0 (t ++ [.op o]) (.post o x)
  | bin {k ta a tb b} (o : Op) : level o = some (k + 1) → G strict (k + 1) ta a → G strict k tb b →
      (strict = true → o = .land ∨ o = .lor → SafeHead tb) →
      G strict (k + 1) (ta ++ (.op o :: tb)) (.bin o a b)
  | tern {tc c ta a tb b} : G strict 10 tc c → G strict 13 ta a → G strict 11 tb b →
      (strict = true → SafeHead ta ∧ SafeHead tb) →
      G strict 11 (tc ++ (.op .tern :: (ta ++ (.op .ctern :: tb)))) (.tern c a b)
  | asn {t x te e} (o : Op) : isAsnOp o = true → LV t x → G strict 12 te e →
      G strict 12 (t ++ (.op o :: te)) (.asn o x e)
  | up {k t e} : k < 13 → G strict k t e → G strict (k + 1) t e

/-! ### Meaning -/

/-- Values of the variables. -/
abbrev Env := Name → Int

def Env.set (ρ : Env) (x : Name) (v : Int) : Env := fun y => if y = x then v else ρ y

inductive Out
  | ok (v : Int) (ρ : Env)
  /-- division by zero, or assignment to a read only variable -/
  | fail (e : Err) (ρ : Env)

/-- 64-bit meaning of the binary operators on integers. -/
def meaning (m : Mach) (o : Op) (a b : Int) : Int :=
  match o with
  | .times | .timesasn => wrap64 (a * b)
  | .div | .divasn => wrap64 (a.tdiv b)
  | .mod | .modasn => wrap64 (a.tmod b)
  | .plus | .plusasn => wrap64 (a + b)
  | .minus | .minusasn => wrap64 (a - b)
  | .lsh | .lshasn => if 0 ≤ b ∧ b < 64 then wrap64 (a * 2 ^ b.toNat) else wrap64 (m.shl a b)
  | .rsh | .rshasn => if 0 ≤ b ∧ b < 64 then a.fdiv (2 ^ b.toNat) else wrap64 (m.shr a b)
  | .lt => if a < b then 1 else 0
  | .le => if a ≤ b then 1 else 0
  | .gt => if b < a then 1 else 0
  | .ge => if b ≤ a then 1 else 0
  | .eq => if a = b then 1 else 0
  | .ne => if a = b then 0 else 1
  | .band | .bandasn => (BitVec.ofInt 64 a &&& BitVec.ofInt 64 b).toInt
  | .bxor | .bxorasn => (BitVec.ofInt 64 a ^^^ BitVec.ofInt 64 b).toInt
  | .bor | .borasn => (BitVec.ofInt 64 a ||| BitVec.ofInt 64 b).toInt
  | .asn | .comma => b
  | _ => 0

def isDivision : Op → Bool
  | .div | .mod | .divasn | .modasn => true
  | _ => false

def unMeaning (o : Op) (v : Int) : Int :=
  match o with
  | .bnot => -1 - v
  | .lnot => if v = 0 then 1 else 0
  | .minus => wrap64 (0 - v)
  | _ => v

/-- Meaning of an expression, operands evaluated left to right.  `ro` are the read
only variables.  `pv` is the value a postfix operator yields for the old value;
C semantics is `pv = id`. -/
def den (m : Mach) (ro : Name → Bool) (pv : Int → Int) : E → Env → Out
  | .num v, ρ => .ok v ρ
  | .var x, ρ => .ok (ρ x) ρ
  | .un o e, ρ =>
    match den m ro pv e ρ with
    | .ok v ρ => .ok (unMeaning o v) ρ
    | .fail er ρ => .fail er ρ
  | .bin o a b, ρ =>
    match den m ro pv a ρ with
    | .fail er ρ => .fail er ρ
    | .ok va ρ =>
      if o = .land ∧ va = 0 then .ok 0 ρ
      else if o = .lor ∧ va ≠ 0 then .ok 1 ρ
      else
        match den m ro pv b ρ with
        | .fail er ρ => .fail er ρ
        | .ok vb ρ =>
          if o = .land ∨ o = .lor then .ok (if vb = 0 then 0 else 1) ρ
          else if isDivision o = true ∧ vb = 0 then .fail .zerodiv ρ
          else .ok (meaning m o va vb) ρ
  | .tern c a b, ρ =>
    match den m ro pv c ρ with
    | .fail er ρ => .fail er ρ
    | .ok vc ρ => if vc ≠ 0 then den m ro pv a ρ else den m ro pv b ρ
  | .asn o x e, ρ =>
    if ro x = true then .fail .rdonly ρ
    else
      let old := ρ x
      match den m ro pv e ρ with
      | .fail er ρ => .fail er ρ
      | .ok v ρ =>
        if isDivision o = true ∧ v = 0 then .fail .zerodiv ρ
        else .ok (meaning m o old v) (ρ.set x (meaning m o old v))
  | .pre o x, ρ =>
    if ro x = true then .fail .rdonly ρ
    else
      let new := wrap64 (if o = .plusplus then ρ x + 1 else ρ x - 1)
      .ok new (ρ.set x new)
  | .post o x, ρ =>
    if ro x = true then .fail .rdonly ρ
    else .ok (pv (ρ x)) (ρ.set x (wrap64 (if o = .plusplus then ρ x + 1 else ρ x - 1)))

/-! ### The variables of the shell and the environment of the meaning -/

/-- The number a variable holds, if its value is a number: unset counts as 0, a
text must be a numeral. -/
def numberOf : Val → Option Int
  | .unset => some 0
  | .int v => some v
  | .text t => (getint t true false).map (·.num)

/-- All variables hold numbers (given by `ρ`), and `ro` are the read only ones. -/
def Match (ro : Name → Bool) (σ : Store) (ρ : Env) : Prop :=
  ∀ x, numberOf (look σ x).val = some (ρ x) ∧ InRange (ρ x) ∧ (look σ x).ro = ro x ∧
    (look σ x).inEval = false

end Ksh.Expr
