import Verif.Num.Model

/-!
# Model of arithmetic expression evaluation (expr.c)

The evaluator is transcribed with its own state (lexical position, current
token, value attached to the token, `noassign` counter) because it parses and
evaluates in one pass: the *moment* a token is read decides whether it stands
for the real variable.

Simplifications:
* array references (`x[...]`) give the outcome `.array`: not modelled;
* variables have no justification or case attributes and no special behaviour
  (`RANDOM`, `SECONDS`, ...); their value is unset, an integer or a text;
* temporaries (`tempvar`) are values; the only aliasing in the C code is between
  `es->val` and a temporary in `noassign` mode, where values are never used;
* signed overflow wraps; a shift count outside 0..63 gives an arbitrary value
  chosen by the parameter `Mach` (undefined behaviour in C).
-/

namespace Ksh.Expr
open Ksh.Num

abbrev Name := List Char

/-- The operators, in the order of `enum token` (expr.c:17-43). -/
inductive Op
  | plusplus | minusminus | eq | ne
  | asn | timesasn | divasn | modasn | plusasn | minusasn | lshasn | rshasn | bandasn | bxorasn | borasn
  | lsh | rsh | le | ge | lt | gt | land | lor | times | div | mod | plus | minus | band | bxor | bor
  | tern | comma | bnot | lnot | oparen | cparen | ctern
  deriving DecidableEq, Repr

/-- `opinfo[]` (expr.c:75-115): name and precedence, in table order. -/
def opinfo : List (Op × List Char × Nat) := [
  (.plusplus, ['+', '+'], 0), (.minusminus, ['-', '-'], 0),
  (.eq, ['=', '='], 5), (.ne, ['!', '='], 5),
  (.asn, ['='], 12), (.timesasn, ['*', '='], 12), (.divasn, ['/', '='], 12), (.modasn, ['%', '='], 12),
  (.plusasn, ['+', '='], 12), (.minusasn, ['-', '='], 12), (.lshasn, ['<', '<', '='], 12),
  (.rshasn, ['>', '>', '='], 12), (.bandasn, ['&', '='], 12), (.bxorasn, ['^', '='], 12),
  (.borasn, ['|', '='], 12),
  (.lsh, ['<', '<'], 3), (.rsh, ['>', '>'], 3), (.le, ['<', '='], 4), (.ge, ['>', '='], 4),
  (.lt, ['<'], 4), (.gt, ['>'], 4), (.land, ['&', '&'], 9), (.lor, ['|', '|'], 10),
  (.times, ['*'], 1), (.div, ['/'], 1), (.mod, ['%'], 1), (.plus, ['+'], 2), (.minus, ['-'], 2),
  (.band, ['&'], 6), (.bxor, ['^'], 7), (.bor, ['|'], 8), (.tern, ['?'], 11), (.comma, [','], 13),
  (.bnot, ['~'], 0), (.lnot, ['!'], 0), (.oparen, ['('], 0), (.cparen, [')'], 0), (.ctern, [':'], 0)]

/-- Index of an operator in the enumeration. -/
def Op.idx (o : Op) : Nat := (opinfo.map (·.1)).idxOf o
/-- `opinfo[op].prec` -/
def Op.prec (o : Op) : Nat := ((opinfo.find? (·.1 == o)).map (·.2.2)).getD 0
/-- `IS_BINOP` (expr.c:44) -/
def isBinop (o : Op) : Bool := decide (Op.eq.idx ≤ o.idx) && decide (o.idx ≤ Op.comma.idx)
/-- `IS_ASSIGNOP` (expr.c:45) -/
def isAssign (o : Op) : Bool := decide (Op.asn.idx ≤ o.idx) && decide (o.idx ≤ Op.borasn.idx)

/-- The test of expr.c:336-337. -/
def isDivOp (o : Op) : Bool := o == .div || o == .mod || o == .divasn || o == .modasn

/-- `enum prec` values used below (expr.c:47-63). -/
def pPrimary := 0
def pTern := 11
def pAssign := 12
def maxPrec := 13

/-- The value of a shell variable. -/
inductive Val
  | unset
  | int (v : Int)
  | text (s : List Char)
  deriving DecidableEq, Repr

/-- A shell variable: `isInt` is `INTEGER`, `ro` is `RDONLY`, `inEval` is
`EXPRINEVAL`. -/
structure Var where
  isInt : Bool
  val : Val
  ro : Bool
  inEval : Bool
  deriving DecidableEq, Repr

/-- The variables, newest definition first. -/
abbrev Store := List (Name × Var)

/-- `global(name)`: a missing variable is created unset. -/
def look (σ : Store) (x : Name) : Var :=
  ((σ.find? (·.1 == x)).map (·.2)).getD { isInt := false, val := .unset, ro := false, inEval := false }

/-- overwrite the entry of a variable (in place, or at the end if missing) -/
def put (σ : Store) (x : Name) (v : Var) : Store :=
  match σ with
  | [] => [(x, v)]
  | (y, w) :: σ => if y == x then (y, v) :: σ else (y, w) :: put σ x v

/-- What `evalexpr` passes around: a temporary (with its `EXPRLVALUE` flag) or a
shell variable. -/
inductive Ref
  | tmp (v : Int) (lv : Bool)
  | var (x : Name)
  deriving DecidableEq, Repr

inductive Tok
  | op (o : Op)
  | var
  | lit
  | fin
  | bad
  deriving DecidableEq, Repr

/-- `Expr_state` (expr.c:119-131) plus the variables. -/
structure St where
  rest : List Char
  tok : Tok
  val : Option Ref
  na : Nat
  vars : Store
  deriving DecidableEq, Repr

inductive Err
  | unexpected | badlit | recursive | lvalue | rdonly | zerodiv | missingParen | missingColon
  | missingBracket
  deriving DecidableEq, Repr

/-- Outcomes that are not the evaluator's own errors. -/
inductive Stuck
  /-- the model ran out of fuel -/
  | fuel
  /-- the machine's division trap -/
  | trap
  /-- array references are not modelled -/
  | array
  /-- a null pointer would be dereferenced -/
  | null
  deriving DecidableEq, Repr

/-- Outcome of an evaluation step.  An error carries the variables at that point. -/
inductive Res (α : Type) where
  | ok (a : α)
  | err (e : Err) (σ : Store)
  | stuck (k : Stuck)
  deriving Repr

def Res.bind {α β : Type} : Res α → (α → Res β) → Res β
  | .ok a, f => f a
  | .err e σ, _ => .err e σ
  | .stuck k, _ => .stuck k

/-- Value produced by the machine for shift counts outside 0..63. -/
structure Mach where
  shl : Int → Int → Int
  shr : Int → Int → Int

/-- C's `/` and `%` on `int64_t`: `none` is the machine trap. -/
def cdiv (a b : Int) : Option Int :=
  if b = 0 ∨ (a = int64Min ∧ b = -1) then none else some (Int.tdiv a b)
def cmod (a b : Int) : Option Int :=
  if b = 0 ∨ (a = int64Min ∧ b = -1) then none else some (Int.tmod a b)

def bits (v : Int) : BitVec 64 := BitVec.ofInt 64 v
def ofBool (b : Bool) : Int := if b then 1 else 0

/-- The arithmetic switch (expr.c:343-407, 444-449); `none` is a machine trap.
`O_LAND`, `O_LOR` and `O_TERN` are handled by the caller. -/
def binArith (m : Mach) (op : Op) (l r : Int) : Option Int :=
  match op with
  | .times | .timesasn => some (wrap64 (l * r))
  | .div | .divasn => if l = int64Min ∧ r = -1 then some int64Min else cdiv l r
  | .mod | .modasn => if l = int64Min ∧ r = -1 then some 0 else cmod l r
  | .plus | .plusasn => some (wrap64 (l + r))
  | .minus | .minusasn => some (wrap64 (l - r))
  | .lsh | .lshasn =>
    some (wrap64 (if 0 ≤ r ∧ r < 64 then l * 2 ^ r.toNat else m.shl l r))
  | .rsh | .rshasn =>
    some (wrap64 (if 0 ≤ r ∧ r < 64 then l / 2 ^ r.toNat else m.shr l r))
  | .lt => some (ofBool (l < r))
  | .le => some (ofBool (l ≤ r))
  | .gt => some (ofBool (l > r))
  | .ge => some (ofBool (l ≥ r))
  | .eq => some (ofBool (l = r))
  | .ne => some (ofBool (l ≠ r))
  | .band | .bandasn => some (bits l &&& bits r).toInt
  | .bxor | .bxorasn => some (bits l ^^^ bits r).toInt
  | .bor | .borasn => some (bits l ||| bits r).toInt
  | .asn | .comma => some r
  | _ => some 0

/-- Unary operators (expr.c:294-300). -/
def unArith (op : Op) (v : Int) : Int :=
  match op with
  | .bnot => -v - 1
  | .lnot => ofBool (v = 0)
  | .minus => wrap64 (-v)
  | _ => v

def isLetter (c : Char) : Bool := isLower c || isUpper c || c == '_'

/-- First operator of the table that is a prefix of the text (expr.c:519-527). -/
def findOp (s : List Char) : Option (Op × List Char × Nat) :=
  opinfo.find? (fun i => i.2.1.isPrefixOf s)

/-- `token` (expr.c:464-530).  `array_ref_len` and array subscripts are not modelled. -/
def token (ar : Bool) (st : St) : Res St :=
  let s := st.rest.dropWhile isSpace
  match s with
  | [] => .ok { st with rest := [], tok := .fin }
  | c :: _ =>
    if isLetter c then
      let nm := s.takeWhile letnum
      let s' := s.dropWhile letnum
      if s'.head? = some '[' then .stuck .array
      else .ok { st with
        rest := s', tok := .var,
        val := some (if st.na ≠ 0 then .tmp 0 true else .var nm) }
    else if isDigit c then
      let p := fun c => c != '_' && (letnum c || c == '#')
      let t := s.takeWhile p
      match getint t ar false with
      | none => .err .badlit st.vars
      | some g => .ok { st with rest := s.dropWhile p, tok := .lit, val := some (.tmp g.num false) }
    else
      match findOp s with
      | some i => .ok { st with rest := s.drop i.2.1.length, tok := .op i.1 }
      | none => .ok { st with rest := s, tok := .bad }

/-- `assign_check` (expr.c:553-561) -/
def assignCheck (vasn : Option Ref) (st : St) : Res Unit :=
  if st.tok = .fin then .err .lvalue st.vars
  else match vasn with
    | none => .err .lvalue st.vars
    | some (.tmp _ lv) => if lv then .ok () else .err .lvalue st.vars
    | some (.var x) => if (look st.vars x).ro then .err .rdonly st.vars else .ok ()

/-- Decimal text `setint` stores into a string variable (var.c:416-432 with `vtemp`
of base 0, i.e. 10). -/
def decText (v : Int) : List Char := (strVal { base := 0, unsign := false, upper := false } v).1

/-- Store an integer into a variable (`setint_v`/`setint`, expr.c:451-457, 543-546). -/
def assignVar (σ : Store) (x : Name) (v : Int) : Store :=
  let w := look σ x
  put σ x { w with val := if w.isInt then .int v else .text (decText v) }

def assignRef (st : St) (r : Ref) (v : Int) : St :=
  match r with
  | .tmp _ _ => st
  | .var x => { st with vars := assignVar st.vars x v }

def setEval (σ : Store) (x : Name) (b : Bool) : Store := put σ x { look σ x with inEval := b }

mutual

/-- `evalexpr` (expr.c:281-462) -/
def ev (m : Mach) (ar : Bool) : Nat → Nat → St → Res (Ref × St)
  | 0, _, _ => .stuck .fuel
  | n + 1, 0, st =>
    -- expr.c:288-323
    match st.tok with
    | .op o =>
      if o = .bnot ∨ o = .lnot ∨ o = .minus ∨ o = .plus then
        (token ar st).bind fun st =>
        (ev m ar n 0 st).bind fun (r, st) =>
        (intvar m ar n r st).bind fun (v, st) =>
        evPost m ar n (.tmp (unArith o v) false) st
      else if o = .oparen then
        (token ar st).bind fun st =>
        (ev m ar n maxPrec st).bind fun (r, st) =>
        if st.tok ≠ .op .cparen then .err .missingParen st.vars
        else (token ar st).bind fun st => evPost m ar n r st
      else if o = .plusplus ∨ o = .minusminus then
        (token ar st).bind fun st =>
        (ppmm m ar n o st.val true st).bind fun (r, st) =>
        (token ar st).bind fun st => evPost m ar n r st
      else .err .unexpected st.vars
    | .var | .lit =>
      match st.val with
      | none => .stuck .null
      | some r => (token ar st).bind fun st => evPost m ar n r st
    | .fin | .bad => .err .unexpected st.vars
  | n + 1, p + 1, st =>
    -- expr.c:324
    (ev m ar n p st).bind fun (vl, st) => evLoop m ar n (p + 1) vl st

/-- The postfix operator of a primary (expr.c:318-322). -/
def evPost (m : Mach) (ar : Bool) : Nat → Ref → St → Res (Ref × St)
  | 0, _, _ => .stuck .fuel
  | n + 1, vl, st =>
    if st.tok = .op .plusplus then
      (ppmm m ar n .plusplus (some vl) false st).bind fun (r, st) =>
      (token ar st).bind fun st => .ok (r, st)
    else if st.tok = .op .minusminus then
      (ppmm m ar n .minusminus (some vl) false st).bind fun (r, st) =>
      (token ar st).bind fun st => .ok (r, st)
    else .ok (vl, st)

/-- The loop over binary operators of one precedence (expr.c:325-461). -/
def evLoop (m : Mach) (ar : Bool) : Nat → Nat → Ref → St → Res (Ref × St)
  | 0, _, _, _ => .stuck .fuel
  | n + 1, p, vl, st =>
    match st.tok with
    | .op op =>
      if isBinop op && op.prec == p then
        (token ar st).bind fun st =>
        if op = .asn then
          (assignCheck (some vl) st).bind fun _ =>
          (ev m ar n pAssign st).bind fun (r, st) =>
          (intvar m ar n r st).bind fun (vr, st) =>
          evLoop m ar n p (.tmp vr false) (assignRef st vl vr)
        else
          (intvar m ar n vl st).bind fun (l, st) =>
          if isAssign op then
            (assignCheck (some vl) st).bind fun _ =>
            (ev m ar n pAssign st).bind fun (r, st) =>
            (intvar m ar n r st).bind fun (vr, st) =>
            if isDivOp op = true ∧ vr = 0 ∧ st.na = 0 then .err .zerodiv st.vars
            else
              let vr := if isDivOp op = true ∧ vr = 0 then 1 else vr
              match binArith m op l vr with
              | none => .stuck .trap
              | some res => evLoop m ar n p (.tmp res false) (assignRef st vl res)
          else if op = .land then
            -- expr.c:408-415
            (ev m ar n (p - 1) (if l = 0 then { st with na := st.na + 1 } else st)).bind fun (r, st) =>
            (intvar m ar n r st).bind fun (vr, st) =>
            evLoop m ar n p (.tmp (ofBool (l ≠ 0 ∧ vr ≠ 0)) false)
              (if l = 0 then { st with na := st.na - 1 } else st)
          else if op = .lor then
            -- expr.c:416-423
            (ev m ar n (p - 1) (if l ≠ 0 then { st with na := st.na + 1 } else st)).bind fun (r, st) =>
            (intvar m ar n r st).bind fun (vr, st) =>
            evLoop m ar n p (.tmp (ofBool (l ≠ 0 ∨ vr ≠ 0)) false)
              (if l ≠ 0 then { st with na := st.na - 1 } else st)
          else if op = .tern then
            -- expr.c:424-443
            (ev m ar n maxPrec (if l = 0 then { st with na := st.na + 1 } else st)).bind fun (r2, st) =>
            let st := if l = 0 then { st with na := st.na - 1 } else st
            if st.tok ≠ .op .ctern then .err .missingColon st.vars
            else
              (token ar st).bind fun st =>
              (ev m ar n pTern (if l ≠ 0 then { st with na := st.na + 1 } else st)).bind fun (r3, st) =>
              let st := if l ≠ 0 then { st with na := st.na - 1 } else st
              evLoop m ar n p (if l ≠ 0 then r2 else r3) st
          else
            (ev m ar n (p - 1) st).bind fun (r, st) =>
            (intvar m ar n r st).bind fun (vr, st) =>
            if isDivOp op = true ∧ vr = 0 ∧ st.na = 0 then .err .zerodiv st.vars
            else
              let vr := if isDivOp op = true ∧ vr = 0 then 1 else vr
              match binArith m op l vr with
              | none => .stuck .trap
              | some res => evLoop m ar n p (.tmp res false) st
      else .ok (vl, st)
    | _ => .ok (vl, st)

/-- `do_ppmm` (expr.c:533-551).  `oval` is an `int`, so the old value is truncated
to 32 bits. -/
def ppmm (m : Mach) (ar : Bool) : Nat → Op → Option Ref → Bool → St → Res (Ref × St)
  | 0, _, _, _, _ => .stuck .fuel
  | n + 1, op, vasn, pre, st =>
    (assignCheck vasn st).bind fun _ =>
    match vasn with
    | none => .stuck .null
    | some r =>
      (intvar m ar n r st).bind fun (v, st) =>
      let v' := wrap64 (if op = .plusplus then v + 1 else v - 1)
      .ok (.tmp (if pre then v' else wrap32 v) false, assignRef st r v')

/-- `intvar` (expr.c:578-601): the integer value of a temporary or variable. -/
def intvar (m : Mach) (ar : Bool) : Nat → Ref → St → Res (Int × St)
  | 0, _, _ => .stuck .fuel
  | n + 1, r, st =>
    match r with
    | .tmp v _ => .ok (v, st)
    | .var x =>
      let w := look st.vars x
      match (match w.val with
        | .unset => none
        | .int v => some v
        | .text t => (getint t ar false).map (·.num)) with
      | some v => .ok (v, st)
      | none =>
        if w.inEval then .err .recursive st.vars
        else
          let t := match w.val with | .text t => t | _ => []
          match vEval m ar n t (setEval st.vars x true) with
          | .ok (v, σ) => .ok (v, { st with vars := setEval σ x false })
          | .err e σ => .err e (setEval σ x false)
          | .stuck k => .stuck k

/-- `v_evaluate` (expr.c:166-222) storing into a temporary. -/
def vEval (m : Mach) (ar : Bool) : Nat → List Char → Store → Res (Int × Store)
  | 0, _, _ => .stuck .fuel
  | n + 1, t, σ =>
    (token ar { rest := t, tok := .bad, val := none, na := 0, vars := σ }).bind fun st =>
    let st := if st.tok = .fin then { st with tok := .lit, val := some (.tmp 0 false) } else st
    (ev m ar n maxPrec st).bind fun (r, st) =>
    (intvar m ar n r st).bind fun (v, st) =>
    if st.tok ≠ .fin then .err .unexpected st.vars else .ok (v, st.vars)

end

end Ksh.Expr
