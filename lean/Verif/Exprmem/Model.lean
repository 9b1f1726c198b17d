import Verif.Expr.Model

/-!
# The memory arithmetic expressions are read from

`Ksh.Expr` takes the text of an expression as a value.  In the code it is a pointer: when a variable
holds an expression, `intvar` (expr.c:578-601) passes `str_val(vp)`, the storage of the variable
itself, to `v_evaluate`, which reads it token by token (`es->tokp`) and prints it in messages
(`es->expression`).  An assignment to a variable that is not an integer frees that storage
(`setstr`, var.c:383-391, by way of `setint`, var.c:424-432).

Here every evaluation knows the variable its text belongs to, and `dead` is the set of the variables
whose text was freed while an evaluation was reading it.  Reading such a text is the outcome `uaf`.
The rest is `Ksh.Expr`, with the same simplifications.
-/
namespace Ksh.Exprmem
open Ksh.Num Ksh.Expr

/-- `Expr_state`, the owner of `es->expression` (none: a text no variable owns) and the texts that
were freed under a reader. -/
structure M where
  st : St
  src : Option Name
  dead : List Name
  deriving DecidableEq

/-- The text being read was freed. -/
def M.lost (s : M) : Bool :=
  match s.src with
  | none => false
  | some x => s.dead.contains x

inductive R (α : Type) where
  | ok (a : α)
  | err (e : Err) (σ : Store)
  | stuck (k : Stuck)
  /-- freed memory is read -/
  | uaf
  deriving DecidableEq

def R.bind {α β : Type} : R α → (α → R β) → R β
  | .ok a, f => f a
  | .err e σ, _ => .err e σ
  | .stuck k, _ => .stuck k
  | .uaf, _ => .uaf

/-- `evalerr` (expr.c:224-278) prints `es->expression`. -/
def fail {α : Type} (s : M) (e : Err) : R α := if s.lost then .uaf else .err e s.st.vars

/-- `token` (expr.c:464-530) reads at `es->tokp`. -/
def token (ar : Bool) (s : M) : R M :=
  if s.lost then .uaf
  else match Expr.token ar s.st with
    | .ok st => .ok { s with st := st }
    | .err e σ => .err e σ
    | .stuck k => .stuck k

/-- `assign_check` (expr.c:553-561) -/
def assignCheck (vasn : Option Ref) (s : M) : R Unit :=
  match Expr.assignCheck vasn s.st with
  | .ok a => .ok a
  | .err e _ => fail s e
  | .stuck k => .stuck k

/-- Whether an assignment frees a text that is being read: the variable is not an integer, has a
text, and is being evaluated (var.c:383-391). -/
def frees (σ : Store) (x : Name) : Bool :=
  let w := look σ x
  !w.isInt && w.inEval && (match w.val with | .text _ => true | _ => false)

/-- `setint_v`/`setint` (expr.c:451-457, 543-546) -/
def assignRef (s : M) (r : Ref) (v : Int) : M :=
  match r with
  | .tmp _ _ => s
  | .var x =>
    { s with st := Expr.assignRef s.st (.var x) v
             dead := if frees s.st.vars x then x :: s.dead else s.dead }

/-- `getint` for a variable (var.c:435-498) -/
def num (ar : Bool) (w : Var) : Option Int :=
  match w.val with
  | .unset => none
  | .int v => some v
  | .text t => (getint t ar false).map (·.num)

/-- `str_val` of a variable that is no number (var.c:303-354) -/
def textOf (w : Var) : List Char := match w.val with | .text t => t | _ => []

def M.na1 (s : M) (b : Bool) : M := if b then { s with st := { s.st with na := s.st.na + 1 } } else s
def M.na0 (s : M) (b : Bool) : M := if b then { s with st := { s.st with na := s.st.na - 1 } } else s

mutual

/-- `evalexpr` (expr.c:281-462) -/
def ev (m : Mach) (ar : Bool) : Nat → Nat → M → R (Ref × M)
  | 0, _, _ => .stuck .fuel
  | n + 1, 0, s =>
    -- expr.c:288-323
    match s.st.tok with
    | .op o =>
      if o = .bnot ∨ o = .lnot ∨ o = .minus ∨ o = .plus then
        (token ar s).bind fun s =>
        (ev m ar n 0 s).bind fun (r, s) =>
        (intvar m ar n r s).bind fun (v, s) =>
        evPost m ar n (.tmp (unArith o v) false) s
      else if o = .oparen then
        (token ar s).bind fun s =>
        (ev m ar n maxPrec s).bind fun (r, s) =>
        if s.st.tok ≠ .op .cparen then fail s .missingParen
        else (token ar s).bind fun s => evPost m ar n r s
      else if o = .plusplus ∨ o = .minusminus then
        (token ar s).bind fun s =>
        (ppmm m ar n o s.st.val true s).bind fun (r, s) =>
        (token ar s).bind fun s => evPost m ar n r s
      else fail s .unexpected
    | .var | .lit =>
      match s.st.val with
      | none => .stuck .null
      | some r => (token ar s).bind fun s => evPost m ar n r s
    | .fin | .bad => fail s .unexpected
  | n + 1, p + 1, s =>
    (ev m ar n p s).bind fun (vl, s) => evLoop m ar n (p + 1) vl s

/-- The postfix operator of a primary (expr.c:318-322). -/
def evPost (m : Mach) (ar : Bool) : Nat → Ref → M → R (Ref × M)
  | 0, _, _ => .stuck .fuel
  | n + 1, vl, s =>
    if s.st.tok = .op .plusplus then
      (ppmm m ar n .plusplus (some vl) false s).bind fun (r, s) =>
      (token ar s).bind fun s => .ok (r, s)
    else if s.st.tok = .op .minusminus then
      (ppmm m ar n .minusminus (some vl) false s).bind fun (r, s) =>
      (token ar s).bind fun s => .ok (r, s)
    else .ok (vl, s)

/-- The loop over binary operators of one precedence (expr.c:325-461). -/
def evLoop (m : Mach) (ar : Bool) : Nat → Nat → Ref → M → R (Ref × M)
  | 0, _, _, _ => .stuck .fuel
  | n + 1, p, vl, s =>
    match s.st.tok with
    | .op op =>
      if isBinop op && op.prec == p then
        (token ar s).bind fun s =>
        if op = .asn then
          (assignCheck (some vl) s).bind fun _ =>
          (ev m ar n pAssign s).bind fun (r, s) =>
          (intvar m ar n r s).bind fun (vr, s) =>
          evLoop m ar n p (.tmp vr false) (assignRef s vl vr)
        else
          (intvar m ar n vl s).bind fun (l, s) =>
          if isAssign op then
            (assignCheck (some vl) s).bind fun _ =>
            (ev m ar n pAssign s).bind fun (r, s) =>
            (intvar m ar n r s).bind fun (vr, s) =>
            if isDivOp op = true ∧ vr = 0 ∧ s.st.na = 0 then fail s .zerodiv
            else
              let vr := if isDivOp op = true ∧ vr = 0 then 1 else vr
              match binArith m op l vr with
              | none => .stuck .trap
              | some res => evLoop m ar n p (.tmp res false) (assignRef s vl res)
          else if op = .land then
            (ev m ar n (p - 1) (s.na1 (l = 0))).bind fun (r, s) =>
            (intvar m ar n r s).bind fun (vr, s) =>
            evLoop m ar n p (.tmp (ofBool (l ≠ 0 ∧ vr ≠ 0)) false) (s.na0 (l = 0))
          else if op = .lor then
            (ev m ar n (p - 1) (s.na1 (l ≠ 0))).bind fun (r, s) =>
            (intvar m ar n r s).bind fun (vr, s) =>
            evLoop m ar n p (.tmp (ofBool (l ≠ 0 ∨ vr ≠ 0)) false) (s.na0 (l ≠ 0))
          else if op = .tern then
            (ev m ar n maxPrec (s.na1 (l = 0))).bind fun (r2, s) =>
            let s := s.na0 (l = 0)
            if s.st.tok ≠ .op .ctern then fail s .missingColon
            else
              (token ar s).bind fun s =>
              (ev m ar n pTern (s.na1 (l ≠ 0))).bind fun (r3, s) =>
              evLoop m ar n p (if l ≠ 0 then r2 else r3) (s.na0 (l ≠ 0))
          else
            (ev m ar n (p - 1) s).bind fun (r, s) =>
            (intvar m ar n r s).bind fun (vr, s) =>
            if isDivOp op = true ∧ vr = 0 ∧ s.st.na = 0 then fail s .zerodiv
            else
              let vr := if isDivOp op = true ∧ vr = 0 then 1 else vr
              match binArith m op l vr with
              | none => .stuck .trap
              | some res => evLoop m ar n p (.tmp res false) s
      else .ok (vl, s)
    | _ => .ok (vl, s)

/-- `do_ppmm` (expr.c:533-551) -/
def ppmm (m : Mach) (ar : Bool) : Nat → Op → Option Ref → Bool → M → R (Ref × M)
  | 0, _, _, _, _ => .stuck .fuel
  | n + 1, op, vasn, pre, s =>
    (assignCheck vasn s).bind fun _ =>
    match vasn with
    | none => .stuck .null
    | some r =>
      (intvar m ar n r s).bind fun (v, s) =>
      let v' := wrap64 (if op = .plusplus then v + 1 else v - 1)
      .ok (.tmp (if pre then v' else wrap32 v) false, assignRef s r v')

/-- `intvar` (expr.c:578-601): the text of `x` is read where it is stored.  Once that evaluation is
over nobody reads it any more. -/
def intvar (m : Mach) (ar : Bool) : Nat → Ref → M → R (Int × M)
  | 0, _, _ => .stuck .fuel
  | n + 1, r, s =>
    match r with
    | .tmp v _ => .ok (v, s)
    | .var x =>
      match num ar (look s.st.vars x) with
      | some v => .ok (v, s)
      | none =>
        if (look s.st.vars x).inEval then fail s .recursive
        else
          match vEval m ar n (textOf (look s.st.vars x)) (some x) (setEval s.st.vars x true) s.dead with
          | .ok (v, σ, d) =>
            .ok (v, { s with st := { s.st with vars := setEval σ x false }, dead := d.filter (· ≠ x) })
          | .err e σ => .err e (setEval σ x false)
          | .stuck k => .stuck k
          | .uaf => .uaf

/-- `v_evaluate` (expr.c:166-222) storing into a temporary. -/
def vEval (m : Mach) (ar : Bool) : Nat → List Char → Option Name → Store → List Name →
    R (Int × Store × List Name)
  | 0, _, _, _, _ => .stuck .fuel
  | n + 1, t, src, σ, d =>
    (token ar { st := { rest := t, tok := .bad, val := none, na := 0, vars := σ }, src := src,
                dead := d }).bind fun s =>
    let s := if s.st.tok = .fin then { s with st := { s.st with tok := .lit, val := some (.tmp 0 false) } }
      else s
    (ev m ar n maxPrec s).bind fun (r, s) =>
    (intvar m ar n r s).bind fun (v, s) =>
    if s.st.tok ≠ .fin then fail s .unexpected else .ok (v, s.st.vars, s.dead)

end

/-- `$((…))`, `let` and the like: a text no variable owns, no variable being evaluated. -/
def evaluate (m : Mach) (ar : Bool) (n : Nat) (t : List Char) (σ : Store) : R (Int × Store × List Name) :=
  vEval m ar n t none σ []

/-- `typeset -i x` for a variable with a text (var.c:672-737): the variable is made an integer, whose
value is in the place of the pointer to the text (`addr`), then the text is evaluated and its value
assigned.  The text itself is freed only afterwards.  If the evaluation fails the variable is unset. -/
def typesetInt (m : Mach) (n : Nat) (x : Name) (addr : Int) (σ : Store) : R Store :=
  let w := look σ x
  match vEval m true n (textOf w) none (put σ x { w with isInt := true, val := .int addr }) [] with
  | .ok (v, σ, _) => .ok (assignVar σ x v)
  | .err e σ => .err e (put σ x { look σ x with val := .unset })
  | .stuck k => .stuck k
  | .uaf => .uaf

end Ksh.Exprmem
