/-
Number conversion: `u64ton`, `getn` (misc.c), `str_val` for integers, `getint`,
`formatstr` (var.c) and one conversion of `shf_vfprintf` (shf.c).

A C string is a `List Char`, the NUL is the end of the list.
-/
namespace Ksh.Num

/-- two's complement reading of an integer modulo 2^64 -/
def wrap64 (x : Int) : Int := Int.bmod x (2 ^ 64)
/-- conversion to C `int` -/
def wrap32 (x : Int) : Int := Int.bmod x (2 ^ 32)

def int64Min : Int := -2 ^ 63
def int64Max : Int := 2 ^ 63 - 1
/-- values of `int64_t` -/
def InRange (x : Int) : Prop := int64Min ≤ x ∧ x ≤ int64Max
instance (x : Int) : Decidable (InRange x) := by unfold InRange; infer_instance

/-- `isdigit` in the C locale -/
def isDigit (c : Char) : Bool := '0' ≤ c && c ≤ '9'
/-- `islower` in the C locale -/
def isLower (c : Char) : Bool := 'a' ≤ c && c ≤ 'z'
/-- `isupper` in the C locale -/
def isUpper (c : Char) : Bool := 'A' ≤ c && c ≤ 'Z'
/-- `isspace` in the C locale -/
def isSpace (c : Char) : Bool :=
  c == ' ' || c == '\t' || c == '\n' || c == '\x0b' || c == '\x0c' || c == '\r'
/-- `letnum(c)`: `C_ALPHA|C_DIGIT` (sh.h ctypes macros, misc.c:50-54) -/
def letnum (c : Char) : Bool := isLower c || isUpper c || c == '_' || isDigit c

/-- `digits[i]` of the tables in var.c:322-324 (and of misc.c:74 for `i < 16`) -/
def digitChar (upper : Bool) (i : Nat) : Char :=
  if i < 10 then Char.ofNat ('0'.toNat + i)
  else Char.ofNat ((if upper then 'A'.toNat else 'a'.toNat) + (i - 10))

/-- The loops `do { *--s = digits[n % base]; n /= base; } while (n != 0)`
(misc.c:73-76, var.c:338-341, shf.c:877-880): the text produced in front of
`acc`.  `fuel` bounds the iterations. -/
def digitLoop (upper : Bool) (base : Nat) : Nat → Nat → List Char → List Char
  | 0, _, acc => acc
  | fuel + 1, n, acc =>
    let acc' := digitChar upper (n % base) :: acc
    if n / base = 0 then acc' else digitLoop upper base fuel (n / base) acc'

/-- `u64ton` (misc.c:65-78); `none` when the text with its NUL does not fit the
20 byte buffer (a store before the start of `buf`). -/
def u64ton (n : Nat) (base : Nat) : Option (List Char) :=
  let s := digitLoop true base 64 n []
  if s.length + 1 ≤ 20 then some s else none

/-- Attributes of an integer variable used by `str_val`. -/
structure IntAttr where
  base : Nat       -- `vp->type`
  unsign : Bool    -- `INT_U`
  upper : Bool     -- `UCASEV_AL`
  deriving DecidableEq, Repr

/-- `base` after var.c:333-335 -/
def effBase (b : Nat) : Nat :=
  let b1 := if b = 0 then 10 else b
  if b1 < 2 ∨ b1 > 36 then 10 else b1

/-- `str_val` for an integer (var.c:318-349) before justification: the text and
whether a signed overflow happened (`-vp->val.i` for the most negative value,
computed as wrapping). -/
def strVal (a : IntAttr) (v : Int) : List Char × Bool :=
  -- var.c:329-332
  let n : Nat := if a.unsign then (v % 2 ^ 64).toNat
    else (if v < 0 then (wrap64 (-v) % 2 ^ 64).toNat else v.toNat)
  let ub := !a.unsign && decide (v < 0) && !decide (InRange (-v))
  let base := effBase a.base
  -- var.c:338-341
  let s := digitLoop a.upper base 64 n []
  -- var.c:342-347
  let s := if base ≠ 10 then
      let s := digitChar a.upper (base % 10) :: '#' :: s
      if base ≥ 10 then digitChar a.upper (base / 10) :: s else s
    else s
  -- var.c:348-349
  let s := if !a.unsign && decide (v < 0) then '-' :: s else s
  (s, ub)

/-- The value `c` gets in var.c:480-487; `none` is -1. -/
def digitVal (c : Char) : Option Nat :=
  if isDigit c then some (c.toNat - '0'.toNat)
  else if isLower c then some (c.toNat - 'a'.toNat + 10)
  else if isUpper c then some (c.toNat - 'A'.toNat + 10)
  else none

/-- Result of `getint`: the value, the returned base, and whether a signed
overflow (undefined behaviour, computed as wrapping) happened. -/
structure GI where
  num : Int
  base : Int
  ub : Bool
  deriving DecidableEq, Repr

/-- The scanning loop of `getint` (var.c:470-497). -/
def getintLoop : List Char → (base : Int) → (haveBase neg : Bool) → (num : Int) → (ub : Bool) →
    Option GI
  | [], base, _, neg, num, ub =>
    -- var.c:494-497
    if neg then some { num := wrap64 (-num), base := base, ub := ub || !decide (InRange (-num)) }
    else some { num := num, base := base, ub := ub }
  | c :: s, base, haveBase, neg, num, ub =>
    if c = '-' then getintLoop s base haveBase true num ub
    else if c = '#' then
      let base' := wrap32 num
      if haveBase ∨ base' < 2 ∨ base' > 36 then none
      else getintLoop s base' true neg 0 ub
    else if letnum c then
      match digitVal c with
      | none => none
      | some d =>
        if (d : Int) ≥ base then none
        else
          let x := num * base + d
          getintLoop s base haveBase neg (wrap64 x)
            (ub || !decide (InRange (num * base)) || !decide (InRange (wrap64 (num * base) + d)))
    else none

/-- `getint` (var.c:434-498) for a set string variable with value `s`;
`zerofil` is the `ZEROFIL` flag. -/
def getint (s : List Char) (arith zerofil : Bool) : Option GI :=
  match arith, s with
  | true, '0' :: c :: r =>
    if c = 'x' ∨ c = 'X' then getintLoop r 16 true false 0 false
    else if zerofil then getintLoop ((c :: r).dropWhile (· == '0')) 10 true false 0 false
    else getintLoop (c :: r) 8 true false 0 false
  | _, _ => getintLoop s 10 false false 0 false

/-- The optional sign `strtol` accepts. -/
def signSplit : List Char → Bool × List Char
  | '-' :: r => (true, r)
  | '+' :: r => (false, r)
  | r => (false, r)

/-- `strtol(as, &p, 10)` by its documented behaviour in the C locale for a 64-bit
`long`: the value and the rest of the string. -/
def strtol (s : List Char) : Int × List Char :=
  let t := s.dropWhile isSpace
  let neg := (signSplit t).1
  let t' := (signSplit t).2
  let ds := t'.takeWhile isDigit
  if ds = [] then (0, s)
  else
    let v : Int := (ds.foldl (fun a c => 10 * a + (c.toNat - '0'.toNat)) 0 : Nat)
    let v := if neg then -v else v
    (max int64Min (min int64Max v), t'.dropWhile isDigit)

/-- `getn` (misc.c:466-479) -/
def getn (s : List Char) : Option Int :=
  let n := (strtol s).1
  let p := (strtol s).2
  if s = [] ∨ p ≠ [] ∨ -2 ^ 31 ≥ n ∨ n ≥ 2 ^ 31 - 1 then none else some n

/-- Attributes used by `formatstr`. -/
structure FmtAttr where
  rjust : Bool
  ljust : Bool
  zerofil : Bool
  lcase : Bool
  ucase : Bool
  field : Nat
  deriving DecidableEq, Repr

def toUpperC (c : Char) : Char := if isLower c then Char.ofNat (c.toNat - 32) else c
def toLowerC (c : Char) : Char := if isUpper c then Char.ofNat (c.toNat + 32) else c

/-- One `%s` conversion of `shf_vfprintf` (shf.c:955-1002): `right` is `FL_RIGHT`
(the `-` flag), `dot` is `FL_DOT` with `precision`. -/
def fmtS (right zero : Bool) (field : Nat) (precision : Option Nat) (s : List Char) : List Char :=
  let prec := match precision with
    | none => s.length
    | some p => if s.length < p then s.length else p
  if field > prec then
    if right then s.take prec ++ List.replicate (field - prec) ' '
    else List.replicate (field - prec) (if zero then '0' else ' ') ++ s.take prec
  else s.take prec

/-- `formatstr` (var.c:524-581).  The output buffer has `nlen + 1` bytes, and
`shf_snprintf` truncates to it. -/
def formatstr (a : FmtAttr) (s : List Char) : List Char :=
  let just := a.rjust || a.ljust
  let field := if a.field = 0 then s.length else a.field
  let nlen := if just then field else s.length
  let p :=
    if a.rjust then
      -- var.c:543-556
      let t := (s.reverse.dropWhile isSpace).reverse
      let t' := if t.length > field then t.drop (t.length - field) else t
      -- `digit(*s)`: the first character at `s`, which may be one of the stripped
      -- blanks or the NUL
      let zero := a.zerofil && (match (s.drop (t.length - t'.length)).head? with
        | some c => isDigit c | none => false)
      (fmtS false zero (field - t'.length) none [] ++ fmtS false false 0 (some t'.length) t').take nlen
    else if a.ljust then
      -- var.c:558-565
      let t := s.dropWhile isSpace
      let t := if a.zerofil then t.dropWhile (· == '0') else t
      (fmtS true false field (some field) t).take nlen
    else s
  if a.ucase then p.map toUpperC
  else if a.lcase then p.map toLowerC
  else p

/-- Numeric conversions of `shf_vfprintf`. -/
structure NumFmt where
  plus : Bool
  blank : Bool
  right : Bool
  zero : Bool
  field : Nat
  precision : Option Nat
  deriving DecidableEq, Repr

/-- `%lld`/`%ld`/`%d` of `shf_vfprintf` for a value in the 64-bit range
(shf.c:867-890, 919-926, 955-1002). -/
def fmtD (f : NumFmt) (v : Int) : List Char :=
  -- shf.c:870-880
  let neg := decide (v < 0)
  let mag : Nat := if v < 0 then (wrap64 (-v) % 2 ^ 64).toNat else v.toNat
  let ds := digitLoop false 10 64 mag []
  let s := if neg then '-' :: ds else if f.plus then '+' :: ds else if f.blank then ' ' :: ds else ds
  -- shf.c:920-926
  let (field, zero) := match f.precision with
    | some p => if p > s.length then (p, true) else (f.field, f.zero)
    | none => (f.field, f.zero)
  -- shf.c:955-956: `precision` is the length in both cases
  let prec := s.length
  if field > prec then
    if !f.right then
      if zero then
        match s with
        | c :: r =>
          if c = '+' ∨ c = '-' ∨ c = ' ' ∨ c = '0' then
            c :: (List.replicate (field - prec) '0' ++ r)
          else List.replicate (field - prec) '0' ++ s
        | [] => List.replicate (field - prec) '0'
      else List.replicate (field - prec) ' ' ++ s
    else s ++ List.replicate (field - prec) ' '
  else s

end Ksh.Num
