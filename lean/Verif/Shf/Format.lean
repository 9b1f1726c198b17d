import Verif.Shf.Str

/-!
# Formatted output (`shf_vfprintf`, shf.c:746-1006): model and properties (C45, C67)

The format is a byte string, the arguments a list of numbers and strings.  What shf_putc gets is
the output.  An argument of the wrong kind, a missing one, and an overflow of `int` in a width are
undefined behaviour (`none`).
-/

namespace Ksh.Shf

def b (c : Char) : Byte := c.toNat.toUInt8

/-- An argument: a number, or a string (`none` is a null pointer) -/
inductive Arg
  | num (v : Int)
  | str (s : Option Bytes)
  deriving DecidableEq, Repr

/-- the flags (shf.c:734-744), the field width and the precision -/
structure Fl where
  hash : Bool := false
  plus : Bool := false
  right : Bool := false
  blank : Bool := false
  long : Bool := false
  llong : Bool := false
  zero : Bool := false
  dot : Bool := false
  field : Nat := 0
  prec : Int := 0
  deriving DecidableEq, Repr

def INT_MAX : Nat := 2 ^ 31 - 1

def isDigit (c : Byte) : Bool := b '0' ≤ c && c ≤ b '9'

/-- the value of a digit string in a format -/
def number (s : Bytes) : Nat := s.foldl (fun n c => n * 10 + (c.toNat - 48)) 0

/-- The loop over flags and fields (shf.c:779-846): the flags, the conversion character (0 if the
format ends), the rest of the format and of the arguments. -/
def parse : Nat → Bytes → List Arg → Fl → Option (Fl × Byte × Bytes × List Arg)
  | 0, _, _, _ => none
  | _ + 1, [], as, f => some (f, 0, [], as)
  | n + 1, c :: s, as, f =>
    if c = b '#' then parse n s as { f with hash := true }
    else if c = b '+' then parse n s as { f with plus := true }
    else if c = b '-' then parse n s as { f with right := true }
    else if c = b ' ' then parse n s as { f with blank := true }
    else if c = b '0' then parse n s as (if f.dot then f else { f with zero := true })
    else if c = b '.' then parse n s as { f with dot := true, prec := 0 }
    else if c = b '*' then
      match as with
      | .num v :: as =>
        if f.dot then parse n s as { f with prec := v }
        else if v < 0 then (if v.natAbs ≤ INT_MAX then parse n s as { f with field := v.natAbs, right := true } else none)
        else parse n s as { f with field := v.natAbs }
      | _ => none
    else if c = b 'l' then
      if s.head? = some (b 'l') then parse n s.tail as { f with llong := true }
      else parse n s as { f with long := true }
    else if c = b 'h' then parse n s as f
    else if isDigit c then
      let d := c :: s.takeWhile isDigit
      if number d ≤ INT_MAX then
        parse n (s.dropWhile isDigit) as (if f.dot then { f with prec := number d } else { f with field := number d })
      else none
    else some (f, c, s, as)

/-- `va_arg` for the types that the flags select, converted to `unsigned long long`
(shf.c:868-883): `int`, `unsigned int` have 32 bits, the others 64 -/
def fetch (f : Fl) (signed : Bool) (v : Int) : Nat :=
  if f.llong || f.long then (v % 2 ^ 64).toNat
  else if signed then (Int.bmod v (2 ^ 32) % 2 ^ 64).toNat
  else (v % 2 ^ 32).toNat

/-- one digit, `digits[n]` or `n + '0'` -/
def dig (up : Bool) (n : Nat) : Byte :=
  if n < 10 then (48 + n).toUInt8 else if up then (55 + n).toUInt8 else (87 + n).toUInt8

/-- The loops `do *--s = n % base; while (n /= base)`; `fuel` is more than the number of digits. -/
def digs (up : Bool) (base : Nat) : Nat → Nat → Bytes → Bytes
  | 0, _, acc => acc
  | fuel + 1, n, acc =>
    if n / base = 0 then dig up (n % base) :: acc
    else digs up base fuel (n / base) (dig up (n % base) :: acc)

/-- The text of a number in `numbuf` (shf.c:884-935); `c` is the conversion in lower case. -/
def numText (f : Fl) (c : Byte) (up : Bool) (v : Int) : Bytes :=
  if c = b 'd' ∨ c = b 'i' then
    let n := fetch f true v
    if 2 ^ 63 ≤ n then b '-' :: digs false 10 65 (2 ^ 64 - n) []
    else
      let s := digs false 10 65 n []
      if f.plus then b '+' :: s else if f.blank then b ' ' :: s else s
  else if c = b 'u' then digs false 10 65 (fetch f false v) []
  else if c = b 'o' then
    let s := digs false 8 65 (fetch f false v) []
    if f.hash ∧ s.head? ≠ some (b '0') then b '0' :: s else s
  else
    let s := digs up 16 65 (fetch f false v) []
    if f.hash then b '0' :: (if up then b 'X' else b 'x') :: s else s

/-- How much of `s` goes in front of the zeros (shf.c:963-981), `p` is the precision. -/
def leadLen (s : Bytes) (p : Nat) : Nat :=
  match s with
  | c :: t =>
    if c = b '+' ∨ c = b '-' ∨ c = b ' ' then 1
    else if c = b '0' then
      if p - 1 > 0 ∧ (t.head?.map (· ||| 0x20)) = some (b 'x') then 2 else 1
    else 0
  | [] => 0

/-- The field (shf.c:956-1002) -/
def render (f : Fl) (isNum : Bool) (s : Bytes) : Bytes :=
  let p : Nat := if !f.dot ∨ (s.length : Int) < f.prec then s.length else f.prec.toNat
  if f.field > p then
    let k := f.field - p
    if f.right then s.take p ++ List.replicate k (b ' ')
    else if f.zero && isNum then
      s.take (leadLen s p) ++ List.replicate k (b '0') ++ (s.drop (leadLen s p)).take (p - leadLen s p)
    else List.replicate k (if f.zero then b '0' else b ' ') ++ s.take p
  else s.take p

/-- The precision of a number (shf.c:936-942) -/
def numFl (f : Fl) (s : Bytes) : Fl :=
  if f.dot then
    if f.prec > s.length then { f with field := f.prec.toNat, zero := true } else { f with prec := s.length }
  else f

def lower (c : Byte) : Byte := if b 'A' ≤ c ∧ c ≤ b 'Z' then c + 32 else c
def isUpper (c : Byte) : Bool := b 'A' ≤ c && c ≤ b 'Z'

/-- One conversion (shf.c:848-1002).  Negating the least `long long` is undefined (shf.c:887). -/
def conv (f : Fl) (c : Byte) (as : List Arg) : Option (Bytes × List Arg) :=
  let f := { f with prec := max f.prec 0 }
  let up := isUpper c
  let c := lower c
  if c = b 'p' ∨ c = b 'd' ∨ c = b 'i' ∨ c = b 'o' ∨ c = b 'u' ∨ c = b 'x' then
    let f := if c = b 'p' then { f with llong := false, long := true } else f
    match as with
    | .num v :: as =>
      if (c = b 'd' ∨ c = b 'i') ∧ fetch f true v = 2 ^ 63 then none else
      let s := numText f c up v
      some (render (numFl f s) true s, as)
    | _ => none
  else if c = b 's' then
    match as with
    | .str s :: as => some (render f false (s.getD ("(null %s)".toList.map b)), as)
    | _ => none
  else if c = b 'c' then
    match as with
    | .num v :: as => some (render { f with dot := false } false [(v % 256).toNat.toUInt8], as)
    | _ => none
  else some (render f false [c], as)

/-- shf_vfprintf: the bytes given to shf_putc -/
def format : Nat → Bytes → List Arg → Option Bytes
  | 0, _, _ => none
  | _ + 1, [], _ => some []
  | n + 1, c :: s, as =>
    if c ≠ b '%' then (format n s as).map (c :: ·)
    else
      (parse (s.length + 1) s as {}).bind fun r =>
        if r.2.1 = 0 then some []
        else (conv r.1 r.2.1 r.2.2.2).bind fun x => (format n r.2.2.1 x.2).map (x.1 ++ ·)

/-! ## Specification -/

/-- Spec: the value of a numeral -/
def valueOf (base : Nat) (ds : List Nat) : Nat := ds.foldl (fun n d => n * base + d) 0

/-- Spec: `ds` is the numeral of `n`: no leading zero -/
def Numeral (base n : Nat) (ds : List Nat) : Prop :=
  ds ≠ [] ∧ (∀ d ∈ ds, d < base) ∧ valueOf base ds = n ∧ (ds.head? = some 0 → ds = [0])

/-- Spec: the characters of the digits -/
def digitChar (up : Bool) (d : Nat) : Byte :=
  (((if up then "0123456789ABCDEF" else "0123456789abcdef").toList.map b)[d]?).getD 0

/-- Spec (printf(3)): text `sign`, `pre`, `ds` in a field -/
def fieldOf (right zero : Bool) (width : Nat) (sign pre ds : Bytes) : Bytes :=
  let k := width - (sign ++ pre ++ ds).length
  if right then sign ++ pre ++ ds ++ List.replicate k (b ' ')
  else if zero then sign ++ pre ++ List.replicate k (b '0') ++ ds
  else List.replicate k (b ' ') ++ sign ++ pre ++ ds

/-! ## Digits -/

theorem valueOf_append (base : Nat) (x y : List Nat) : valueOf base (x ++ y) = valueOf base x * base ^ y.length + valueOf base y := by
  have gen : ∀ (y : List Nat) (a : Nat), y.foldl (fun n d => n * base + d) a = a * base ^ y.length + valueOf base y := by
    intro y
    induction y with
    | nil => intro a; simp [valueOf]
    | cons d y ih =>
      intro a
      have e1 := ih (a * base + d)
      have e2 := ih (0 * base + d)
      simp only [valueOf, List.foldl_cons, List.length_cons] at e1 e2 ⊢
      rw [e1, e2, Nat.pow_succ]
      simp only [Nat.zero_mul, Nat.zero_add]
      rw [Nat.add_mul, Nat.mul_assoc, Nat.mul_comm base]
      omega
  rw [valueOf, List.foldl_append, gen]
  rfl

theorem digs_spec (up : Bool) (base : Nat) (hb : 2 ≤ base) (fuel n : Nat) (acc : Bytes) (h : n < base ^ fuel) (hf : 0 < fuel) :
    ∃ ds, digs up base fuel n acc = ds.map (dig up) ++ acc ∧ Numeral base n ds ∧ ds.length ≤ fuel := by
  induction fuel generalizing n acc with
  | zero => omega
  | succ fuel ih =>
    simp only [digs]
    split
    · rename_i h0
      have hlt : n < base := by
        rcases Nat.div_eq_zero_iff.1 h0 with g | g <;> omega
      refine ⟨[n % base], by simp, ⟨by simp, by simp; exact Nat.mod_lt _ (by omega), by simp [valueOf, Nat.mod_eq_of_lt hlt], by simp⟩, by simp⟩
    · rename_i h0
      have hq : n / base < base ^ fuel := by
        rw [Nat.div_lt_iff_lt_mul (by omega)]
        rwa [Nat.pow_succ] at h
      have hf' : 0 < fuel := by
        cases fuel with
        | zero => exact absurd (Nat.lt_one_iff.1 hq) h0
        | succ f => omega
      obtain ⟨ds, d1, ⟨d2, d3, d4, d5⟩, d6⟩ := ih (n / base) (dig up (n % base) :: acc) hq hf'
      refine ⟨ds ++ [n % base], by rw [d1]; simp, ⟨by simp, ?_, ?_, ?_⟩, by simp; omega⟩
      · intro d hd
        rcases List.mem_append.1 hd with g | g
        · exact d3 d g
        · rw [List.mem_singleton.1 g]; exact Nat.mod_lt _ (by omega)
      · rw [valueOf_append, d4]
        simp only [List.length_singleton, Nat.pow_one, valueOf, List.foldl_cons, List.foldl_nil, Nat.zero_mul, Nat.zero_add]
        exact Nat.div_add_mod' n base
      · intro hh
        exfalso
        obtain ⟨d, ds', rfl⟩ := List.exists_cons_of_ne_nil d2
        simp only [List.cons_append, List.head?_cons, Option.some.injEq] at hh
        subst hh
        have := d5 rfl
        simp only [List.cons.injEq, true_and] at this
        subst this
        simp [valueOf] at d4
        exact h0 d4.symm

theorem numeral_len {base n : Nat} {ds : List Nat} (h : Numeral base n ds) (hl : 1 < ds.length) : base ^ (ds.length - 1) ≤ n := by
  obtain ⟨h1, h2, h3, h4⟩ := h
  obtain ⟨d, t, rfl⟩ := List.exists_cons_of_ne_nil h1
  have hd : d ≠ 0 := by
    intro g
    subst g
    have := h4 rfl
    simp only [List.cons.injEq, true_and] at this
    subst this
    simp at hl
  have := valueOf_append base [d] t
  rw [List.singleton_append, h3] at this
  simp only [List.length_cons, Nat.add_sub_cancel]
  have e : valueOf base [d] = d := by simp [valueOf]
  rw [e] at this
  rw [this]
  exact Nat.le_trans (Nat.le_mul_of_pos_left _ (by omega)) (Nat.le_add_right _ _)

theorem numeral_bound {base n k : Nat} {ds : List Nat} (hb : 2 ≤ base) (h : Numeral base n ds) (hn : n < base ^ k) (hk : 0 < k) : ds.length ≤ k := by
  by_cases hl : 1 < ds.length
  · have := numeral_len h hl
    have hlt : base ^ (ds.length - 1) < base ^ k := Nat.lt_of_le_of_lt this hn
    have := (Nat.pow_lt_pow_iff_right (by omega : 1 < base)).1 hlt
    omega
  · omega

theorem fetch_lt (f : Fl) (sg : Bool) (v : Int) : fetch f sg v < 2 ^ 64 := by
  have e : (2 : Int) ^ 64 = 18446744073709551616 := by decide
  have e2 : (2 : Int) ^ 32 = 4294967296 := by decide
  have e3 : (2 : Nat) ^ 64 = 18446744073709551616 := by decide
  simp only [fetch, e, e2, e3]
  split
  · omega
  · split <;> omega

theorem dig_char {up : Bool} {base n : Nat} {ds : List Nat} (hb : base ≤ 16) (h : Numeral base n ds) : ds.map (digitChar up) = ds.map (dig up) := by
  refine List.map_congr_left fun d hd => ?_
  have hlt : d < 16 := Nat.lt_of_lt_of_le (h.2.1 d hd) hb
  have key : ∀ (up : Bool) (d : Fin 16), digitChar up d = dig up d := by decide +kernel
  exact key up ⟨d, hlt⟩

/-- the digits of a number below `2 ^ 64`; there are at most 20, 22, 16 of them -/
theorem digits_of (up : Bool) {base : Nat} (hb : base = 10 ∨ base = 8 ∨ base = 16) {n : Nat} (hn : n < 2 ^ 64) :
    ∃ ds, digs up base 65 n [] = ds.map (dig up) ∧ Numeral base n ds ∧ ds.length ≤ 22 ∧ (base = 10 → ds.length ≤ 20) ∧ (base = 16 → ds.length ≤ 16) := by
  have h2 : 2 ≤ base := by omega
  have hp : n < base ^ 65 := by
    refine Nat.lt_of_lt_of_le hn ?_
    rcases hb with rfl | rfl | rfl <;> decide
  obtain ⟨ds, d1, d2, _⟩ := digs_spec up base h2 65 n [] hp (by omega)
  refine ⟨ds, by simpa using d1, d2, ?_, ?_, ?_⟩
  · refine numeral_bound h2 d2 (Nat.lt_of_lt_of_le hn ?_) (by omega)
    rcases hb with rfl | rfl | rfl <;> decide
  · rintro rfl
    exact numeral_bound h2 d2 (Nat.lt_of_lt_of_le hn (by decide)) (by omega)
  · rintro rfl
    exact numeral_bound h2 d2 (Nat.lt_of_lt_of_le hn (by decide)) (by omega)

/-- **C45**: the text of a number fits in `numbuf`, which has `(64 + 2) / 3 + 1` bytes. -/
theorem numbuf_fits (f : Fl) (c : Byte) (up : Bool) (v : Int) : (numText f c up v).length ≤ (64 + 2) / 3 + 1 := by
  simp only [numText]
  have hu := fetch_lt f false v
  have hs := fetch_lt f true v
  split
  · split
    · obtain ⟨ds, d1, _, _, d4, _⟩ := digits_of false (Or.inl rfl) (n := 2 ^ 64 - fetch f true v) (by omega)
      rw [d1]
      have := d4 rfl
      simp; omega
    · obtain ⟨ds, d1, _, _, d4, _⟩ := digits_of false (Or.inl rfl) hs
      rw [d1]
      have := d4 rfl
      split
      · simp; omega
      · split <;> simp <;> omega
  · split
    · obtain ⟨ds, d1, _, d3, _⟩ := digits_of false (Or.inl rfl) hu
      rw [d1]; simp; omega
    · split
      · obtain ⟨ds, d1, _, d3, _⟩ := digits_of false (Or.inr (Or.inl rfl)) hu
        rw [d1]
        split <;> simp <;> omega
      · obtain ⟨ds, d1, _, _, _, d5⟩ := digits_of up (Or.inr (Or.inr rfl)) hu
        rw [d1]
        have := d5 rfl
        split <;> simp <;> omega

/-! ## Fields -/

theorem render_plain {f : Fl} {n : Bool} {s : Bytes} (hd : f.dot = false) (hz : f.zero = false ∨ f.right = true) :
    render f n s = fieldOf f.right f.zero f.field [] [] s := by
  simp only [render, hd, fieldOf, List.nil_append, Bool.not_false, true_or, if_true, List.take_length]
  rcases hr : f.right with _ | _
  · have hz : f.zero = false := by simpa [hr] using hz
    simp only [hz, Bool.false_eq_true, if_false, Bool.false_and]
    split
    · simp
    · have : f.field - s.length = 0 := by omega
      simp [this]
  · simp only [if_true]
    split
    · rfl
    · have : f.field - s.length = 0 := by omega
      simp [this]

theorem fieldOf_flat {r z : Bool} {k : Nat} {sign pre ds : Bytes} (hz : z = false ∨ r = true) :
    fieldOf r z k [] [] (sign ++ pre ++ ds) = fieldOf r z k sign pre ds := by
  simp only [fieldOf, List.nil_append]
  rcases hr : r with _ | _
  · have hz : z = false := by simpa [hr] using hz
    simp [hz]
  · simp

theorem render_zero {f : Fl} {sign pre ds : Bytes} (hd : f.dot = false) (hz : f.zero = true) (hr : f.right = false)
    (hl : leadLen (sign ++ pre ++ ds) (sign ++ pre ++ ds).length = (sign ++ pre).length ∨ (sign = [] ∧ pre = [] ∧ ds = [b '0'])) :
    render f true (sign ++ pre ++ ds) = fieldOf f.right f.zero f.field sign pre ds := by
  simp only [render, hd, fieldOf, Bool.not_false, true_or, if_true, List.take_length, hz, hr, Bool.false_eq_true, if_false, Bool.and_self]
  split
  · rename_i hk
    rcases hl with hl | ⟨rfl, rfl, rfl⟩
    · rw [hl, List.take_left, List.drop_left, List.take_of_length_le (by simp only [List.length_append]; omega)]
    · simp only [List.nil_append, List.length_singleton]
      rw [show leadLen [b '0'] 1 = 1 by decide]
      simp only [List.take_succ_cons, List.take_zero, List.drop_succ_cons, List.drop_zero, List.take_nil, List.append_nil]
      rw [← List.replicate_succ', List.replicate_succ, List.singleton_append]
  · have : f.field - (sign ++ pre ++ ds).length = 0 := by omega
    rw [this, List.replicate_zero, List.append_nil]

theorem render_num {f : Fl} {sign pre ds : Bytes} (hd : f.dot = false)
    (hl : leadLen (sign ++ pre ++ ds) (sign ++ pre ++ ds).length = (sign ++ pre).length ∨ (sign = [] ∧ pre = [] ∧ ds = [b '0'])) :
    render f true (sign ++ pre ++ ds) = fieldOf f.right f.zero f.field sign pre ds := by
  by_cases h : f.zero = false ∨ f.right = true
  · rw [render_plain hd h, fieldOf_flat h]
  · simp only [not_or, Bool.not_eq_false, Bool.not_eq_true] at h
    exact render_zero hd h.1 h.2 hl

/-- the first digit of a numeral -/
theorem dig_lead {up : Bool} {base n : Nat} {ds : List Nat} (hb : base ≤ 16) (h : Numeral base n ds) (p : Nat) :
    leadLen (ds.map (dig up)) p = 0 ∨ ds.map (dig up) = [b '0'] := by
  obtain ⟨h1, h2, h3, h4⟩ := h
  obtain ⟨d, t, rfl⟩ := List.exists_cons_of_ne_nil h1
  by_cases hd : d = 0
  · subst hd
    rw [h4 rfl]
    right
    cases up <;> rfl
  · left
    have hlt : d < 16 := Nat.lt_of_lt_of_le (h2 d (by simp)) hb
    have key : ∀ (up : Bool) (d : Fin 16), d.val ≠ 0 → ¬ (dig up d = b '+' ∨ dig up d = b '-' ∨ dig up d = b ' ') ∧ dig up d ≠ b '0' := by decide
    obtain ⟨k1, k2⟩ := key up ⟨d, hlt⟩ hd
    simp only [List.map_cons, leadLen]
    rw [if_neg k1, if_neg k2]

theorem dig_not_x {up : Bool} {base n : Nat} {ds : List Nat} (hb : base ≤ 16) (h : Numeral base n ds) :
    ((ds.map (dig up)).head?.map (· ||| 0x20)) ≠ some (b 'x') := by
  obtain ⟨h1, h2, h3, h4⟩ := h
  obtain ⟨d, t, rfl⟩ := List.exists_cons_of_ne_nil h1
  have hlt : d < 16 := Nat.lt_of_lt_of_le (h2 d (by simp)) hb
  have key : ∀ (up : Bool) (d : Fin 16), (dig up d ||| 0x20) ≠ b 'x' := by decide
  simpa using key up ⟨d, hlt⟩

/-- Spec: the range of the argument type -/
def InRange (f : Fl) (signed : Bool) (v : Int) : Prop :=
  let bits := if f.llong || f.long then 64 else 32
  if signed then -2 ^ (bits - 1) ≤ v ∧ v < 2 ^ (bits - 1) else 0 ≤ v ∧ v < 2 ^ bits

theorem fetch_signed {f : Fl} {v : Int} (h : InRange f true v) :
    (v < 0 → 2 ^ 63 ≤ fetch f true v ∧ 2 ^ 64 - fetch f true v = v.natAbs) ∧ (0 ≤ v → fetch f true v < 2 ^ 63 ∧ fetch f true v = v.natAbs) := by
  have e : (2 : Int) ^ 64 = 18446744073709551616 := by decide
  have e3 : (2 : Nat) ^ 64 = 18446744073709551616 := by decide
  have e4 : (2 : Nat) ^ 63 = 9223372036854775808 := by decide
  have e5 : (2 : Int) ^ (64 - 1) = 9223372036854775808 := by decide
  have e6 : (2 : Int) ^ (32 - 1) = 2147483648 := by decide
  simp only [InRange, if_true] at h
  simp only [fetch, e, e3, e4]
  split
  · rename_i hl
    rw [if_pos hl, e5] at h
    omega
  · rename_i hl
    rw [if_neg hl, e6] at h
    simp only [if_true]
    have : Int.bmod v (2 ^ 32) = v := by
      have e7 : (2 : Nat) ^ 32 = 4294967296 := by decide
      rw [e7]
      exact Int.bmod_eq_of_le (by omega) (by omega)
    rw [this]
    omega

theorem fetch_unsigned {f : Fl} {v : Int} (h : InRange f false v) : fetch f false v = v.toNat := by
  have e : (2 : Int) ^ 64 = 18446744073709551616 := by decide
  have e2 : (2 : Int) ^ 32 = 4294967296 := by decide
  simp only [InRange, Bool.false_eq_true, if_false] at h
  simp only [fetch, e, e2, Bool.false_eq_true, if_false]
  split
  · rename_i hl
    rw [if_pos hl, e] at h
    omega
  · rename_i hl
    rw [if_neg hl, e2] at h
    omega

theorem conv_num {f : Fl} {c : Byte} {v : Int} {as : List Arg} (hd : f.dot = false)
    (hm : ¬ ((lower c = b 'd' ∨ lower c = b 'i') ∧ fetch f true v = 2 ^ 63))
    (hc : lower c = b 'd' ∨ lower c = b 'i' ∨ lower c = b 'o' ∨ lower c = b 'u' ∨ lower c = b 'x') :
    conv f c (.num v :: as) = some (render { f with prec := max f.prec 0 } true (numText f (lower c) (isUpper c) v), as) := by
  have hp : lower c ≠ b 'p' := by
    rcases hc with g | g | g | g | g <;> rw [g] <;> decide
  have hn : ∀ s, numFl { f with prec := max f.prec 0 } s = { f with prec := max f.prec 0 } := by
    intro s; simp [numFl, hd]
  have hm' : ¬ ((lower c = b 'd' ∨ lower c = b 'i') ∧ fetch { f with prec := max f.prec 0 } true v = 2 ^ 63) := hm
  simp only [conv, if_neg hp, if_pos (Or.inr hc), hn, if_neg hm']
  rfl

/-- **C67**: `%d` and `%i`, with any flags, width and length but no precision -/
theorem conv_signed {f : Fl} {c : Byte} (hc : c = b 'd' ∨ c = b 'i') (hd : f.dot = false) {v : Int} (hv : InRange f true v)
    (hmin : v ≠ -2 ^ 63) (as : List Arg) :
    ∃ ds, Numeral 10 v.natAbs ds ∧
      conv f c (.num v :: as) = some (fieldOf f.right f.zero f.field
        (if v < 0 then [b '-'] else if f.plus then [b '+'] else if f.blank then [b ' '] else []) [] (ds.map (digitChar false)), as) := by
  have hlow : lower c = c := by rcases hc with rfl | rfl <;> decide
  obtain ⟨n1, n2⟩ := fetch_signed hv
  have hlt : v.natAbs < 2 ^ 64 := by
    have := fetch_lt f true v
    by_cases h : v < 0
    · have := n1 h; omega
    · have := n2 (by omega); omega
  obtain ⟨ds, d1, d2, _⟩ := digits_of false (Or.inl rfl) hlt
  refine ⟨ds, d2, ?_⟩
  rw [dig_char (by omega) d2]
  have e4 : (2 : Nat) ^ 63 = 9223372036854775808 := by decide
  have e5 : (2 : Int) ^ 63 = 9223372036854775808 := by decide
  have hm : fetch f true v ≠ 2 ^ 63 := by
    by_cases h : v < 0
    · have := n1 h; omega
    · have := n2 (by omega); omega
  rw [conv_num hd (fun g => hm g.2) (by rw [hlow]; rcases hc with rfl | rfl <;> simp), hlow]
  have ht : numText f c (isUpper c) v =
      (if v < 0 then [b '-'] else if f.plus then [b '+'] else if f.blank then [b ' '] else []) ++ [] ++ ds.map (dig false) := by
    simp only [numText]
    rw [if_pos hc]
    by_cases h : v < 0
    · obtain ⟨m1, m2⟩ := n1 h
      rw [if_pos m1, m2, d1, if_pos h]
      rfl
    · obtain ⟨m1, m2⟩ := n2 (by omega)
      rw [if_neg (by omega), m2, d1, if_neg h]
      split
      · rfl
      · split <;> rfl
  rw [ht, render_num (by exact hd)]
  by_cases h : v < 0
  · left; rw [if_pos h]; simp [leadLen]
  · rw [if_neg h]
    split
    · left; simp [leadLen]
    · split
      · left; simp [leadLen]
      · rcases dig_lead (up := false) (by omega) d2 (([] : Bytes) ++ [] ++ ds.map (dig false)).length with g | g
        · left; simpa using g
        · right; simpa using g

/-- **C67**: `%u`, `%o`, `%x` and `%X`, with any flags, width and length but no precision.  (`%#x`
prints `0x0` for zero, where printf(3) prints `0`.) -/
theorem conv_unsigned {f : Fl} {c : Byte} {base : Nat} (hc : (c = b 'u' ∧ base = 10) ∨ (c = b 'o' ∧ base = 8) ∨ ((c = b 'x' ∨ c = b 'X') ∧ base = 16))
    (hd : f.dot = false) {v : Int} (hv : InRange f false v) (as : List Arg) :
    ∃ ds, Numeral base v.toNat ds ∧
      conv f c (.num v :: as) = some (fieldOf f.right f.zero f.field []
        (if f.hash then (if c = b 'o' ∧ v ≠ 0 then [b '0'] else if c = b 'x' then [b '0', b 'x'] else if c = b 'X' then [b '0', b 'X'] else []) else [])
        (ds.map (digitChar (c == b 'X'))), as) := by
  have hlow : lower c = if c = b 'X' then b 'x' else c := by
    rcases hc with ⟨rfl, _⟩ | ⟨rfl, _⟩ | ⟨rfl | rfl, _⟩ <;> decide
  have hup : isUpper c = (c == b 'X') := by
    rcases hc with ⟨rfl, _⟩ | ⟨rfl, _⟩ | ⟨rfl | rfl, _⟩ <;> decide
  have n1 := fetch_unsigned hv
  have hlt : v.toNat < 2 ^ 64 := by rw [← n1]; exact fetch_lt f false v
  have hb16 : base ≤ 16 := by omega
  obtain ⟨ds, d1, d2, _⟩ := digits_of (c == b 'X') (base := base) (by omega) hlt
  refine ⟨ds, d2, ?_⟩
  rw [dig_char hb16 d2]
  have hcv : lower c = b 'd' ∨ lower c = b 'i' ∨ lower c = b 'o' ∨ lower c = b 'u' ∨ lower c = b 'x' := by
    rcases hc with ⟨rfl, _⟩ | ⟨rfl, _⟩ | ⟨rfl | rfl, _⟩ <;> decide
  have hnd : ¬ (lower c = b 'd' ∨ lower c = b 'i') := by
    rcases hc with ⟨rfl, _⟩ | ⟨rfl, _⟩ | ⟨rfl | rfl, _⟩ <;> decide
  rw [conv_num hd (fun g => hnd g.1) hcv, hup]
  have hz : v ≠ 0 ↔ (ds.map (dig (c == b 'X'))).head? ≠ some (b '0') := by
    have hz0 : (ds.map (dig (c == b 'X'))).head? = some (b '0') ↔ v.toNat = 0 := by
      obtain ⟨h1, h2, h3, h4⟩ := d2
      obtain ⟨d, t, rfl⟩ := List.exists_cons_of_ne_nil h1
      have hlt : d < 16 := Nat.lt_of_lt_of_le (h2 d (by simp)) hb16
      have key : ∀ (up : Bool) (d : Fin 16), dig up d = b '0' ↔ d.val = 0 := by decide
      simp only [List.map_cons, List.head?_cons, Option.some.injEq]
      rw [key _ ⟨d, hlt⟩]
      constructor
      · intro g
        simp only at g
        subst g
        rw [← h3, h4 rfl]
        simp [valueOf]
      · intro g
        have e := valueOf_append base [d] t
        rw [List.singleton_append, h3, g] at e
        have e1 : valueOf base [d] = d := by simp [valueOf]
        rw [e1] at e
        have hm : d * base ^ t.length = 0 := by omega
        rcases Nat.mul_eq_zero.1 hm with g | g
        · exact g
        · exact absurd g (Nat.ne_of_gt (Nat.pow_pos (by omega)))
    have hpos : 0 ≤ v := by
      simp only [InRange, Bool.false_eq_true, if_false] at hv
      exact hv.1
    rw [Ne, Ne, hz0]
    omega
  have ht : numText f (lower c) (c == b 'X') v =
      [] ++ (if f.hash then (if c = b 'o' ∧ v ≠ 0 then [b '0'] else if c = b 'x' then [b '0', b 'x'] else if c = b 'X' then [b '0', b 'X'] else []) else [])
        ++ ds.map (dig (c == b 'X')) := by
    simp only [numText]
    rw [if_neg hnd, n1]
    rcases hc with ⟨rfl, rfl⟩ | ⟨rfl, rfl⟩ | ⟨rfl | rfl, rfl⟩
    · rw [hlow]
      have e : (b 'u' == b 'X') = false := by decide
      rw [e] at d1 ⊢
      rw [if_neg (by decide : ¬ b 'u' = b 'X'), if_pos rfl, d1]
      have e1 : ¬ (b 'u' = b 'o') := by decide
      have e2 : ¬ (b 'u' = b 'x') := by decide
      have e3 : ¬ (b 'u' = b 'X') := by decide
      simp [e1, e2, e3]
    · rw [hlow]
      have e : (b 'o' == b 'X') = false := by decide
      rw [e] at d1 hz ⊢
      rw [if_neg (by decide : ¬ b 'o' = b 'X'), if_neg (by decide : ¬ b 'o' = b 'u'), if_pos rfl, d1]
      have e2 : ¬ (b 'o' = b 'x') := by decide
      have e3 : ¬ (b 'o' = b 'X') := by decide
      by_cases hh : f.hash = true
      · by_cases hv0 : v ≠ 0
        · rw [if_pos ⟨hh, hz.1 hv0⟩]
          simp [hh, hv0]
        · rw [if_neg (fun g => hv0 (hz.2 g.2))]
          simp [hh, hv0, e2, e3]
      · simp [hh]
    · rw [hlow]
      have e : (b 'x' == b 'X') = false := by decide
      rw [e] at d1 ⊢
      have e1 : ¬ (b 'x' = b 'o') := by decide
      rw [if_neg (by decide : ¬ b 'x' = b 'X'), if_neg (by decide : ¬ b 'x' = b 'u'), if_neg e1, d1]
      by_cases hh : f.hash = true
      · simp [hh, e1]
      · simp [hh]
    · rw [hlow]
      have e : (b 'X' == b 'X') = true := by decide
      rw [e] at d1 ⊢
      have e1 : ¬ (b 'X' = b 'o') := by decide
      have e2 : ¬ (b 'X' = b 'x') := by decide
      rw [if_pos rfl, if_neg (by decide : ¬ b 'x' = b 'u'), if_neg (by decide : ¬ b 'x' = b 'o'), d1]
      by_cases hh : f.hash = true
      · simp [hh, e1, e2]
      · simp [hh]
  rw [ht, render_num (by exact hd)]
  have hnx := dig_not_x (up := c == b 'X') hb16 d2
  have hne : ds.map (dig (c == b 'X')) ≠ [] := by
    have := d2.1
    simpa using this
  generalize hD : ds.map (dig (c == b 'X')) = D at hnx hne hz ⊢
  have hdl : ∀ p, leadLen D p = 0 ∨ D = [b '0'] := fun p => by
    rw [← hD]; exact dig_lead hb16 d2 p
  have hpl : D.length ≠ 0 := by simpa using hne
  split
  · split
    · left
      simp only [List.nil_append, List.singleton_append, leadLen]
      rw [if_neg (by decide), if_pos trivial, if_neg (fun g => hnx g.2)]
      rfl
    · split
      · left
        simp only [List.nil_append, List.cons_append, leadLen]
        rw [if_neg (by decide), if_pos trivial, if_pos ⟨by simp, by simp only [List.head?_cons, Option.map_some]; decide⟩]
        rfl
      · split
        · left
          simp only [List.nil_append, List.cons_append, leadLen]
          rw [if_neg (by decide), if_pos trivial, if_pos ⟨by simp, by simp only [List.head?_cons, Option.map_some]; decide⟩]
          rfl
        · rcases hdl (([] : Bytes) ++ [] ++ D).length with g | g
          · left; simpa using g
          · right; simpa using g
  · rcases hdl (([] : Bytes) ++ [] ++ D).length with g | g
    · left; simpa using g
    · right; simpa using g

/-- **C67**: `%s` with any flags, width and precision: at most `precision` bytes of the string,
padded to the width. -/
theorem conv_string (f : Fl) (s : Bytes) (as : List Arg) :
    conv f (b 's') (.str (some s) :: as) =
      some (fieldOf f.right f.zero f.field [] [] (if f.dot then s.take f.prec.toNat else s), as) := by
  have h1 : lower (b 's') = b 's' := by decide
  have h2 : ¬ (b 's' = b 'p' ∨ b 's' = b 'd' ∨ b 's' = b 'i' ∨ b 's' = b 'o' ∨ b 's' = b 'u' ∨ b 's' = b 'x') := by decide
  simp only [conv, h1, if_neg h2, if_true, Option.getD_some, Option.some.injEq, Prod.mk.injEq, and_true]
  have hm : (max f.prec 0).toNat = f.prec.toNat := by omega
  have ht : ∀ p : Nat, p = (if !f.dot ∨ (s.length : Int) < max f.prec 0 then s.length else (max f.prec 0).toNat) →
      s.take p = (if f.dot then s.take f.prec.toNat else s) ∧ (s.take p).length = p := by
    rintro p rfl
    rcases hd : f.dot with _ | _
    · simp
    · by_cases hl : (s.length : Int) < max f.prec 0
      · simp only [hl, or_true, if_true, List.take_length, and_true]
        rw [List.take_of_length_le]; omega
      · simp only [hl, or_false, Bool.not_true, Bool.false_eq_true, if_false, if_true, hm, true_and, List.length_take]
        omega
  simp only [render]
  generalize hp : (if !f.dot ∨ (s.length : Int) < max f.prec 0 then s.length else (max f.prec 0).toNat) = p
  obtain ⟨t1, t2⟩ := ht p hp.symm
  rw [← t1]
  simp only [fieldOf, List.nil_append, t2, Bool.and_false, Bool.false_eq_true, if_false]
  by_cases hk : f.field > p
  · rw [if_pos hk]
    split
    · rfl
    · split <;> simp
  · rw [if_neg hk]
    have : f.field - p = 0 := by omega
    simp [this]

/-- **C67**: text without `%` is copied -/
theorem format_literal (s : Bytes) (hs : b '%' ∉ s) (as : List Arg) (n : Nat) (hn : s.length < n) : format n s as = some s := by
  induction s generalizing n with
  | nil =>
    obtain ⟨n, rfl⟩ : ∃ m, n = m + 1 := ⟨n - 1, by omega⟩
    rfl
  | cons c t ih =>
    obtain ⟨n, rfl⟩ : ∃ m, n = m + 1 := ⟨n - 1, by omega⟩
    simp only [List.mem_cons, not_or] at hs
    simp only [format]
    rw [if_pos (fun g => hs.1 g.symm), ih hs.2 n (by simpa using hn)]
    rfl

/-- text in front of a conversion is copied -/
theorem format_text (s t : Bytes) (hs : b '%' ∉ s) (as : List Arg) (n : Nat) : format (s.length + n) (s ++ t) as = (format n t as).map (s ++ ·) := by
  induction s with
  | nil => simp
  | cons c r ih =>
    simp only [List.mem_cons, not_or] at hs
    rw [show (c :: r).length + n = (r.length + n) + 1 by simp; omega]
    simp only [List.cons_append, format]
    rw [if_pos (fun g => hs.1 g.symm), ih hs.2]
    cases format n t as <;> simp

/-- what `shf_vfprintf` writes for a format -/
def fmt (s : String) (as : List Arg) : Option Bytes := format (s.length + 1) (s.toList.map b) as

def str (s : String) : Arg := .str (some (s.toList.map b))
def out (s : String) : Option Bytes := some (s.toList.map b)

/-- formats of the shell (history.c, jobs.c, c_sh.c, c_ulimit.c, misc.c) -/
example : fmt "%3d: %-*s|" [.num 7, .num 6, str "ls"] = out "  7: ls    |" := by decide +kernel
example : fmt "%*ldm%02ld.%02lds" [.num 3, .num (-4), .num 5, .num 61] = out " -4m05.61s" := by decide +kernel
example : fmt "%#3.3o" [.num 18] = out "022" := by decide +kernel
example : fmt "%+05d|% d|%#08x|%#X" [.num 12, .num 3, .num 255, .num 171] = out "+0012| 3|0x0000ff|0XAB" := by decide +kernel
example : fmt "%-*.*s|%.2s" [.num 5, .num 3, str "abcdef", str "xyz"] = out "abc  |xy" := by decide +kernel

/-- Where it is not printf(3): a sign counts as a digit of the precision, a precision replaces the
width, and `%#x` marks zero (printf gives `-005`, `  007`, `0`). -/
theorem precision_differs :
    fmt "%.3d" [.num (-5)] = out "-05" ∧ fmt "%5.3d" [.num 7] = out "007" ∧ fmt "%#x" [.num 0] = out "0x0" := by decide +kernel

/-- The least `long long` is negated (undefined). -/
theorem least_undefined : fmt "%lld" [.num (-2 ^ 63)] = none := by decide +kernel

/-- A format and a buffer: what shf_snprintf leaves there -/
def snprintfF (fm : String) (as : List Arg) (buf : Bytes) (w : W) : Option Bytes := (fmt fm as).bind fun o => snprintf o buf w

example : snprintfF "%d:%s" [.num 42, str "hello"] [9, 9, 9, 9, 9, 9] { sent := [], ws := [], data := [], pos := 0, rs := [], seek := false } = some [52, 50, 58, 104, 101, 0] := by decide +kernel

end Ksh.Shf
