import Verif.Num.Lemmas

/-!
C06 integer round trip, C07 plain integer operands, C08 field formatting,
C46 decimal output, C56 numerals accepted by integer conversion.
-/
namespace Ksh.Num

/-! ### C06 -/

theorem digitLoop_length (up : Bool) (b : Nat) : ∀ (fuel n : Nat) (acc : List Char),
    (digitLoop up b fuel n acc).length ≤ fuel + acc.length := by
  intro fuel
  induction fuel with
  | zero => intro n acc; simp [digitLoop]
  | succ fuel ih =>
    intro n acc
    simp only [digitLoop]
    split
    · simp; omega
    · have := ih (n / b) (digitChar up (n % b) :: acc)
      simp at this; omega

/-- The text of `str_val` for a variable in base `b`, split into sign and magnitude. -/
theorem strVal_text (a : IntAttr) (v : Int) (hr : InRange v) :
    ∃ n : Nat, n < 2 ^ 64 ∧
      (strVal a v).1 = (if !a.unsign && decide (v < 0) then ['-'] else []) ++
      (if effBase a.base ≠ 10 then
        (if effBase a.base ≥ 10 then
          digitChar a.upper (effBase a.base / 10) :: digitChar a.upper (effBase a.base % 10) :: '#' ::
            digitLoop a.upper (effBase a.base) 64 n []
         else digitChar a.upper (effBase a.base % 10) :: '#' ::
            digitLoop a.upper (effBase a.base) 64 n [])
       else digitLoop a.upper (effBase a.base) 64 n []) ∧
      (a.unsign = true → (n : Int) = v % 2 ^ 64) ∧
      (a.unsign = false → (n : Int) = if v < 0 then -v else v) := by
  unfold InRange int64Min int64Max at hr
  refine ⟨if a.unsign then (v % 2 ^ 64).toNat
    else (if v < 0 then (wrap64 (-v) % 2 ^ 64).toNat else v.toNat), ?_, ?_, ?_, ?_⟩
  · split
    · omega
    · split <;> omega
  · simp only [strVal]
    generalize (if a.unsign = true then (v % 2 ^ 64).toNat
      else if v < 0 then (wrap64 (-v) % 2 ^ 64).toNat else v.toNat) = n
    by_cases h1 : effBase a.base = 10 <;> by_cases h2 : effBase a.base ≥ 10 <;>
      cases h3 : (!a.unsign && decide (v < 0)) <;> simp [h1, h2]
  · intro h; simp [h]; omega
  · intro h
    simp only [h, Bool.false_eq_true, if_false]
    split
    · by_cases hm : v = -2 ^ 63
      · subst hm; decide
      · rw [wrap64_of_inRange (by unfold InRange int64Min int64Max; omega)]; omega
    · omega

theorem effBase_range (b : Nat) : 2 ≤ effBase b ∧ effBase b ≤ 36 := by
  unfold effBase
  simp only
  generalize (if b = 0 then 10 else b) = b1
  split <;> omega

/-- `getint` does not see a C octal/hex prefix in text that does not start with `0`
followed by something. -/
theorem getint_plain (s : List Char) (ar zf : Bool) (h : ∀ c r, s ≠ '0' :: c :: r) :
    getint s ar zf = getintLoop s 10 false false 0 false := by
  unfold getint
  split
  · next c r => exact absurd rfl (h c r)
  · rfl

theorem text_no_prefix (up : Bool) {b : Nat} (hb : 2 ≤ b) (hb' : b ≤ 36) (n : Nat) (hn : n < 2 ^ 64) :
    ∀ c r, (if b ≠ 10 then
        (if b ≥ 10 then digitChar up (b / 10) :: digitChar up (b % 10) :: '#' :: digitLoop up b 64 n []
         else digitChar up (b % 10) :: '#' :: digitLoop up b 64 n [])
       else digitLoop up b 64 n []) ≠ '0' :: c :: r := by
  intro c r
  have hn' : n < b ^ 64 := Nat.lt_of_lt_of_le hn (Nat.pow_le_pow_left hb 64)
  obtain ⟨ds, e1, e2, e3, e4, _, _, _, e5⟩ := digitLoop_eq up hb 64 n [] hn' (by omega)
  rw [e1]
  split
  · split
    · intro h
      have h0 := (digitVal_digitChar up (b / 10) (by omega)).2.2.2.2
      simp only [List.cons.injEq] at h
      have := h0 h.1
      omega
    · intro h
      have h0 := (digitVal_digitChar up (b % 10) (by omega)).2.2.2.2
      simp only [List.cons.injEq] at h
      have := h0 h.1
      omega
  · intro h
    cases ds with
    | nil => exact absurd rfl e4
    | cons d ds =>
      simp only [List.map_cons, List.append_nil, List.cons.injEq] at h
      have h0 := (digitVal_digitChar up d (by have := e2 d (by simp); omega)).2.2.2.2 h.1
      have := e5 (by simp [h0])
      simp at this
      rw [this.2] at h
      simp at h

/-- **C06** The text printed for a signed integer variable reads back (as a plain
value or inside arithmetic) as the same value and base, without signed overflow
except for the most negative value. -/
theorem int_text_roundtrip (a : IntAttr) (v : Int) (hr : InRange v) (hs : a.unsign = false)
    (ar zf : Bool) :
    ∃ ub, getint (strVal a v).1 ar zf = some { num := v, base := effBase a.base, ub := ub } ∧
      (v ≠ int64Min → ub = false ∧ (strVal a v).2 = false) := by
  obtain ⟨hb, hb'⟩ := effBase_range a.base
  obtain ⟨n, hn, ht, _, hv⟩ := strVal_text a v hr
  replace hv := hv hs
  have hub : v ≠ int64Min → (strVal a v).2 = false := by
    intro h
    simp only [strVal, hs, Bool.not_false, Bool.true_and]
    by_cases h0 : v < 0
    · have : InRange (-v) := by unfold InRange int64Min int64Max at *; omega
      simp [this]
    · simp [h0]
  rw [ht]
  simp only [hs, Bool.not_false, Bool.true_and, decide_eq_true_eq]
  by_cases h0 : v < 0
  · rw [if_pos h0] at hv ⊢
    rw [getint_plain _ _ _ (by intro c r; simp)]
    obtain ⟨ub, e1, e2⟩ := getint_mag a.upper true hb hb' n hn
    simp only [List.cons_append, List.nil_append]
    rw [getintLoop, if_pos rfl, e1]
    simp only [getintLoop, if_true]
    have hnum : wrap64 (-wrap64 (n : Int)) = v := by
      have : wrap64 (-wrap64 (n : Int)) = wrap64 (-(n : Int)) := by
        unfold wrap64
        rw [Int.bmod_neg_bmod]
      rw [this, hv, Int.neg_neg, wrap64_of_inRange hr]
    rw [hnum]
    refine ⟨_, rfl, ?_⟩
    intro hne
    have hle : (n : Int) ≤ int64Max := by unfold InRange int64Min int64Max at *; omega
    have hin : InRange (n : Int) := by unfold InRange int64Min int64Max at *; omega
    have hin' : InRange (-(n : Int)) := by unfold InRange int64Min int64Max at *; omega
    rw [e2 hle, wrap64_of_inRange hin]
    exact ⟨by simp [hin'], hub hne⟩
  · rw [if_neg h0] at hv ⊢
    rw [List.nil_append, getint_plain _ _ _ (text_no_prefix a.upper hb hb' n hn)]
    obtain ⟨ub, e1, e2⟩ := getint_mag a.upper false hb hb' n hn
    rw [e1]
    simp only [getintLoop, Bool.false_eq_true, if_false]
    rw [hv, wrap64_of_inRange hr]
    refine ⟨ub, rfl, fun h => ⟨e2 ?_, hub h⟩⟩
    rw [hv]; exact hr.2

/-- **C06** The same for unsigned integer variables: the 64 bits are preserved. -/
theorem uint_text_roundtrip (a : IntAttr) (v : Int) (hr : InRange v) (hs : a.unsign = true)
    (ar zf : Bool) :
    ∃ ub, getint (strVal a v).1 ar zf = some { num := v, base := effBase a.base, ub := ub } ∧
      (0 ≤ v → ub = false) := by
  obtain ⟨hb, hb'⟩ := effBase_range a.base
  obtain ⟨n, hn, ht, hv, _⟩ := strVal_text a v hr
  replace hv := hv hs
  rw [ht]
  simp only [hs, Bool.not_true, Bool.false_and, Bool.false_eq_true, if_false, List.nil_append]
  rw [getint_plain _ _ _ (text_no_prefix a.upper hb hb' n hn)]
  obtain ⟨ub, e1, e2⟩ := getint_mag a.upper false hb hb' n hn
  rw [e1]
  simp only [getintLoop, Bool.false_eq_true, if_false]
  have : wrap64 (n : Int) = v := by
    rw [hv]; unfold wrap64
    have h2 : (2 : Int) ^ 64 = ((2 ^ 64 : Nat) : Int) := by decide
    rw [h2, Int.emod_bmod]
    exact wrap64_of_inRange hr
  rw [this]
  refine ⟨ub, rfl, fun h => e2 ?_⟩
  unfold InRange int64Min int64Max at *
  omega

/-- **C06** The text and its NUL fit the buffer `strbuf` (69 bytes, var.c:321). -/
theorem int_text_fits (a : IntAttr) (v : Int) (hr : InRange v) :
    (strVal a v).1.length + 1 ≤ 1 + 2 + 1 + 64 + 1 := by
  obtain ⟨n, hn, ht, _, _⟩ := strVal_text a v hr
  rw [ht, List.length_append]
  have := digitLoop_length a.upper (effBase a.base) 64 n []
  simp at this
  have h1 : (if !a.unsign && decide (v < 0) then ['-'] else []).length ≤ 1 := by split <;> simp
  have h2 : (if effBase a.base ≠ 10 then
        (if effBase a.base ≥ 10 then
          digitChar a.upper (effBase a.base / 10) :: digitChar a.upper (effBase a.base % 10) :: '#' ::
            digitLoop a.upper (effBase a.base) 64 n []
         else digitChar a.upper (effBase a.base % 10) :: '#' ::
            digitLoop a.upper (effBase a.base) 64 n [])
       else digitLoop a.upper (effBase a.base) 64 n []).length ≤ 67 := by
    split
    · split <;> simp <;> omega
    · omega
  omega

/-- **C06** (disagreement) Printing and reading the most negative value goes
through signed overflow, in every base. -/
theorem int_min_overflows : ∀ b < 37, ∀ up : Bool,
    (strVal { base := b, unsign := false, upper := up } int64Min).2 = true ∧
    (getint (strVal { base := b, unsign := false, upper := up } int64Min).1 false false).map (·.ub)
      = some true := by
  decide +kernel

example : (strVal { base := 16, unsign := false, upper := false } (-255)).1 = "-16#ff".toList := by
  decide
example : getint "-16#ff".toList false false = some { num := -255, base := 16, ub := false } := by
  decide

/-! ### C56: which texts are numbers -/

/-- A numeral: optional `-`, optional `base#` with the base written in decimal,
then digits of that base (possibly none). -/
structure Numeral where
  neg : Bool
  base : Option Nat
  digits : List Nat

def Numeral.radix (n : Numeral) : Nat := n.base.getD 10

/-- `s` is a spelling of the numeral (digits in either case). -/
def Spells (n : Numeral) (s : List Char) : Prop :=
  (∀ b, n.base = some b → 2 ≤ b ∧ b ≤ 36) ∧ (∀ d ∈ n.digits, d < n.radix) ∧
  ∃ pre cs : List Char, s = (if n.neg then ['-'] else []) ++ pre ++ cs ∧
    cs.map digitVal = n.digits.map some ∧
    (match n.base with
     | none => pre = []
     | some b => ∃ (ps : List Char) (pd : List Nat), pre = ps ++ ['#'] ∧
         ps.map digitVal = pd.map some ∧ (∀ d ∈ pd, d < 10) ∧ val 10 0 pd = (b : Int))

/-- value of a numeral -/
def Numeral.value (n : Numeral) : Int :=
  let m := val n.radix 0 n.digits
  if n.neg then -m else m

/-- **C56** Every spelling of a numeral whose magnitude is at most 2^63-1 is
accepted with its value and base, without overflow. -/
theorem numeral_accepted (n : Numeral) (s : List Char) (h : Spells n s)
    (hr : val n.radix 0 n.digits ≤ int64Max) (zf : Bool) :
    getint s false zf = some { num := n.value, base := n.radix, ub := false } := by
  obtain ⟨hbase, hdig, pre, cs, hs, hcs, hpre⟩ := h
  have hget : getint s false zf = getintLoop s 10 false false 0 false := by
    unfold getint; split
    · next h => simp at h
    · rfl
  have hneg : getintLoop s 10 false false 0 false = getintLoop (pre ++ cs) 10 false n.neg 0 false := by
    rw [hs]
    cases n.neg with
    | true =>
      simp only [if_true, List.cons_append, List.nil_append]
      rw [getintLoop, if_pos rfl]
    | false => simp
  rw [hget, hneg]
  have hge : ∀ b : Nat, 2 ≤ b → 0 ≤ val b 0 n.digits := fun b hb =>
    val_mono (b := b) (by omega) n.digits 0 (by omega)
  have fin : ∀ (b : Nat) (hb : Bool), 2 ≤ b → val b 0 n.digits ≤ int64Max →
      (∀ d ∈ n.digits, d < b) →
      getintLoop cs b hb n.neg 0 false =
        some { num := if n.neg then -(val b 0 n.digits) else val b 0 n.digits, base := b, ub := false } := by
    intro b hb h2 hmax hd
    obtain ⟨ub', e1, e2⟩ := getint_chars h2 hb n.neg [] cs n.digits 0 false hcs hd
    rw [List.append_nil, wrap64_zero] at e1
    rw [e1, e2 (by omega) hmax]
    have h0 := hge b h2
    have hin : InRange (val b 0 n.digits) := by unfold InRange int64Min int64Max at *; omega
    have hin' : InRange (-(val b 0 n.digits)) := by unfold InRange int64Min int64Max at *; omega
    rw [wrap64_of_inRange hin]
    cases n.neg with
    | true => simp [getintLoop, wrap64_of_inRange hin', hin']
    | false => simp [getintLoop]
  cases hb : n.base with
  | none =>
    rw [hb] at hpre
    simp only at hpre
    subst hpre
    have hrad : n.radix = 10 := by simp [Numeral.radix, hb]
    rw [hrad] at hr hdig
    rw [List.nil_append]
    have := fin 10 false (by omega) hr hdig
    simp only [Numeral.value, hrad]
    exact this
  | some b =>
    rw [hb] at hpre
    obtain ⟨ps, pd, hp, hps, hpd, hval⟩ := hpre
    obtain ⟨hb1, hb2⟩ := hbase b hb
    have hrad : n.radix = b := by simp [Numeral.radix, hb]
    rw [hrad] at hr hdig
    subst hp
    obtain ⟨ub', e1, e2⟩ := getint_chars (b := 10) (by omega) false n.neg ('#' :: cs) ps pd 0 false hps hpd
    rw [wrap64_zero, hval, wrap64_of_inRange (by unfold InRange int64Min int64Max; omega)] at e1
    rw [hval] at e2
    replace e2 := e2 (by omega) (by unfold int64Max; omega)
    subst e2
    have hw : wrap32 (b : Int) = b := by unfold wrap32; rw [Int.bmod_eq_of_le] <;> omega
    have hc : ¬ ((false = true) ∨ (b : Int) < 2 ∨ (b : Int) > 36) := by simp; omega
    have hstep : getintLoop ('#' :: cs) 10 false n.neg (b : Int) false =
        getintLoop cs b true n.neg 0 false := by
      rw [getintLoop]
      simp only [hw]
      rw [if_neg (by decide), if_pos trivial, if_neg hc]
    rw [List.append_assoc]
    simp only [List.cons_append, List.nil_append]
    have := fin b true hb1 hr hdig
    rw [← hstep] at this
    simp only [Numeral.value, hrad]
    exact (e1.trans this)

example : Spells { neg := true, base := some 16, digits := [15, 15] } "-16#fF".toList := by
  refine ⟨by simp, by decide, "16#".toList, "fF".toList, by decide, by decide, ?_⟩
  exact ⟨"16".toList, [1, 6], by decide, by decide, by decide, by decide⟩

/-- **C56** (disagreement) Texts that are no numerals are accepted too: the base
is truncated to 32 bits, and a minus sign may stand anywhere, repeatedly. -/
theorem non_numerals_accepted :
    getint "4294967298#1".toList false false = some { num := 1, base := 2, ub := false } ∧
    getint "1-2".toList false false = some { num := -12, base := 10, ub := false } ∧
    getint "--5".toList false false = some { num := -5, base := 10, ub := false } ∧
    getint [] false false = some { num := 0, base := 10, ub := false } := by
  decide +kernel

/-- **C56** (partial: the converse fails, see `non_numerals_accepted`)  A text
with any character other than `-`, `#` and digits/letters is rejected. -/
theorem bad_character_rejected_partial (s : List Char) (c : Char) (hc : c ∈ s)
    (hbad : letnum c = false) (h1 : c ≠ '-') (h2 : c ≠ '#') (zf : Bool) :
    getint s false zf = none := by
  have hget : getint s false zf = getintLoop s 10 false false 0 false := by
    unfold getint; split
    · next h => simp at h
    · rfl
  rw [hget]
  have : ∀ (s : List Char), c ∈ s → ∀ b hb neg num ub, getintLoop s b hb neg num ub = none := by
    intro s
    induction s with
    | nil => intro h; simp at h
    | cons x s ih =>
      intro h b hb neg num ub
      simp only [getintLoop]
      rcases List.mem_cons.1 h with rfl | h
      · simp [h1, h2, hbad]
      · split
        · exact ih h _ _ _ _ _
        · split
          · split
            · rfl
            · exact ih h _ _ _ _ _
          · split
            · split
              · rfl
              · split
                · rfl
                · exact ih h _ _ _ _ _
            · rfl
  exact this s hc _ _ _ _ _

/-- a digit of base `b`, in either case -/
def DigitOf (b : Int) (c : Char) : Prop := ∃ d : Nat, digitVal c = some d ∧ (d : Int) < b

/-- What the scanner computes for the decimal text before `#`: 64-bit wrapping,
then truncation to `int`. -/
def baseOf (num : Int) (ps : List Char) : Int :=
  wrap32 (ps.foldl (fun a c => wrap64 (a * 10 + (digitVal c).getD 0)) num)

theorem scan_based_accepts (s : List Char) : ∀ (b : Int) (neg : Bool) (num : Int) (ub : Bool),
    (getintLoop s b true neg num ub).isSome ↔ ∀ c ∈ s, c ≠ '-' → DigitOf b c := by
  induction s with
  | nil => intro b neg num ub; cases neg <;> simp [getintLoop]
  | cons c s ih =>
    intro b neg num ub
    simp only [getintLoop]
    by_cases h1 : c = '-'
    · rw [if_pos h1, ih]; simp [h1]
    · rw [if_neg h1]
      by_cases h2 : c = '#'
      · rw [if_pos h2]
        subst h2
        simp only [true_or, if_true, Option.isSome_none, Bool.false_eq_true, false_iff]
        intro h
        obtain ⟨d, hd, _⟩ := h '#' (by simp) (by decide)
        have : digitVal '#' = none := by decide
        rw [this] at hd; simp at hd
      · rw [if_neg h2]
        cases hd : digitVal c with
        | none =>
          have hx : ∀ (o : Option GI), (if letnum c = true then none else (none : Option GI)) = none := by
            intro _; split <;> rfl
          rw [hx none]
          simp only [Option.isSome_none, Bool.false_eq_true, false_iff]
          intro h
          obtain ⟨d, hd', _⟩ := h c (by simp) h1
          rw [hd] at hd'; simp at hd'
        | some d =>
          rw [if_pos (digitVal_some hd).1]
          simp only
          by_cases h3 : (d : Int) ≥ b
          · rw [if_pos h3]
            simp only [Option.isSome_none, Bool.false_eq_true, false_iff]
            intro h
            obtain ⟨d', hd', hlt⟩ := h c (by simp) h1
            rw [hd] at hd'; cases hd'; omega
          · rw [if_neg h3, ih]
            constructor
            · intro h x hx hne
              rcases List.mem_cons.1 hx with rfl | hx
              · exact ⟨d, hd, by omega⟩
              · exact h x hx hne
            · intro h x hx hne; exact h x (by simp [hx]) hne

theorem scan_plain_accepts (s : List Char) : ∀ (neg : Bool) (num : Int) (ub : Bool),
    (getintLoop s 10 false neg num ub).isSome ↔
      (∀ c ∈ s, c ≠ '-' → DigitOf 10 c) ∨
      ∃ ps ds, s = ps ++ '#' :: ds ∧ (∀ c ∈ ps, c ≠ '-' → DigitOf 10 c) ∧
        2 ≤ baseOf num (ps.filter (· != '-')) ∧ baseOf num (ps.filter (· != '-')) ≤ 36 ∧
        ∀ c ∈ ds, c ≠ '-' → DigitOf (baseOf num (ps.filter (· != '-'))) c := by
  have hhash : ¬ DigitOf 10 '#' := by
    rintro ⟨d, hd, _⟩
    have : digitVal '#' = none := by decide
    rw [this] at hd; simp at hd
  induction s with
  | nil => intro neg num ub; cases neg <;> simp [getintLoop]
  | cons c s ih =>
    intro neg num ub
    simp only [getintLoop]
    by_cases h1 : c = '-'
    · rw [if_pos h1, ih]
      subst h1
      constructor
      · rintro (h | ⟨ps, ds, rfl, h⟩)
        · left; intro x hx hne; rcases List.mem_cons.1 hx with rfl | hx
          · exact absurd rfl hne
          · exact h x hx hne
        · right
          refine ⟨'-' :: ps, ds, by simp, ?_, ?_⟩
          · intro x hx hne; rcases List.mem_cons.1 hx with rfl | hx
            · exact absurd rfl hne
            · exact h.1 x hx hne
          · rw [List.filter_cons_of_neg (by simp)]
            exact h.2
      · rintro (h | ⟨ps, ds, he, h⟩)
        · left; intro x hx hne; exact h x (by simp [hx]) hne
        · right
          cases ps with
          | nil => simp at he
          | cons p ps =>
            simp only [List.cons_append, List.cons.injEq] at he
            obtain ⟨rfl, rfl⟩ := he
            refine ⟨ps, ds, rfl, fun x hx hne => h.1 x (by simp [hx]) hne, ?_⟩
            rw [List.filter_cons_of_neg (by simp)] at h
            exact h.2
    · rw [if_neg h1]
      by_cases h2 : c = '#'
      · rw [if_pos h2]
        subst h2
        constructor
        · intro h
          right
          split at h
          · simp at h
          · next hc =>
            rw [scan_based_accepts] at h
            simp only [Bool.false_eq_true, false_or, not_or] at hc
            exact ⟨[], s, rfl, by simp, by simp [baseOf]; omega, by simp [baseOf]; omega,
              by simpa [baseOf] using h⟩
        · rintro (h | ⟨ps, ds, he, h⟩)
          · exact absurd (h '#' (by simp) (by decide)) hhash
          · cases ps with
            | cons p ps =>
              simp only [List.cons_append, List.cons.injEq] at he
              obtain ⟨rfl, rfl⟩ := he
              exact absurd (h.1 '#' (by simp) (by decide)) hhash
            | nil =>
              simp only [List.nil_append, List.cons.injEq, true_and] at he
              subst he
              simp only [List.filter_nil, baseOf, List.foldl_nil] at h
              rw [if_neg (by simp; omega), scan_based_accepts]
              exact h.2.2.2
      · rw [if_neg h2]
        cases hd : digitVal c with
        | none =>
          have hx : (if letnum c = true then none else (none : Option GI)) = none := by
            split <;> rfl
          have hnd : ¬ DigitOf 10 c := by rintro ⟨d, hd', _⟩; rw [hd] at hd'; simp at hd'
          rw [hx]
          simp only [Option.isSome_none, Bool.false_eq_true, false_iff]
          rintro (h | ⟨ps, ds, he, h⟩)
          · exact hnd (h c (by simp) h1)
          · cases ps with
            | nil => simp at he; exact h2 he.1
            | cons p ps =>
              simp only [List.cons_append, List.cons.injEq] at he
              obtain ⟨rfl, rfl⟩ := he
              exact hnd (h.1 _ (by simp) h1)
        | some d =>
          rw [if_pos (digitVal_some hd).1]
          simp only
          by_cases h3 : (d : Int) ≥ 10
          · rw [if_pos h3]
            have hnd : ¬ DigitOf 10 c := by
              rintro ⟨d', hd', hlt⟩; rw [hd] at hd'; cases hd'; omega
            simp only [Option.isSome_none, Bool.false_eq_true, false_iff]
            rintro (h | ⟨ps, ds, he, h⟩)
            · exact hnd (h c (by simp) h1)
            · cases ps with
              | nil => simp at he; exact h2 he.1
              | cons p ps =>
                simp only [List.cons_append, List.cons.injEq] at he
                obtain ⟨rfl, rfl⟩ := he
                exact hnd (h.1 _ (by simp) h1)
          · have hdc : DigitOf 10 c := ⟨d, hd, by omega⟩
            have hb : ∀ ps : List Char, baseOf num ((c :: ps).filter (· != '-')) =
                baseOf (wrap64 (num * 10 + d)) (ps.filter (· != '-')) := by
              intro ps
              rw [List.filter_cons_of_pos (by simpa using h1)]
              simp [baseOf, hd]
            rw [if_neg h3, ih]
            constructor
            · rintro (h | ⟨ps, ds, rfl, h⟩)
              · left; intro x hx hne; rcases List.mem_cons.1 hx with rfl | hx
                · exact hdc
                · exact h x hx hne
              · right
                refine ⟨c :: ps, ds, by simp, ?_, ?_⟩
                · intro x hx hne; rcases List.mem_cons.1 hx with rfl | hx
                  · exact hdc
                  · exact h.1 x hx hne
                · rw [hb]; exact h.2
            · rintro (h | ⟨ps, ds, he, h⟩)
              · left; intro x hx hne; exact h x (by simp [hx]) hne
              · cases ps with
                | nil => simp at he; exact absurd he.1 h2
                | cons p ps =>
                  simp only [List.cons_append, List.cons.injEq] at he
                  obtain ⟨rfl, rfl⟩ := he
                  right
                  refine ⟨ps, ds, rfl, fun x hx hne => h.1 x (by simp [hx]) hne, ?_⟩
                  rw [hb] at h
                  exact h.2

/-- **C56** (partial: this is the exact language the code accepts, wider than the
numerals) A text is accepted exactly when, minus signs ignored wherever they
stand, it is decimal digits, or decimal digits giving a base between 2 and 36
(after truncation of the base to 32 bits), `#`, and digits of that base. -/
theorem accepted_texts_partial (s : List Char) (zf : Bool) :
    (getint s false zf).isSome ↔
      (∀ c ∈ s, c ≠ '-' → DigitOf 10 c) ∨
      ∃ ps ds, s = ps ++ '#' :: ds ∧ (∀ c ∈ ps, c ≠ '-' → DigitOf 10 c) ∧
        2 ≤ baseOf 0 (ps.filter (· != '-')) ∧ baseOf 0 (ps.filter (· != '-')) ≤ 36 ∧
        ∀ c ∈ ds, c ≠ '-' → DigitOf (baseOf 0 (ps.filter (· != '-'))) c := by
  have hget : getint s false zf = getintLoop s 10 false false 0 false := by
    unfold getint; split
    · next h => simp at h
    · rfl
  rw [hget]
  exact scan_plain_accepts s _ _ _

/-! ### C07: `getn` and `u64ton` -/

/-- decimal value of a digit string -/
def decVal (ds : List Char) : Nat := ds.foldl (fun a c => 10 * a + (c.toNat - '0'.toNat)) 0

/-- `s` is white space, an optional sign and at least one digit, with value `v`. -/
def PlainInt (s : List Char) (v : Int) : Prop :=
  ∃ ws sg ds : List Char, s = ws ++ sg ++ ds ∧ (∀ c ∈ ws, isSpace c = true) ∧
    (sg = [] ∨ sg = ['+'] ∨ sg = ['-']) ∧ ds ≠ [] ∧ (∀ c ∈ ds, isDigit c = true) ∧
    v = if sg = ['-'] then -(decVal ds : Int) else decVal ds

theorem dropWhile_append_of_all {p : Char → Bool} {ws r : List Char} (h : ∀ c ∈ ws, p c = true)
    (hr : ∀ c, r.head? = some c → p c = false) : (ws ++ r).dropWhile p = r := by
  induction ws with
  | nil =>
    cases r with
    | nil => rfl
    | cons c r => simp [hr c rfl]
  | cons w ws ih =>
    rw [List.cons_append, List.dropWhile_cons, if_pos (h w (by simp))]
    exact ih (fun c hc => h c (by simp [hc]))

theorem takeWhile_all {p : Char → Bool} {ds : List Char} (h : ∀ c ∈ ds, p c = true) :
    ds.takeWhile p = ds ∧ ds.dropWhile p = [] := by
  induction ds with
  | nil => simp
  | cons c ds ih =>
    have := ih (fun x hx => h x (by simp [hx]))
    simp [h c (by simp), this]

theorem digit_not_space {c : Char} (h : isDigit c = true) : isSpace c = false ∧ c ≠ '+' ∧ c ≠ '-' := by
  unfold isDigit at h
  simp only [Bool.and_eq_true, decide_eq_true_eq] at h
  have h1 : '0' ≤ c := h.1
  refine ⟨?_, ?_, ?_⟩
  · unfold isSpace
    have hne : ∀ x : Char, x < '0' → (c == x) = false := by
      intro x hx
      simp only [beq_eq_false_iff_ne, ne_eq]
      rintro rfl
      exact absurd h1 (by simpa using hx)
    simp [hne ' ' (by decide), hne '\t' (by decide), hne '\n' (by decide), hne '\x0b' (by decide),
      hne '\x0c' (by decide), hne '\r' (by decide)]
  · rintro rfl; exact absurd h1 (by decide)
  · rintro rfl; exact absurd h1 (by decide)

/-- **C07** A plain operand is accepted exactly when it is a decimal integer
strictly between the extreme `int` values, and its value is used. -/
theorem getn_spec (s : List Char) (v : Int) :
    getn s = some v ↔ PlainInt s v ∧ -2 ^ 31 < v ∧ v < 2 ^ 31 - 1 := by
  constructor
  · intro h
    unfold getn strtol at h
    simp only at h
    generalize hm : signSplit (s.dropWhile isSpace) = m at h
    obtain ⟨neg, t'⟩ := m
    simp only at h
    have hshape : ∃ sg : List Char, (sg = [] ∨ sg = ['+'] ∨ sg = ['-']) ∧
        s.dropWhile isSpace = sg ++ t' ∧ (neg = true ↔ sg = ['-']) := by
      unfold signSplit at hm
      split at hm
      · next r hr => cases hm; exact ⟨['-'], by simp, by simp [hr], by simp⟩
      · next r hr => cases hm; exact ⟨['+'], by simp, by simp [hr], by simp⟩
      · cases hm; exact ⟨[], by simp, by simp, by simp⟩
    obtain ⟨sg, hsg, hdrop, hneg⟩ := hshape
    by_cases hds : t'.takeWhile isDigit = []
    · rw [if_pos hds] at h
      simp at h
    · rw [if_neg hds] at h
      simp only at h
      generalize hw : max int64Min (min int64Max (if neg = true then
        -((t'.takeWhile isDigit).foldl (fun a c => 10 * a + (c.toNat - '0'.toNat)) 0 : Nat) else
        (((t'.takeWhile isDigit).foldl (fun a c => 10 * a + (c.toNat - '0'.toNat)) 0 : Nat) : Int))) = w at h
      split at h
      · simp at h
      · next hcond =>
        simp only [Option.some.injEq] at h
        simp only [not_or, ne_eq, Decidable.not_not, Int.not_le, ge_iff_le] at hcond
        obtain ⟨hs0, hrest, hlo, hhi⟩ := hcond
        have ht' : t' = t'.takeWhile isDigit := by
          have := List.takeWhile_append_dropWhile (p := isDigit) (l := t')
          rw [hrest, List.append_nil] at this
          exact this.symm
        subst h
        refine ⟨⟨s.takeWhile isSpace, sg, t', ?_, ?_, hsg, ?_, ?_, ?_⟩, hlo, by omega⟩
        · rw [List.append_assoc, ← hdrop, List.takeWhile_append_dropWhile]
        · intro c hc; exact List.all_takeWhile (p := isSpace) (l := s) |> fun ha => by
            rw [List.all_eq_true] at ha; exact ha c hc
        · rw [ht']; exact hds
        · intro c hc
          rw [ht'] at hc
          have ha := List.all_takeWhile (p := isDigit) (l := t')
          rw [List.all_eq_true] at ha
          exact ha c hc
        · rw [← ht'] at hw
          have hdv : (t'.foldl (fun a c => 10 * a + (c.toNat - '0'.toNat)) 0 : Nat) = decVal t' := rfl
          rw [hdv] at hw
          unfold int64Min int64Max at hw
          by_cases hn : neg = true
          · simp only [hn, if_true] at hw
            rw [if_pos (hneg.1 hn)]
            omega
          · simp only [hn, Bool.false_eq_true, if_false] at hw
            rw [if_neg (fun e => hn (hneg.2 e))]
            omega
  · rintro ⟨⟨ws, sg, ds, rfl, hws, hsg, hne, hds, hv⟩, hlo, hhi⟩
    have hhead : ∀ c, (sg ++ ds).head? = some c → isSpace c = false := by
      intro c hc
      rcases hsg with rfl | rfl | rfl
      · cases ds with
        | nil => exact absurd rfl hne
        | cons d ds => simp at hc; subst hc; exact (digit_not_space (hds _ (by simp))).1
      · simp at hc; subst hc; decide
      · simp at hc; subst hc; decide
    have hdrop : (ws ++ sg ++ ds).dropWhile isSpace = sg ++ ds := by
      rw [List.append_assoc]; exact dropWhile_append_of_all hws hhead
    obtain ⟨ht, hd⟩ := takeWhile_all hds
    have hm : signSplit ((ws ++ sg ++ ds).dropWhile isSpace) = (decide (sg = ['-']), ds) := by
      rw [hdrop]
      rcases hsg with rfl | rfl | rfl
      · cases ds with
        | nil => exact absurd rfl hne
        | cons d ds =>
          have := digit_not_space (hds d (by simp))
          simp only [List.nil_append, signSplit]
          split
          · next r hr => simp at hr; exact absurd hr.1 this.2.2
          · next r hr => simp at hr; exact absurd hr.1 this.2.1
          · simp
      · simp [signSplit]
      · simp [signSplit]
    unfold getn strtol
    simp only [hm, ht, hd, if_neg hne]
    have hdv : (ds.foldl (fun a c => 10 * a + (c.toNat - '0'.toNat)) 0 : Nat) = decVal ds := rfl
    rw [hdv]
    have hval : max int64Min (min int64Max (if decide (sg = ['-']) = true then -(decVal ds : Int)
        else (decVal ds : Int))) = v := by
      unfold int64Min int64Max
      by_cases h : sg = ['-']
      · simp only [h, decide_true, if_true] at hv ⊢; omega
      · simp only [h, decide_false, Bool.false_eq_true, if_false] at hv ⊢; omega
    rw [hval]
    rw [if_neg]
    simp only [not_or]
    refine ⟨?_, by simp, by omega, by omega⟩
    simp [hne]

example : PlainInt " -42".toList (-42) := ⟨[' '], ['-'], ['4', '2'], by decide, by decide, by simp,
  by simp, by decide, by decide⟩

/-- **C07** (disagreement) The extreme `int` values are in range but rejected. -/
theorem getn_rejects_extremes :
    getn "2147483647".toList = none ∧ getn "-2147483648".toList = none ∧
    getn "2147483646".toList = some 2147483646 := by
  decide

/-- **C07** Writing a 64-bit magnitude in decimal stays inside the 20-byte buffer
exactly below 10^19 — in particular for every magnitude of a signed value. -/
theorem u64ton_fits_iff (n : Nat) (hn : n < 2 ^ 64) :
    (u64ton n 10).isSome ↔ n < 10 ^ 19 := by
  have hn' : n < 10 ^ 64 := Nat.lt_of_lt_of_le hn (by decide)
  obtain ⟨ds, e1, e2, e3, e4, _, e6, e7, e5⟩ := digitLoop_eq true (b := 10) (by omega) 64 n [] hn' (by omega)
  unfold u64ton
  rw [e1]
  simp only [List.append_nil, List.length_map]
  constructor
  · intro h
    rcases Nat.lt_or_ge n (10 ^ 19) with h' | h'
    · exact h'
    · have := e7 19 h'
      rw [if_neg (by omega)] at h
      simp at h
  · intro h
    have := e6 19 (by omega) h
    rw [if_pos (by omega)]
    simp

/-- **C07** and the text is the numeral of the number. -/
theorem u64ton_value (n : Nat) (hn : n < 2 ^ 64) (s : List Char) (h : u64ton n 10 = some s) :
    decVal s = n ∧ (∀ c ∈ s, isDigit c = true) ∧ s ≠ [] ∧ (s.head? = some '0' → s = ['0']) := by
  have hn' : n < 10 ^ 64 := Nat.lt_of_lt_of_le hn (by decide)
  obtain ⟨ds, e1, e2, e3, e4, _, _, _, e5⟩ := digitLoop_eq true (b := 10) (by omega) 64 n [] hn' (by omega)
  unfold u64ton at h
  rw [e1] at h
  simp only [List.append_nil] at h
  split at h
  · simp only [Option.some.injEq] at h
    subst h
    have hdc : ∀ d < 10, (digitChar true d).toNat - '0'.toNat = d ∧ isDigit (digitChar true d) = true ∧
        (digitChar true d = '0' → d = 0) := by decide
    refine ⟨?_, ?_, by simpa using e4, ?_⟩
    · have key : ∀ (ds : List Nat) (m : Nat), (∀ d ∈ ds, d < 10) →
          ((ds.map (digitChar true)).foldl (fun a c => 10 * a + (c.toNat - '0'.toNat)) m : Nat) =
            val 10 m ds := by
        intro ds
        induction ds with
        | nil => intro m _; simp [val]
        | cons d ds ih =>
          intro m hd
          simp only [List.map_cons, List.foldl_cons]
          rw [ih _ (fun x hx => hd x (by simp [hx])), (hdc d (hd d (by simp))).1]
          simp only [val, List.foldl_cons]
          congr 1
          omega
      have := key ds 0 e2
      have e3' : val 10 ((0 : Nat) : Int) ds = n := e3
      rw [e3'] at this
      exact_mod_cast this
    · intro c hc
      obtain ⟨d, hd, rfl⟩ := List.mem_map.1 hc
      exact (hdc d (e2 d hd)).2.1
    · intro hh
      cases ds with
      | nil => exact absurd rfl e4
      | cons d ds =>
        simp only [List.map_cons, List.head?_cons, Option.some.injEq] at hh
        have := (hdc d (e2 d (by simp))).2.2 hh
        have := e5 (by simp [this])
        simp at this
        simp [this.1, this.2]
        decide
  · simp at h

end Ksh.Num
