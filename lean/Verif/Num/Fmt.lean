import Verif.Num.Props

/-!
# Properties C08 (justified variables) and C46 (decimal conversions)
-/

namespace Ksh.Num

/-! ### C08: `typeset` with -L, -R, -Z, -l, -u -/

/-- `t` is `s` with its trailing white space removed. -/
def TrimmedEnd (s t : List Char) : Prop :=
  ∃ ws, s = t ++ ws ∧ (∀ c ∈ ws, isSpace c = true) ∧ (∀ c, t.getLast? = some c → isSpace c = false)

/-- `t` is `s` with the longest prefix of characters in `p` removed. -/
def TrimmedStart (p : Char → Bool) (s t : List Char) : Prop :=
  ∃ ws, s = ws ++ t ∧ (∀ c ∈ ws, p c = true) ∧ (∀ c, t.head? = some c → p c = false)

theorem trimmedStart_dropWhile (p : Char → Bool) (s : List Char) : TrimmedStart p s (s.dropWhile p) := by
  refine ⟨s.takeWhile p, List.takeWhile_append_dropWhile.symm, ?_, ?_⟩
  · intro c hc
    have := List.all_takeWhile (p := p) (l := s)
    rw [List.all_eq_true] at this
    exact this c hc
  · intro c hc
    have := List.head?_dropWhile_not p s
    rw [hc] at this
    simpa using this

theorem trimmedEnd_rdrop (s : List Char) : TrimmedEnd s (s.reverse.dropWhile isSpace).reverse := by
  obtain ⟨ws, h1, h2, h3⟩ := trimmedStart_dropWhile isSpace s.reverse
  refine ⟨ws.reverse, ?_, ?_, ?_⟩
  · rw [← List.reverse_append, ← h1, List.reverse_reverse]
  · intro c hc; exact h2 c (by simpa using hc)
  · intro c hc
    rw [List.getLast?_reverse] at hc
    exact h3 c hc

/-- The width in force: the declared one, or the length of the first value. -/
def width (a : FmtAttr) (s : List Char) : Nat := if a.field = 0 then s.length else a.field

theorem fmtS_pad (zero : Bool) (k : Nat) :
    fmtS false zero k none [] = List.replicate k (if zero then '0' else ' ') := by
  unfold fmtS
  cases k <;> simp

theorem fmtS_exact (t : List Char) : fmtS false false 0 (some t.length) t = t := by
  unfold fmtS; simp

/-- **C08** Right justification (`-R`, `-Z`): padding followed by the tail of the
value without trailing blanks, of exactly the declared width.  The padding is
zeros exactly when zero fill is on and what follows starts with a digit. -/
theorem rjust_shape (a : FmtAttr) (s : List Char) (hr : a.rjust = true) (hu : a.ucase = false)
    (hl : a.lcase = false) :
    ∃ t dropped kept, TrimmedEnd s t ∧ t = dropped ++ kept ∧
      kept.length = min t.length (width a s) ∧
      formatstr a s = List.replicate (width a s - kept.length)
        (if a.zerofil = true ∧ (∃ c, kept.head? = some c ∧ isDigit c = true) then '0' else ' ') ++ kept := by
  have ht := trimmedEnd_rdrop s
  generalize htd : (s.reverse.dropWhile isSpace).reverse = t at ht
  have hform : formatstr a s =
      (let t' := if t.length > width a s then t.drop (t.length - width a s) else t
       let zero := a.zerofil && (match (s.drop (t.length - t'.length)).head? with
        | some c => isDigit c | none => false)
       (fmtS false zero (width a s - t'.length) none [] ++ fmtS false false 0 (some t'.length) t').take
          (width a s)) := by
    unfold formatstr width
    simp only [hr, hu, hl, htd, Bool.true_or, if_true, Bool.false_eq_true, if_false]
    rfl
  have hk : (if t.length > width a s then t.drop (t.length - width a s) else t) =
      t.drop (t.length - width a s) := by
    split
    · rfl
    · rw [show t.length - width a s = 0 by omega]; rfl
  rw [hk] at hform
  generalize hkd : t.drop (t.length - width a s) = kept at hform
  have hklen : kept.length = min t.length (width a s) := by
    rw [← hkd, List.length_drop]; omega
  refine ⟨t, t.take (t.length - width a s), kept, ht, ?_, hklen, ?_⟩
  · rw [← hkd, List.take_append_drop]
  rw [hform]
  simp only [fmtS_pad, fmtS_exact]
  have hz : (a.zerofil && (match (s.drop (t.length - kept.length)).head? with
        | some c => isDigit c | none => false)) =
      decide (a.zerofil = true ∧ (∃ c, kept.head? = some c ∧ isDigit c = true)) := by
    obtain ⟨ws, hs, hws, _⟩ := ht
    have hd : t.length - kept.length = t.length - width a s := by omega
    have hkl : t.length - width a s ≤ t.length := by omega
    have : s.drop (t.length - kept.length) = kept ++ ws := by
      rw [hd, ← hkd]
      generalize t.length - width a s = k at hkl
      rw [hs, List.drop_append_of_le_length hkl]
    rw [this]
    cases hz : a.zerofil with
    | false => simp
    | true =>
      cases kept with
      | nil =>
        cases ws with
        | nil => simp
        | cons w ws =>
          have hw := hws w (by simp)
          have : isDigit w = false := by
            cases hd : isDigit w with
            | false => rfl
            | true => have := (digit_not_space hd).1; rw [hw] at this; simp at this
          simp [this]
      | cons k ks =>
        cases hdk : isDigit k <;> simp [hdk]
  rw [hz]
  rw [List.take_of_length_le]
  · congr 2
    by_cases h : (a.zerofil = true ∧ (∃ c, kept.head? = some c ∧ isDigit c = true)) <;> simp [h]
  · simp; omega

/-- **C08** Left justification (`-L`): the head of the value without leading
blanks (and zeros when `-Z` is also given), padded with blanks to the width. -/
theorem ljust_shape (a : FmtAttr) (s : List Char) (hr : a.rjust = false) (hl : a.ljust = true)
    (hu : a.ucase = false) (hlc : a.lcase = false) :
    ∃ t t' kept dropped, TrimmedStart isSpace s t ∧
      TrimmedStart (fun c => a.zerofil && c == '0') t t' ∧ t' = kept ++ dropped ∧
      kept.length = min t'.length (width a s) ∧
      formatstr a s = kept ++ List.replicate (width a s - kept.length) ' ' := by
  have hzz : (if a.zerofil then (s.dropWhile isSpace).dropWhile (· == '0') else s.dropWhile isSpace) =
      (s.dropWhile isSpace).dropWhile (fun c => a.zerofil && c == '0') := by
    cases a.zerofil with
    | true => simp
    | false =>
      simp only [Bool.false_eq_true, if_false, Bool.false_and]
      cases s.dropWhile isSpace <;> simp
  refine ⟨s.dropWhile isSpace, (s.dropWhile isSpace).dropWhile (fun c => a.zerofil && c == '0'), _, _,
    trimmedStart_dropWhile _ _, trimmedStart_dropWhile _ _, (List.take_append_drop (width a s) _).symm, ?_, ?_⟩
  · rw [List.length_take]; omega
  · generalize hg : (s.dropWhile isSpace).dropWhile (fun c => a.zerofil && c == '0') = t' at *
    have hform : formatstr a s = (fmtS true false (width a s) (some (width a s)) t').take (width a s) := by
      unfold formatstr width
      simp only [hr, hl, hu, hlc, Bool.false_or, if_true, Bool.false_eq_true, if_false]
      rw [hzz]
    rw [hform]
    unfold fmtS
    simp only
    by_cases h : t'.length < width a s
    · rw [if_pos h, if_pos h]
      simp only [if_true]
      rw [List.take_of_length_le (Nat.le_refl t'.length), List.take_of_length_le (Nat.le_of_lt h)]
      rw [List.take_of_length_le]
      simp; omega
    · rw [if_neg h, if_neg (by omega)]
      rw [List.take_take, Nat.min_self, List.length_take]
      rw [show width a s - min (width a s) t'.length = 0 by omega]
      simp

/-- A letter of the other case (ASCII). -/
def LowerToUpper (c d : Char) : Prop := 'a' ≤ c ∧ c ≤ 'z' ∧ d.toNat + 32 = c.toNat
def UpperToLower (c d : Char) : Prop := 'A' ≤ c ∧ c ≤ 'Z' ∧ d.toNat = c.toNat + 32

theorem toUpperC_spec (c : Char) : (LowerToUpper c (toUpperC c)) ∨
    (¬ ('a' ≤ c ∧ c ≤ 'z') ∧ toUpperC c = c) := by
  unfold toUpperC
  by_cases h : isLower c = true
  · left
    rw [if_pos h]
    unfold isLower at h
    simp only [Bool.and_eq_true, decide_eq_true_eq] at h
    refine ⟨h.1, h.2, ?_⟩
    have h1 : 97 ≤ c.toNat := h.1
    have h2 : c.toNat ≤ 122 := h.2
    have key : ∀ n < 123, 97 ≤ n → (Char.ofNat (n - 32)).toNat + 32 = n := by decide
    exact key _ (by omega) h1
  · right
    rw [if_neg h]
    unfold isLower at h
    simpa using h

theorem toLowerC_spec (c : Char) : (UpperToLower c (toLowerC c)) ∨
    (¬ ('A' ≤ c ∧ c ≤ 'Z') ∧ toLowerC c = c) := by
  unfold toLowerC
  by_cases h : isUpper c = true
  · left
    rw [if_pos h]
    unfold isUpper at h
    simp only [Bool.and_eq_true, decide_eq_true_eq] at h
    refine ⟨h.1, h.2, ?_⟩
    have h1 : 65 ≤ c.toNat := h.1
    have h2 : c.toNat ≤ 90 := h.2
    have key : ∀ n < 91, 65 ≤ n → (Char.ofNat (n + 32)).toNat = n + 32 := by decide
    exact key _ (by omega) h1
  · right
    rw [if_neg h]
    unfold isUpper at h
    simpa using h

/-- the value before the case attributes -/
def uncased (a : FmtAttr) : FmtAttr := { a with ucase := false, lcase := false }

/-- **C08** The case attributes change letter case and nothing else, position by
position. -/
theorem case_attributes (a : FmtAttr) (s : List Char) :
    (formatstr a s).length = (formatstr (uncased a) s).length ∧
    ∀ (i : Nat) (c d : Char), (formatstr (uncased a) s)[i]? = some c → (formatstr a s)[i]? = some d →
      (a.ucase = true → LowerToUpper c d ∨ (¬ ('a' ≤ c ∧ c ≤ 'z') ∧ d = c)) ∧
      (a.ucase = false → a.lcase = true → UpperToLower c d ∨ (¬ ('A' ≤ c ∧ c ≤ 'Z') ∧ d = c)) ∧
      (a.ucase = false → a.lcase = false → d = c) := by
  have h : formatstr a s = if a.ucase then (formatstr (uncased a) s).map toUpperC
      else if a.lcase then (formatstr (uncased a) s).map toLowerC else formatstr (uncased a) s := by
    simp only [formatstr, uncased, Bool.false_eq_true, if_false]
    rfl
  rw [h]
  constructor
  · split
    · simp
    · split <;> simp
  · intro i c d hc hd
    refine ⟨fun hu => ?_, fun hu hl => ?_, fun hu hl => ?_⟩
    · rw [if_pos hu, List.getElem?_map, hc] at hd
      simp only [Option.map_some, Option.some.injEq] at hd
      subst hd
      exact toUpperC_spec c
    · rw [if_neg (by simp [hu]), if_pos hl, List.getElem?_map, hc] at hd
      simp only [Option.map_some, Option.some.injEq] at hd
      subst hd
      exact toLowerC_spec c
    · rw [if_neg (by simp [hu]), if_neg (by simp [hl]), hc] at hd
      simp only [Option.some.injEq] at hd
      exact hd.symm

/-- **C08** A justified variable has exactly the declared width, whatever the
attributes and the value. -/
theorem justified_width (a : FmtAttr) (s : List Char) (h : a.rjust = true ∨ a.ljust = true) :
    (formatstr a s).length = width a s := by
  rw [(case_attributes a s).1]
  have hw : width a s = width (uncased a) s := rfl
  rw [hw]
  cases hr : a.rjust with
  | true =>
    obtain ⟨t, d, k, _, _, h3, h4⟩ := rjust_shape (uncased a) s hr rfl rfl
    rw [h4]; simp; omega
  | false =>
    obtain ⟨t, t', k, d, _, _, _, h3, h4⟩ := ljust_shape (uncased a) s hr (by simpa [uncased, hr] using h) rfl rfl
    rw [h4]; simp; omega

/-- **C08** Without formatting attributes the value is stored as given. -/
theorem plain_unchanged (a : FmtAttr) (s : List Char) (hr : a.rjust = false) (hl : a.ljust = false)
    (hu : a.ucase = false) (hlc : a.lcase = false) : formatstr a s = s := by
  unfold formatstr; simp [hr, hl, hu, hlc]

example : formatstr { rjust := true, ljust := false, zerofil := true, lcase := false, ucase := false, field := 5 }
    "42 ".toList = "00042".toList := by decide
example : formatstr { rjust := true, ljust := false, zerofil := true, lcase := false, ucase := true, field := 3 }
    "abcd".toList = "BCD".toList := by decide
example : formatstr { rjust := false, ljust := true, zerofil := true, lcase := false, ucase := false, field := 4 }
    " 007".toList = "7   ".toList := by decide

/-! ### C46: `%d` -/

/-- The canonical decimal numeral of a natural number. -/
def IsDecimal (n : Nat) (ds : List Char) : Prop :=
  decVal ds = n ∧ (∀ c ∈ ds, isDigit c = true) ∧ ds ≠ [] ∧ (ds.head? = some '0' → ds = ['0'])

theorem digitLoop_decimal (up : Bool) (n : Nat) (hn : n < 2 ^ 64) :
    IsDecimal n (digitLoop up 10 64 n []) := by
  have hn' : n < 10 ^ 64 := Nat.lt_of_lt_of_le hn (by decide)
  obtain ⟨ds, e1, e2, e3, e4, _, _, _, e5⟩ := digitLoop_eq up (b := 10) (by omega) 64 n [] hn' (by omega)
  rw [e1, List.append_nil]
  have hdc : ∀ d < 10, (digitChar up d).toNat - '0'.toNat = d ∧ isDigit (digitChar up d) = true ∧
      (digitChar up d = '0' → d = 0) := by cases up <;> decide
  refine ⟨?_, ?_, by simpa using e4, ?_⟩
  · have key : ∀ (ds : List Nat) (m : Nat), (∀ d ∈ ds, d < 10) →
        ((ds.map (digitChar up)).foldl (fun a c => 10 * a + (c.toNat - '0'.toNat)) m : Nat) =
          val 10 m ds := by
      intro ds
      induction ds with
      | nil => intro m _; simp [val]
      | cons d ds ih =>
        intro m hd
        simp only [List.map_cons, List.foldl_cons]
        rw [ih _ (fun x hx => hd x (by simp [hx])), (hdc d (hd d (by simp))).1]
        simp only [val, List.foldl_cons]
        congr 1
        omega
    have := key ds 0 e2
    have e3' : val 10 ((0 : Nat) : Int) ds = n := e3
    rw [e3'] at this
    exact_mod_cast this
  · intro c hc
    obtain ⟨d, hd, rfl⟩ := List.mem_map.1 hc
    exact (hdc d (e2 d hd)).2.1
  · intro hh
    cases ds with
    | nil => exact absurd rfl e4
    | cons d ds =>
      simp only [List.map_cons, List.head?_cons, Option.some.injEq] at hh
      have hd0 := (hdc d (e2 d (by simp))).2.2 hh
      have := e5 (by simp [hd0])
      simp at this
      simp [this.1, this.2]
      cases up <;> decide

/-- The sign `%d` writes. -/
def signText (f : NumFmt) (v : Int) : List Char :=
  if v < 0 then ['-'] else if f.plus then ['+'] else if f.blank then [' '] else []

/-- **C46** `%d` without a precision: blanks, sign, zeros, canonical digits and
blanks, in this order; together of width `max field (length of the numeral)`,
with the padding in the one place the flags ask for. -/
theorem fmtD_shape (f : NumFmt) (v : Int) (hr : InRange v) (hp : f.precision = none) :
    ∃ ds pad, IsDecimal v.natAbs ds ∧
      pad = f.field - ((signText f v).length + ds.length) ∧
      fmtD f v =
        (if f.right then signText f v ++ ds ++ List.replicate pad ' '
         else if f.zero then
           (if v = 0 ∧ signText f v = [] then List.replicate (pad + 1) '0'
            else signText f v ++ List.replicate pad '0' ++ ds)
         else List.replicate pad ' ' ++ signText f v ++ ds) := by
  have hmag : (if v < 0 then (wrap64 (-v) % 2 ^ 64).toNat else v.toNat) = v.natAbs := by
    unfold InRange int64Min int64Max at hr
    split
    · by_cases hm : v = -2 ^ 63
      · subst hm; decide
      · rw [wrap64_of_inRange (by unfold InRange int64Min int64Max; omega)]; omega
    · omega
  have hn : v.natAbs < 2 ^ 64 := by unfold InRange int64Min int64Max at hr; omega
  have hdec := digitLoop_decimal false v.natAbs hn
  refine ⟨_, _, hdec, rfl, ?_⟩
  unfold fmtD
  simp only [hmag, hp]
  generalize digitLoop false 10 64 v.natAbs [] = ds at hdec ⊢
  obtain ⟨hv, hdig, hne, hz⟩ := hdec
  have hs : (if decide (v < 0) = true then '-' :: ds else if f.plus = true then '+' :: ds
      else if f.blank = true then ' ' :: ds else ds) = signText f v ++ ds := by
    unfold signText
    by_cases h : v < 0 <;> by_cases h2 : f.plus = true <;> by_cases h3 : f.blank = true <;> simp [h, h2, h3]
  rw [hs]
  have hlen : (signText f v ++ ds).length = (signText f v).length + ds.length := by simp
  rw [hlen]
  have hsg : signText f v = [] ∨ signText f v = ['-'] ∨ signText f v = ['+'] ∨ signText f v = [' '] := by
    unfold signText; split
    · simp
    · split
      · simp
      · split <;> simp
  by_cases hw : f.field > (signText f v).length + ds.length
  · rw [if_pos hw]
    cases hrt : f.right with
    | true => simp
    | false =>
      cases hzf : f.zero with
      | false => simp
      | true =>
        simp only [Bool.not_false, if_true, Bool.false_eq_true, if_false]
        rcases hsg with h | h | h | h
        · cases ds with
          | nil => exact absurd rfl hne
          | cons d ds =>
            simp only [h, List.nil_append, and_true]
            have hd := digit_not_space (hdig d (by simp))
            have hsp : d ≠ ' ' := by
              rintro rfl
              have := hd.1
              simp [isSpace] at this
            by_cases h0 : d = '0'
            · subst h0
              have := hz (by simp)
              simp at this
              subst this
              have hv0 : v.natAbs = 0 := by rw [← hv]; decide
              have : v = 0 := by omega
              simp [this, List.replicate_succ]
            · have hv0 : v ≠ 0 := by
                rintro rfl
                have hval : decVal (d :: ds) = 0 := hv
                have hmono : ∀ (l : List Char) (m : Nat),
                    m ≤ l.foldl (fun a c => 10 * a + (c.toNat - '0'.toNat)) m := by
                  intro l
                  induction l with
                  | nil => intro m; simp
                  | cons x l ih => intro m; simp only [List.foldl_cons]; have := ih (10 * m + (x.toNat - '0'.toNat)); omega
                have hge := hmono ds (10 * 0 + (d.toNat - '0'.toNat))
                have hval' : ds.foldl (fun a c => 10 * a + (c.toNat - '0'.toNat)) (10 * 0 + (d.toNat - '0'.toNat)) = 0 := hval
                rw [hval'] at hge
                have hd1 := hdig d (by simp)
                unfold isDigit at hd1
                simp only [Bool.and_eq_true, decide_eq_true_eq] at hd1
                have h1 : 48 ≤ d.toNat := hd1.1
                have h2 : '0'.toNat = 48 := by decide
                have : d.toNat = '0'.toNat := by omega
                exact h0 (Char.ext (UInt32.toNat.inj this))
              rw [if_neg (by simp [h0, hd.2.1, hd.2.2, hsp]), if_neg hv0]
        · simp [h]
        · simp [h]
        · simp [h]
  · rw [if_neg hw]
    have h0 : f.field - ((signText f v).length + ds.length) = 0 := by omega
    rw [h0]
    simp only [List.replicate_zero, List.append_nil, List.nil_append, Nat.zero_add]
    split
    · rfl
    · split
      · split
        · next h =>
          obtain ⟨rfl, h⟩ := h
          rw [h]
          have hds : ds = ['0'] := by
            apply hz
            cases ds with
            | nil => exact absurd rfl hne
            | cons d ds =>
              have hmono : ∀ (l : List Char) (m : Nat),
                  m ≤ l.foldl (fun a c => 10 * a + (c.toNat - '0'.toNat)) m := by
                intro l
                induction l with
                | nil => intro m; simp
                | cons x l ih => intro m; simp only [List.foldl_cons]; have := ih (10 * m + (x.toNat - '0'.toNat)); omega
              have hge := hmono ds (10 * 0 + (d.toNat - '0'.toNat))
              have hval' : ds.foldl (fun a c => 10 * a + (c.toNat - '0'.toNat)) (10 * 0 + (d.toNat - '0'.toNat)) = 0 := hv
              rw [hval'] at hge
              have hd1 := hdig d (by simp)
              unfold isDigit at hd1
              simp only [Bool.and_eq_true, decide_eq_true_eq] at hd1
              have h1 : 48 ≤ d.toNat := hd1.1
              have h2 : '0'.toNat = 48 := by decide
              have : d.toNat = '0'.toNat := by omega
              rw [Char.ext (UInt32.toNat.inj this)]; rfl
          rw [hds]; rfl
        · rfl
      · rfl

/-- **C46** Hence `%d` output has width `max field (length of sign and digits)`
whenever there is no precision. -/
theorem fmtD_width (f : NumFmt) (v : Int) (hr : InRange v) (hp : f.precision = none) :
    ∃ ds, IsDecimal v.natAbs ds ∧
      (fmtD f v).length = max f.field ((signText f v).length + ds.length) := by
  obtain ⟨ds, pad, hd, hpad, he⟩ := fmtD_shape f v hr hp
  refine ⟨ds, hd, ?_⟩
  rw [he]
  split
  · simp; omega
  · split
    · split
      · next h =>
        obtain ⟨rfl, h⟩ := h
        have : ds.length = 1 := by
          obtain ⟨hv, hdig, hne, hz⟩ := hd
          have h0 := digitLoop_decimal false 0 (by decide)
          cases ds with
          | nil => exact absurd rfl hne
          | cons d ds =>
            have hmono : ∀ (l : List Char) (m : Nat),
                m ≤ l.foldl (fun a c => 10 * a + (c.toNat - '0'.toNat)) m := by
              intro l
              induction l with
              | nil => intro m; simp
              | cons x l ih => intro m; simp only [List.foldl_cons]; have := ih (10 * m + (x.toNat - '0'.toNat)); omega
            have hge := hmono ds (10 * 0 + (d.toNat - '0'.toNat))
            have hval' : ds.foldl (fun a c => 10 * a + (c.toNat - '0'.toNat)) (10 * 0 + (d.toNat - '0'.toNat)) = 0 := hv
            rw [hval'] at hge
            have hd1 := hdig d (by simp)
            unfold isDigit at hd1
            simp only [Bool.and_eq_true, decide_eq_true_eq] at hd1
            have h1 : 48 ≤ d.toNat := hd1.1
            have h2 : '0'.toNat = 48 := by decide
            have : d.toNat = '0'.toNat := by omega
            rw [Char.ext (UInt32.toNat.inj this)] at hz
            simpa using hz
        simp [h] at hpad ⊢
        omega
      · simp; omega
    · simp; omega

/-- **C46** The digits, sign and a NUL fit `numbuf` (shf.c: 23 bytes). -/
theorem fmtD_fits (f : NumFmt) (v : Int) (hr : InRange v) (ds : List Char)
    (h : IsDecimal v.natAbs ds) : (signText f v).length + ds.length + 1 ≤ 23 := by
  obtain ⟨hv, hdig, hne, hz⟩ := h
  have hs : (signText f v).length ≤ 1 := by
    unfold signText; split
    · simp
    · split
      · simp
      · split <;> simp
  have key : ∀ (l : List Char) (m : Nat), 1 ≤ m →
      m * 10 ^ l.length ≤ l.foldl (fun a c => 10 * a + (c.toNat - '0'.toNat)) m := by
    intro l
    induction l with
    | nil => intro m _; simp
    | cons x l ih =>
      intro m hm
      simp only [List.foldl_cons, List.length_cons]
      have := ih (10 * m + (x.toNat - '0'.toNat)) (by omega)
      refine Nat.le_trans ?_ this
      rw [Nat.pow_succ]
      calc m * (10 ^ l.length * 10) = (10 * m) * 10 ^ l.length := by
              rw [Nat.mul_comm (10 ^ l.length), ← Nat.mul_assoc, Nat.mul_comm m 10]
        _ ≤ _ := Nat.mul_le_mul_right _ (by omega)
  cases ds with
  | nil => exact absurd rfl hne
  | cons d ds =>
    by_cases hd0 : d = '0'
    · subst hd0
      have := hz rfl
      rw [this]; simp; omega
    · have hd1 := hdig d (by simp)
      unfold isDigit at hd1
      simp only [Bool.and_eq_true, decide_eq_true_eq] at hd1
      have h1 : 48 ≤ d.toNat := hd1.1
      have h2 : '0'.toNat = 48 := by decide
      have h3 : 1 ≤ 10 * 0 + (d.toNat - '0'.toNat) := by
        have : d.toNat ≠ '0'.toNat := fun e => hd0 (Char.ext (UInt32.toNat.inj e))
        omega
      have hk := key ds _ h3
      have hv' : ds.foldl (fun a c => 10 * a + (c.toNat - '0'.toNat)) (10 * 0 + (d.toNat - '0'.toNat)) = v.natAbs := hv
      rw [hv'] at hk
      have h4 : 10 ^ ds.length ≤ v.natAbs := by
        refine Nat.le_trans ?_ hk
        calc 10 ^ ds.length = 1 * 10 ^ ds.length := by rw [Nat.one_mul]
          _ ≤ _ := Nat.mul_le_mul_right _ h3
      have h5 : v.natAbs < 10 ^ 20 := by unfold InRange int64Min int64Max at hr; omega
      have h6 : ds.length < 20 := (Nat.pow_lt_pow_iff_right (by omega)).1 (Nat.lt_of_le_of_lt h4 h5)
      simp only [List.length_cons]
      omega

example : fmtD { plus := false, blank := false, right := false, zero := true, field := 6, precision := none } (-42)
    = "-00042".toList := by decide
example : fmtD { plus := true, blank := false, right := true, zero := false, field := 5, precision := none } 7
    = "+7   ".toList := by decide

/-- **C46** (disagreement with C's `printf`) A precision counts the sign and
replaces the field width. -/
theorem fmtD_precision_counts_sign :
    fmtD { plus := false, blank := false, right := false, zero := false, field := 0, precision := some 5 } (-12)
      = "-0012".toList ∧
    fmtD { plus := false, blank := false, right := false, zero := false, field := 8, precision := some 5 } 12
      = "00012".toList := by
  decide

end Ksh.Num
