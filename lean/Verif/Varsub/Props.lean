import Verif.Varsub.Spec

/-!
# `${...}`: proofs (C143)
-/
namespace Ksh.Varsub

theorem null_many (a : Str) (l : List Str) : (Val.many (a :: l)).null = (a.isEmpty && l.isEmpty) := by
  cases l with
  | nil => cases a <;> simp [Val.null, List.intercalate]
  | cons b l => cases a <;> simp [Val.null, List.intercalate, List.intersperse]

theorem qual_code (f : Form) (rest : List W) (h : f.fits rest) :
    qual (f.code ++ rest) = match f with
      | .plain => some (false, none)
      | .use b => some (b, some '-')
      | .assign b => some (b, some '=')
      | .alt b => some (b, some '+')
      | .need b => some (b, some '?')
      | .trim _ suf long => some (long, some (if suf then '%' else '#')) := by
  cases f with
  | plain =>
    simp only [Form.fits] at h
    cases rest with
    | nil => simp at h
    | cons x l => simp at h; subst h; rfl
  | use b => cases b <;> rfl
  | assign b => cases b <;> rfl
  | alt b => cases b <;> rfl
  | need b => cases b <;> rfl
  | trim b suf long =>
    cases long with
    | true => cases b <;> cases suf <;> rfl
    | false =>
      simp only [Form.fits] at h
      have key : chr rest ≠ some (if suf then '%' else '#') := by
        cases rest with
        | nil => simp [chr]
        | cons x l =>
          cases x with
          | char c => cases suf <;> simpa [chr] using h
          | csubst => simp [chr]
          | other n => simp [chr]
      cases b <;> cases suf <;>
        simp_all [qual, Form.code, colonCode, subop1, subop2, chr]

/-- The form asks with a colon. -/
def Form.colon : Form → Bool
  | .use b | .assign b | .alt b | .need b => b
  | _ => false

/-- A list whose first text is empty and that is not empty itself. -/
def headless : Val → Bool
  | .many ([] :: _ :: _) => true
  | _ => false

theorem value_pos (e : Env) (n : Nat) : strVal e (.pos n) = (e.zero :: e.args)[n]? := by
  cases n <;> rfl

theorem there_one (v : Option Str) (b : Bool) : (Val.one v).there b = !undef b v := by
  cases v with
  | none => cases b <;> rfl
  | some s => cases b <;> cases s <;> simp [Val.there, Val.set, Val.null, undef]

theorem there_many (a : Str) (l : List Str) (b : Bool) (h : b = true → headless (.many (a :: l)) = false) :
    (Val.many (a :: l)).there b = !undef b (some a) := by
  cases b with
  | false => simp [Val.there, Val.set, undef]
  | true =>
    have h := h rfl
    simp only [Val.there, null_many, Val.set, undef]
    cases a with
    | nil => cases l with
      | nil => rfl
      | cons => simp [headless] at h
    | cons => rfl

theorem pick_plain (e : Env) (str : Option Str) (zo : Bool) (st : Res) :
    pick e false none str zo st = if e.nounset && str.isNone && !zo then .unset else st := by
  cases str <;> cases h : e.nounset <;> cases zo <;> simp [pick, subop2, undef, h]

theorem pick_use (e : Env) (b : Bool) (str : Option Str) (zo : Bool) (st : Res) :
    pick e b (some '-') str zo st = if undef b str then .xbase b '-' else st := by
  cases str <;> cases b <;> simp [pick, subop2, undef]

theorem pick_assign (e : Env) (b : Bool) (str : Option Str) (zo : Bool) (st : Res) :
    pick e b (some '=') str zo st = if undef b str then .xbase b '=' else st := by
  cases str <;> cases b <;> simp [pick, subop2, undef]

theorem pick_need (e : Env) (b : Bool) (str : Option Str) (zo : Bool) (st : Res) :
    pick e b (some '?') str zo st = if undef b str then .xbase b '?' else st := by
  cases str <;> cases b <;> simp [pick, subop2, undef]

theorem pick_alt (e : Env) (b : Bool) (str : Option Str) (zo : Bool) (st : Res) :
    pick e b (some '+') str zo st = if undef b str then st else .xbase b '+' := by
  cases str <;> cases b <;> simp [pick, subop2, undef]

theorem pick_trim (e : Env) (b suf : Bool) (str : Option Str) (zo : Bool) (st : Res) :
    pick e b (some (if suf then '%' else '#')) str zo st =
      if e.nounset && str.isNone && !zo then .unset else .xbase b (if suf then '%' else '#') := by
  cases suf <;> cases str <;> cases h : e.nounset <;> cases zo <;> simp [pick, subop2, h]

/-- The part of `varsub` for one text. -/
theorem scalar_means (e : Env) (p : Par) (f : Form) (v : Option Str) (hv : strVal e p = v)
    (hval : value e p = .one v) (hg : given e p = .xsub (v.getD [])) (hm : vector p = false) :
    (match (match f with
      | .plain => (false, (none : Option Char))
      | .use b => (b, some '-')
      | .assign b => (b, some '=')
      | .alt b => (b, some '+')
      | .need b => (b, some '?')
      | .trim _ suf long => (long, some (if suf then '%' else '#'))) with
    | (colon, c) => if c = some '=' && !assignable p then Res.bad
        else pick e colon c (strVal e p) false (.xsub ((strVal e p).getD []))) = meaning e p f := by
  have hs : p ≠ .star ∧ p ≠ .ats := by constructor <;> (rintro rfl; simp [vector] at hm)
  have hmiss : missing e p = (e.nounset && v.isNone) := by
    cases v <;> simp [missing, hval, Val.set, hs]
  cases f with
  | plain => simp [pick_plain, meaning, hmiss, hg, hv]
  | use b => simp [pick_use, meaning, hval, there_one, hg, hv]; cases undef b v <;> rfl
  | assign b =>
    cases ha : assignable p <;> simp [pick_assign, meaning, hval, there_one, hg, hv, ha]
    cases undef b v <;> rfl
  | alt b => simp [pick_alt, meaning, hval, there_one, hg, hv]; cases undef b v <;> rfl
  | need b => simp [pick_need, meaning, hval, there_one, hg, hv]; cases undef b v <;> rfl
  | trim b suf long =>
    have : ¬ (some (if suf then '%' else '#') = some '=') := by cases suf <;> simp
    simp only [pick_trim, meaning, hmiss, hv, hm, this, decide_false, Bool.false_and, Bool.false_eq_true, if_false,
      Bool.not_false, Bool.and_true]

/-- **C143.** For every parameter, form and word: the parameter or the word is taken as the manual says; with the
conditions that `?` is not asked of a whole array, and a list asked for with a colon does not begin with an
empty text. -/
theorem varsub_means_partial (e : Env) (p : Par) (f : Form) (rest : List W) (hp : p ≠ .none) (hf : f.fits rest)
    (hq : ∀ a i b, p = .arr a i → f ≠ .need b)
    (hh : f.colon = true → headless (value e p) = false) :
    varsub e false p (f.code ++ rest) = meaning e p f := by
  have hqual := qual_code f rest hf
  unfold varsub
  rw [if_neg hp, if_neg (by simp), hqual]
  cases p with
  | none => exact absurd rfl hp
  | ref r =>
    have := scalar_means e (.ref r) f (e.ref r) rfl rfl rfl rfl
    rw [← this]; cases f <;> rfl
  | pos n =>
    have := scalar_means e (.pos n) f _ (value_pos e n) rfl rfl rfl
    rw [← this]; cases f <;> rfl
  | special c =>
    have := scalar_means e (.special c) f (e.special c) rfl rfl rfl rfl
    rw [← this]; cases f <;> rfl
  | star =>
    cases ha : e.args with
    | nil =>
      cases f with
      | trim b suf long => cases suf <;> rfl
      | _ => simp [pick_plain, pick_use, pick_alt, pick_need, meaning, missing, given, value, Val.there, Val.set, ha,
          undef, assignable]
    | cons a l =>
      cases f with
      | trim b suf long => cases suf <;> rfl
      | plain => simp [pick_plain, meaning, missing, given, ha]
      | assign b => simp [meaning, assignable]
      | use b =>
        simp only [value, ha] at hh
        simp [pick_use, meaning, value, ha, there_many a l b hh, given]; cases undef b (some a) <;> rfl
      | alt b =>
        simp only [value, ha] at hh
        simp [pick_alt, meaning, value, ha, there_many a l b hh, given]; cases undef b (some a) <;> rfl
      | need b =>
        simp only [value, ha] at hh
        simp [pick_need, meaning, value, ha, there_many a l b hh, given]; cases undef b (some a) <;> rfl
  | ats =>
    cases ha : e.args with
    | nil =>
      cases f with
      | trim b suf long => cases suf <;> rfl
      | _ => simp [pick_plain, pick_use, pick_alt, pick_need, meaning, missing, given, value, Val.there, Val.set, ha,
          undef, assignable]
    | cons a l =>
      cases f with
      | trim b suf long => cases suf <;> rfl
      | plain => simp [pick_plain, meaning, missing, given, ha]
      | assign b => simp [meaning, assignable]
      | use b =>
        simp only [value, ha] at hh
        simp [pick_use, meaning, value, ha, there_many a l b hh, given]; cases undef b (some a) <;> rfl
      | alt b =>
        simp only [value, ha] at hh
        simp [pick_alt, meaning, value, ha, there_many a l b hh, given]; cases undef b (some a) <;> rfl
      | need b =>
        simp only [value, ha] at hh
        simp [pick_need, meaning, value, ha, there_many a l b hh, given]; cases undef b (some a) <;> rfl
  | arr n i =>
    cases ha : e.elems n with
    | nil =>
      cases f with
      | trim b suf long => cases suf <;> rfl
      | need b => exact absurd rfl (hq n i b rfl)
      | _ => simp [pick_plain, pick_use, pick_alt, meaning, missing, given, value, Val.there, Val.set, ha,
          undef, assignable]
    | cons a l =>
      cases f with
      | trim b suf long => cases suf <;> rfl
      | need b => exact absurd rfl (hq n i b rfl)
      | plain => simp [pick_plain, meaning, missing, given, value, Val.set, ha]
      | assign b => simp [meaning, assignable]
      | use b =>
        simp only [value, ha] at hh
        simp [pick_use, meaning, value, ha, there_many a l b hh, given]; cases undef b (some a) <;> rfl
      | alt b =>
        simp only [value, ha] at hh
        simp [pick_alt, meaning, value, ha, there_many a l b hh, given]; cases undef b (some a) <;> rfl

/-- **C143.** A word that does not begin with a form is refused. -/
theorem other_words_bad (e : Env) (p : Par) (w : List W) (h : varsub e false p w ≠ .bad) :
    ∃ f rest, w = Form.code f ++ rest ∧ f.fits rest := by
  have hq : qual w ≠ none := by
    intro hn; apply h; unfold varsub; simp [hn]
  by_cases hc : chr w = some ':'
  · obtain ⟨w1, rfl⟩ : ∃ w1, w = .char ':' :: w1 := by
      cases w with
      | nil => simp [chr] at hc
      | cons x l => cases x <;> simp [chr] at hc; exact ⟨l, by rw [hc]⟩
    cases w1 with
    | nil => exact absurd rfl hq
    | cons x l =>
      cases x with
      | csubst => exact absurd rfl hq
      | other n => exact absurd rfl hq
      | char c =>
        by_cases h1 : c = '-'
        · exact ⟨.use true, l, by simp [Form.code, colonCode, h1], trivial⟩
        by_cases h2 : c = '='
        · exact ⟨.assign true, l, by simp [Form.code, colonCode, h2], trivial⟩
        by_cases h3 : c = '+'
        · exact ⟨.alt true, l, by simp [Form.code, colonCode, h3], trivial⟩
        by_cases h4 : c = '?'
        · exact ⟨.need true, l, by simp [Form.code, colonCode, h4], trivial⟩
        by_cases h5 : c = '%'
        · by_cases h6 : l.head? = some (.char '%')
          · cases l with
            | nil => simp at h6
            | cons y l => exact ⟨.trim true true true, l, by simp at h6; simp [Form.code, colonCode, h5, h6], trivial⟩
          · exact ⟨.trim true true false, l, by simp [Form.code, colonCode, h5], h6⟩
        by_cases h5' : c = '#'
        · by_cases h6 : l.head? = some (.char '#')
          · cases l with
            | nil => simp at h6
            | cons y l => exact ⟨.trim true false true, l, by simp at h6; simp [Form.code, colonCode, h5', h6], trivial⟩
          · exact ⟨.trim true false false, l, by simp [Form.code, colonCode, h5'], h6⟩
        · exact absurd (by simp [qual, chr, subop1, subop2, *]) hq
  · cases w with
    | nil => exact absurd rfl hq
    | cons x l =>
      cases x with
      | csubst => exact ⟨.plain, _, rfl, rfl⟩
      | other n => exact absurd rfl hq
      | char c =>
        by_cases h1 : c = '-'
        · exact ⟨.use false, l, by simp [Form.code, colonCode, h1], trivial⟩
        by_cases h2 : c = '='
        · exact ⟨.assign false, l, by simp [Form.code, colonCode, h2], trivial⟩
        by_cases h3 : c = '+'
        · exact ⟨.alt false, l, by simp [Form.code, colonCode, h3], trivial⟩
        by_cases h4 : c = '?'
        · exact ⟨.need false, l, by simp [Form.code, colonCode, h4], trivial⟩
        by_cases h5 : c = '%'
        · by_cases h6 : l.head? = some (.char '%')
          · cases l with
            | nil => simp at h6
            | cons y l => exact ⟨.trim false true true, l, by simp at h6; simp [Form.code, colonCode, h5, h6], trivial⟩
          · exact ⟨.trim false true false, l, by simp [Form.code, colonCode, h5], h6⟩
        by_cases h5' : c = '#'
        · by_cases h6 : l.head? = some (.char '#')
          · cases l with
            | nil => simp at h6
            | cons y l => exact ⟨.trim false false true, l, by simp at h6; simp [Form.code, colonCode, h5', h6], trivial⟩
          · exact ⟨.trim false false false, l, by simp [Form.code, colonCode, h5'], h6⟩
        · simp [chr] at hc
          exact absurd (by simp [qual, chr, subop1, subop2, *]) hq

/-- **C143.** `${#name}`, unless nounset is set, there are no positional parameters and their number is asked for. -/
theorem len_means_partial (e : Env) (p : Par) (rest : List W) (hp : p ≠ .none)
    (hn : (p = .star ∨ p = .ats) → e.nounset = true → e.args ≠ []) :
    varsub e true p (.csubst :: rest) = lenMeaning e p := by
  unfold varsub
  rw [if_neg hp, if_pos rfl]
  cases p with
  | none => exact absurd rfl hp
  | ref r => cases h : e.ref r <;> cases hu : e.nounset <;>
      simp [lenSub, lenMeaning, missing, value, Val.set, size, strVal, h, hu]
  | pos n =>
    have hv := value_pos e n
    cases h : (e.zero :: e.args)[n]? <;> cases hu : e.nounset <;>
      simp [lenSub, lenMeaning, missing, value, Val.set, size, hv, h, hu]
  | special c => cases h : e.special c <;> cases hu : e.nounset <;>
      simp [lenSub, lenMeaning, missing, value, Val.set, size, strVal, h, hu]
  | star => cases h : e.args <;> cases hu : e.nounset <;>
      simp_all [lenSub, lenMeaning, missing, value, Val.set, size]
  | ats => cases h : e.args <;> cases hu : e.nounset <;>
      simp_all [lenSub, lenMeaning, missing, value, Val.set, size]
  | arr a i => cases h : e.elems a <;> cases hu : e.nounset <;> cases hd : e.declared a <;>
      simp [lenSub, lenMeaning, value, size, h, hu, hd]

/-- `${#name op}` is refused. -/
theorem len_no_form (e : Env) (p : Par) (w : List W) (h : w.head? ≠ some .csubst) :
    varsub e true p w = .bad := by
  unfold varsub
  split
  · rfl
  · simp [lenSub, h]

/-! ### Cases -/

/-- `set -- "" b`; x is set and empty, y is not set, the array A has an empty element and another. -/
def env (nounset : Bool) (args : List Str) : Env where
  args := args
  zero := "ksh".toList
  ref r := if r = ['x'] then some [] else none
  special c := if c = '?' then some ['0'] else none
  elems n := if n = ['A'] then [[], ['v']] else []
  declared n := n = ['A']
  nounset := nounset

/-- **C143, not so.** `set -- "" b; echo ${*:-none}` prints "none", although `$*` is not null; likewise `${*:+yes}`
prints " b" and `${A[*]:-none}` "none". -/
theorem headless_list :
    varsub (env false [[], ['b']]) false .star [.char ':', .char '-', .csubst] = .xbase true '-' ∧
    meaning (env false [[], ['b']]) .star (.use true) = .xarg [[], ['b']] false ∧
    varsub (env false [[], ['b']]) false .star [.char ':', .char '+', .csubst] = .xarg [[], ['b']] false ∧
    meaning (env false [[], ['b']]) .star (.alt true) = .xbase true '+' ∧
    varsub (env false []) false (.arr ['A'] false) [.char ':', .char '-', .csubst] = .xbase true '-' ∧
    meaning (env false []) (.arr ['A'] false) (.use true) = .xarg [[], ['v']] false := by decide +kernel

/-- **C143, not so.** `set -u; set --; echo ${#*}` is an error, though `$#` and `$*` are not. -/
theorem count_unset :
    varsub (env true []) true .star [.csubst] = .unset ∧ lenMeaning (env true []) .star = .xsub ['0'] ∧
    varsub (env true []) false .star [.csubst] = .xsub [] := by decide +kernel

/-- **C143, not so.** `${A[*]?message}` is a bad substitution, `${*?message}` is not. -/
theorem array_question :
    varsub (env false []) false (.arr ['A'] false) [.char '?', .csubst] = .bad ∧
    meaning (env false []) (.arr ['A'] false) (.need false) = .xarg [[], ['v']] false ∧
    varsub (env false [['b']]) false .star [.char '?', .csubst] = .xarg [['b']] false := by decide +kernel

/-- The difference a colon makes, and nounset. -/
example : varsub (env true []) false (.ref ['x']) [.char '-', .csubst] = .xsub [] ∧
    varsub (env true []) false (.ref ['x']) [.char ':', .char '-', .csubst] = .xbase true '-' ∧
    varsub (env true []) false (.ref ['y']) [.csubst] = .unset ∧
    varsub (env true []) false (.ref ['y']) [.char '-', .csubst] = .xbase false '-' ∧
    varsub (env true []) false (.ref ['y']) [.char '+', .csubst] = .xsub [] ∧
    varsub (env true []) false (.ref ['y']) [.char '%', .char '%', .csubst] = .unset ∧
    varsub (env false []) false (.ref ['y']) [.char ':', .char '%', .char '%', .csubst] = .xbase true '%' ∧
    varsub (env true []) false (.pos 1) [.char '=', .csubst] = .bad ∧
    varsub (env false []) false (.ref ['y']) [.char ':', .csubst] = .bad := by decide +kernel

end Ksh.Varsub
