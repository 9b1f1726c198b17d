import Verif.Expr.Active

/-!
# Properties C09-C12: arithmetic expressions
-/

namespace Ksh.Expr
open Ksh.Num

variable {m : Mach}

/-! ### C09: C's grammar and meaning -/

/-- No postfix operator occurs in the expression. -/
def noPost : E → Bool
  | .num _ | .var _ | .pre _ _ => true
  | .post _ _ => false
  | .un _ e | .asn _ _ e => noPost e
  | .bin _ a b => noPost a && noPost b
  | .tern c a b => noPost c && noPost a && noPost b

theorem den_noPost (ro : Name → Bool) (pv pv' : Int → Int) (e : E) (h : noPost e = true) :
    ∀ ρ, den m ro pv e ρ = den m ro pv' e ρ := by
  induction e with
  | num | var | pre => intro ρ; rfl
  | post => simp [noPost] at h
  | un o e ih => intro ρ; simp only [den]; rw [ih h]
  | asn o x e ih => intro ρ; simp only [den]; rw [ih h]
  | bin o a b iha ihb =>
    simp only [noPost, Bool.and_eq_true] at h
    intro ρ
    simp only [den]
    rw [iha h.1]
    cases den m ro pv' a ρ with
    | fail => rfl
    | ok v ρ1 => simp only; rw [ihb h.2]
  | tern c a b ihc iha ihb =>
    simp only [noPost, Bool.and_eq_true] at h
    intro ρ
    simp only [den]
    rw [ihc h.1.1]
    cases den m ro pv' c ρ with
    | fail => rfl
    | ok v ρ1 => simp only; rw [iha h.1.2, ihb h.2]

/-- C09 (partial): a text that C's lexical rules and grammar parse as `e` evaluates to
the meaning of `e`: same value, same final variables, same error.  For expressions
without postfix operators the meaning is C's (`pv = id`).  Missing: (1) operands of
`&&`, `||`, `?:` that begin with a variable being modified, where the code deviates
(see C10); (2) the code also accepts some texts that do not parse
(`ungrammatical_accepted`); (3) array references. -/
theorem evaluates_to_meaning_partial {ro : Name → Bool} {text : List Char} {toks : List T} {e : E}
    {σ : Store} {ρ : Env} (hl : Lexes text toks) (hg : G true 13 toks e) (hp : noPost e = true)
    (hM : Match ro σ ρ) :
    ∃ N, ∀ n, N ≤ n →
      match den m ro id e ρ with
      | .ok v ρ' => ∃ σ', vEval m true n text σ = .ok (v, σ') ∧ Match ro σ' ρ'
      | .fail er ρ' => ∃ σ', vEval m true n text σ = .err er σ' ∧ Match ro σ' ρ' := by
  rw [den_noPost ro id wrap32 e hp]
  exact vEval_sound hl hg hM

/-- C09 (partial): with postfix operators the same holds when they yield the 32-bit
truncation of the old value. -/
theorem evaluates_with_postfix_partial {ro : Name → Bool} {text : List Char} {toks : List T} {e : E}
    {σ : Store} {ρ : Env} (hl : Lexes text toks) (hg : G true 13 toks e) (hM : Match ro σ ρ) :
    ∃ N, ∀ n, N ≤ n →
      match den m ro wrap32 e ρ with
      | .ok v ρ' => ∃ σ', vEval m true n text σ = .ok (v, σ') ∧ Match ro σ' ρ'
      | .fail er ρ' => ∃ σ', vEval m true n text σ = .err er σ' ∧ Match ro σ' ρ' :=
  vEval_sound hl hg hM

/-- A machine for the examples. -/
def m0 : Mach := ⟨fun _ _ => 0, fun _ _ => 0⟩

/-- variables for the examples -/
def st0 : Store := [(['x'], { isInt := false, val := .text ['5'], ro := false, inEval := false }),
  (['y'], { isInt := true, val := .int 7, ro := true, inEval := false })]

def outcome (r : Res (Int × Store)) : Option (Int × Val) :=
  match r with
  | .ok (v, σ) => some (v, (look σ ['x']).val)
  | _ => none

theorem Lexes.of_nil {t : List Char} {ts : List T} (h : Lexes t ts) (ht : t = []) : ts = [] := by
  cases h with
  | nil => rfl
  | op o => simp at ht; have := ht.2; cases o <;> simp [spell] at this
  | name c x => simp at ht
  | num u v h1 h2 =>
    simp at ht
    obtain ⟨_, rfl, _⟩ := ht
    generalize hu : ([] : List Char) = u at h2
    cases h2 with
    | dec hs => exact absurd hu.symm hs.1
    | oct => simp at hu
    | hex => simp at hu
    | based => simp at hu

/-- C09: the code accepts `x + ++ /`, which is not an expression. -/
theorem ungrammatical_accepted :
    outcome (vEval m0 true 60 "x + ++ /".toList st0) = some (11, .text ['6']) ∧
    ∀ toks e, Lexes "x + ++ /".toList toks → ¬ G false 13 toks e := by
  refine ⟨by decide +kernel, ?_⟩
  intro toks e hl hg
  -- the last token of an expression is a name, a number, `)`, `++` or `--`
  have last : ∀ {s k t e}, G s k t e → ∀ o, t.getLast? = some (.op o) →
      o = .cparen ∨ isIncDec o = true := by
    intro s k t e h
    induction h with
    | num | name => intro o h; simp at h
    | paren h ih => intro o h; rw [List.getLast?_cons] at h; simp at h; exact Or.inl h.symm
    | un o ho hg ih =>
      intro o' h
      have hne := hg.nonempty
      rw [List.getLast?_cons, List.getLast?_eq_some_getLast hne] at h
      exact ih o' (by rw [List.getLast?_eq_some_getLast hne]; simpa using h)
    | pre o x ho => intro o' h; simp at h
    | post o ho hlv => intro o' h; rw [List.getLast?_append] at h; simp at h; subst h; exact Or.inr ho
    | bin o hl ha hb hs iha ihb =>
      intro o' h
      have hne := hb.nonempty
      rw [List.getLast?_append, List.getLast?_cons, List.getLast?_eq_some_getLast hne] at h
      exact ihb o' (by rw [List.getLast?_eq_some_getLast hne]; simpa using h)
    | tern hc ha hb hs ihc iha ihb =>
      intro o' h
      have hne := hb.nonempty
      rw [List.getLast?_append, List.getLast?_cons, List.getLast?_append, List.getLast?_cons,
        List.getLast?_eq_some_getLast hne] at h
      exact ihb o' (by rw [List.getLast?_eq_some_getLast hne]; simpa using h)
    | asn o ho hlv he ihe =>
      intro o' h
      have hne := he.nonempty
      rw [List.getLast?_append, List.getLast?_cons, List.getLast?_eq_some_getLast hne] at h
      exact ihe o' (by rw [List.getLast?_eq_some_getLast hne]; simpa using h)
    | up hk hg ih => exact ih
  -- but the last token of this text is `/`
  have lastTok : ∀ {text toks}, Lexes text toks → text.getLast? = some '/' → ∃ pre, toks = pre ++ [.op .div] := by
    intro text toks h
    induction h with
    | nil hws =>
      intro h
      have := List.mem_of_getLast? h
      exact absurd (hws _ this) (by decide)
    | @op ws rest ts o hws hm hr ih =>
      intro h
      rw [List.getLast?_append, List.getLast?_append] at h
      cases hr0 : rest.getLast? with
      | none =>
        have : rest = [] := by simpa using hr0
        subst this
        have hts : ts = [] := hr.of_nil rfl
        subst hts
        refine ⟨[], ?_⟩
        simp only [List.getLast?_nil, Option.none_or] at h
        cases o <;> simp [spell] at h <;> rfl
      | some c =>
        rw [hr0] at h
        simp only [Option.some_or, Option.some.injEq] at h
        subst h
        obtain ⟨pre, hp⟩ := ih hr0
        exact ⟨.op o :: pre, by rw [hp]; rfl⟩
    | @name ws rest ts c x hws hc hx hh hr ih =>
      intro h
      rw [List.getLast?_append, List.getLast?_append] at h
      cases hr0 : rest.getLast? with
      | none =>
        exfalso
        rw [hr0] at h
        simp only [Option.none_or] at h
        rw [List.getLast?_eq_some_getLast (by simp), Option.some_or, Option.some.injEq] at h
        have hmem : '/' ∈ c :: x := by rw [← h]; exact List.getLast_mem _
        rcases List.mem_cons.mp hmem with h' | h'
        · rw [← h'] at hc; revert hc; decide
        · have := hx _ h'; revert this; decide
      | some c' =>
        rw [hr0] at h
        simp only [Option.some_or, Option.some.injEq] at h
        subst h
        obtain ⟨pre, hp⟩ := ih hr0
        exact ⟨_ :: pre, by rw [hp]; rfl⟩
    | @num ws rest ts t v hws ht hh hr ih =>
      intro h
      rw [List.getLast?_append, List.getLast?_append] at h
      cases hr0 : rest.getLast? with
      | none =>
        exfalso
        rw [hr0] at h
        simp only [Option.none_or] at h
        have hd : ∀ {b cs ds}, SpellsDigits b cs ds → cs.getLast? ≠ some '/' := by
          rintro b cs ds ⟨h1, h2, h3⟩ hg
          have hm := List.mem_of_getLast? hg
          have : digitVal '/' ∈ cs.map digitVal := List.mem_map_of_mem hm
          rw [h2] at this
          simp only [List.mem_map] at this
          obtain ⟨d, _, hd⟩ := this
          have : digitVal '/' = none := by decide
          rw [this] at hd; simp at hd
        have hne : ∀ {b cs ds}, SpellsDigits b cs ds → cs ≠ [] := fun h => h.1
        cases ht with
        | dec hs _ =>
          rw [List.getLast?_eq_some_getLast (hne hs), Option.some_or] at h
          exact hd hs (by rw [List.getLast?_eq_some_getLast (hne hs)]; exact h)
        | oct hs =>
          rw [List.getLast?_cons, List.getLast?_eq_some_getLast (hne hs)] at h
          simp only [Option.getD_some, Option.some_or] at h
          exact hd hs (by rw [List.getLast?_eq_some_getLast (hne hs)]; exact h)
        | hex x hx hs =>
          rw [List.getLast?_cons, List.getLast?_cons, List.getLast?_eq_some_getLast (hne hs)] at h
          simp only [Option.getD_some, Option.some_or] at h
          exact hd hs (by rw [List.getLast?_eq_some_getLast (hne hs)]; exact h)
        | based b h1 h2 h3 h4 h5 hs =>
          rw [List.getLast?_append, List.getLast?_cons, List.getLast?_eq_some_getLast (hne hs)] at h
          simp only [Option.getD_some, Option.some_or] at h
          exact hd hs (by rw [List.getLast?_eq_some_getLast (hne hs)]; exact h)
      | some c' =>
        rw [hr0] at h
        simp only [Option.some_or, Option.some.injEq] at h
        subst h
        obtain ⟨pre, hp⟩ := ih hr0
        exact ⟨_ :: pre, by rw [hp]; rfl⟩
  obtain ⟨pre, hp⟩ := lastTok hl (by decide)
  have := last hg .div (by rw [hp]; simp)
  revert this; decide

theorem G.upTo {s : Bool} {k : Nat} {t : List T} {e : E} (h : G s k t e) (j : Nat) (hj : k + j ≤ 13) :
    G s (k + j) t e := by
  induction j with
  | zero => exact h
  | succ j ih => exact .up (k := k + j) (by omega) (ih (by omega))

/-! ### C10: operands that are not evaluated -/

/-- C10 (partial): when the left operand of `&&` is 0 the outcome is that of the left
operand alone: the right operand changes no variable and raises no error.  The operand
must not begin with the variable it modifies (`skipped_operand_modifies`). -/
theorem land_skips_partial {ro : Name → Bool} {text : List Char} {ta tb : List T} {a b : E}
    {σ : Store} {ρ ρ1 : Env} (hl : Lexes text (ta ++ .op .land :: tb)) (ha : G true 9 ta a)
    (hb : G true 8 tb b) (hs : SafeHead tb) (hM : Match ro σ ρ)
    (h0 : den m ro wrap32 a ρ = .ok 0 ρ1) :
    ∃ N, ∀ n, N ≤ n → ∃ σ', vEval m true n text σ = .ok (0, σ') ∧ Match ro σ' ρ1 := by
  have hg : G true 9 (ta ++ .op .land :: tb) (.bin .land a b) := G.bin .land rfl ha hb (fun _ _ => hs)
  have := vEval_sound (m := m) hl (.up (by omega) (.up (by omega) (.up (by omega) (.up (by omega) hg)))) hM
  simpa [den, h0] using this

/-- C10 (partial), `||` with a non-zero left operand. -/
theorem lor_skips_partial {ro : Name → Bool} {text : List Char} {ta tb : List T} {a b : E} {v : Int}
    {σ : Store} {ρ ρ1 : Env} (hl : Lexes text (ta ++ .op .lor :: tb)) (ha : G true 10 ta a)
    (hb : G true 9 tb b) (hs : SafeHead tb) (hM : Match ro σ ρ)
    (h0 : den m ro wrap32 a ρ = .ok v ρ1) (hv : v ≠ 0) :
    ∃ N, ∀ n, N ≤ n → ∃ σ', vEval m true n text σ = .ok (1, σ') ∧ Match ro σ' ρ1 := by
  have hg : G true 10 (ta ++ .op .lor :: tb) (.bin .lor a b) := G.bin .lor rfl ha hb (fun _ _ => hs)
  have := vEval_sound (m := m) hl (.up (by omega) (.up (by omega) (.up (by omega) hg))) hM
  simpa [den, h0, hv] using this

/-- C10 (partial), `?:`: the outcome is that of the selected operand, evaluated after
the condition. -/
theorem tern_skips_partial {ro : Name → Bool} {text : List Char} {tc ta tb : List T} {c a b : E} {v : Int}
    {σ : Store} {ρ ρ1 : Env} (hl : Lexes text (tc ++ .op .tern :: (ta ++ .op .ctern :: tb)))
    (hc : G true 10 tc c) (ha : G true 13 ta a) (hb : G true 11 tb b)
    (hsa : SafeHead ta) (hsb : SafeHead tb) (hM : Match ro σ ρ)
    (h0 : den m ro wrap32 c ρ = .ok v ρ1) :
    ∃ N, ∀ n, N ≤ n →
      match den m ro wrap32 (if v ≠ 0 then a else b) ρ1 with
      | .ok v ρ' => ∃ σ', vEval m true n text σ = .ok (v, σ') ∧ Match ro σ' ρ'
      | .fail er ρ' => ∃ σ', vEval m true n text σ = .err er σ' ∧ Match ro σ' ρ' := by
  have hg : G true 11 (tc ++ .op .tern :: (ta ++ .op .ctern :: tb)) (.tern c a b) :=
    G.tern hc ha hb (fun _ => ⟨hsa, hsb⟩)
  have := vEval_sound (m := m) hl (.up (by omega) (.up (by omega) hg)) hM
  simp only [den, h0] at this
  by_cases hv : v = 0
  · subst hv; simp at this ⊢; exact this
  · simp [hv] at this ⊢; exact this

/-- C10 is false for the code: in `0 && x++`, `1 || (1, 2) ? 2 : x--` and
`0 ? x = 7 : 3` the operand that C does not evaluate changes `x` (5 before). -/
theorem skipped_operand_modifies :
    outcome (vEval m0 true 60 "0 && x++".toList st0) = some (0, .text ['6']) ∧
    outcome (vEval m0 true 60 "1 || (1, 2) ? 2 : x--".toList st0) = some (2, .text ['4']) ∧
    outcome (vEval m0 true 60 "0 ? x = 7 : 3".toList st0) = some (3, .text ['7']) := by
  decide +kernel

/-- What `noassign` mode preserves: no variable is touched, and neither a division
error nor a trap occurs. -/
def Inert {α : Type} (st : St) (f : α → Ref × St) : Res α → Prop
  | .ok a => (∃ v lv, (f a).1 = .tmp v lv) ∧ (f a).2.na = st.na ∧ (f a).2.vars = st.vars ∧
      ∀ x, (f a).2.val ≠ some (.var x)
  | .err e σ => e ≠ .zerodiv ∧ σ = st.vars
  | .stuck k => k ≠ .trap

theorem token_inert {ar : Bool} {st : St} (hna : st.na ≠ 0) (hv : ∀ x, st.val ≠ some (.var x)) :
    Inert st (fun s : St => (.tmp 0 false, s)) (token ar st) := by
  unfold token
  simp only
  split
  · exact ⟨⟨_, _, rfl⟩, rfl, rfl, hv⟩
  · split
    · split
      · simp [Inert]
      · refine ⟨⟨_, _, rfl⟩, rfl, rfl, ?_⟩
        simp [hna]
    · split
      · split
        · simp [Inert]
        · exact ⟨⟨_, _, rfl⟩, rfl, rfl, by simp⟩
      · split
        · exact ⟨⟨_, _, rfl⟩, rfl, rfl, hv⟩
        · exact ⟨⟨_, _, rfl⟩, rfl, rfl, hv⟩

theorem Inert.bind {α β : Type} {st : St} {f : α → Ref × St} {g : β → Ref × St} {x : Res α} {k : α → Res β}
    (hx : Inert st f x) (hk : ∀ a, x = .ok a → (∃ v lv, (f a).1 = .tmp v lv) → (f a).2.na = st.na →
      (f a).2.vars = st.vars → (∀ y, (f a).2.val ≠ some (.var y)) → Inert st g (k a)) :
    Inert st g (x.bind k) := by
  cases x with
  | ok a => exact hk a rfl hx.1 hx.2.1 hx.2.2.1 hx.2.2.2
  | err e σ => exact hx
  | stuck k => exact hx

theorem Inert.weaken {α : Type} {st st1 : St} {f : α → Ref × St} {x : Res α} (h : Inert st1 f x)
    (h1 : st1.na = st.na) (h2 : st1.vars = st.vars) : Inert st f x := by
  cases x with
  | ok a => exact ⟨h.1, by rw [h.2.1, h1], by rw [h.2.2.1, h2], h.2.2.2⟩
  | err e σ => exact ⟨h.1, by rw [h.2, h2]⟩
  | stuck k => exact h

theorem binArith_defined (m : Mach) (o : Op) (l r : Int) (h : isDivOp o = true → r ≠ 0) :
    binArith m o l r ≠ none := by
  have hr : isDivOp o = true → r ≠ 0 := h
  cases o <;> simp only [binArith, ne_eq, reduceCtorEq, not_false_eq_true] <;>
    (have := hr rfl
     split
     · simp
     · next hh => first
        | (simp only [cdiv]; rw [if_neg (by rintro (h | h); exact this h; exact hh h)]; simp)
        | (simp only [cmod]; rw [if_neg (by rintro (h | h); exact this h; exact hh h)]; simp))

def idR : Ref × St → Ref × St := id
def ofV : Int × St → Ref × St := fun p => (.tmp p.1 false, p.2)
def ofS : St → Ref × St := fun s => (.tmp 0 false, s)

theorem intvar_inert {ar : Bool} {n : Nat} {st : St} {r : Ref} (hr : ∃ v lv, r = .tmp v lv)
    (hv : ∀ x, st.val ≠ some (.var x)) : Inert st ofV (intvar m ar n r st) := by
  obtain ⟨v, lv, rfl⟩ := hr
  cases n with
  | zero => simp [intvar, Inert]
  | succ n => rw [intvar]; exact ⟨⟨_, _, rfl⟩, rfl, rfl, hv⟩

theorem assignCheck_inert {st : St} {r : Option Ref} (hr : ∀ x, r ≠ some (.var x)) :
    assignCheck r st = .ok () ∨ assignCheck r st = .err .lvalue st.vars := by
  unfold assignCheck
  split
  · exact Or.inr rfl
  · cases r with
    | none => exact Or.inr rfl
    | some r =>
      cases r with
      | tmp v lv => cases lv <;> simp
      | var x => exact absurd rfl (hr x)

theorem ppmm_inert {ar : Bool} {n : Nat} {o : Op} {r : Option Ref} {pre : Bool} {st : St}
    (hr : ∀ x, r ≠ some (.var x)) (hv : ∀ x, st.val ≠ some (.var x)) :
    Inert st idR (ppmm m ar n o r pre st) := by
  cases n with
  | zero => simp [ppmm, Inert]
  | succ n =>
    simp only [ppmm]
    rcases assignCheck_inert (st := st) hr with h | h
    · rw [h]
      simp only [ok_bind]
      cases r with
      | none => simp [Inert]
      | some r =>
        cases r with
        | var x => exact absurd rfl (hr x)
        | tmp v lv =>
          simp only
          refine Inert.bind (intvar_inert ⟨_, _, rfl⟩ hv) ?_
          rintro ⟨v', st'⟩ _ _ h1 h2 h3
          exact ⟨⟨_, _, rfl⟩, h1, h2, h3⟩
    · rw [h]; simp [Inert]

theorem evPost_inert {ar : Bool} {n : Nat} {r : Ref} {st : St} (hna : st.na ≠ 0)
    (hr : ∃ v lv, r = .tmp v lv) (hv : ∀ x, st.val ≠ some (.var x)) :
    Inert st idR (evPost m ar n r st) := by
  have hr' : ∀ x, some r ≠ some (.var x) := by obtain ⟨v, lv, rfl⟩ := hr; simp
  cases n with
  | zero => simp [evPost, Inert]
  | succ n =>
    rw [evPost]
    have key : ∀ o, Inert st idR ((ppmm m ar n o (some r) false st).bind fun (r, st) =>
      (token ar st).bind fun st => .ok (r, st)) := by
      intro o
      refine Inert.bind (ppmm_inert hr' hv) ?_
      rintro ⟨r1, st1⟩ _ h0 h1 h2 h3
      simp only [idR, id] at h0 h1 h2 h3
      refine Inert.bind ((token_inert (by omega) h3).weaken h1 h2) ?_
      rintro st2 _ _ k1 k2 k3
      exact ⟨h0, k1, k2, k3⟩
    split
    · exact key _
    · split
      · exact key _
      · exact ⟨hr, rfl, rfl, hv⟩

/-- C10 (partial): from a state in `noassign` mode whose current token is not a
variable read before the mode was entered, the evaluator changes no variable and
raises neither a division error nor a trap, for any text (grammatical or not). -/
theorem noassign_inert_partial (ar : Bool) (n : Nat) :
    (∀ p st, st.na ≠ 0 → (∀ x, st.val ≠ some (.var x)) → Inert st idR (ev m ar n p st)) ∧
    (∀ p r st, st.na ≠ 0 → (∃ v lv, r = .tmp v lv) → (∀ x, st.val ≠ some (.var x)) →
      Inert st idR (evLoop m ar n p r st)) := by
  induction n with
  | zero => exact ⟨fun p st _ _ => by simp [ev, Inert], fun p r st _ _ _ => by simp [evLoop, Inert]⟩
  | succ n ih =>
    obtain ⟨ihE, ihL⟩ := ih
    constructor
    · intro p st hna hv
      cases p with
      | succ p =>
        rw [ev]
        refine Inert.bind (ihE p st hna hv) ?_
        rintro ⟨r, st1⟩ _ h0 h1 h2 h3
        simp only [idR, id] at h0 h1 h2 h3
        exact (ihL _ _ _ (by omega) h0 h3).weaken h1 h2
      | zero =>
        rw [ev]
        split
        · next o ho =>
          split
          · refine Inert.bind (token_inert hna hv) ?_
            rintro st1 _ _ h1 h2 h3
            simp only at h1 h2 h3
            refine Inert.bind ((ihE 0 st1 (by omega) h3).weaken h1 h2) ?_
            rintro ⟨r, st2⟩ _ k0 k1 k2 k3
            simp only [idR, id] at k0 k1 k2 k3
            refine Inert.bind ((intvar_inert k0 k3).weaken k1 k2) ?_
            rintro ⟨v, st3⟩ _ _ l1 l2 l3
            simp only [ofV] at l1 l2 l3
            exact (evPost_inert (by omega) ⟨_, _, rfl⟩ l3).weaken l1 l2
          · split
            · refine Inert.bind (token_inert hna hv) ?_
              rintro st1 _ _ h1 h2 h3
              simp only at h1 h2 h3
              refine Inert.bind ((ihE _ st1 (by omega) h3).weaken h1 h2) ?_
              rintro ⟨r, st2⟩ _ k0 k1 k2 k3
              simp only [idR, id] at k0 k1 k2 k3
              simp only
              split
              · simp [Inert, k2]
              · refine Inert.bind ((token_inert (by omega) k3).weaken k1 k2) ?_
                rintro st3 _ _ l1 l2 l3
                simp only at l1 l2 l3
                exact (evPost_inert (by omega) k0 l3).weaken l1 l2
            · split
              · refine Inert.bind (token_inert hna hv) ?_
                rintro st1 _ _ h1 h2 h3
                simp only at h1 h2 h3
                refine Inert.bind ((ppmm_inert h3 h3).weaken h1 h2) ?_
                rintro ⟨r, st2⟩ _ k0 k1 k2 k3
                simp only [idR, id] at k0 k1 k2 k3
                simp only
                refine Inert.bind ((token_inert (by omega) k3).weaken k1 k2) ?_
                rintro st3 _ _ l1 l2 l3
                simp only at l1 l2 l3
                exact (evPost_inert (by omega) k0 l3).weaken l1 l2
              · simp [Inert]
        all_goals first
          | (split
             · simp [Inert]
             · next r hr =>
               refine Inert.bind (token_inert hna hv) ?_
               rintro st1 _ _ h1 h2 h3
               simp only at h1 h2 h3
               refine (evPost_inert (by omega) ?_ h3).weaken h1 h2
               cases r with
               | tmp v lv => exact ⟨_, _, rfl⟩
               | var x => exact absurd hr (hv x))
          | simp [Inert]
    · intro p r st hna hr hv
      have hr' : ∀ x, some r ≠ some (.var x) := by obtain ⟨v, lv, rfl⟩ := hr; simp
      have hasg : ∀ st v, assignRef st r v = st := by obtain ⟨v, lv, rfl⟩ := hr; intros; rfl
      rw [evLoop]
      split
      case h_2 => exact ⟨hr, rfl, rfl, hv⟩
      next o ho =>
      split
      case isFalse => exact ⟨hr, rfl, rfl, hv⟩
      refine Inert.bind (token_inert hna hv) ?_
      rintro st1 _ _ h1 h2 h3
      simp only at h1 h2 h3
      have hck : ∀ st, Inert st (fun _ : Unit => (.tmp 0 false, { st1 with na := st.na, vars := st.vars }))
          (assignCheck (some r) st) := by
        intro st
        rcases assignCheck_inert (st := st) hr' with h | h <;> rw [h]
        · exact ⟨⟨_, _, rfl⟩, rfl, rfl, h3⟩
        · simp [Inert]
      split
      · -- `=`
        refine Inert.bind ((hck st1).weaken h1 h2) ?_
        rintro ⟨⟩ _ _ _ _ _
        refine Inert.bind ((ihE _ st1 (by omega) h3).weaken h1 h2) ?_
        rintro ⟨r2, st2⟩ _ k0 k1 k2 k3
        simp only [idR, id] at k0 k1 k2 k3
        refine Inert.bind ((intvar_inert k0 k3).weaken k1 k2) ?_
        rintro ⟨v, st3⟩ _ _ l1 l2 l3
        simp only [ofV] at l1 l2 l3
        simp only [hasg]
        exact (ihL _ _ _ (by omega) ⟨_, _, rfl⟩ l3).weaken l1 l2
      · refine Inert.bind ((intvar_inert hr h3).weaken h1 h2) ?_
        rintro ⟨l, st2⟩ _ _ i1 i2 i3
        simp only [ofV] at i1 i2 i3
        simp only
        have arith : ∀ (q : Nat) , Inert st idR ((ev m ar n q st2).bind fun (r2, st) =>
            (intvar m ar n r2 st).bind fun (vr, st) =>
            if isDivOp o = true ∧ vr = 0 ∧ st.na = 0 then .err .zerodiv st.vars
            else
              match binArith m o l (if isDivOp o = true ∧ vr = 0 then 1 else vr) with
              | none => .stuck .trap
              | some res => evLoop m ar n p (.tmp res false) st) := by
          intro q
          refine Inert.bind ((ihE _ st2 (by omega) i3).weaken i1 i2) ?_
          rintro ⟨r2, st3⟩ _ k0 k1 k2 k3
          simp only [idR, id] at k0 k1 k2 k3
          simp only
          refine Inert.bind ((intvar_inert k0 k3).weaken k1 k2) ?_
          rintro ⟨v, st4⟩ _ _ l1 l2 l3
          simp only [ofV] at l1 l2 l3
          simp only
          rw [if_neg (by rintro ⟨_, _, h⟩; omega)]
          split
          · next hn => exact absurd hn (binArith_defined m o l _ (by
              intro hd; by_cases hz : v = 0 <;> simp [hd, hz]))
          · exact (ihL _ _ _ (by omega) ⟨_, _, rfl⟩ l3).weaken l1 l2
        -- the skipping operators
        have logic : ∀ (d : Nat) (f : Int → Int), Inert st idR ((ev m ar n (p - 1) { st2 with na := st2.na + d }).bind fun (r2, st) =>
            (intvar m ar n r2 st).bind fun (vr, st) =>
            evLoop m ar n p (.tmp (f vr) false) { st with na := st.na - d }) := by
          intro d f
          have := ihE (p - 1) { st2 with na := st2.na + d } (by simp only; omega) i3
          revert this
          cases hev : ev m ar n (p - 1) { st2 with na := st2.na + d } with
          | err e σ => intro h; exact ⟨h.1, by rw [h.2]; exact i2⟩
          | stuck k => intro h; exact h
          | ok a =>
            obtain ⟨r2, st3⟩ := a
            rintro ⟨k0, k1, k2, k3⟩
            simp only [idR, id] at k0 k1 k2 k3
            obtain ⟨v, lv, rfl⟩ := k0
            cases n with
            | zero => simp [ev] at hev
            | succ n =>
              simp only [ok_bind, intvar]
              exact (ihL p (.tmp (f v) false) { st3 with na := st3.na - d } (by simp only; omega) ⟨_, _, rfl⟩ k3).weaken
                (by simp only; omega) (by simp only; rw [k2, i2])
        split
        · -- compound assignment
          refine Inert.bind ((hck st2).weaken i1 i2) ?_
          rintro ⟨⟩ _ _ _ _ _
          have := arith pAssign
          simp only [hasg]
          exact this
        · split
          · by_cases hl : l = 0
            · have := logic 1 (fun vr => ofBool (l ≠ 0 ∧ vr ≠ 0))
              simpa only [if_pos hl] using this
            · have := logic 0 (fun vr => ofBool (l ≠ 0 ∧ vr ≠ 0))
              simp only [if_neg hl]; exact this
          · split
            · by_cases hl : l ≠ 0
              · have := logic 1 (fun vr => ofBool (l ≠ 0 ∨ vr ≠ 0))
                simpa only [if_pos hl] using this
              · have := logic 0 (fun vr => ofBool (l ≠ 0 ∨ vr ≠ 0))
                simp only [if_neg hl]; exact this
            · split
              · -- conditional
                have e1 : ∃ d, (if l = 0 then { st2 with na := st2.na + 1 } else st2) = { st2 with na := st2.na + d } ∧
                    ∀ s : St, (if l = 0 then { s with na := s.na - 1 } else s) = { s with na := s.na - d } := by
                  by_cases hl : l = 0
                  · exact ⟨1, by simp [hl], by simp [hl]⟩
                  · exact ⟨0, by simp [hl], by simp [hl]⟩
                obtain ⟨d, e1, e1'⟩ := e1
                have e2 : ∃ d, (∀ s : St, (if l ≠ 0 then { s with na := s.na + 1 } else s) = { s with na := s.na + d }) ∧
                    ∀ s : St, (if l ≠ 0 then { s with na := s.na - 1 } else s) = { s with na := s.na - d } := by
                  by_cases hl : l = 0
                  · exact ⟨0, by simp [hl], by simp [hl]⟩
                  · exact ⟨1, by simp [hl], by simp [hl]⟩
                obtain ⟨d2, e2, e2'⟩ := e2
                simp only [e1, e1', e2, e2']
                have := ihE maxPrec { st2 with na := st2.na + d } (by simp only; omega) i3
                revert this
                cases hev : ev m ar n maxPrec { st2 with na := st2.na + d } with
                | err e σ => intro h; exact ⟨h.1, by rw [h.2]; exact i2⟩
                | stuck k => intro h; exact h
                | ok a =>
                  obtain ⟨r2, st3⟩ := a
                  rintro ⟨k0, k1, k2, k3⟩
                  simp only [idR, id] at k0 k1 k2 k3
                  simp only [ok_bind]
                  split
                  · simp [Inert, k2, i2]
                  · refine Inert.bind ((token_inert (st := { st3 with na := st3.na - d }) (by simp only; omega) k3).weaken
                      (by simp only; omega) (by simp only; rw [k2, i2])) ?_
                    rintro st4 _ _ j1 j2 j3
                    simp only at j1 j2 j3
                    have := ihE pTern { st4 with na := st4.na + d2 } (by simp only; omega) j3
                    revert this
                    cases hev : ev m ar n pTern { st4 with na := st4.na + d2 } with
                    | err e σ => intro h; exact ⟨h.1, by rw [h.2]; exact j2⟩
                    | stuck k => intro h; exact h
                    | ok a =>
                      obtain ⟨r3, st5⟩ := a
                      rintro ⟨p0, p1, p2, p3⟩
                      simp only [idR, id] at p0 p1 p2 p3
                      simp only [ok_bind]
                      refine (ihL p _ { st5 with na := st5.na - d2 } (by show st5.na - d2 ≠ 0; omega) ?_ p3).weaken (by show st5.na - d2 = _; omega) (by show st5.vars = _; rw [p2, j2])
                      split
                      · exact k0
                      · exact p0
              · exact arith _

/-! ### C11: division -/

/-- C11: whatever the text and the variables, evaluation never reaches a machine
division trap. -/
theorem division_never_traps (ar : Bool) (n : Nat) :
    (∀ p st, ev m ar n p st ≠ .stuck .trap) ∧ (∀ r st, evPost m ar n r st ≠ .stuck .trap) ∧
    (∀ p r st, evLoop m ar n p r st ≠ .stuck .trap) ∧
    (∀ o r b st, ppmm m ar n o r b st ≠ .stuck .trap) ∧ (∀ r st, intvar m ar n r st ≠ .stuck .trap) ∧
    (∀ t σ, vEval m ar n t σ ≠ .stuck .trap) := by
  have tok : ∀ st, token ar st ≠ .stuck .trap := by
    intro st
    unfold token
    simp only
    split
    · simp
    · split
      · split <;> simp
      · split
        · split <;> simp
        · split <;> simp
  have chk : ∀ r st, assignCheck r st ≠ .stuck .trap := by
    intro r st
    unfold assignCheck
    split
    · simp
    · split
      · simp
      · split <;> simp
      · split <;> simp
  have bd : ∀ {α β : Type} (x : Res α) (k : α → Res β), x ≠ .stuck .trap → (∀ a, k a ≠ .stuck .trap) →
      x.bind k ≠ .stuck .trap := by
    intro α β x k hx hk
    cases x with
    | ok a => exact hk a
    | err => simp
    | stuck s => simp only [stuck_bind]; intro h; simp at h; subst h; exact hx rfl
  induction n with
  | zero => simp [ev, evPost, evLoop, ppmm, intvar, vEval]
  | succ n ih =>
    obtain ⟨iE, iP, iL, iM, iI, iV⟩ := ih
    refine ⟨?_, ?_, ?_, ?_, ?_, ?_⟩
    · intro p st
      cases p with
      | succ p => rw [ev]; exact bd _ _ (iE _ _) (fun a => iL _ _ _)
      | zero =>
        rw [ev]
        split
        · split
          · exact bd _ _ (tok _) fun _ => bd _ _ (iE _ _) fun _ => bd _ _ (iI _ _) fun _ => iP _ _
          · split
            · refine bd _ _ (tok _) fun _ => bd _ _ (iE _ _) fun _ => ?_
              simp only
              split
              · simp
              · exact bd _ _ (tok _) fun _ => iP _ _
            · split
              · exact bd _ _ (tok _) fun _ => bd _ _ (iM _ _ _ _) fun _ => bd _ _ (tok _) fun _ => iP _ _
              · simp
        all_goals first
          | (split
             · simp
             · exact bd _ _ (tok _) fun _ => iP _ _)
          | simp
    · intro r st
      rw [evPost]
      split
      · exact bd _ _ (iM _ _ _ _) fun _ => bd _ _ (tok _) fun _ => by simp
      · split
        · exact bd _ _ (iM _ _ _ _) fun _ => bd _ _ (tok _) fun _ => by simp
        · simp
    · intro p r st
      rw [evLoop]
      split
      case h_2 => simp
      split
      case isFalse => simp
      next o _ _ =>
      refine bd _ _ (tok _) fun st1 => ?_
      have ar1 : ∀ (l : Int) (g : St → Int → St) (q : Nat) (st : St), ((ev m ar n q st).bind fun (r2, st) =>
            (intvar m ar n r2 st).bind fun (vr, st) =>
            if isDivOp o = true ∧ vr = 0 ∧ st.na = 0 then .err .zerodiv st.vars
            else
              match binArith m o l (if isDivOp o = true ∧ vr = 0 then 1 else vr) with
              | none => .stuck .trap
              | some res => evLoop m ar n p (.tmp res false) (g st res)) ≠ .stuck .trap := by
        intro l g q st
        refine bd _ _ (iE _ _) fun a => bd _ _ (iI _ _) fun b => ?_
        obtain ⟨v, st'⟩ := b
        simp only
        split
        · simp
        · split
          · next hn => exact absurd hn (binArith_defined m o l _ (by
              intro hd; by_cases hz : v = 0 <;> simp [hd, hz]))
          · exact iL _ _ _
      split
      · exact bd _ _ (chk _ _) fun _ => bd _ _ (iE _ _) fun _ => bd _ _ (iI _ _) fun _ => iL _ _ _
      · refine bd _ _ (iI _ _) fun a => ?_
        obtain ⟨l, st2⟩ := a
        simp only
        split
        · exact bd _ _ (chk _ _) fun _ => ar1 l (fun s v => assignRef s r v) _ _
        · split
          · exact bd _ _ (iE _ _) fun _ => bd _ _ (iI _ _) fun _ => iL _ _ _
          · split
            · exact bd _ _ (iE _ _) fun _ => bd _ _ (iI _ _) fun _ => iL _ _ _
            · split
              · refine bd _ _ (iE _ _) fun a => ?_
                obtain ⟨r2, st3⟩ := a
                simp only
                generalize (if l = 0 then { st3 with na := st3.na - 1 } else st3) = st4
                split
                · simp
                · exact bd _ _ (tok _) fun _ => bd _ _ (iE _ _) fun _ => iL _ _ _
              · exact ar1 l (fun s _ => s) _ _
    · intro o r b st
      simp only [ppmm]
      refine bd _ _ (chk _ _) fun _ => ?_
      split
      · simp
      · exact bd _ _ (iI _ _) fun _ => by simp
    · intro r st
      simp only [intvar]
      split
      · simp
      · split
        · simp
        · split
          · simp
          · split
            · simp
            · simp
            · next k hk =>
              intro h
              simp only [Res.stuck.injEq] at h
              subst h
              exact iV _ _ hk
    · intro t σ
      rw [vEval]
      refine bd _ _ (tok _) fun _ => bd _ _ (iE _ _) fun a => bd _ _ (iI _ _) fun b => ?_
      simp only
      split <;> simp

/-- C11: an evaluated division or remainder (plain or in an assignment) by zero is the
`zero divisor` error and assigns nothing. -/
theorem zero_divisor_error {ro : Name → Bool} {text : List Char} {ta tb : List T} {a b : E} {va : Int}
    {o : Op} {σ : Store} {ρ ρ1 ρ2 : Env} (ho : o = .div ∨ o = .mod)
    (hl : Lexes text (ta ++ .op o :: tb)) (ha : G true 1 ta a)
    (hb : G true 0 tb b) (hM : Match ro σ ρ) (h1 : den m ro wrap32 a ρ = .ok va ρ1)
    (h2 : den m ro wrap32 b ρ1 = .ok 0 ρ2) :
    ∃ N, ∀ n, N ≤ n → ∃ σ', vEval m true n text σ = .err .zerodiv σ' ∧ Match ro σ' ρ2 := by
  have hg : G true 1 (ta ++ .op o :: tb) (.bin o a b) := G.bin o (by rcases ho with rfl | rfl <;> rfl) ha hb
    (by rcases ho with rfl | rfl <;> simp)
  have := vEval_sound (m := m) hl (hg.upTo 12 (by omega)) hM
  rcases ho with rfl | rfl <;> simpa [den, h1, h2, isDivision] using this

/-- C11: the most negative value divided by -1. -/
theorem most_negative_division (m : Mach) :
    meaning m .div int64Min (-1) = int64Min ∧ meaning m .mod int64Min (-1) = 0 ∧
    binArith m .div int64Min (-1) = some int64Min ∧ binArith m .mod int64Min (-1) = some 0 := by
  refine ⟨?_, ?_, ?_, ?_⟩
  all_goals first | rfl | (simp only [meaning]; decide) | decide

/-- C11, C09: for all other operands the quotient truncates towards zero and the
remainder has the sign of the dividend. -/
theorem division_meaning (m : Mach) (a b : Int) (hb : b ≠ 0)
    (h : ¬ (a = int64Min ∧ b = -1)) :
    ∃ q r, binArith m .div a b = some q ∧ binArith m .mod a b = some r ∧
      a = q * b + r ∧ r.natAbs < b.natAbs ∧ (0 ≤ a → 0 ≤ r) ∧ (a ≤ 0 → r ≤ 0) := by
  refine ⟨a.tdiv b, a.tmod b, ?_, ?_, ?_, ?_, ?_, ?_⟩
  · simp only [binArith, if_neg h, cdiv]; rw [if_neg (by rintro (h' | h'); exact hb h'; exact h h')]
  · simp only [binArith, if_neg h, cmod]; rw [if_neg (by rintro (h' | h'); exact hb h'; exact h h')]
  · have := Int.mul_tdiv_add_tmod a b; rw [Int.mul_comm] at this; exact this.symm
  · rw [Int.natAbs_tmod]; exact Nat.mod_lt _ (by omega)
  · exact fun h0 => Int.tmod_nonneg b h0
  · intro h0
    have := Int.tmod_nonneg (a := -a) b (by omega)
    rw [Int.neg_tmod] at this
    omega

example : (vEval m0 true 60 "7 / 0".toList st0 matches .err .zerodiv _) = true := by decide +kernel
example : outcome (vEval m0 true 60 "(-9223372036854775807-1) / -1".toList st0)
    = some (-9223372036854775808, .text ['5']) := by decide +kernel

/-! ### C12: postfix operators -/

theorem wrap32_id_iff (v : Int) : wrap32 v = v ↔ -2147483648 ≤ v ∧ v ≤ 2147483647 := by
  show Int.bmod v 4294967296 = v ↔ _
  rw [Int.bmod_def]
  constructor
  · intro h; split at h <;> omega
  · intro h; split <;> omega

/-- C12 (partial): `x++` and `x--` update `x` correctly for every 64-bit value; they
yield the old value truncated to 32 bits, which is the old value exactly when it
fits an `int`. -/
theorem postfix_partial {ro : Name → Bool} {text : List Char} {x : Name} {o : Op} {σ : Store} {ρ : Env}
    (hl : Lexes text [.name x, .op o]) (ho : isIncDec o = true) (hM : Match ro σ ρ) (hx : ro x = false) :
    ∃ N, ∀ n, N ≤ n → ∃ σ' v, vEval m true n text σ = .ok (v, σ') ∧
      Match ro σ' (ρ.set x (wrap64 (if o = .plusplus then ρ x + 1 else ρ x - 1))) ∧
      (v = ρ x ↔ -2147483648 ≤ ρ x ∧ ρ x ≤ 2147483647) := by
  have hg : G true 0 ([.name x] ++ [.op o]) (.post o x) := G.post o ho (.name x)
  obtain ⟨N, h⟩ := vEval_sound (m := m) hl (hg.upTo 13 (by omega)) hM
  refine ⟨N, fun n hn => ?_⟩
  have := h n hn
  simp only [den, hx, Bool.false_eq_true, if_false] at this
  obtain ⟨σ', h1, h2⟩ := this
  exact ⟨σ', _, h1, h2, wrap32_id_iff _⟩

/-- C12 is false for the code outside the `int` range: `x++` on 2147483648 yields
-2147483648. -/
theorem postfix_truncates :
    outcome (vEval m0 true 60 "x++".toList
      [(['x'], { isInt := true, val := .int 2147483648, ro := false, inEval := false })])
      = some (-2147483648, .int 2147483649) := by
  decide +kernel

/-- C12: the prefix forms yield the new value, for every 64-bit value. -/
theorem prefix_value {ro : Name → Bool} {text : List Char} {x : Name} {o : Op} {σ : Store} {ρ : Env}
    (hl : Lexes text [.op o, .name x]) (ho : isIncDec o = true) (hM : Match ro σ ρ) (hx : ro x = false) :
    ∃ N, ∀ n, N ≤ n → ∃ σ', vEval m true n text σ =
        .ok (wrap64 (if o = .plusplus then ρ x + 1 else ρ x - 1), σ') ∧
      Match ro σ' (ρ.set x (wrap64 (if o = .plusplus then ρ x + 1 else ρ x - 1))) := by
  have hg : G true 0 [.op o, .name x] (.pre o x) := G.pre o x ho
  obtain ⟨N, h⟩ := vEval_sound (m := m) hl (hg.upTo 13 (by omega)) hM
  refine ⟨N, fun n hn => ?_⟩
  have := h n hn
  simpa only [den, hx, Bool.false_eq_true, if_false] using this

/-! ### Concrete instances -/

/-- the example variables hold numbers -/
example : Match (fun x => x == ['y']) st0 (fun x => if x = ['x'] then 5 else if x = ['y'] then 7 else 0) := by
  intro x
  by_cases h1 : x = ['x']
  · subst h1; decide
  · by_cases h2 : x = ['y']
    · subst h2; decide
    · have : look st0 x = { isInt := false, val := .unset, ro := false, inEval := false } := by
        simp only [look, st0, List.find?]
        have e1 : (['x'] == x) = false := by simpa using fun h => h1 h.symm
        have e2 : (['y'] == x) = false := by simpa using fun h => h2 h.symm
        simp [e1, e2]
      rw [this]
      simp only [h1, h2, if_false]
      refine ⟨by simp [numberOf], by decide, ?_, ?_⟩ <;> simp [h2]

/-- `x=2+3*4` lexes and parses, and means 14. -/
example : Lexes "x=2+3*4".toList
    [.name ['x'], .op .asn, .num 2, .op .plus, .num 3, .op .times, .num 4] := by
  have lit : ∀ c d, digitVal c = some d → d < 10 → c ≠ '0' → LitVal [c] (wrap64 (digitsVal 10 [d])) := by
    intro c d h1 h2 h3
    exact .dec ⟨by simp, by simp [h1], by simpa using h2⟩ (by simp [h3])
  refine .name (ws := []) (rest := "=2+3*4".toList) 'x' [] (by simp) (by decide) (by simp) (by decide) ?_
  refine .op (ws := []) (rest := "2+3*4".toList) .asn (by simp) (by intro o; cases o <;> decide) ?_
  refine .num (ws := []) (rest := "+3*4".toList) ['2'] _ (by simp) (lit '2' 2 (by decide) (by decide) (by decide)) (by decide) ?_
  refine .op (ws := []) (rest := "3*4".toList) .plus (by simp) (by intro o; cases o <;> decide) ?_
  refine .num (ws := []) (rest := "*4".toList) ['3'] _ (by simp) (lit '3' 3 (by decide) (by decide) (by decide)) (by decide) ?_
  refine .op (ws := []) (rest := "4".toList) .times (by simp) (by intro o; cases o <;> decide) ?_
  refine .num (ws := []) (rest := []) ['4'] _ (by simp) (lit '4' 4 (by decide) (by decide) (by decide)) (by decide) ?_
  exact .nil (by simp)

example : G true 12 [.name ['x'], .op .asn, .num 2, .op .plus, .num 3, .op .times, .num 4]
    (.asn .asn ['x'] (.bin .plus (.num 2) (.bin .times (.num 3) (.num 4)))) := by
  refine .asn (t := [.name ['x']]) .asn rfl (.name _) (G.upTo (k := 2) ?_ 10 (by omega))
  refine .bin (k := 1) (ta := [.num 2]) .plus rfl ((G.num 2).upTo 2 (by omega)) ?_ (by simp)
  exact .bin (k := 0) (ta := [.num 3]) (tb := [.num 4]) .times rfl ((G.num 3).upTo 1 (by omega)) (.num 4) (by simp)

example : outcome (vEval m0 true 60 "x=2+3*4".toList st0) = some (14, .text ['1', '4']) := by decide +kernel
example : outcome (vEval m0 true 60 "1 + x++ * -2 , ~x".toList st0) = some (-7, .text ['6']) := by decide +kernel
example : outcome (vEval m0 true 60 "0 && (x = 9) || 4 / 2 == 2".toList st0) = some (1, .text ['5']) := by
  decide +kernel

end Ksh.Expr
