import Verif.Expr.Lex

/-!
# The evaluator computes the meaning of grammatical expressions
-/

namespace Ksh.Expr
open Ksh.Num

variable {m : Mach}

@[simp] theorem ok_bind {α β : Type} (a : α) (f : α → Res β) : (Res.ok a).bind f = f a := rfl
@[simp] theorem err_bind {α β : Type} (e : Err) (σ : Store) (f : α → Res β) :
    (Res.err e σ : Res α).bind f = .err e σ := rfl
@[simp] theorem stuck_bind {α β : Type} (k : Stuck) (f : α → Res β) :
    (Res.stuck k : Res α).bind f = .stuck k := rfl

/-- Reading `r` gives the number `v`. -/
def Reads (σ : Store) : Ref → Int → Prop
  | .tmp u _, v => u = v ∧ InRange v
  | .var x, v => numberOf (look σ x).val = some v ∧ (look σ x).inEval = false ∧ InRange v

theorem Reads.inRange {σ : Store} {r : Ref} {v : Int} (h : Reads σ r v) : InRange v := by
  cases r with
  | tmp _ _ => exact h.2
  | var _ => exact h.2.2

theorem Reads.same {σ σ' : Store} {r : Ref} {v : Int} (h : Reads σ r v) (hs : Same σ σ') :
    Reads σ' r v := by
  cases r with
  | tmp _ _ => exact h
  | var x => simp only [Reads] at h ⊢; rw [← hs x]; exact h

def Done (m : Mach) (st : St) (k : Nat) (r : Ref) (st' : St) : Prop :=
  ∃ N, ∀ n, N ≤ n → ev m true n k st = .ok (r, st')

def LoopF (m : Mach) (st : St) (k : Nat) (r : Ref) (st' : St) : Prop :=
  ∃ d N, ∀ n, N ≤ n → ev m true (n + d) k st = evLoop m true n k r st'

def Fails (m : Mach) (st : St) (k : Nat) (e : Err) (σ : Store) : Prop :=
  ∃ N, ∀ n, N ≤ n → ev m true n k st = .err e σ

/-! ### Operator tables -/

theorem level_facts : ∀ o : Op, (∀ j, level o = some j → isBinop o = true ∧ o.prec = j ∧ isAssign o = false ∧
      o ≠ .asn ∧ o ≠ .tern) ∧
    (isAsnOp o = isAssign o) ∧ (isAsnOp o = true → isBinop o = true ∧ o.prec = 12) ∧
    (isBinop o = true → (∃ j, level o = some j) ∨ isAsnOp o = true ∨ o = .tern) ∧
    (isIncDec o = true → isBinop o = false) := by
  intro o
  refine ⟨?_, ?_, ?_, ?_, ?_⟩
  · intro j h
    cases o <;> simp only [level, Option.some.injEq, reduceCtorEq] at h <;> subst h <;> decide
  · cases o <;> rfl
  · cases o <;> decide
  · cases o <;> first | (intro _; left; exact ⟨_, rfl⟩) | (intro _; right; left; rfl) |
      (intro _; right; right; rfl) | (intro h; exact absurd h (by decide))
  · cases o <;> decide

theorem tern_facts : isBinop .tern = true ∧ Op.tern.prec = 11 ∧ isAssign .tern = false := by decide

/-- What may follow an expression of level `k`. -/
def Follow (k : Nat) (R : List T) : Prop :=
  R = [] ∨ ∃ o ts, R = .op o :: ts ∧ isIncDec o = false ∧ isAsnOp o = false ∧
    (∀ j, level o = some j → k ≤ j) ∧ (o = .tern → k ≤ 10)

theorem Follow.mono {k j : Nat} {R : List T} (h : Follow k R) (hj : j ≤ k) : Follow j R := by
  rcases h with rfl | ⟨o, ts, rfl, h1, h2, h3, h4⟩
  · exact Or.inl rfl
  · exact Or.inr ⟨o, ts, rfl, h1, h2, fun i hi => Nat.le_trans hj (h3 i hi), fun e => Nat.le_trans hj (h4 e)⟩

theorem At.real_irrel {k : Nat} {R : List T} (hF : Follow k R) {b b' : Bool} {st : St} (h : At b st R) :
    At b' st R := by
  rcases hF with rfl | ⟨o, ts, rfl, _⟩ <;> exact h

theorem At.tok_follow {k : Nat} {R : List T} (hF : Follow k R) {b : Bool} {st : St} (h : At b st R) :
    st.tok = .fin ∨ ∃ o, st.tok = .op o ∧ isIncDec o = false ∧ isAsnOp o = false ∧
      (∀ j, level o = some j → k ≤ j) ∧ (o = .tern → k ≤ 10) := by
  rcases hF with rfl | ⟨o, ts, rfl, h'⟩
  · exact Or.inl h
  · exact Or.inr ⟨o, h.1, h'⟩

/-! ### Basic steps -/

theorem evLoop_stop {n k : Nat} {r : Ref} {st : St}
    (h : ∀ o, st.tok = .op o → isBinop o = true → o.prec ≠ k) :
    evLoop m true (n + 1) k r st = .ok (r, st) := by
  rw [evLoop]
  cases ht : st.tok with
  | op o =>
    simp only
    have := h o ht
    rw [if_neg]
    simp only [Bool.and_eq_true, beq_iff_eq, not_and]
    exact this
  | _ => rfl

theorem evPost_stop {n : Nat} {r : Ref} {st : St}
    (h : ∀ o, st.tok = .op o → isIncDec o = false) : evPost m true (n + 1) r st = .ok (r, st) := by
  rw [evPost]
  rw [if_neg, if_neg]
  · intro e; exact absurd (h _ e) (by decide)
  · intro e; exact absurd (h _ e) (by decide)

theorem Done.loopF {st st' : St} {k : Nat} {r : Ref} (h : Done m st k r st') :
    LoopF m st (k + 1) r st' := by
  obtain ⟨N, h⟩ := h
  refine ⟨1, N, fun n hn => ?_⟩
  rw [ev, h n hn]; rfl

theorem LoopF.done {st st' : St} {k : Nat} {r : Ref} (h : LoopF m st k r st')
    (hs : ∀ o, st'.tok = .op o → isBinop o = true → o.prec ≠ k) : Done m st k r st' := by
  obtain ⟨d, N, h⟩ := h
  refine ⟨N + 1 + d, fun n hn => ?_⟩
  obtain ⟨n', rfl⟩ : ∃ n', n = (n' + 1) + d := ⟨n - d - 1, by omega⟩
  rw [h _ (by omega), evLoop_stop hs]

theorem Done.lift {st st' : St} {k : Nat} {r : Ref} (h : Done m st k r st') (j : Nat)
    (hs : ∀ o, st'.tok = .op o → isBinop o = true → k + j < o.prec) : Done m st (k + j) r st' := by
  induction j with
  | zero => exact h
  | succ j ih =>
    have := ih (fun o h1 h2 => by have := hs o h1 h2; omega)
    exact this.loopF.done (fun o h1 h2 => by have := hs o h1 h2; omega)

theorem Fails.up {st : St} {k : Nat} {e : Err} {σ : Store} (h : Fails m st k e σ) :
    Fails m st (k + 1) e σ := by
  obtain ⟨N, h⟩ := h
  refine ⟨N + 1, fun n hn => ?_⟩
  obtain ⟨n', rfl⟩ : ∃ n', n = n' + 1 := ⟨n - 1, by omega⟩
  rw [ev, h n' (by omega)]; rfl

/-- Follow facts give the stop condition. -/
theorem stop_of_follow {k : Nat} {R : List T} (hF : Follow k R) {b : Bool} {st : St} (h : At b st R) :
    ∀ o, st.tok = .op o → isBinop o = true → k ≤ o.prec ∧ (11 ≤ k → 11 < o.prec) ∧ o.prec ≠ 12 := by
  intro o ho hb
  rcases At.tok_follow hF h with h' | ⟨o', h1, h2, h3, h4, h5⟩
  · rw [h'] at ho; simp at ho
  · rw [h1] at ho
    simp only [Tok.op.injEq] at ho
    subst ho
    rcases (level_facts o').2.2.2.1 hb with ⟨j, hj⟩ | hj | hj
    · have hp := ((level_facts o').1 j hj).2.1
      have := h4 j hj
      rw [hp]
      have h11 : j ≠ 11 ∧ j ≠ 12 := by
        clear hb hp this h4 h5 h2 h3 h1 h
        cases o' <;> simp [level] at hj <;> omega
      refine ⟨this, fun h11 => ?_, h11.2⟩
      omega
    · rw [hj] at h3; simp at h3
    · subst hj
      have := h5 rfl
      rw [tern_facts.2.1]
      omega

theorem post_of_follow {k : Nat} {R : List T} (hF : Follow k R) {b : Bool} {st : St} (h : At b st R) :
    ∀ o, st.tok = .op o → isIncDec o = false := by
  intro o ho
  rcases At.tok_follow hF h with h' | ⟨o', h1, h2, _⟩
  · rw [h'] at ho; simp at ho
  · rw [h1] at ho
    simp only [Tok.op.injEq] at ho
    subst ho
    exact h2

/-! ### Values -/

/-- Evaluating the empty text gives 0. -/
theorem vEval_empty (σ : Store) : ∃ N, ∀ n, N ≤ n → vEval m true n [] σ = .ok (0, σ) := by
  let st0 : St := { rest := [], tok := .lit, val := some (.tmp 0 false), na := 0, vars := σ }
  let st1 : St := { rest := [], tok := .fin, val := some (.tmp 0 false), na := 0, vars := σ }
  have h0 : Done m st0 0 (.tmp 0 false) st1 := by
    refine ⟨2, fun n hn => ?_⟩
    obtain ⟨n', rfl⟩ : ∃ n', n = (n' + 1) + 1 := ⟨n - 2, by omega⟩
    rw [ev]
    simp only [st0, token, List.dropWhile_nil, ok_bind]
    exact evPost_stop (by intro o h; simp at h)
  obtain ⟨N, h⟩ := h0.lift 13 (by intro o h; simp [st1] at h)
  refine ⟨N + 2, fun n hn => ?_⟩
  obtain ⟨n', rfl⟩ : ∃ n', n = (n' + 1) + 1 := ⟨n - 2, by omega⟩
  have := h (n' + 1) (by omega)
  simp only [st0, Nat.zero_add] at this
  rw [vEval]
  simp only [token, List.dropWhile_nil, ok_bind, if_true, maxPrec]
  rw [this]
  simp [intvar, st1]

theorem intvar_reads {st : St} {r : Ref} {v : Int} (h : Reads st.vars r v) :
    ∃ N σ', (∀ n, N ≤ n → intvar m true n r st = .ok (v, { st with vars := σ' })) ∧ Same st.vars σ' := by
  cases r with
  | tmp u lv =>
    obtain ⟨rfl, _⟩ := h
    refine ⟨1, st.vars, fun n hn => ?_, Same.refl _⟩
    obtain ⟨n', rfl⟩ : ∃ n', n = n' + 1 := ⟨n - 1, by omega⟩
    rw [intvar]
  | var x =>
    obtain ⟨h1, h2, _⟩ := h
    cases hv : (look st.vars x).val with
    | unset =>
      rw [hv] at h1
      simp only [numberOf, Option.some.injEq] at h1
      subst h1
      obtain ⟨N, he⟩ := vEval_empty (m := m) (setEval st.vars x true)
      refine ⟨N + 1, _, fun n hn => ?_, setEval_same h2 (Same.refl _)⟩
      obtain ⟨n', rfl⟩ : ∃ n', n = n' + 1 := ⟨n - 1, by omega⟩
      rw [intvar]
      simp only [hv, h2, Bool.false_eq_true, if_false, he n' (by omega)]
    | int u =>
      rw [hv] at h1
      simp only [numberOf, Option.some.injEq] at h1
      subst h1
      refine ⟨1, st.vars, fun n hn => ?_, Same.refl _⟩
      obtain ⟨n', rfl⟩ : ∃ n', n = n' + 1 := ⟨n - 1, by omega⟩
      rw [intvar]
      simp only [hv]
    | text t =>
      rw [hv] at h1
      simp only [numberOf] at h1
      refine ⟨1, st.vars, fun n hn => ?_, Same.refl _⟩
      obtain ⟨n', rfl⟩ : ∃ n', n = n' + 1 := ⟨n - 1, by omega⟩
      rw [intvar]
      simp only [hv, h1]

/-- An evaluation followed by `intvar`. -/
theorem Done.value {st st' : St} {k : Nat} {r : Ref} {v : Int} (h : Done m st k r st')
    (hr : Reads st'.vars r v) :
    ∃ N σ', (∀ n, N ≤ n → (ev m true n k st = .ok (r, st') ∧
      intvar m true n r st' = .ok (v, { st' with vars := σ' }))) ∧ Same st'.vars σ' := by
  obtain ⟨N, h⟩ := h
  obtain ⟨N', σ', h', hs⟩ := intvar_reads (m := m) hr
  exact ⟨max N N', σ', fun n hn => ⟨h n (by omega), h' n (by omega)⟩, hs⟩

theorem At.vars_irrel {b : Bool} {st : St} {R : List T} (σ : Store) (h : At b st R) :
    At b { st with vars := σ } R := by
  cases R with
  | nil => exact h
  | cons t R => cases t <;> exact h

theorem At.na_irrel {b : Bool} {st : St} {R : List T} (k : Nat) (h : At b st R) :
    At b { st with na := k } R := by
  cases R with
  | nil => exact h
  | cons t R => cases t <;> exact h

/-! ### Lvalues -/

theorem lv_eval {t : List T} {x : Name} (h : LV t x) : ∀ (st : St) (R : List T),
    At (decide (st.na = 0)) st (t ++ R) →
    ∃ d N st', (∀ n, N ≤ n → ev m true (n + d) 0 st =
      evPost m true n (if st.na = 0 then .var x else .tmp 0 true) st') ∧
      At (decide (st.na = 0)) st' R ∧ st'.na = st.na ∧ st'.vars = st.vars := by
  induction h with
  | name x =>
    intro st R hat
    obtain ⟨h1, h2, h3⟩ := hat
    obtain ⟨st', e, e1, e2, e3⟩ := token_step h3
    refine ⟨1, 0, st', fun n _ => ?_, e3, e1, e2⟩
    rw [ev]
    simp only [h1, h2, e, ok_bind]
    by_cases h0 : st.na = 0 <;> simp [h0]
  | @paren t x hlv ih =>
    intro st R hat
    simp only [List.cons_append, List.append_assoc, List.nil_append] at hat
    obtain ⟨h1, h2⟩ := hat
    obtain ⟨st1, e, e1, e2, e3⟩ := token_step h2
    rw [← e1] at e3
    obtain ⟨d, N, st2, f1, f2, f3, f4⟩ := ih st1 _ e3
    have hdone : Done m st1 0 (if st1.na = 0 then .var x else .tmp 0 true) st2 := by
      refine ⟨N + 1 + d, fun n hn => ?_⟩
      obtain ⟨n', rfl⟩ : ∃ n', n = (n' + 1) + d := ⟨n - d - 1, by omega⟩
      rw [f1 _ (by omega)]
      refine evPost_stop ?_
      intro o ho
      rw [f2.1] at ho
      simp only [Tok.op.injEq] at ho
      subst ho
      rfl
    obtain ⟨N', h13⟩ := hdone.lift 13 (by
      intro o ho hb
      rw [f2.1] at ho
      simp only [Tok.op.injEq] at ho
      subst ho
      exact absurd hb (by decide))
    obtain ⟨st3, g, g1, g2, g3⟩ := token_step f2.2
    refine ⟨1, N', st3, fun n hn => ?_, ?_, by omega, by rw [g2, f4, e2]⟩
    · rw [ev]
      simp only [h1, e, ok_bind, maxPrec]
      have := h13 n hn
      rw [Nat.zero_add] at this
      rw [if_neg (by decide), if_pos trivial, this]
      simp only [f2.1, g, e1, ok_bind, ne_eq, not_true, if_false]
    · rw [← e1, ← f3]; exact g3

/-! ### One round of the operator loop -/

theorem isDivOp_eq (o : Op) : isDivOp o = isDivision o := by cases o <;> rfl

theorem evLoop_bin {n k : Nat} {o : Op} {r1 : Ref} {st st2 st3 : St} {l : Int}
    (ho : level o = some (k + 1)) (htok : st.tok = .op o) (h2 : token true st = .ok st2)
    (h3 : intvar m true n r1 st2 = .ok (l, st3)) (hl : o ≠ .land ∧ o ≠ .lor) :
    evLoop m true (n + 1) (k + 1) r1 st =
      (ev m true n k st3).bind fun (r, st) =>
      (intvar m true n r st).bind fun (vr, st) =>
      if isDivision o = true ∧ vr = 0 ∧ st.na = 0 then .err .zerodiv st.vars
      else
        match binArith m o l (if isDivision o = true ∧ vr = 0 then 1 else vr) with
        | none => .stuck .trap
        | some res => evLoop m true n (k + 1) (.tmp res false) st := by
  obtain ⟨hb, hp, has, hne, hnt⟩ := (level_facts o).1 _ ho
  have hd : isDivOp o = isDivision o := isDivOp_eq o
  rw [evLoop]
  simp only [htok, hb, hp, Bool.true_and, beq_self_eq_true, if_true, h2, h3, ok_bind, if_neg hne, has,
    Bool.false_eq_true, if_false, if_neg hl.1, if_neg hl.2, if_neg hnt, Nat.add_sub_cancel, hd]
  rfl

theorem evLoop_land {n k : Nat} {r1 : Ref} {st st2 st3 : St} {l : Int}
    (ho : level .land = some (k + 1)) (htok : st.tok = .op .land) (h2 : token true st = .ok st2)
    (h3 : intvar m true n r1 st2 = .ok (l, st3)) :
    evLoop m true (n + 1) (k + 1) r1 st =
      (ev m true n k (if l = 0 then { st3 with na := st3.na + 1 } else st3)).bind fun (r, st) =>
      (intvar m true n r st).bind fun (vr, st) =>
      evLoop m true n (k + 1) (.tmp (ofBool (l ≠ 0 ∧ vr ≠ 0)) false)
        (if l = 0 then { st with na := st.na - 1 } else st) := by
  obtain ⟨hb, hp, has, hne, hnt⟩ := (level_facts .land).1 _ ho
  rw [evLoop]
  simp only [htok, hb, hp, Bool.true_and, beq_self_eq_true, if_true, h2, h3, ok_bind, if_neg hne, has,
    Bool.false_eq_true, if_false, Nat.add_sub_cancel]

theorem evLoop_lor {n k : Nat} {r1 : Ref} {st st2 st3 : St} {l : Int}
    (ho : level .lor = some (k + 1)) (htok : st.tok = .op .lor) (h2 : token true st = .ok st2)
    (h3 : intvar m true n r1 st2 = .ok (l, st3)) :
    evLoop m true (n + 1) (k + 1) r1 st =
      (ev m true n k (if l ≠ 0 then { st3 with na := st3.na + 1 } else st3)).bind fun (r, st) =>
      (intvar m true n r st).bind fun (vr, st) =>
      evLoop m true n (k + 1) (.tmp (ofBool (l ≠ 0 ∨ vr ≠ 0)) false)
        (if l ≠ 0 then { st with na := st.na - 1 } else st) := by
  obtain ⟨hb, hp, has, hne, hnt⟩ := (level_facts .lor).1 _ ho
  rw [evLoop]
  simp only [htok, hb, hp, Bool.true_and, beq_self_eq_true, if_true, h2, h3, ok_bind, if_neg hne, has,
    Bool.false_eq_true, if_false, Nat.add_sub_cancel, reduceCtorEq]

theorem evLoop_tern {n : Nat} {r1 : Ref} {st st2 st3 : St} {l : Int}
    (htok : st.tok = .op .tern) (h2 : token true st = .ok st2)
    (h3 : intvar m true n r1 st2 = .ok (l, st3)) :
    evLoop m true (n + 1) 11 r1 st =
      (ev m true n 13 (if l = 0 then { st3 with na := st3.na + 1 } else st3)).bind fun (r2, st) =>
      let st := if l = 0 then { st with na := st.na - 1 } else st
      if st.tok ≠ .op .ctern then .err .missingColon st.vars
      else
        (token true st).bind fun st =>
        (ev m true n 11 (if l ≠ 0 then { st with na := st.na + 1 } else st)).bind fun (r3, st) =>
        let st := if l ≠ 0 then { st with na := st.na - 1 } else st
        evLoop m true n 11 (if l ≠ 0 then r2 else r3) st := by
  rw [evLoop]
  simp only [htok, tern_facts.1, tern_facts.2.1, tern_facts.2.2, Bool.true_and, beq_self_eq_true, if_true,
    h2, h3, ok_bind, Bool.false_eq_true, if_false, reduceCtorEq, maxPrec, pTern]

theorem evLoop_asn {n : Nat} {r1 : Ref} {st st2 : St}
    (htok : st.tok = .op .asn) (h2 : token true st = .ok st2)
    (h3 : assignCheck (some r1) st2 = .ok ()) :
    evLoop m true (n + 1) 12 r1 st =
      (ev m true n 12 st2).bind fun (r, st) =>
      (intvar m true n r st).bind fun (vr, st) =>
      evLoop m true n 12 (.tmp vr false) (assignRef st r1 vr) := by
  rw [evLoop]
  have : (isBinop .asn && Op.asn.prec == 12) = true := by decide
  simp only [htok, this, if_true, h2, h3, ok_bind, pAssign]

theorem evLoop_asnop {n : Nat} {o : Op} {r1 : Ref} {st st2 st3 : St} {l : Int}
    (ho : isAsnOp o = true) (hne : o ≠ .asn) (htok : st.tok = .op o) (h2 : token true st = .ok st2)
    (h3 : intvar m true n r1 st2 = .ok (l, st3))
    (h4 : assignCheck (some r1) st3 = .ok ()) :
    evLoop m true (n + 1) 12 r1 st =
      (ev m true n 12 st3).bind fun (r, st) =>
      (intvar m true n r st).bind fun (vr, st) =>
      if isDivision o = true ∧ vr = 0 ∧ st.na = 0 then .err .zerodiv st.vars
      else
        match binArith m o l (if isDivision o = true ∧ vr = 0 then 1 else vr) with
        | none => .stuck .trap
        | some res => evLoop m true n 12 (.tmp res false) (assignRef st r1 res) := by
  obtain ⟨hb, hp⟩ := (level_facts o).2.2.1 ho
  have has : isAssign o = true := by rw [← (level_facts o).2.1]; exact ho
  have hd : isDivOp o = isDivision o := isDivOp_eq o
  rw [evLoop]
  simp only [htok, hb, hp, Bool.true_and, beq_self_eq_true, if_true, h2, h3, h4, ok_bind, if_neg hne, has,
    pAssign, hd]
  rfl

theorem G.nonempty {s : Bool} {k : Nat} {t : List T} {e : E} (h : G s k t e) : t ≠ [] := by
  induction h with
  | up _ _ ih => exact ih
  | _ => simp

theorem At.not_fin {b : Bool} {st : St} {t R : List T} (h : At b st (t ++ R)) (ht : t ≠ []) :
    st.tok ≠ .fin := by
  cases t with
  | nil => exact absurd rfl ht
  | cons a t =>
    cases a <;> · intro e; rw [List.cons_append] at h; simp only [At] at h; rw [e] at h; simp at h

def Form (m : Mach) (st : St) (k : Nat) (r : Ref) (st' : St) : Prop :=
  if k = 0 then Done m st 0 r st' else LoopF m st k r st'

theorem Form.done {st st' : St} {k : Nat} {r : Ref} (h : Form m st k r st')
    (hs : ∀ o, st'.tok = .op o → isBinop o = true → o.prec ≠ k) : Done m st k r st' := by
  unfold Form at h
  split at h
  · next h0 => subst h0; exact h
  · exact h.done hs

theorem follow_cparen (R : List T) : Follow 13 (.op .cparen :: R) :=
  Or.inr ⟨_, _, rfl, rfl, rfl, by intro j h; simp [level] at h, by intro h; simp at h⟩
theorem follow_ctern (R : List T) : Follow 13 (.op .ctern :: R) :=
  Or.inr ⟨_, _, rfl, rfl, rfl, by intro j h; simp [level] at h, by intro h; simp at h⟩
theorem follow_bin {o : Op} {k : Nat} (h : level o = some k) (R : List T) : Follow k (.op o :: R) := by
  refine Or.inr ⟨_, _, rfl, ?_, ?_, ?_, ?_⟩
  · cases o <;> simp [level] at h <;> rfl
  · cases o <;> simp [level] at h <;> rfl
  · intro j hj; rw [h] at hj; simp at hj; omega
  · rintro rfl; simp [level] at h
theorem follow_tern (R : List T) : Follow 10 (.op .tern :: R) :=
  Or.inr ⟨_, _, rfl, rfl, rfl, by intro j h; simp [level] at h, by simp⟩

theorem SafeHead.append {t R : List T} {k : Nat} (h : SafeHead t) (hF : Follow k R) :
    SafeHead (t ++ R) := by
  match t with
  | [] => rcases hF with rfl | ⟨o, ts, rfl, _⟩ <;> trivial
  | [.name x] => rcases hF with rfl | ⟨o, ts, rfl, h1, h2, _⟩
                 · trivial
                 · exact ⟨h1, h2⟩
  | .name x :: .op o :: t => exact h
  | .name x :: .name _ :: t => trivial
  | .name x :: .num _ :: t => trivial
  | .op _ :: t => trivial
  | .num _ :: t => trivial

theorem level_not {o : Op} {k : Nat} (h : level o = some (k + 1)) : o ≠ .tern ∧ isAsnOp o = false := by
  cases o <;> simp [level] at h <;> simp [isAsnOp]

theorem ppmm_tmp {n : Nat} {o : Op} {pre : Bool} {st : St} (hf : st.tok ≠ .fin) :
    ∃ v, InRange v ∧ ∀ n, 1 ≤ n → ppmm m true (n + 1) o (some (.tmp 0 true)) pre st = .ok (.tmp v false, st) := by
  refine ⟨if pre then wrap64 (if o = .plusplus then 0 + 1 else 0 - 1) else wrap32 0, ?_, fun n hn => ?_⟩
  · split
    · exact wrap64_inRange _
    · exact wrap32_inRange _
  · obtain ⟨n', rfl⟩ : ∃ n', n = n' + 1 := ⟨n - 1, by omega⟩
    rw [ppmm]
    simp [assignCheck, hf, intvar, assignRef]

end Ksh.Expr
