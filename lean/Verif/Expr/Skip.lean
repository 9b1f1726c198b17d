import Verif.Expr.Sound

/-!
# Skipped operands (`noassign` mode) of grammatical expressions
-/

namespace Ksh.Expr
open Ksh.Num

variable {m : Mach}

theorem prim_done {st st' : St} {r : Ref} (ht : st.tok = .var ∨ st.tok = .lit) (hv : st.val = some r)
    (he : token true st = .ok st') (hp : ∀ o, st'.tok = .op o → isIncDec o = false) :
    Done m st 0 r st' := by
  refine ⟨2, fun n hn => ?_⟩
  obtain ⟨n', rfl⟩ : ∃ n', n = (n' + 1) + 1 := ⟨n - 2, by omega⟩
  rw [ev]
  rcases ht with ht | ht <;> simp only [ht, hv, he, ok_bind] <;> exact evPost_stop hp

theorem paren_done {st st1 st2 st3 : St} {r : Ref} (ht : st.tok = .op .oparen)
    (h1 : token true st = .ok st1) (h2 : Done m st1 13 r st2) (ht2 : st2.tok = .op .cparen)
    (h3 : token true st2 = .ok st3) (hp : ∀ o, st3.tok = .op o → isIncDec o = false) :
    Done m st 0 r st3 := by
  obtain ⟨N, h2⟩ := h2
  refine ⟨N + 2, fun n hn => ?_⟩
  obtain ⟨n', rfl⟩ : ∃ n', n = (n' + 1) + 1 := ⟨n - 2, by omega⟩
  rw [ev]
  simp only [ht, h1, ok_bind, maxPrec]
  rw [if_neg (by decide), if_pos trivial, h2 _ (by omega)]
  simp only [ok_bind, ht2, ne_eq, not_true, if_false, h3]
  exact evPost_stop hp

theorem un_done {st st1 st2 : St} {o : Op} {r : Ref} {v : Int} (ho : isUnary o = true)
    (ht : st.tok = .op o) (h1 : token true st = .ok st1) (h2 : Done m st1 0 r st2)
    (hr : Reads st2.vars r v) (hp : ∀ o, st2.tok = .op o → isIncDec o = false) :
    ∃ σ, Done m st 0 (.tmp (unMeaning o v) false) { st2 with vars := σ } ∧ Same st2.vars σ := by
  obtain ⟨N, σ, h, hs⟩ := h2.value hr
  refine ⟨σ, ⟨N + 2, fun n hn => ?_⟩, hs⟩
  obtain ⟨n', rfl⟩ : ∃ n', n = (n' + 1) + 1 := ⟨n - 2, by omega⟩
  rw [ev]
  have ho' : o = .bnot ∨ o = .lnot ∨ o = .minus ∨ o = .plus := by
    clear ht; cases o <;> simp [isUnary] at ho <;> simp
  obtain ⟨e1, e2⟩ := h (n' + 1) (by omega)
  simp only [ht, if_pos ho', h1, ok_bind, e1, e2, unArith_eq]
  exact evPost_stop hp

theorem LoopF.step {st st1 st' : St} {k : Nat} {r1 r : Ref} (h : LoopF m st k r1 st1)
    (hs : ∃ N, ∀ n, N ≤ n → evLoop m true (n + 1) k r1 st1 = evLoop m true n k r st') :
    LoopF m st k r st' := by
  obtain ⟨d, N, h⟩ := h
  obtain ⟨N', hs⟩ := hs
  refine ⟨d + 1, max N N', fun n hn => ?_⟩
  rw [show n + (d + 1) = (n + 1) + d by omega, h _ (by omega), hs _ (by omega)]

theorem lv_first {t R : List T} {x : Name} {o : Op} (h : LV t x) (ho : isIncDec o = true ∨ isAsnOp o = true)
    {real : Bool} {st : St} (hat : At real st (t ++ .op o :: R))
    (hs : real = true → SafeHead (t ++ .op o :: R)) : At false st (t ++ .op o :: R) := by
  cases h with
  | name x =>
    cases real with
    | false => exact hat
    | true =>
      have := hs rfl
      simp only [List.cons_append, List.nil_append, SafeHead] at this
      rcases ho with h | h <;> simp [h] at this
  | paren h => exact hat

/-- In `noassign` mode an expression is consumed exactly, the variables stay as
they are, and no error is raised. -/
theorem skip_eval {ro : Name → Bool} {k : Nat} {toks : List T} {e : E} (h : G true k toks e) :
    ∀ (st : St) (R : List T) (ρ : Env) (real : Bool), st.na ≠ 0 → At real st (toks ++ R) →
      (real = true → SafeHead (toks ++ R)) → Follow k R → Match ro st.vars ρ →
      ∃ r st' v, Form m st k r st' ∧ At false st' R ∧ st'.na = st.na ∧ Same st.vars st'.vars ∧
        Reads st'.vars r v := by
  induction h with
  | num v =>
    intro st R ρ real hna hat hsafe hF hM
    obtain ⟨h1, h2, hr, h3⟩ := hat
    obtain ⟨st', e, e1, e2, e3⟩ := token_step h3
    rw [decide_eq_false hna] at e3
    exact ⟨_, st', v, prim_done (Or.inr h1) h2 e (post_of_follow hF e3), e3, e1,
      by rw [e2]; exact Same.refl _, rfl, hr⟩
  | name x =>
    intro st R ρ real hna hat hsafe hF hM
    obtain ⟨h1, h2, h3⟩ := hat
    obtain ⟨st', e, e1, e2, e3⟩ := token_step h3
    rw [decide_eq_false hna] at e3
    refine ⟨_, st', if real then ρ x else 0, prim_done (Or.inl h1) h2 e (post_of_follow hF e3), e3, e1,
      by rw [e2]; exact Same.refl _, ?_⟩
    cases real with
    | true => rw [e2]; exact ⟨(hM x).1, (hM x).2.2.2, (hM x).2.1⟩
    | false => exact ⟨rfl, small_inRange (Or.inl rfl)⟩
  | @paren t e hg ih =>
    intro st R ρ real hna hat hsafe hF hM
    simp only [List.cons_append, List.append_assoc, List.nil_append] at hat
    obtain ⟨h1, h2⟩ := hat
    obtain ⟨st1, e, e1, e2, e3⟩ := token_step h2
    rw [decide_eq_false hna] at e3
    obtain ⟨r, st2, v, f1, f2, f3, f4, f5⟩ := ih st1 _ ρ false (by omega) e3 (by simp) (follow_cparen R)
      (by rw [e2]; exact hM)
    have hd := f1.done (by
      intro o ho hb; rw [f2.1] at ho; simp only [Tok.op.injEq] at ho; subst ho; exact absurd hb (by decide))
    obtain ⟨st3, g, g1, g2, g3⟩ := token_step f2.2
    rw [decide_eq_false (by omega)] at g3
    refine ⟨r, st3, v, paren_done h1 e hd f2.1 g (post_of_follow hF g3), g3, by omega, ?_, ?_⟩
    · rw [g2, ← e2]; exact f4
    · rw [g2]; exact f5
  | @un t e o ho hg ih =>
    intro st R ρ real hna hat hsafe hF hM
    obtain ⟨h1, h2⟩ := hat
    obtain ⟨st1, e, e1, e2, e3⟩ := token_step h2
    rw [decide_eq_false hna] at e3
    obtain ⟨r, st2, v, f1, f2, f3, f4, f5⟩ := ih st1 _ ρ false (by omega) e3 (by simp) hF (by rw [e2]; exact hM)
    obtain ⟨σ, g, gs⟩ := un_done ho h1 e (f1.done (k := 0) (by
      intro o' ho' hb; have := (stop_of_follow hF f2 o' ho' hb); intro h0
      rcases (level_facts o').2.2.2.1 hb with ⟨j, hj⟩ | hj | hj
      · have := ((level_facts o').1 j hj).2.1; rw [this] at h0; subst h0
        clear hb ho' this
        cases o' <;> simp [level] at hj
      · have := ((level_facts o').2.2.1 hj).2; omega
      · subst hj; rw [tern_facts.2.1] at h0; omega)) f5 (post_of_follow hF f2)
    refine ⟨_, _, unMeaning o v, g, f2.vars_irrel σ, by simp only; omega, ?_, rfl, unMeaning_inRange _ _ f5.inRange⟩
    rw [← e2]; exact f4.trans gs
  | pre o x ho =>
    intro st R ρ real hna hat hsafe hF hM
    obtain ⟨h1, h2⟩ := hat
    obtain ⟨st1, e, e1, e2, e3⟩ := token_step h2
    rw [decide_eq_false hna] at e3
    obtain ⟨g1, g2, g3⟩ := e3
    obtain ⟨st2, f, f1, f2, f3⟩ := token_step g3
    rw [decide_eq_false (by omega)] at f3
    have hnf : st1.tok ≠ .fin := by rw [g1]; simp
    obtain ⟨v, hv, hpp⟩ := ppmm_tmp (m := m) (n := 0) (o := o) (pre := true) hnf
    refine ⟨.tmp v false, st2, v, ⟨4, fun n hn => ?_⟩, f3, by omega, by rw [f2, e2]; exact Same.refl _, rfl, hv⟩
    obtain ⟨n', rfl⟩ : ∃ n', n = (n' + 1 + 1 + 1) + 1 := ⟨n - 4, by omega⟩
    rw [ev]
    have hn1 : ¬ (o = .bnot ∨ o = .lnot ∨ o = .minus ∨ o = .plus) := by
      clear h1 hpp; cases o <;> simp [isIncDec] at ho <;> simp
    have hn2 : o ≠ .oparen := by clear h1 hpp; cases o <;> simp [isIncDec] at ho <;> simp
    have hn3 : o = .plusplus ∨ o = .minusminus := by clear h1 hpp; cases o <;> simp [isIncDec] at ho <;> simp
    simp only [h1, if_neg hn1, if_neg hn2, if_pos hn3, e, ok_bind, g2, Bool.false_eq_true, if_false]
    rw [hpp (n' + 1 + 1) (by omega)]
    simp only [ok_bind, f]
    exact evPost_stop (post_of_follow hF f3)
  | @post t x o ho hlv =>
    intro st R ρ real hna hat hsafe hF hM
    simp only [List.append_assoc, List.cons_append, List.nil_append] at hat hsafe
    have hat' := lv_first hlv (Or.inl ho) hat hsafe
    rw [← decide_eq_false hna] at hat'
    obtain ⟨d, N, st1, f1, f2, f3, f4⟩ := lv_eval (m := m) hlv st _ hat'
    rw [decide_eq_false hna] at f2
    obtain ⟨st2, g, g1, g2, g3⟩ := token_step f2.2
    rw [decide_eq_false (by omega)] at g3
    have hnf : st1.tok ≠ .fin := by rw [f2.1]; simp
    obtain ⟨v, hv, hpp⟩ := ppmm_tmp (m := m) (n := 0) (o := o) (pre := false) hnf
    refine ⟨.tmp v false, st2, v, ⟨N + 3 + d, fun n hn => ?_⟩, g3, by omega,
      by rw [g2, f4]; exact Same.refl _, rfl, hv⟩
    obtain ⟨n', rfl⟩ : ∃ n', n = ((n' + 1 + 1) + 1) + d := ⟨n - d - 3, by omega⟩
    rw [f1 _ (by omega), evPost, if_neg hna]
    have hn3 : o = .plusplus ∨ o = .minusminus := by clear f2 hpp hat hsafe hat'; cases o <;> simp [isIncDec] at ho <;> simp
    rcases hn3 with rfl | rfl
    · rw [if_pos f2.1, hpp (n' + 1) (by omega)]; simp only [ok_bind, g]
    · rw [if_neg (by rw [f2.1]; simp), if_pos f2.1, hpp (n' + 1) (by omega)]; simp only [ok_bind, g]
  | @bin k ta a tb b o hl ha hb hstrict iha ihb =>
    intro st R ρ real hna hat hsafe hF hM
    simp only [List.append_assoc, List.cons_append] at hat hsafe
    obtain ⟨r1, st1, l, f1, f2, f3, f4, f5⟩ := iha st _ ρ real hna hat hsafe (follow_bin hl _) hM
    have f1' : LoopF m st (k + 1) r1 st1 := by simpa [Form] using f1
    obtain ⟨st2, g, g1, g2, g3⟩ := token_step f2.2
    rw [decide_eq_false (by omega)] at g3
    obtain ⟨N3, σ3, h3, s3⟩ := intvar_reads (m := m) (st := st2) (by rw [g2]; exact f5)
    have hM3 : ∀ na', Match ro ({ st2 with vars := σ3, na := na' } : St).vars ρ := by
      intro na'; exact hM.same ((f4.trans (by rw [g2]; exact Same.refl _)).trans s3)
    -- the right operand, for any `noassign` count
    have right : ∀ na', na' ≠ 0 → ∃ r2 st4 vr N σ5, (∀ n, N ≤ n →
        ev m true n k { st2 with vars := σ3, na := na' } = .ok (r2, st4) ∧
        intvar m true n r2 st4 = .ok (vr, { st4 with vars := σ5 })) ∧ At false { st4 with vars := σ5 } R ∧
        st4.na = na' ∧ Same σ3 σ5 ∧ InRange vr := by
      intro na' hna'
      obtain ⟨r2, st4, vr, j1, j2, j3, j4, j5⟩ := ihb { st2 with vars := σ3, na := na' } R ρ false hna'
        ((g3.vars_irrel σ3).na_irrel na') (by simp) (hF.mono (by omega)) (hM3 na')
      have hd := j1.done (by
        intro o' ho' hb'
        have := (stop_of_follow hF j2 o' ho' hb').1
        omega)
      obtain ⟨N, σ5, h, hs⟩ := hd.value j5
      exact ⟨r2, st4, vr, N, σ5, h, j2.vars_irrel σ5, j3, j4.trans hs, j5.inRange⟩
    have hs13 : Same st.vars σ3 := (f4.trans (by rw [g2]; exact Same.refl _)).trans s3
    by_cases hland : o = .land
    · subst hland
      obtain ⟨r2, st4, vr, N, σ5, h, j2, j3, j4, j5⟩ := right (if l = 0 then st2.na + 1 else st2.na) (by split <;> omega)
      refine ⟨_, if l = 0 then { st4 with vars := σ5, na := st4.na - 1 } else { st4 with vars := σ5 }, _,
        (?_ : Form m st (k + 1) (.tmp (ofBool (l ≠ 0 ∧ vr ≠ 0)) false) _), ?_, ?_, ?_, rfl, ?_⟩
      · unfold Form
        rw [if_neg (by omega)]
        refine f1'.step ⟨max N N3, fun n hn => ?_⟩
        rw [evLoop_land hl f2.1 g (h3 n (by omega))]
        have hst : (if l = 0 then { { st2 with vars := σ3 } with na := ({ st2 with vars := σ3 } : St).na + 1 }
          else ({ st2 with vars := σ3 } : St)) = { st2 with vars := σ3, na := if l = 0 then st2.na + 1 else st2.na } := by
          split <;> rfl
        rw [hst]
        obtain ⟨e1, e2⟩ := h n (by omega)
        rw [e1]; simp only [ok_bind]
        rw [e2]; simp only [ok_bind]
      · split
        · exact j2.na_irrel _
        · exact j2
      · split <;> simp_all <;> omega
      · split <;> exact hs13.trans j4
      · unfold ofBool; split
        · exact small_inRange (Or.inr rfl)
        · exact small_inRange (Or.inl rfl)
    · by_cases hlor : o = .lor
      · subst hlor
        obtain ⟨r2, st4, vr, N, σ5, h, j2, j3, j4, j5⟩ := right (if l ≠ 0 then st2.na + 1 else st2.na) (by split <;> omega)
        refine ⟨_, if l ≠ 0 then { st4 with vars := σ5, na := st4.na - 1 } else { st4 with vars := σ5 }, _,
          (?_ : Form m st (k + 1) (.tmp (ofBool (l ≠ 0 ∨ vr ≠ 0)) false) _), ?_, ?_, ?_, rfl, ?_⟩
        · unfold Form
          rw [if_neg (by omega)]
          refine f1'.step ⟨max N N3, fun n hn => ?_⟩
          rw [evLoop_lor hl f2.1 g (h3 n (by omega))]
          have hst : (if l ≠ 0 then { { st2 with vars := σ3 } with na := ({ st2 with vars := σ3 } : St).na + 1 }
            else ({ st2 with vars := σ3 } : St)) = { st2 with vars := σ3, na := if l ≠ 0 then st2.na + 1 else st2.na } := by
            split <;> rfl
          rw [hst]
          obtain ⟨e1, e2⟩ := h n (by omega)
          rw [e1]; simp only [ok_bind]
          rw [e2]; simp only [ok_bind]
        · split
          · exact j2.na_irrel _
          · exact j2
        · split <;> simp_all <;> omega
        · split <;> exact hs13.trans j4
        · unfold ofBool; split
          · exact small_inRange (Or.inr rfl)
          · exact small_inRange (Or.inl rfl)
      · obtain ⟨r2, st4, vr, N, σ5, h, j2, j3, j4, j5⟩ := right st2.na (by omega)
        have hvr : InRange (if isDivision o = true ∧ vr = 0 then 1 else vr) := by
          split
          · exact small_inRange (Or.inr rfl)
          · exact j5
        have hba := binArith_eq m o l (if isDivision o = true ∧ vr = 0 then 1 else vr) f5.inRange
          (by intro hd; by_cases hz : vr = 0 <;> simp [hd, hz]) ⟨hland, hlor, (level_not hl).1⟩
        refine ⟨_, { st4 with vars := σ5 }, _, (?_ : Form m st (k + 1) (.tmp _ false) _), j2, by simp only; omega,
          hs13.trans j4, rfl, meaning_inRange m o l _ f5.inRange hvr⟩
        unfold Form
        rw [if_neg (by omega)]
        refine f1'.step ⟨max N N3, fun n hn => ?_⟩
        rw [evLoop_bin hl f2.1 g (h3 n (by omega)) ⟨hland, hlor⟩]
        obtain ⟨e1, e2⟩ := h n (by omega)
        have hst : ({ st2 with vars := σ3 } : St) = { st2 with vars := σ3, na := st2.na } := rfl
        rw [hst, e1]; simp only [ok_bind]
        rw [e2]; simp only [ok_bind]
        rw [if_neg (by rintro ⟨_, _, h0⟩; omega), hba]
  | @tern tc c ta a tb b hc ha hb hstrict ihc iha ihb =>
    intro st R ρ real hna hat hsafe hF hM
    simp only [List.append_assoc, List.cons_append] at hat hsafe
    obtain ⟨r1, st1, l, f1, f2, f3, f4, f5⟩ := ihc st _ ρ real hna hat hsafe (follow_tern _) hM
    have hd1 := f1.done (by
      intro o' ho' hb'
      rw [f2.1] at ho'; simp only [Tok.op.injEq] at ho'; subst ho'; decide)
    obtain ⟨st2, g, g1, g2, g3⟩ := token_step f2.2
    rw [decide_eq_false (by omega)] at g3
    obtain ⟨N3, σ3, h3, s3⟩ := intvar_reads (m := m) (st := st2) (by rw [g2]; exact f5)
    have hs13 : Same st.vars σ3 := (f4.trans (by rw [g2]; exact Same.refl _)).trans s3
    -- middle operand
    obtain ⟨r2, st4, v2, j1, j2, j3, j4, j5⟩ := iha
      { st2 with vars := σ3, na := if l = 0 then st2.na + 1 else st2.na } (.op .ctern :: (tb ++ R)) ρ false
      (by simp only; split <;> omega) ((g3.vars_irrel σ3).na_irrel _) (by simp) (follow_ctern _) (hM.same hs13)
    obtain ⟨N4, hd2⟩ := j1.done (by
      intro o' ho' hb'
      rw [j2.1] at ho'; simp only [Tok.op.injEq] at ho'; subst ho'; exact absurd hb' (by decide))
    -- the state after it
    let st5 : St := { st4 with na := if l = 0 then st4.na - 1 else st4.na }
    have hna5 : st5.na = st2.na := by simp only [st5]; split <;> simp_all
    obtain ⟨st6, k1, k2, k3, k4⟩ := token_step (st := st5) (ts := tb ++ R) j2.2
    rw [decide_eq_false (by omega)] at k4
    obtain ⟨r3, st7, v3, l1, l2, l3, l4, l5⟩ := ihb
      { st6 with na := if l ≠ 0 then st6.na + 1 else st6.na } R ρ false
      (by simp only; split <;> omega) (k4.na_irrel _) (by simp) hF
      (by show Match ro st6.vars ρ; rw [k3]; exact (hM.same hs13).same j4)
    obtain ⟨N5, hd3⟩ := l1.done (by
      intro o' ho' hb'
      have := (stop_of_follow hF l2 o' ho' hb').2.1 (by omega)
      omega)
    have hs7 : Same σ3 st7.vars := by
      refine Same.trans j4 ?_
      have : Same st6.vars st7.vars := l4
      rw [k3] at this
      exact this
    have hs4 : Same st4.vars st7.vars := by
      have : Same st6.vars st7.vars := l4
      rw [k3] at this
      exact this
    refine ⟨if l ≠ 0 then r2 else r3, { st7 with na := if l ≠ 0 then st7.na - 1 else st7.na },
      if l ≠ 0 then v2 else v3, ?_, l2.na_irrel _, ?_, hs13.trans hs7, ?_⟩
    · unfold Form
      rw [if_neg (by omega)]
      refine hd1.loopF.step ⟨max N3 (max N4 N5), fun n hn => ?_⟩
      rw [evLoop_tern f2.1 g (h3 n (by omega))]
      have hst : (if l = 0 then { { st2 with vars := σ3 } with na := ({ st2 with vars := σ3 } : St).na + 1 }
        else ({ st2 with vars := σ3 } : St)) = { st2 with vars := σ3, na := if l = 0 then st2.na + 1 else st2.na } := by
        split <;> rfl
      rw [hst, hd2 n (by omega)]
      simp only [ok_bind]
      have hst5 : (if l = 0 then { st4 with na := st4.na - 1 } else st4) = st5 := by
        simp only [st5]; split <;> rfl
      rw [hst5, if_neg (by simp only [ne_eq, Decidable.not_not]; exact j2.1), k1]
      simp only [ok_bind]
      have hst6 : (if l ≠ 0 then { st6 with na := st6.na + 1 } else st6) =
          { st6 with na := if l ≠ 0 then st6.na + 1 else st6.na } := by
        split <;> rfl
      rw [hst6, hd3 n (by omega)]
      simp only [ok_bind]
      congr 1
      split <;> rfl
    · simp only [l3]
      split <;> omega
    · split
      · exact j5.same hs4
      · exact l5
  | @asn t x te e o ho hlv he ihe =>
    intro st R ρ real hna hat hsafe hF hM
    simp only [List.append_assoc, List.cons_append] at hat hsafe
    have hat' := lv_first hlv (Or.inr ho) hat hsafe
    rw [← decide_eq_false hna] at hat'
    obtain ⟨d, N, st1, f1, f2, f3, f4⟩ := lv_eval (m := m) hlv st _ hat'
    rw [decide_eq_false hna] at f2
    have hbp := (level_facts o).2.2.1 ho
    have hinc : isIncDec o = false := by clear f2 hat hsafe hat'; cases o <;> simp [isAsnOp] at ho <;> rfl
    have hd0 : Done m st 0 (.tmp 0 true) st1 := by
      refine ⟨N + 1 + d, fun n hn => ?_⟩
      obtain ⟨n', rfl⟩ : ∃ n', n = (n' + 1) + d := ⟨n - d - 1, by omega⟩
      rw [f1 _ (by omega), if_neg hna]
      exact evPost_stop (by intro o' ho'; rw [f2.1] at ho'; simp only [Tok.op.injEq] at ho'; subst ho'; exact hinc)
    have hd11 := hd0.lift 11 (by
      intro o' ho' hb'; rw [f2.1] at ho'; simp only [Tok.op.injEq] at ho'; subst ho'; rw [hbp.2]; omega)
    obtain ⟨st2, g, g1, g2, g3⟩ := token_step f2.2
    rw [decide_eq_false (by omega)] at g3
    have hnf : st2.tok ≠ .fin := g3.not_fin he.nonempty
    have hM2 : Match ro st2.vars ρ := by rw [g2, f4]; exact hM
    obtain ⟨r2, st4, vr, j1, j2, j3, j4, j5⟩ := ihe st2 R ρ false (by omega) g3 (by simp) hF hM2
    have hd := j1.done (by
        intro o' ho' hb'
        exact (stop_of_follow hF j2 o' ho' hb').2.2)
    obtain ⟨N5, σ5, h, hs⟩ := hd.value j5
    have hck : assignCheck (some (.tmp 0 true)) st2 = .ok () := by simp [assignCheck, hnf]
    have hsame : Same st.vars σ5 := by rw [← f4, ← g2]; exact j4.trans hs
    by_cases hasn : o = .asn
    · subst hasn
      refine ⟨.tmp vr false, { st4 with vars := σ5 }, vr, ?_, j2.vars_irrel _, by simp only; omega, hsame, rfl, j5.inRange⟩
      unfold Form
      rw [if_neg (by omega)]
      refine hd11.loopF.step ⟨N5, fun n hn => ?_⟩
      rw [evLoop_asn f2.1 g hck]
      obtain ⟨e1, e2⟩ := h n (by omega)
      rw [e1]; simp only [ok_bind]
      rw [e2]; simp only [ok_bind, assignRef]
    · have hvr : InRange (if isDivision o = true ∧ vr = 0 then 1 else vr) := by
        split
        · exact small_inRange (Or.inr rfl)
        · exact j5.inRange
      have hnl : o ≠ .land ∧ o ≠ .lor ∧ o ≠ .tern := by
        clear f2 hat hsafe hat' hbp; cases o <;> simp [isAsnOp] at ho <;> simp
      have hba := binArith_eq m o 0 (if isDivision o = true ∧ vr = 0 then 1 else vr) (small_inRange (Or.inl rfl))
          (by intro hd; by_cases hz : vr = 0 <;> simp [hd, hz]) hnl
      refine ⟨.tmp _ false, { st4 with vars := σ5 }, _, ?_, j2.vars_irrel _, by simp only; omega, hsame, rfl,
        meaning_inRange m o 0 _ (small_inRange (Or.inl rfl)) hvr⟩
      unfold Form
      rw [if_neg (by omega)]
      refine hd11.loopF.step ⟨N5 + 1, fun n hn => ?_⟩
      have hiv : intvar m true n (.tmp 0 true) st2 = .ok (0, st2) := by
        obtain ⟨n', rfl⟩ : ∃ n', n = n' + 1 := ⟨n - 1, by omega⟩
        rw [intvar]
      rw [evLoop_asnop ho hasn f2.1 g hiv hck]
      obtain ⟨e1, e2⟩ := h n (by omega)
      rw [e1]; simp only [ok_bind]
      rw [e2]; simp only [ok_bind]
      rw [if_neg (by rintro ⟨_, _, h0⟩; omega), hba]
      simp only [assignRef]
  | @up k t e hk hg ih =>
    intro st R ρ real hna hat hsafe hF hM
    obtain ⟨r, st', v, f1, f2, f3⟩ := ih st R ρ real hna hat hsafe (hF.mono (by omega)) hM
    refine ⟨r, st', v, ?_, f2, f3⟩
    unfold Form
    rw [if_neg (by omega)]
    refine (f1.done ?_).loopF
    intro o ho hb
    have := (stop_of_follow hF f2 o ho hb).1
    omega

end Ksh.Expr
