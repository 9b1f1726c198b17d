import Verif.Expr.Skip

/-!
# Evaluated operands: the evaluator computes the meaning
-/

namespace Ksh.Expr
open Ksh.Num

variable {m : Mach}

/-- The evaluation of an expression of level `k` from `st` has the outcome `o`, with
the tokens `R` left over. -/
def Computes (m : Mach) (ro : Name → Bool) (st : St) (k : Nat) (R : List T) : Out → Prop
  | .fail er ρ' => ∃ σ, Fails m st k er σ ∧ Match ro σ ρ'
  | .ok v ρ' => ∃ r st', Form m st k r st' ∧ At true st' R ∧ st'.na = 0 ∧ Match ro st'.vars ρ' ∧
      Reads st'.vars r v

theorem LoopF.fails {st st1 : St} {k : Nat} {r1 : Ref} {e : Err} {σ : Store} (h : LoopF m st k r1 st1)
    (hs : ∃ N, ∀ n, N ≤ n → evLoop m true (n + 1) k r1 st1 = .err e σ) : Fails m st k e σ := by
  obtain ⟨d, N, h⟩ := h
  obtain ⟨N', hs⟩ := hs
  refine ⟨max N N' + 1 + d, fun n hn => ?_⟩
  obtain ⟨n', rfl⟩ : ∃ n', n = (n' + 1) + d := ⟨n - d - 1, by omega⟩
  rw [h _ (by omega), hs _ (by omega)]

/-- No binary operator has the precedence of a primary. -/
theorem binop_prec_pos {o : Op} (h : isBinop o = true) : o.prec ≠ 0 := by
  revert h; cases o <;> decide

theorem SafeHead.of_at {tb R : List T} {k : Nat} {b : Bool} (hs : b = true → SafeHead tb) (hF : Follow k R)
    (hb : b = true) : SafeHead (tb ++ R) := (hs hb).append hF

theorem Match.reads {ro : Name → Bool} {σ : Store} {ρ : Env} (h : Match ro σ ρ) (x : Name) :
    Reads σ (.var x) (ρ x) := ⟨(h x).1, (h x).2.2.2, (h x).2.1⟩

/-- `++`/`--` on a variable -/
theorem ppmm_var {ro : Name → Bool} {st : St} {ρ : Env} {x : Name} {o : Op} {pre : Bool}
    (hM : Match ro st.vars ρ) (hf : st.tok ≠ .fin) (hro : ro x = false) :
    ∃ N σ, (∀ n, N ≤ n → ppmm m true n o (some (.var x)) pre st =
        .ok (.tmp (if pre then wrap64 (if o = .plusplus then ρ x + 1 else ρ x - 1) else wrap32 (ρ x)) false,
          { st with vars := σ })) ∧
      Match ro σ (ρ.set x (wrap64 (if o = .plusplus then ρ x + 1 else ρ x - 1))) := by
  obtain ⟨N, σ', h, hs⟩ := intvar_reads (m := m) (hM.reads x)
  refine ⟨N + 1, assignVar σ' x (wrap64 (if o = .plusplus then ρ x + 1 else ρ x - 1)), fun n hn => ?_,
    (hM.same hs).assign x _ (wrap64_inRange _)⟩
  obtain ⟨n', rfl⟩ : ∃ n', n = n' + 1 := ⟨n - 1, by omega⟩
  rw [ppmm]
  have hr : (look st.vars x).ro = false := by rw [(hM x).2.2.1, hro]
  simp only [assignCheck, hf, if_false, hr, Bool.false_eq_true, ok_bind, h n' (by omega), assignRef]

theorem ppmm_ro {ro : Name → Bool} {st : St} {ρ : Env} {x : Name} {o : Op} {pre : Bool}
    (hM : Match ro st.vars ρ) (hf : st.tok ≠ .fin) (hro : ro x = true) (n : Nat) :
    ppmm m true (n + 1) o (some (.var x)) pre st = .err .rdonly st.vars := by
  rw [ppmm]
  have hr : (look st.vars x).ro = true := by rw [(hM x).2.2.1, hro]
  simp [assignCheck, hf, hr]

theorem eval_sound {ro : Name → Bool} {k : Nat} {toks : List T} {e : E} (h : G true k toks e) :
    ∀ (st : St) (R : List T) (ρ : Env), st.na = 0 → At true st (toks ++ R) → Follow k R →
      Match ro st.vars ρ → Computes m ro st k R (den m ro wrap32 e ρ) := by
  induction h with
  | num v =>
    intro st R ρ hna hat hF hM
    obtain ⟨h1, h2, hr, h3⟩ := hat
    obtain ⟨st', e, e1, e2, e3⟩ := token_step h3
    rw [decide_eq_true hna] at e3
    exact ⟨_, st', prim_done (Or.inr h1) h2 e (post_of_follow hF e3), e3, by omega,
      by rw [e2]; exact hM, rfl, hr⟩
  | name x =>
    intro st R ρ hna hat hF hM
    obtain ⟨h1, h2, h3⟩ := hat
    obtain ⟨st', e, e1, e2, e3⟩ := token_step h3
    rw [decide_eq_true hna] at e3
    exact ⟨_, st', prim_done (Or.inl h1) h2 e (post_of_follow hF e3), e3, by omega,
      by rw [e2]; exact hM, by rw [e2]; exact hM.reads x⟩
  | @paren t e hg ih =>
    intro st R ρ hna hat hF hM
    simp only [List.cons_append, List.append_assoc, List.nil_append] at hat
    obtain ⟨h1, h2⟩ := hat
    obtain ⟨st1, e', e1, e2, e3⟩ := token_step h2
    rw [decide_eq_true hna] at e3
    have := ih st1 _ ρ (by omega) e3 (follow_cparen R) (by rw [e2]; exact hM)
    cases hden : den m ro wrap32 e ρ with
    | fail er ρ' =>
      rw [hden] at this
      obtain ⟨σ, ⟨N, f1⟩, f2⟩ := this
      refine ⟨σ, ⟨N + 1, fun n hn => ?_⟩, f2⟩
      obtain ⟨n', rfl⟩ : ∃ n', n = n' + 1 := ⟨n - 1, by omega⟩
      rw [ev]
      simp only [h1, e', ok_bind, maxPrec]
      rw [if_neg (by decide), if_pos trivial, f1 _ (by omega)]
      rfl
    | ok v ρ' =>
      rw [hden] at this
      obtain ⟨r, st2, f1, f2, f3, f4, f5⟩ := this
      have hd := f1.done (by
        intro o ho hb; rw [f2.1] at ho; simp only [Tok.op.injEq] at ho; subst ho; exact absurd hb (by decide))
      obtain ⟨st3, g, g1, g2, g3⟩ := token_step f2.2
      rw [decide_eq_true (by omega)] at g3
      exact ⟨r, st3, paren_done h1 e' hd f2.1 g (post_of_follow hF g3), g3, by omega,
        by rw [g2]; exact f4, by rw [g2]; exact f5⟩
  | @un t e o ho hg ih =>
    intro st R ρ hna hat hF hM
    obtain ⟨h1, h2⟩ := hat
    obtain ⟨st1, e', e1, e2, e3⟩ := token_step h2
    rw [decide_eq_true hna] at e3
    have := ih st1 _ ρ (by omega) e3 hF (by rw [e2]; exact hM)
    have ho' : o = .bnot ∨ o = .lnot ∨ o = .minus ∨ o = .plus := by
      clear h1; cases o <;> simp [isUnary] at ho <;> simp
    simp only [den]
    cases hden : den m ro wrap32 e ρ with
    | fail er ρ' =>
      rw [hden] at this
      obtain ⟨σ, ⟨N, f1⟩, f2⟩ := this
      refine ⟨σ, ⟨N + 1, fun n hn => ?_⟩, f2⟩
      obtain ⟨n', rfl⟩ : ∃ n', n = n' + 1 := ⟨n - 1, by omega⟩
      rw [ev]
      simp only [h1, if_pos ho', e', ok_bind]
      rw [f1 _ (by omega)]
      rfl
    | ok v ρ' =>
      rw [hden] at this
      obtain ⟨r, st2, f1, f2, f3, f4, f5⟩ := this
      obtain ⟨σ, g, gs⟩ := un_done ho h1 e' (f1.done (k := 0) (fun o' _ hb => binop_prec_pos hb)) f5
        (post_of_follow hF f2)
      exact ⟨_, _, g, f2.vars_irrel σ, f3, f4.same gs, rfl, unMeaning_inRange _ _ f5.inRange⟩
  | pre o x ho =>
    intro st R ρ hna hat hF hM
    obtain ⟨h1, h2⟩ := hat
    obtain ⟨st1, e, e1, e2, e3⟩ := token_step h2
    rw [decide_eq_true hna] at e3
    obtain ⟨g1, g2, g3⟩ := e3
    obtain ⟨st2, f, f1, f2, f3⟩ := token_step g3
    rw [decide_eq_true (by omega)] at f3
    have hnf : st1.tok ≠ .fin := by rw [g1]; simp
    have hn1 : ¬ (o = .bnot ∨ o = .lnot ∨ o = .minus ∨ o = .plus) := by
      clear h1; cases o <;> simp [isIncDec] at ho <;> simp
    have hn2 : o ≠ .oparen := by clear h1; cases o <;> simp [isIncDec] at ho <;> simp
    have hn3 : o = .plusplus ∨ o = .minusminus := by clear h1; cases o <;> simp [isIncDec] at ho <;> simp
    have hM1 : Match ro st1.vars ρ := by rw [e2]; exact hM
    simp only [den]
    cases hro : ro x with
    | true =>
      rw [if_pos rfl]
      refine ⟨st1.vars, ⟨2, fun n hn => ?_⟩, hM1⟩
      obtain ⟨n', rfl⟩ : ∃ n', n = (n' + 1) + 1 := ⟨n - 2, by omega⟩
      rw [ev]
      simp only [h1, if_neg hn1, if_neg hn2, if_pos hn3, e, ok_bind, g2, if_true]
      rw [ppmm_ro hM1 hnf hro]
      rfl
    | false =>
      rw [if_neg (by simp)]
      obtain ⟨N, σ, hpp, hMσ⟩ := ppmm_var (m := m) (o := o) (pre := true) hM1 hnf hro
      simp only [if_true] at hpp
      have f' : token true { st1 with vars := σ } = .ok { st2 with vars := σ } := by
        obtain ⟨st2', k1, k2, k3, k4⟩ := token_step (st := { st1 with vars := σ }) g3
        have : token true { st1 with vars := σ } = (token true st1).bind fun s => .ok { s with vars := σ } := by
          have hnl := f
          simp only [token] at hnl k1 ⊢
          revert hnl k1
          generalize st1.rest.dropWhile isSpace = s
          intro hnl k1
          cases s with
          | nil => rfl
          | cons c s =>
            simp only at hnl k1 ⊢
            split at hnl
            · next hc =>
              simp only [hc, if_true] at k1 ⊢
              split at hnl
              · exact absurd hnl (by simp)
              · next hb => simp [hb]
            · next hc =>
              simp only [if_neg hc] at k1 ⊢
              split at hnl
              · next hd =>
                simp only [hd, if_true] at k1 ⊢
                cases hg : getint ((c :: s).takeWhile fun c => c != '_' && (letnum c || c == '#')) true false with
                | none => rw [hg] at hnl; simp at hnl
                | some g => rfl
              · next hd =>
                simp only [if_neg hd] at k1 ⊢
                cases hg : findOp (c :: s) with
                | none => rfl
                | some g => rfl
        rw [this, f]; rfl
      refine ⟨_, { st2 with vars := σ }, (?_ : Done m st 0 (.tmp _ false) _), f3.vars_irrel σ, by simp only; omega, hMσ, rfl,
        wrap64_inRange _⟩
      refine ⟨N + 2, fun n hn => ?_⟩
      obtain ⟨n', rfl⟩ : ∃ n', n = (n' + 1) + 1 := ⟨n - 2, by omega⟩
      rw [ev]
      simp only [h1, if_neg hn1, if_neg hn2, if_pos hn3, e, ok_bind, g2, if_true]
      rw [hpp _ (by omega)]
      simp only [ok_bind, f']
      exact evPost_stop (post_of_follow hF (f3.vars_irrel σ))
  | @post t x o ho hlv =>
    intro st R ρ hna hat hF hM
    simp only [List.append_assoc, List.cons_append, List.nil_append] at hat
    rw [← decide_eq_true hna] at hat
    obtain ⟨d, N, st1, f1, f2, f3, f4⟩ := lv_eval (m := m) hlv st _ hat
    simp only [hna, if_true] at f1
    rw [decide_eq_true hna] at f2
    have hnf : st1.tok ≠ .fin := by rw [f2.1]; simp
    have hn3 : o = .plusplus ∨ o = .minusminus := by clear f2 hat; cases o <;> simp [isIncDec] at ho <;> simp
    have hM1 : Match ro st1.vars ρ := by rw [f4]; exact hM
    simp only [den]
    cases hro : ro x with
    | true =>
      rw [if_pos rfl]
      refine ⟨st1.vars, ⟨N + 2 + d, fun n hn => ?_⟩, hM1⟩
      obtain ⟨n', rfl⟩ : ∃ n', n = ((n' + 1) + 1) + d := ⟨n - d - 2, by omega⟩
      rw [f1 _ (by omega), evPost]
      rcases hn3 with rfl | rfl
      · rw [if_pos f2.1, ppmm_ro hM1 hnf hro]; rfl
      · rw [if_neg (by rw [f2.1]; simp), if_pos f2.1, ppmm_ro hM1 hnf hro]; rfl
    | false =>
      rw [if_neg (by simp)]
      obtain ⟨N2, σ, hpp, hMσ⟩ := ppmm_var (m := m) (o := o) (pre := false) hM1 hnf hro
      simp only [Bool.false_eq_true, if_false] at hpp
      obtain ⟨st2, g, g1, g2, g3⟩ := token_step (st := { st1 with vars := σ }) f2.2
      rw [decide_eq_true (by simp only; omega)] at g3
      refine ⟨_, st2, (?_ : Done m st 0 (.tmp _ false) _), g3, by simp only at g1; omega, by rw [g2]; exact hMσ, rfl,
        wrap32_inRange _⟩
      refine ⟨N + N2 + 1 + d, fun n hn => ?_⟩
      obtain ⟨n', rfl⟩ : ∃ n', n = (n' + 1) + d := ⟨n - d - 1, by omega⟩
      rw [f1 _ (by omega), evPost]
      rcases hn3 with rfl | rfl
      · rw [if_pos f2.1, hpp n' (by omega)]; simp only [ok_bind, g]
      · rw [if_neg (by rw [f2.1]; simp), if_pos f2.1, hpp n' (by omega)]; simp only [ok_bind, g]
  | @bin k ta a tb b o hl ha hb hstrict iha ihb =>
    intro st R ρ hna hat hF hM
    simp only [List.append_assoc, List.cons_append] at hat
    have A := iha st _ ρ hna hat (follow_bin hl _) hM
    simp only [den]
    cases hda : den m ro wrap32 a ρ with
    | fail er ρ1 =>
      rw [hda] at A
      try dsimp only
      exact A
    | ok l ρ1 =>
      rw [hda] at A
      try dsimp only
      obtain ⟨r1, st1, f1, f2, f3, f4, f5⟩ := A
      have f1' : LoopF m st (k + 1) r1 st1 := by simpa [Form] using f1
      obtain ⟨st2, g, g1, g2, g3⟩ := token_step f2.2
      rw [decide_eq_true f3] at g3
      obtain ⟨N3, σ3, h3, s3⟩ := intvar_reads (m := m) (st := st2) (by rw [g2]; exact f5)
      have hM3 : Match ro σ3 ρ1 := f4.same (by rw [← g2]; exact s3)
      by_cases hsk : (o = .land ∧ l = 0) ∨ (o = .lor ∧ l ≠ 0)
      · -- skipped operand
        have hsafe : SafeHead (tb ++ R) :=
          (hstrict rfl (by rcases hsk with h | h <;> simp [h.1])).append hF
        obtain ⟨r2, st4, vr, j1, j2, j3, j4, j5⟩ := skip_eval (m := m) hb { st2 with vars := σ3, na := st2.na + 1 } R ρ1 true
          (by simp) ((g3.vars_irrel σ3).na_irrel _) (fun _ => hsafe) (hF.mono (by omega)) hM3
        have hd := j1.done (by
          intro o' ho' hb'
          have := (stop_of_follow hF j2 o' ho' hb').1
          omega)
        obtain ⟨N, σ5, h, hs⟩ := hd.value j5
        rcases hsk with ⟨rfl, hl0⟩ | ⟨rfl, hl0⟩
        · rw [if_pos ⟨rfl, hl0⟩]
          refine ⟨.tmp 0 false, { st4 with vars := σ5, na := st4.na - 1 }, ?_,
            ((j2.vars_irrel σ5).na_irrel _).real_irrel hF, by simp only at j3 ⊢; omega, (hM3.same j4).same hs,
            rfl, small_inRange (Or.inl rfl)⟩
          unfold Form
          rw [if_neg (by omega)]
          refine f1'.step ⟨max N N3, fun n hn => ?_⟩
          rw [evLoop_land hl f2.1 g (h3 n (by omega))]
          obtain ⟨e1, e2⟩ := h n (by omega)
          rw [if_pos hl0, e1]; simp only [ok_bind]
          rw [e2]; simp only [ok_bind, hl0, if_true]
          simp [ofBool]
        · rw [if_neg (by simp), if_pos ⟨rfl, hl0⟩]
          refine ⟨.tmp 1 false, { st4 with vars := σ5, na := st4.na - 1 }, ?_,
            ((j2.vars_irrel σ5).na_irrel _).real_irrel hF, by simp only at j3 ⊢; omega, (hM3.same j4).same hs,
            rfl, small_inRange (Or.inr rfl)⟩
          unfold Form
          rw [if_neg (by omega)]
          refine f1'.step ⟨max N N3, fun n hn => ?_⟩
          rw [evLoop_lor hl f2.1 g (h3 n (by omega))]
          obtain ⟨e1, e2⟩ := h n (by omega)
          rw [if_pos hl0, e1]; simp only [ok_bind]
          rw [e2]; simp only [ok_bind, if_pos hl0]
          simp [ofBool, hl0]
      · have hs1 : ¬ (o = .land ∧ l = 0) := fun h => hsk (Or.inl h)
        have hs2 : ¬ (o = .lor ∧ l ≠ 0) := fun h => hsk (Or.inr h)
        rw [if_neg hs1, if_neg hs2]
        have B := ihb { st2 with vars := σ3 } R ρ1 (by simp only; omega) (g3.vars_irrel σ3) (hF.mono (by omega)) hM3
        cases hdb : den m ro wrap32 b ρ1 with
        | fail er ρ2 =>
          rw [hdb] at B
          try dsimp only
          obtain ⟨σ, ⟨N, j1⟩, j2⟩ := B
          refine ⟨σ, f1'.fails ⟨max N N3, fun n hn => ?_⟩, j2⟩
          by_cases hland : o = .land
          · subst hland
            rw [evLoop_land hl f2.1 g (h3 n (by omega)), if_neg (fun h => hs1 ⟨rfl, h⟩), j1 n (by omega)]; rfl
          · by_cases hlor : o = .lor
            · subst hlor
              rw [evLoop_lor hl f2.1 g (h3 n (by omega)), if_neg (fun h => hs2 ⟨rfl, h⟩), j1 n (by omega)]; rfl
            · rw [evLoop_bin hl f2.1 g (h3 n (by omega)) ⟨hland, hlor⟩, j1 n (by omega)]; rfl
        | ok vr ρ2 =>
          rw [hdb] at B
          try dsimp only
          obtain ⟨r2, st4, j1, j2, j3, j4, j5⟩ := B
          have hd := j1.done (by
            intro o' ho' hb'
            have := (stop_of_follow hF j2 o' ho' hb').1
            omega)
          obtain ⟨N, σ5, h, hs⟩ := hd.value j5
          have hM5 := j4.same hs
          by_cases hland : o = .land
          · subst hland
            have hl0 : l ≠ 0 := fun h => hs1 ⟨rfl, h⟩
            rw [if_pos (Or.inl rfl)]
            refine ⟨.tmp (if vr = 0 then 0 else 1) false, { st4 with vars := σ5 }, ?_, j2.vars_irrel σ5, j3, hM5, rfl, ?_⟩
            · unfold Form
              rw [if_neg (by omega)]
              refine f1'.step ⟨max N N3, fun n hn => ?_⟩
              rw [evLoop_land hl f2.1 g (h3 n (by omega))]
              obtain ⟨e1, e2⟩ := h n (by omega)
              rw [if_neg hl0, e1]; simp only [ok_bind]
              rw [e2]; simp only [ok_bind, if_neg hl0]
              congr 2
              by_cases hv : vr = 0 <;> simp [ofBool, hl0, hv]
            · split
              · exact small_inRange (Or.inl rfl)
              · exact small_inRange (Or.inr rfl)
          · by_cases hlor : o = .lor
            · subst hlor
              have hl0 : l = 0 := Classical.byContradiction fun h => hs2 ⟨rfl, h⟩
              rw [if_pos (Or.inr rfl)]
              refine ⟨.tmp (if vr = 0 then 0 else 1) false, { st4 with vars := σ5 }, ?_, j2.vars_irrel σ5, j3, hM5, rfl, ?_⟩
              · unfold Form
                rw [if_neg (by omega)]
                refine f1'.step ⟨max N N3, fun n hn => ?_⟩
                rw [evLoop_lor hl f2.1 g (h3 n (by omega))]
                obtain ⟨e1, e2⟩ := h n (by omega)
                rw [if_neg (by simp [hl0]), e1]; simp only [ok_bind]
                rw [e2]; simp only [ok_bind, hl0]
                congr 2
                by_cases hv : vr = 0 <;> simp [ofBool, hv]
              · split
                · exact small_inRange (Or.inl rfl)
                · exact small_inRange (Or.inr rfl)
            · rw [if_neg (fun h => h.elim hland hlor)]
              by_cases hz : isDivision o = true ∧ vr = 0
              · rw [if_pos hz]
                refine ⟨σ5, f1'.fails ⟨max N N3, fun n hn => ?_⟩, hM5⟩
                rw [evLoop_bin hl f2.1 g (h3 n (by omega)) ⟨hland, hlor⟩]
                obtain ⟨e1, e2⟩ := h n (by omega)
                rw [e1]; simp only [ok_bind]
                rw [e2]; simp only [ok_bind]
                rw [if_pos ⟨hz.1, hz.2, j3⟩]
              · rw [if_neg hz]
                have hba := binArith_eq m o l vr f5.inRange (fun hd h0 => hz ⟨hd, h0⟩) ⟨hland, hlor, (level_not hl).1⟩
                refine ⟨.tmp _ false, { st4 with vars := σ5 }, ?_, j2.vars_irrel σ5, j3, hM5, rfl,
                  meaning_inRange m o l vr f5.inRange j5.inRange⟩
                unfold Form
                rw [if_neg (by omega)]
                refine f1'.step ⟨max N N3, fun n hn => ?_⟩
                rw [evLoop_bin hl f2.1 g (h3 n (by omega)) ⟨hland, hlor⟩]
                obtain ⟨e1, e2⟩ := h n (by omega)
                rw [e1]; simp only [ok_bind]
                rw [e2]; simp only [ok_bind]
                rw [if_neg (fun h => hz ⟨h.1, h.2.1⟩), if_neg hz, hba]
  | @tern tc c ta a tb b hc ha hb hstrict ihc iha ihb =>
    intro st R ρ hna hat hF hM
    simp only [List.append_assoc, List.cons_append] at hat
    have C := ihc st _ ρ hna hat (follow_tern _) hM
    simp only [den]
    cases hdc : den m ro wrap32 c ρ with
    | fail er ρ1 =>
      rw [hdc] at C
      try dsimp only
      obtain ⟨σ, j1, j2⟩ := C
      exact ⟨σ, j1.up, j2⟩
    | ok l ρ1 =>
      rw [hdc] at C
      try dsimp only
      obtain ⟨r1, st1, f1, f2, f3, f4, f5⟩ := C
      have hd1 := f1.done (by
        intro o' ho' hb'
        rw [f2.1] at ho'; simp only [Tok.op.injEq] at ho'; subst ho'; decide)
      obtain ⟨st2, g, g1, g2, g3⟩ := token_step f2.2
      rw [decide_eq_true f3] at g3
      obtain ⟨N3, σ3, h3, s3⟩ := intvar_reads (m := m) (st := st2) (by rw [g2]; exact f5)
      have hM3 : Match ro σ3 ρ1 := f4.same (by rw [← g2]; exact s3)
      by_cases hl0 : l = 0
      · -- skip the middle operand
        rw [if_neg (by simp [hl0])]
        obtain ⟨r2, st4, v2, j1, j2, j3, j4, j5⟩ := skip_eval (m := m) ha { st2 with vars := σ3, na := st2.na + 1 }
          (.op .ctern :: (tb ++ R)) ρ1 true (by simp) ((g3.vars_irrel σ3).na_irrel _)
          (fun _ => (hstrict rfl).1.append (follow_ctern (tb ++ R))) (follow_ctern _) hM3
        obtain ⟨N4, hd2⟩ := j1.done (by
          intro o' ho' hb'
          rw [j2.1] at ho'; simp only [Tok.op.injEq] at ho'; subst ho'; exact absurd hb' (by decide))
        obtain ⟨st6, k1, k2, k3, k4⟩ := token_step (st := { st4 with na := st4.na - 1 }) (ts := tb ++ R) j2.2
        simp only at j3 k2
        rw [decide_eq_true (by simp only; omega)] at k4
        have hM6 : Match ro st6.vars ρ1 := by rw [k3]; exact hM3.same j4
        have B := ihb st6 R ρ1 (by omega) k4 hF hM6
        cases hdb : den m ro wrap32 b ρ1 with
        | fail er ρ2 =>
          rw [hdb] at B
          try dsimp only
          obtain ⟨σ, ⟨N5, l1⟩, l2⟩ := B
          refine ⟨σ, hd1.loopF.fails ⟨max N3 (max N4 N5), fun n hn => ?_⟩, l2⟩
          rw [evLoop_tern f2.1 g (h3 n (by omega)), if_pos hl0, hd2 n (by omega)]
          simp only [ok_bind, if_pos hl0]
          rw [if_neg (fun h => h j2.1), k1]
          simp only [ok_bind]
          rw [if_neg (by simp [hl0]), l1 n (by omega)]
          rfl
        | ok v ρ2 =>
          rw [hdb] at B
          try dsimp only
          obtain ⟨r3, st7, l1, l2, l3, l4, l5⟩ := B
          obtain ⟨N5, hd3⟩ := l1.done (by
            intro o' ho' hb'
            have := (stop_of_follow hF l2 o' ho' hb').2.1 (by omega)
            omega)
          refine ⟨r3, st7, ?_, l2, l3, l4, l5⟩
          unfold Form
          rw [if_neg (by omega)]
          refine hd1.loopF.step ⟨max N3 (max N4 N5), fun n hn => ?_⟩
          rw [evLoop_tern f2.1 g (h3 n (by omega)), if_pos hl0, hd2 n (by omega)]
          simp only [ok_bind, if_pos hl0]
          rw [if_neg (fun h => h j2.1), k1]
          simp only [ok_bind]
          rw [if_neg (by simp [hl0]), hd3 n (by omega)]
          simp only [ok_bind, hl0, ne_eq, not_true, if_false]
      · rw [if_pos hl0]
        have A := iha { st2 with vars := σ3 } (.op .ctern :: (tb ++ R)) ρ1 (by simp only; omega) (g3.vars_irrel σ3)
          (follow_ctern _) hM3
        cases hda : den m ro wrap32 a ρ1 with
        | fail er ρ2 =>
          rw [hda] at A
          try dsimp only
          obtain ⟨σ, ⟨N5, l1⟩, l2⟩ := A
          refine ⟨σ, hd1.loopF.fails ⟨max N3 N5, fun n hn => ?_⟩, l2⟩
          rw [evLoop_tern f2.1 g (h3 n (by omega)), if_neg hl0, l1 n (by omega)]
          rfl
        | ok v ρ2 =>
          rw [hda] at A
          try dsimp only
          obtain ⟨r2, st4, j1, j2, j3, j4, j5⟩ := A
          obtain ⟨N4, hd2⟩ := j1.done (by
            intro o' ho' hb'
            rw [j2.1] at ho'; simp only [Tok.op.injEq] at ho'; subst ho'; exact absurd hb' (by decide))
          obtain ⟨st6, k1, k2, k3, k4⟩ := token_step (st := st4) (ts := tb ++ R) j2.2
          rw [decide_eq_true j3] at k4
          have hM6 : Match ro st6.vars ρ2 := by rw [k3]; exact j4
          obtain ⟨r3, st7, v3, l1, l2, l3, l4, l5⟩ := skip_eval (m := m) hb
            { st6 with na := st6.na + 1 } R ρ2 true (by simp) (k4.na_irrel _)
            (fun _ => (hstrict rfl).2.append hF) hF hM6
          obtain ⟨N5, hd3⟩ := l1.done (by
            intro o' ho' hb'
            have := (stop_of_follow hF l2 o' ho' hb').2.1 (by omega)
            omega)
          have hs4 : Same st4.vars st7.vars := by
            have : Same st6.vars st7.vars := l4
            rw [k3] at this
            exact this
          simp only at l3
          refine ⟨r2, { st7 with na := st7.na - 1 }, ?_, (l2.na_irrel _).real_irrel hF, by simp only; omega,
            j4.same hs4, j5.same hs4⟩
          unfold Form
          rw [if_neg (by omega)]
          refine hd1.loopF.step ⟨max N3 (max N4 N5), fun n hn => ?_⟩
          rw [evLoop_tern f2.1 g (h3 n (by omega)), if_neg hl0, hd2 n (by omega)]
          simp only [ok_bind, if_neg hl0, j2.1, ne_eq, not_true, if_false, k1]
          rw [if_pos hl0, hd3 n (by omega)]
          simp only [ok_bind, hl0, not_false_eq_true, if_true]
  | @asn t x te e o ho hlv he ihe =>
    intro st R ρ hna hat hF hM
    simp only [List.append_assoc, List.cons_append] at hat
    rw [← decide_eq_true hna] at hat
    obtain ⟨d, N, st1, f1, f2, f3, f4⟩ := lv_eval (m := m) hlv st _ hat
    simp only [hna, if_true] at f1
    rw [decide_eq_true hna] at f2
    have hbp := (level_facts o).2.2.1 ho
    have hinc : isIncDec o = false := by clear f2 hat; cases o <;> simp [isAsnOp] at ho <;> rfl
    have hd0 : Done m st 0 (.var x) st1 := by
      refine ⟨N + 1 + d, fun n hn => ?_⟩
      obtain ⟨n', rfl⟩ : ∃ n', n = (n' + 1) + d := ⟨n - d - 1, by omega⟩
      rw [f1 _ (by omega)]
      exact evPost_stop (by intro o' ho'; rw [f2.1] at ho'; simp only [Tok.op.injEq] at ho'; subst ho'; exact hinc)
    have hd11 := hd0.lift 11 (by
      intro o' ho' hb'; rw [f2.1] at ho'; simp only [Tok.op.injEq] at ho'; subst ho'; rw [hbp.2]; omega)
    obtain ⟨st2, g, g1, g2, g3⟩ := token_step f2.2
    rw [decide_eq_true (by omega)] at g3
    have hnf : st2.tok ≠ .fin := g3.not_fin he.nonempty
    have hM2 : Match ro st2.vars ρ := by rw [g2, f4]; exact hM
    obtain ⟨N3, σ3, h3, s3⟩ := intvar_reads (m := m) (st := st2) (hM2.reads x)
    have hM3 : Match ro σ3 ρ := hM2.same s3
    simp only [den]
    cases hro : ro x with
    | true =>
      rw [if_pos rfl]
      by_cases hasn : o = .asn
      · subst hasn
        refine ⟨st2.vars, hd11.loopF.fails ⟨0, fun n hn => ?_⟩, hM2⟩
        rw [evLoop]
        have hck : assignCheck (some (.var x)) st2 = .err .rdonly st2.vars := by
          simp [assignCheck, hnf, (hM2 x).2.2.1, hro]
        have hbb : (isBinop .asn && Op.asn.prec == 12) = true := by decide
        simp only [f2.1, Nat.zero_add, hbb, if_true, g, ok_bind, hck, err_bind]
      · refine ⟨σ3, hd11.loopF.fails ⟨N3, fun n hn => ?_⟩, hM3⟩
        rw [evLoop]
        have hck : assignCheck (some (.var x)) { st2 with vars := σ3 } = .err .rdonly σ3 := by
          simp [assignCheck, hnf, (hM3 x).2.2.1, hro]
        have hbb : (isBinop o && o.prec == 12) = true := by simp [hbp]
        have has : isAssign o = true := by rw [← (level_facts o).2.1]; exact ho
        simp only [f2.1, Nat.zero_add, hbb, if_true, g, ok_bind, if_neg hasn, h3 n hn, has, hck, err_bind]
    | false =>
      rw [if_neg (by simp)]
      have hck : ∀ σ, Match ro σ ρ → assignCheck (some (.var x)) { st2 with vars := σ } = .ok () := by
        intro σ hσ
        simp [assignCheck, hnf, (hσ x).2.2.1, hro]
      by_cases hasn : o = .asn
      · subst hasn
        have D := ihe st2 R ρ (by omega) g3 hF hM2
        cases hde : den m ro wrap32 e ρ with
        | fail er ρ2 =>
          rw [hde] at D
          try dsimp only
          obtain ⟨σ, ⟨N5, l1⟩, l2⟩ := D
          refine ⟨σ, hd11.loopF.fails ⟨N5, fun n hn => ?_⟩, l2⟩
          rw [evLoop_asn f2.1 g (hck _ hM2), l1 n hn]
          rfl
        | ok v ρ2 =>
          rw [hde] at D
          try dsimp only
          obtain ⟨r2, st4, j1, j2, j3, j4, j5⟩ := D
          have hd := j1.done (fun o' ho' hb' => (stop_of_follow hF j2 o' ho' hb').2.2)
          obtain ⟨N5, σ5, h, hs⟩ := hd.value j5
          rw [if_neg (by simp [isDivision])]
          refine ⟨.tmp v false, { st4 with vars := assignVar σ5 x v }, ?_, j2.vars_irrel _, j3,
            (j4.same hs).assign x v j5.inRange, rfl, j5.inRange⟩
          unfold Form
          rw [if_neg (by omega)]
          refine hd11.loopF.step ⟨N5, fun n hn => ?_⟩
          rw [evLoop_asn f2.1 g (hck _ hM2)]
          obtain ⟨e1, e2⟩ := h n (by omega)
          rw [e1]; simp only [ok_bind]
          rw [e2]; simp only [ok_bind, assignRef]
      · have D := ihe { st2 with vars := σ3 } R ρ (by simp only; omega) (g3.vars_irrel σ3) hF hM3
        cases hde : den m ro wrap32 e ρ with
        | fail er ρ2 =>
          rw [hde] at D
          try dsimp only
          obtain ⟨σ, ⟨N5, l1⟩, l2⟩ := D
          refine ⟨σ, hd11.loopF.fails ⟨max N3 N5, fun n hn => ?_⟩, l2⟩
          rw [evLoop_asnop ho hasn f2.1 g (h3 n (by omega)) (hck _ hM3), l1 n (by omega)]
          rfl
        | ok v ρ2 =>
          rw [hde] at D
          try dsimp only
          obtain ⟨r2, st4, j1, j2, j3, j4, j5⟩ := D
          have hd := j1.done (fun o' ho' hb' => (stop_of_follow hF j2 o' ho' hb').2.2)
          obtain ⟨N5, σ5, h, hs⟩ := hd.value j5
          have hM5 := j4.same hs
          have hnl : o ≠ .land ∧ o ≠ .lor ∧ o ≠ .tern := by
            clear f2 hat hbp; cases o <;> simp [isAsnOp] at ho <;> simp
          by_cases hz : isDivision o = true ∧ v = 0
          · simp only [if_pos hz]
            refine ⟨σ5, hd11.loopF.fails ⟨max N3 N5, fun n hn => ?_⟩, hM5⟩
            rw [evLoop_asnop ho hasn f2.1 g (h3 n (by omega)) (hck _ hM3)]
            obtain ⟨e1, e2⟩ := h n (by omega)
            rw [e1]; simp only [ok_bind]
            rw [e2]; simp only [ok_bind]
            rw [if_pos ⟨hz.1, hz.2, j3⟩]
          · simp only [if_neg hz]
            have hba := binArith_eq m o (ρ x) v (hM x).2.1 (fun hd h0 => hz ⟨hd, h0⟩) hnl
            have hir := meaning_inRange m o (ρ x) v (hM x).2.1 j5.inRange
            refine ⟨.tmp _ false, { st4 with vars := assignVar σ5 x (meaning m o (ρ x) v) }, ?_, j2.vars_irrel _, j3,
              hM5.assign x _ hir, rfl, hir⟩
            unfold Form
            rw [if_neg (by omega)]
            refine hd11.loopF.step ⟨max N3 N5, fun n hn => ?_⟩
            rw [evLoop_asnop ho hasn f2.1 g (h3 n (by omega)) (hck _ hM3)]
            obtain ⟨e1, e2⟩ := h n (by omega)
            rw [e1]; simp only [ok_bind]
            rw [e2]; simp only [ok_bind]
            rw [if_neg (fun h => hz ⟨h.1, h.2.1⟩), if_neg hz, hba]
            simp only [assignRef]
  | @up k t e hk hg ih =>
    intro st R ρ hna hat hF hM
    have := ih st R ρ hna hat (hF.mono (by omega)) hM
    cases hden : den m ro wrap32 e ρ with
    | fail er ρ' =>
      rw [hden] at this
      obtain ⟨σ, j1, j2⟩ := this
      exact ⟨σ, j1.up, j2⟩
    | ok v ρ' =>
      rw [hden] at this
      obtain ⟨r, st', f1, f2, f3⟩ := this
      refine ⟨r, st', ?_, f2, f3⟩
      unfold Form
      rw [if_neg (by omega)]
      refine (f1.done ?_).loopF
      intro o ho hb
      have := (stop_of_follow hF f2 o ho hb).1
      omega

/-- Whole evaluation. -/
theorem vEval_sound {ro : Name → Bool} {text : List Char} {toks : List T} {e : E} {σ : Store} {ρ : Env}
    (hl : Lexes text toks) (hg : G true 13 toks e) (hM : Match ro σ ρ) :
    ∃ N, ∀ n, N ≤ n →
      match den m ro wrap32 e ρ with
      | .ok v ρ' => ∃ σ', vEval m true n text σ = .ok (v, σ') ∧ Match ro σ' ρ'
      | .fail er ρ' => ∃ σ', vEval m true n text σ = .err er σ' ∧ Match ro σ' ρ' := by
  obtain ⟨st, h1, h2, h3, h4⟩ := token_step
    (st := { rest := text, tok := .bad, val := none, na := 0, vars := σ }) hl
  rw [decide_eq_true rfl] at h4
  simp only at h2 h3
  have h4' : At true st (toks ++ []) := by rw [List.append_nil]; exact h4
  have hnf := h4'.not_fin hg.nonempty
  have := eval_sound (m := m) hg st [] ρ h2 h4' (Or.inl rfl) (by rw [h3]; exact hM)
  cases hden : den m ro wrap32 e ρ with
  | fail er ρ' =>
    rw [hden] at this
    obtain ⟨σ', ⟨N, j1⟩, j2⟩ := this
    refine ⟨N + 1, fun n hn => ⟨σ', ?_, j2⟩⟩
    obtain ⟨n', rfl⟩ : ∃ n', n = n' + 1 := ⟨n - 1, by omega⟩
    rw [vEval, h1]
    simp only [ok_bind, if_neg hnf, maxPrec]
    rw [j1 n' (by omega)]
    rfl
  | ok v ρ' =>
    rw [hden] at this
    obtain ⟨r, st', j1, j2, j3, j4, j5⟩ := this
    have hfin : st'.tok = .fin := j2
    have hd := j1.done (by intro o ho; rw [hfin] at ho; simp at ho)
    obtain ⟨N, σ5, h, hs⟩ := hd.value j5
    refine ⟨N + 1, fun n hn => ⟨σ5, ?_, j4.same hs⟩⟩
    obtain ⟨n', rfl⟩ : ∃ n', n = n' + 1 := ⟨n - 1, by omega⟩
    obtain ⟨e1, e2⟩ := h n' (by omega)
    rw [vEval, h1]
    simp only [ok_bind, if_neg hnf, maxPrec]
    rw [e1]; simp only [ok_bind]
    rw [e2]; simp only [ok_bind, hfin, ne_eq, not_true, if_false]

end Ksh.Expr
