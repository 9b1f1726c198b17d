import Verif.Exec.Struct

/-!
# More fuel changes nothing
-/

namespace Ksh.Exec

variable {σ : Type}

/-- `rec'` says what `rec` says, where that runs out of fuel possibly more -/
def MonoR (rec rec' : Rec σ) : Prop :=
  ∀ c e xe x d inF st, rec c e xe x d inF st = .fuel ∨ rec' c e xe x d inF st = rec c e xe x d inF st

section
variable {rec rec' : Rec σ} (h : MonoR rec rec')
include h

theorem script_mono : ∀ l x inF st, script rec l x inF st = .fuel ∨ script rec' l x inF st = script rec l x inF st
  | [], _, _, _ => .inr rfl
  | t :: ts, x, inF, st => by
    simp only [script]
    rcases h t false false false 0 inF (start st) with g | g
    · rw [g]; exact .inl rfl
    · rw [g]
      generalize Out.setX x (rec t false false false 0 inF (start st)) = o
      cases o with
      | done rv x' st' => exact script_mono ts x inF _
      | _ => exact .inr rfl

theorem com_mono (O : Oracle σ) (a e x d inF st) : com O rec a e x d inF st = .fuel ∨ com O rec' a e x d inF st = com O rec a e x d inF st := by
  simp only [com]
  generalize O.step a st.exstat st.w = y
  cases hy : y.2 with
  | func b =>
    simp only
    rcases h b e false x 0 true { st with w := y.1, log := st.log ++ [.com a] } with g | g
    · rw [g]; exact .inl rfl
    · rw [g]; exact .inr rfl
  | dot l =>
    simp only
    rcases script_mono h l x true { st with w := y.1, log := st.log ++ [.com a] } with g | g
    · rw [g]; exact .inl rfl
    · rw [g]; exact .inr rfl
  | eval l =>
    simp only
    rcases script_mono h l x inF { st with w := y.1, log := st.log ++ [.com a], ee := false, exstat := 0 } with g | g
    · rw [g]; exact .inl rfl
    · rw [g]; exact .inr rfl
  | _ => exact .inr rfl

theorem list_mono (d inF) : ∀ l last e x st, list rec d inF l last e x st = .fuel ∨ list rec' d inF l last e x st = list rec d inF l last e x st
  | [], last, e, x, st => h ..
  | c :: l, last, e, x, st => by
    simp only [list]
    rcases h c e false false d inF st with g | g
    · rw [g]; exact .inl rfl
    · rw [g]
      generalize Out.setX x (rec c e false false d inF st) = o
      cases o with
      | done rv x' st' => exact list_mono d inF l last e x st'
      | _ => exact .inr rfl

theorem loopEnd_mono {again again' : Bool → St σ → Out σ} (ha : ∀ x st, again x st = .fuel ∨ again' x st = again x st) (o : Out σ) :
    loopEnd again o = .fuel ∨ loopEnd again' o = loopEnd again o := by
  cases o with
  | cont k x st =>
    match k with
    | 0 => exact .inr rfl
    | 1 => exact ha x st
    | k + 2 => exact .inr rfl
  | brk k x st =>
    match k with
    | 0 => exact .inr rfl
    | 1 => exact .inr rfl
    | k + 2 => exact .inr rfl
  | _ => exact .inr rfl

theorem while_mono (w c b e d inF) : ∀ m m', m ≤ m' → ∀ rv x st,
    while_ rec w c b e d inF m rv x st = .fuel ∨ while_ rec' w c b e d inF m' rv x st = while_ rec w c b e d inF m rv x st
  | 0, _, _, _, _, _ => .inl rfl
  | m + 1, 0, hm, _, _, _ => by omega
  | m + 1, m' + 1, hm, rv, x, st => by
    have ih := while_mono w c b e d inF m m' (by omega)
    simp only [while_]
    rcases h c true false false (d + 1) inF st with g | g
    · rw [g]; exact .inl rfl
    · rw [g]
      generalize Out.setX x (rec c true false false (d + 1) inF st) = o
      have hl := fun o => loopEnd_mono h (fun x st => ih 0 x st) o
      cases o with
      | done s x' st' =>
        simp only
        by_cases hs : ((s == 0) == w) = true
        · rw [if_pos hs, if_pos hs]
          rcases h b e false x' (d + 1) inF st' with g2 | g2
          · rw [g2]; exact .inl rfl
          · rw [g2]
            generalize rec b e false x' (d + 1) inF st' = o2
            cases o2 with
            | done rv2 x2 st2 => exact ih ..
            | _ => exact hl _
        · rw [if_neg hs, if_neg hs]; exact .inr rfl
      | _ => exact hl _

theorem for_mono (b e d inF) : ∀ l rv sv x st,
    for_ rec b e d inF l rv sv x st = .fuel ∨ for_ rec' b e d inF l rv sv x st = for_ rec b e d inF l rv sv x st
  | [], _, _, _, _ => .inr rfl
  | f :: l, rv, sv, x, st => by
    have ih := for_mono b e d inF l
    simp only [for_]
    rcases h b e false sv (d + 1) inF { st with w := f st.w } with g2 | g2
    · rw [g2]; exact .inl rfl
    · rw [g2]
      generalize rec b e false sv (d + 1) inF { st with w := f st.w } = o2
      cases o2 with
      | done rv2 x2 st2 => exact ih ..
      | _ => exact loopEnd_mono h (fun x st => ih 0 x x st) _

theorem body_mono (O : Oracle σ) (n n' : Nat) (hn : n ≤ n') (c e xe x d inF st) :
    body O n rec c e xe x d inF st = .fuel ∨ body O n' rec' c e xe x d inF st = body O n rec c e xe x d inF st := by
  cases c with
  | nil => exact .inr rfl
  | com a => exact com_mono h O ..
  | paren c =>
    simp only [body, paren]
    split
    · exact h ..
    · rcases h c e true false 0 false { st with pend := false } with g | g
      · rw [g]; exact .inl rfl
      · rw [g]; exact .inr rfl
  | list l last => exact list_mono h ..
  | andor a l r =>
    simp only [body]
    rcases h l true false x d inF st with g | g
    · rw [g]; exact .inl rfl
    · rw [g]
      generalize rec l true false x d inF st = o
      cases o with
      | done rv x' st' =>
        simp only
        by_cases hs : ((rv == 0) == a) = true
        · rw [if_pos hs, if_pos hs]; exact h ..
        · rw [if_neg hs, if_neg hs]; exact .inr rfl
      | _ => exact .inr rfl
  | bang c =>
    simp only [body]
    rcases h c true false x d inF st with g | g
    · rw [g]; exact .inl rfl
    · rw [g]; exact .inr rfl
  | loop w c b => exact while_mono h w c b e d inF n n' hn ..
  | «for» w b => exact for_mono h ..
  | ite c t e' =>
    simp only [body]
    rcases h c true false false d inF st with g | g
    · rw [g]; exact .inl rfl
    · rw [g]
      generalize Out.setX x (rec c true false false d inF st) = o
      cases o with
      | done rv x' st' =>
        simp only
        by_cases hs : rv = 0
        · rw [if_pos hs, if_pos hs]; exact h ..
        · rw [if_neg hs, if_neg hs]; exact h ..
      | _ => exact .inr rfl
  | case w alts =>
    simp only [body]
    cases alts[(O.pick w st.w).2]? with
    | some c => exact h ..
    | none => exact .inr rfl
  | brace c => exact h ..

end

theorem run_succ (O : Oracle σ) (n) {c : Cmd} (hc : c ≠ .nil) (e xe x d inF st) :
    run O (n + 1) c e xe x d inF st = fin e xe (body O n (run O n) c e xe x d inF (start st)) := by
  cases c <;> first | exact absurd rfl hc | rfl

theorem run_mono_step (O : Oracle σ) : ∀ n, MonoR (run O n) (run O (n + 1))
  | 0 => fun _ _ _ _ _ _ _ => .inl rfl
  | n + 1 => fun c e xe x d inF st => by
    have hb := body_mono (run_mono_step O n) O n (n + 1) (by omega) c e xe x d inF (start st)
    by_cases hc : c = .nil
    · subst hc; exact .inr rfl
    · rw [run_succ O (n + 1) hc, run_succ O n hc]
      rcases hb with g | g
      · rw [g]; exact .inl rfl
      · rw [g]; exact .inr rfl

theorem run_mono (O : Oracle σ) {n m : Nat} (hnm : n ≤ m) : MonoR (run O n) (run O m) := by
  induction hnm with
  | refl => exact fun _ _ _ _ _ _ _ => .inr rfl
  | @step k _ ih =>
    intro c e xe x d inF st
    rcases ih c e xe x d inF st with g | g
    · exact .inl g
    · rcases run_mono_step O k c e xe x d inF st with g' | g'
      · exact .inl (by rw [← g]; exact g')
      · exact .inr (by rw [g', g])

/-- the command ends with `o` -/
def Ends (O : Oracle σ) (c : Cmd) (e xe x : Bool) (d : Nat) (inF : Bool) (st : St σ) (o : Out σ) : Prop :=
  o ≠ .fuel ∧ ∃ n, run O n c e xe x d inF st = o

/-- The outcome is determined. -/
theorem Ends.unique {O : Oracle σ} {c e xe x d inF st o o'} (h : Ends O c e xe x d inF st o) (h' : Ends O c e xe x d inF st o') : o = o' := by
  obtain ⟨hf, n, hn⟩ := h
  obtain ⟨hf', m, hm⟩ := h'
  rcases Nat.le_total n m with hle | hle
  · rcases run_mono O hle c e xe x d inF st with g | g
    · exact absurd (hn.symm.trans g) hf
    · rw [← hn, ← g, hm]
  · rcases run_mono O hle c e xe x d inF st with g | g
    · exact absurd (hm.symm.trans g) hf'
    · rw [← hm, ← g, hn]

end Ksh.Exec
