import Verif.Exprmem.Model
import Verif.Expr.Lemmas

/-!
# The memory arithmetic expressions are read from: proofs
-/
namespace Ksh.Exprmem
open Ksh.Num Ksh.Expr

/-! ## Nothing but the memory is different from `Ksh.Expr` -/

/-- Unless freed memory is read, the outcome is the one of the evaluation on values. -/
def Sim {α β : Type} (f : α → β) : R α → Res β → Prop
  | .ok a, r => r = .ok (f a)
  | .err e σ, r => r = .err e σ
  | .stuck k, r => r = .stuck k
  | .uaf, _ => True

theorem Sim.bind {α β γ δ : Type} {f : α → β} {g : γ → δ} {a : R α} {b : Res β} {F : α → R γ}
    {G : β → Res δ} (h : Sim f a b) (h' : ∀ x, Sim g (F x) (G (f x))) : Sim g (a.bind F) (b.bind G) := by
  cases a with
  | ok a => cases h; exact h' a
  | err e σ => cases h; rfl
  | stuck k => cases h; rfl
  | uaf => trivial

abbrev er {α : Type} (p : α × M) : α × St := (p.1, p.2.st)
abbrev er3 (p : Int × Store × List Name) : Int × Store := (p.1, p.2.1)

theorem sim_fail {α β : Type} (f : α → β) (s : M) (e : Err) : Sim f (fail s e) (.err e s.st.vars) := by
  unfold fail
  split
  · trivial
  · rfl

theorem sim_token (ar : Bool) (s : M) : Sim M.st (token ar s) (Expr.token ar s.st) := by
  unfold token
  split
  · trivial
  · cases h : Expr.token ar s.st <;> rfl

theorem assignCheck_err {v : Option Ref} {st : St} {e : Err} {σ : Store}
    (h : Expr.assignCheck v st = .err e σ) : σ = st.vars := by
  unfold Expr.assignCheck at h
  split at h
  · cases h; rfl
  · split at h
    · cases h; rfl
    · split at h
      · cases h
      · cases h; rfl
    · split at h
      · cases h; rfl
      · cases h

theorem sim_assignCheck (v : Option Ref) (s : M) :
    Sim id (assignCheck v s) (Expr.assignCheck v s.st) := by
  unfold assignCheck
  cases h : Expr.assignCheck v s.st with
  | ok a => rfl
  | err e σ =>
    have := assignCheck_err h
    subst this
    exact sim_fail _ s e
  | stuck k => rfl

theorem assignRef_st (s : M) (r : Ref) (v : Int) : (assignRef s r v).st = Expr.assignRef s.st r v := by
  cases r <;> rfl

theorem na1_st (s : M) (b : Bool) : (s.na1 b).st = if b then { s.st with na := s.st.na + 1 } else s.st := by
  cases b <;> rfl

theorem na0_st (s : M) (b : Bool) : (s.na0 b).st = if b then { s.st with na := s.st.na - 1 } else s.st := by
  cases b <;> rfl

structure Erase (m : Mach) (ar : Bool) (n : Nat) : Prop where
  ev : ∀ p s, Sim er (ev m ar n p s) (Expr.ev m ar n p s.st)
  post : ∀ r s, Sim er (evPost m ar n r s) (Expr.evPost m ar n r s.st)
  loop : ∀ p r s, Sim er (evLoop m ar n p r s) (Expr.evLoop m ar n p r s.st)
  ppmm : ∀ o v b s, Sim er (ppmm m ar n o v b s) (Expr.ppmm m ar n o v b s.st)
  intvar : ∀ r s, Sim er (intvar m ar n r s) (Expr.intvar m ar n r s.st)
  vEval : ∀ t src σ d, Sim er3 (vEval m ar n t src σ d) (Expr.vEval m ar n t σ)

theorem erase_ev {m : Mach} {ar : Bool} {n : Nat} (ih : Erase m ar n) (p : Nat) (s : M) :
    Sim er (Exprmem.ev m ar (n + 1) p s) (Expr.ev m ar (n + 1) p s.st) := by
  cases p with
  | zero =>
    unfold Exprmem.ev Expr.ev
    cases h : s.st.tok with
    | op o =>
      simp only
      by_cases h1 : o = .bnot ∨ o = .lnot ∨ o = .minus ∨ o = .plus
      · rw [if_pos h1, if_pos h1]
        exact (sim_token ar s).bind fun s => (ih.ev 0 s).bind fun x =>
          (ih.intvar x.1 x.2).bind fun y => ih.post _ y.2
      rw [if_neg h1, if_neg h1]
      by_cases h2 : o = .oparen
      · rw [if_pos h2, if_pos h2]
        refine (sim_token ar s).bind fun s => (ih.ev maxPrec s).bind fun x => ?_
        simp only [er]
        split
        · exact sim_fail _ x.2 _
        · exact (sim_token ar x.2).bind fun s => ih.post _ s
      rw [if_neg h2, if_neg h2]
      by_cases h3 : o = .plusplus ∨ o = .minusminus
      · rw [if_pos h3, if_pos h3]
        exact (sim_token ar s).bind fun s => (ih.ppmm o s.st.val true s).bind fun x =>
          (sim_token ar x.2).bind fun s => ih.post _ s
      rw [if_neg h3, if_neg h3]
      exact sim_fail _ s _
    | var =>
      simp only
      cases s.st.val with
      | none => rfl
      | some r => exact (sim_token ar s).bind fun s => ih.post _ s
    | lit =>
      simp only
      cases s.st.val with
      | none => rfl
      | some r => exact (sim_token ar s).bind fun s => ih.post _ s
    | fin => exact sim_fail _ s _
    | bad => exact sim_fail _ s _
  | succ p =>
    unfold Exprmem.ev Expr.ev
    exact (ih.ev p s).bind fun x => ih.loop _ _ x.2

theorem erase_post {m : Mach} {ar : Bool} {n : Nat} (ih : Erase m ar n) (r : Ref) (s : M) :
    Sim er (Exprmem.evPost m ar (n + 1) r s) (Expr.evPost m ar (n + 1) r s.st) := by
  unfold Exprmem.evPost Expr.evPost
  split
  · exact (ih.ppmm _ _ _ s).bind fun x => (sim_token ar x.2).bind fun s => rfl
  · split
    · exact (ih.ppmm _ _ _ s).bind fun x => (sim_token ar x.2).bind fun s => rfl
    · rfl

theorem erase_loop {m : Mach} {ar : Bool} {n : Nat} (ih : Erase m ar n) (p : Nat) (r : Ref) (s : M) :
    Sim er (Exprmem.evLoop m ar (n + 1) p r s) (Expr.evLoop m ar (n + 1) p r s.st) := by
  unfold Exprmem.evLoop Expr.evLoop
  cases h : s.st.tok with
  | op op =>
    simp only
    by_cases h0 : (isBinop op && op.prec == p) = true
    · rw [if_pos h0, if_pos h0]
      refine (sim_token ar s).bind fun s => ?_
      by_cases h1 : op = .asn
      · rw [if_pos h1, if_pos h1]
        refine (sim_assignCheck _ s).bind fun _ => (ih.ev pAssign s).bind fun x =>
          (ih.intvar x.1 x.2).bind fun y => ?_
        simp only [er, ← assignRef_st]
        exact ih.loop _ _ _
      rw [if_neg h1, if_neg h1]
      refine (ih.intvar r s).bind fun l => ?_
      simp only [er]
      by_cases h2 : isAssign op = true
      · rw [if_pos h2, if_pos h2]
        refine (sim_assignCheck _ l.2).bind fun _ => (ih.ev pAssign l.2).bind fun x =>
          (ih.intvar x.1 x.2).bind fun y => ?_
        simp only [er]
        by_cases h3 : isDivOp op = true ∧ y.1 = 0 ∧ y.2.st.na = 0
        · rw [if_pos h3, if_pos h3]
          exact sim_fail _ y.2 _
        rw [if_neg h3, if_neg h3]
        cases binArith m op l.1 (if isDivOp op = true ∧ y.1 = 0 then 1 else y.1) with
        | none => rfl
        | some res =>
          simp only [← assignRef_st]
          exact ih.loop _ _ _
      rw [if_neg h2, if_neg h2]
      by_cases h3 : op = .land
      · rw [if_pos h3, if_pos h3]
        have e := ih.ev (p - 1) (l.2.na1 (l.1 = 0))
        rw [na1_st] at e
        simp only [decide_eq_true_eq] at e
        refine e.bind fun x => (ih.intvar x.1 x.2).bind fun y => ?_
        have e := ih.loop p (.tmp (ofBool (l.1 ≠ 0 ∧ y.1 ≠ 0)) false) (y.2.na0 (l.1 = 0))
        rw [na0_st] at e
        simp only [decide_eq_true_eq] at e
        exact e
      rw [if_neg h3, if_neg h3]
      by_cases h4 : op = .lor
      · rw [if_pos h4, if_pos h4]
        have e := ih.ev (p - 1) (l.2.na1 (l.1 ≠ 0))
        rw [na1_st] at e
        simp only [decide_eq_true_eq] at e
        refine e.bind fun x => (ih.intvar x.1 x.2).bind fun y => ?_
        have e := ih.loop p (.tmp (ofBool (l.1 ≠ 0 ∨ y.1 ≠ 0)) false) (y.2.na0 (l.1 ≠ 0))
        rw [na0_st] at e
        simp only [decide_eq_true_eq] at e
        exact e
      rw [if_neg h4, if_neg h4]
      by_cases h5 : op = .tern
      · rw [if_pos h5, if_pos h5]
        have e := ih.ev maxPrec (l.2.na1 (l.1 = 0))
        rw [na1_st] at e
        simp only [decide_eq_true_eq] at e
        refine e.bind fun x => ?_
        simp only [er]
        have e0 : (if l.1 = 0 then { x.2.st with na := x.2.st.na - 1 } else x.2.st) =
            (x.2.na0 (l.1 = 0)).st := by
          rw [na0_st]
          simp only [decide_eq_true_eq]
        rw [e0]
        split
        · exact sim_fail _ _ _
        · refine (sim_token ar _).bind fun s => ?_
          have e := ih.ev pTern (s.na1 (l.1 ≠ 0))
          rw [na1_st] at e
          simp only [decide_eq_true_eq] at e
          refine e.bind fun y => ?_
          have e := ih.loop p (if l.1 ≠ 0 then x.1 else y.1) (y.2.na0 (l.1 ≠ 0))
          rw [na0_st] at e
          simp only [decide_eq_true_eq] at e
          exact e
      rw [if_neg h5, if_neg h5]
      refine (ih.ev (p - 1) l.2).bind fun x => (ih.intvar x.1 x.2).bind fun y => ?_
      simp only [er]
      by_cases h6 : isDivOp op = true ∧ y.1 = 0 ∧ y.2.st.na = 0
      · rw [if_pos h6, if_pos h6]
        exact sim_fail _ y.2 _
      rw [if_neg h6, if_neg h6]
      cases binArith m op l.1 (if isDivOp op = true ∧ y.1 = 0 then 1 else y.1) with
      | none => rfl
      | some res => exact ih.loop _ _ _
    · rw [if_neg h0, if_neg h0]
      rfl
  | var => rfl
  | lit => rfl
  | fin => rfl
  | bad => rfl

theorem erase_ppmm {m : Mach} {ar : Bool} {n : Nat} (ih : Erase m ar n) (o : Op) (v : Option Ref)
    (b : Bool) (s : M) :
    Sim er (Exprmem.ppmm m ar (n + 1) o v b s) (Expr.ppmm m ar (n + 1) o v b s.st) := by
  unfold Exprmem.ppmm Expr.ppmm
  refine (sim_assignCheck v s).bind fun _ => ?_
  cases v with
  | none => rfl
  | some r =>
    refine (ih.intvar r s).bind fun x => ?_
    simp only [er, Sim, assignRef_st]

theorem erase_intvar {m : Mach} {ar : Bool} {n : Nat} (ih : Erase m ar n) (r : Ref) (s : M) :
    Sim er (Exprmem.intvar m ar (n + 1) r s) (Expr.intvar m ar (n + 1) r s.st) := by
  unfold Exprmem.intvar Expr.intvar
  cases r with
  | tmp v lv => rfl
  | var x =>
    have e := ih.vEval (textOf (look s.st.vars x)) (some x) (setEval s.st.vars x true) s.dead
    show Sim er (match num ar (look s.st.vars x) with
      | some v => R.ok (v, s)
      | none => _) (match num ar (look s.st.vars x) with
      | some v => Res.ok (v, s.st)
      | none => if (look s.st.vars x).inEval then .err .recursive s.st.vars
        else match Expr.vEval m ar n (textOf (look s.st.vars x)) (setEval s.st.vars x true) with
          | .ok (v, σ) => .ok (v, { s.st with vars := setEval σ x false })
          | .err e σ => .err e (setEval σ x false)
          | .stuck k => .stuck k)
    cases num ar (look s.st.vars x) with
    | some v => rfl
    | none =>
      simp only
      split
      · exact sim_fail _ s _
      · cases h : Exprmem.vEval m ar n (textOf (look s.st.vars x)) (some x) (setEval s.st.vars x true)
          s.dead with
        | ok a => rw [h] at e; simp only [Sim] at e; rw [e]; rfl
        | err e' σ => rw [h] at e; simp only [Sim] at e; rw [e]; rfl
        | stuck k => rw [h] at e; simp only [Sim] at e; rw [e]; rfl
        | uaf => trivial

theorem erase_vEval {m : Mach} {ar : Bool} {n : Nat} (ih : Erase m ar n) (t : List Char)
    (src : Option Name) (σ : Store) (d : List Name) :
    Sim er3 (Exprmem.vEval m ar (n + 1) t src σ d) (Expr.vEval m ar (n + 1) t σ) := by
  unfold Exprmem.vEval Expr.vEval
  refine (sim_token ar _).bind fun s => ?_
  have e0 : (if s.st.tok = .fin then { s.st with tok := .lit, val := some (.tmp 0 false) } else s.st) =
      (if s.st.tok = .fin then { s with st := { s.st with tok := .lit, val := some (.tmp 0 false) } }
        else s).st := by
    split <;> rfl
  simp only
  rw [e0]
  refine (ih.ev maxPrec _).bind fun x => (ih.intvar x.1 x.2).bind fun y => ?_
  simp only [er]
  split
  · exact sim_fail _ y.2 _
  · rfl

theorem erase (m : Mach) (ar : Bool) : ∀ n, Erase m ar n
  | 0 => by
    refine ⟨fun p s => ?_, fun r s => ?_, fun p r s => ?_, fun o v b s => ?_, fun r s => ?_,
      fun t src σ d => ?_⟩
    · unfold Exprmem.ev Expr.ev; rfl
    · unfold Exprmem.evPost Expr.evPost; rfl
    · unfold Exprmem.evLoop Expr.evLoop; rfl
    · unfold Exprmem.ppmm Expr.ppmm; rfl
    · unfold Exprmem.intvar Expr.intvar; rfl
    · unfold Exprmem.vEval Expr.vEval; rfl
  | n + 1 =>
    have ih := erase m ar n
    ⟨erase_ev ih, erase_post ih, erase_loop ih, erase_ppmm ih, erase_intvar ih, erase_vEval ih⟩

/-! ## Freed memory is not read -/

def Post {α : Type} (P : α → Prop) : R α → Prop
  | .ok a => P a
  | .uaf => False
  | _ => True

theorem Post.bind {α β : Type} {P : α → Prop} {Q : β → Prop} {a : R α} {F : α → R β}
    (h : Post P a) (h' : ∀ x, P x → Post Q (F x)) : Post Q (a.bind F) := by
  cases a with
  | ok a => exact h' a h
  | err e σ => trivial
  | stuck k => trivial
  | uaf => exact h

theorem Post.mono {α : Type} {P Q : α → Prop} {a : R α} (h : Post P a) (h' : ∀ x, P x → Q x) :
    Post Q a := by
  cases a with
  | ok a => exact h' a h
  | err e σ => trivial
  | stuck k => trivial
  | uaf => exact h

/-- The first `n` tokens of a text are not the operator `=`. -/
def FreeN (ar : Bool) : Nat → List Char → Prop
  | 0, _ => True
  | n + 1, t =>
    match Expr.token ar ⟨t, .bad, none, 0, []⟩ with
    | .ok st => st.tok ≠ .op .asn ∧ FreeN ar n st.rest
    | _ => True

/-- No token of a text is the operator `=`.  (`==`, `<=`, `+=` and the like are other tokens.) -/
def Free (ar : Bool) (t : List Char) : Prop := ∀ n, FreeN ar n t

/-- No text of a variable has the operator `=`. -/
def NoAsn (ar : Bool) (σ : Store) : Prop := ∀ x t, (look σ x).val = .text t → Free ar t

structure Inv (ar : Bool) (s : M) : Prop where
  dead : s.dead = []
  outer : s.src = none → ∀ x, (look s.st.vars x).inEval = false
  inner : s.src ≠ none → Free ar s.st.rest ∧ s.st.tok ≠ .op .asn
  plain : NoAsn ar s.st.vars
  nonum : ∀ x, (look s.st.vars x).inEval = true → num ar (look s.st.vars x) = none

/-- What an evaluation leaves as it was. -/
structure Keeps (s s' : M) : Prop where
  src : s'.src = s.src
  eval : ∀ x, (look s'.st.vars x).inEval = (look s.st.vars x).inEval

theorem Keeps.refl (s : M) : Keeps s s := ⟨rfl, fun _ => rfl⟩
theorem Keeps.trans {a b c : M} (h : Keeps a b) (h' : Keeps b c) : Keeps a c :=
  ⟨h'.src.trans h.src, fun x => (h'.eval x).trans (h.eval x)⟩

theorem Inv.alive {ar : Bool} {s : M} (h : Inv ar s) : s.lost = false := by
  unfold M.lost
  rw [h.dead]
  split <;> rfl

theorem Inv.fail {ar : Bool} {α : Type} {P : α → Prop} {s : M} (h : Inv ar s) (e : Err) :
    Post P (fail s e) := by
  unfold Exprmem.fail
  rw [h.alive]
  trivial

theorem asn_spelled : ∀ i ∈ opinfo, i.1 = .asn → '=' ∈ i.2.1 := by decide

theorem dropWhile_sub {p : Char → Bool} {c : Char} {l : List Char} (h : c ∉ l) : c ∉ l.dropWhile p :=
  fun h' => h ((List.dropWhile_suffix p).mem h')

/-- Reading a token changes no variable, and what is read depends on the text only. -/
theorem token_ok (ar : Bool) {st st' : St} (h : Expr.token ar st = .ok st') :
    st'.vars = st.vars ∧ ∃ st'', Expr.token ar ⟨st.rest, .bad, none, 0, []⟩ = .ok st'' ∧
      st''.rest = st'.rest ∧ st''.tok = st'.tok := by
  unfold Expr.token at h ⊢
  simp only at h ⊢
  split at h
  · cases h
    exact ⟨rfl, _, rfl, rfl, rfl⟩
  · rename_i c l hs
    by_cases h1 : isLetter c = true
    · rw [if_pos h1] at h
      simp only [h1, if_true]
      split at h
      · cases h
      · rename_i h2
        cases h
        exact ⟨rfl, _, if_neg h2, rfl, rfl⟩
    · rw [if_neg h1] at h
      simp only [h1, Bool.false_eq_true, if_false]
      split at h
      · rename_i h2
        simp only [h2, if_true]
        split at h
        · cases h
        · rename_i g hg
          cases h
          simp only [hg]
          exact ⟨trivial, _, rfl, rfl, rfl⟩
      · rename_i h2
        simp only [h2, Bool.false_eq_true, if_false]
        split at h
        · rename_i i hi
          cases h
          simp only [hi]
          exact ⟨trivial, _, rfl, rfl, rfl⟩
        · rename_i hi
          cases h
          simp only [hi]
          exact ⟨trivial, _, rfl, rfl, rfl⟩

theorem Free.token {ar : Bool} {st st' : St} (hf : Free ar st.rest) (h : Expr.token ar st = .ok st') :
    Free ar st'.rest ∧ st'.tok ≠ .op .asn := by
  obtain ⟨-, st'', h1, h2, h3⟩ := token_ok ar h
  refine ⟨fun n => ?_, ?_⟩
  · have := hf (n + 1)
    simp only [FreeN, h1] at this
    rw [← h2]
    exact this.2
  · have := hf 1
    simp only [FreeN, h1] at this
    rw [← h3]
    exact this.1

/-- A text without the character `=` does not have the operator. -/
theorem free_of_plain (ar : Bool) : ∀ (n : Nat) (t : List Char), '=' ∉ t → FreeN ar n t
  | 0, _, _ => trivial
  | n + 1, t, hn => by
    simp only [FreeN]
    have hn' : '=' ∉ t.dropWhile isSpace := dropWhile_sub hn
    cases h : Expr.token ar ⟨t, .bad, none, 0, []⟩ with
    | err e σ => trivial
    | stuck k => trivial
    | ok st =>
      simp only
      suffices '=' ∉ st.rest ∧ st.tok ≠ .op .asn from ⟨this.2, free_of_plain ar n _ this.1⟩
      unfold Expr.token at h
      simp only at h
      split at h
      · cases h
        exact ⟨by simp, by simp⟩
      · rename_i c l hs
        split at h
        · split at h
          · cases h
          · cases h
            exact ⟨dropWhile_sub hn', by simp⟩
        · split at h
          · split at h
            · cases h
            · cases h
              exact ⟨dropWhile_sub hn', by simp⟩
          · split at h
            · rename_i i hi
              cases h
              refine ⟨fun hm => hn' (List.mem_of_mem_drop hm), fun e => ?_⟩
              have e : i.1 = .asn := by simpa using e
              have hm := List.mem_of_find?_eq_some hi
              have hp := List.find?_some hi
              exact absurd ((List.isPrefixOf_iff_prefix.1 hp).subset (asn_spelled i hm e)) hn'
            · cases h
              exact ⟨hn', by simp⟩

theorem Inv.token {ar : Bool} {s : M} (h : Inv ar s) :
    Post (fun s' => Inv ar s' ∧ Keeps s s') (token ar s) := by
  unfold Exprmem.token
  rw [h.alive]
  simp only [Bool.false_eq_true, if_false]
  cases ht : Expr.token ar s.st with
  | ok st =>
    have hv := (token_ok ar ht).1
    refine ⟨⟨h.dead, ?_, fun hs => (h.inner hs).1.token ht, ?_, ?_⟩, ⟨rfl, fun x => ?_⟩⟩
    · simp only [hv]; exact h.outer
    · simp only [hv]; exact h.plain
    · simp only [hv]; exact h.nonum
    · simp only [hv]
  | err e σ => trivial
  | stuck k => trivial

theorem Inv.assignCheck {ar : Bool} {s : M} (h : Inv ar s) (v : Option Ref) :
    Post (fun _ => True) (assignCheck v s) := by
  unfold Exprmem.assignCheck
  split
  · trivial
  · exact h.fail _
  · trivial

theorem digit_plain (i : Nat) (h : i < 10) : digitChar false i ≠ '=' := by
  have : ∀ i : Fin 10, digitChar false i.1 ≠ '=' := by decide
  exact this ⟨i, h⟩

theorem digitLoop_plain : ∀ (n v : Nat) (l : List Char), '=' ∉ l → '=' ∉ digitLoop false 10 n v l
  | 0, _, _, h => h
  | n + 1, v, l, h => by
    have h' : '=' ∉ digitChar false (v % 10) :: l := by
      intro hm
      rcases List.mem_cons.1 hm with e | hm
      · exact digit_plain _ (Nat.mod_lt _ (by decide)) e.symm
      · exact h hm
    simp only [digitLoop]
    split
    · exact h'
    · exact digitLoop_plain n _ _ h'

theorem decText_plain (v : Int) : '=' ∉ decText v := by
  simp only [decText, strVal]
  have hb : effBase 0 = 10 := by decide
  simp only [hb]
  have h := fun n => digitLoop_plain 64 n [] (by simp)
  simp only [ne_eq, not_true_eq_false, if_false]
  split
  · intro hm
    rcases List.mem_cons.1 hm with e | hm
    · cases e
    · exact h _ hm
  · exact h _

/-- Assigning to a variable that is not being evaluated. -/
theorem Inv.assign {ar : Bool} {s : M} (h : Inv ar s) (r : Ref) (v : Int)
    (hr : ∀ x, r = .var x → (look s.st.vars x).inEval = false) :
    Inv ar (assignRef s r v) ∧ Keeps s (assignRef s r v) := by
  cases r with
  | tmp _ _ => exact ⟨h, .refl s⟩
  | var x =>
    have hx := hr x rfl
    have hl : ∀ y, look (assignVar s.st.vars x v) y = if y = x then
        { look s.st.vars x with val := if (look s.st.vars x).isInt then .int v else .text (decText v) }
        else look s.st.vars y := by
      intro y
      simp only [assignVar, look_put]
    have he : ∀ y, (look (assignVar s.st.vars x v) y).inEval = (look s.st.vars y).inEval := by
      intro y
      rw [hl]
      split
      · rename_i e; rw [e]
      · rfl
    refine ⟨⟨?_, fun hs y => ?_, h.inner, fun y t ht => ?_, fun y hy => ?_⟩, ⟨rfl, he⟩⟩
    · simp [Exprmem.assignRef, frees, hx, h.dead]
    · exact (he y).trans (h.outer hs y)
    · simp only [Exprmem.assignRef, Expr.assignRef] at ht
      rw [hl] at ht
      split at ht
      · simp only at ht
        split at ht
        · cases ht
        · cases ht
          exact fun n => free_of_plain ar n _ (decText_plain v)
      · exact h.plain y t ht
    · simp only [Exprmem.assignRef, Expr.assignRef] at hy ⊢
      rw [he] at hy
      rw [hl, if_neg (by intro e; rw [e, hx] at hy; cases hy)]
      exact h.nonum y hy

theorem Inv.na1 {ar : Bool} {s : M} (h : Inv ar s) (b : Bool) :
    Inv ar (s.na1 b) ∧ Keeps s (s.na1 b) := by
  cases b
  · exact ⟨h, .refl s⟩
  · exact ⟨⟨h.dead, h.outer, h.inner, h.plain, h.nonum⟩, ⟨rfl, fun _ => rfl⟩⟩

theorem Inv.na0 {ar : Bool} {s : M} (h : Inv ar s) (b : Bool) :
    Inv ar (s.na0 b) ∧ Keeps s (s.na0 b) := by
  cases b
  · exact ⟨h, .refl s⟩
  · exact ⟨⟨h.dead, h.outer, h.inner, h.plain, h.nonum⟩, ⟨rfl, fun _ => rfl⟩⟩

abbrev Good {α : Type} (ar : Bool) (s : M) (x : α × M) : Prop := Inv ar x.2 ∧ Keeps s x.2

/-- An evaluation begins. -/
abbrev begin_ (t : List Char) (src : Option Name) (σ : Store) : M :=
  ⟨⟨t, .bad, none, 0, σ⟩, src, []⟩

structure Safe (m : Mach) (ar : Bool) (n : Nat) : Prop where
  ev : ∀ p s, Inv ar s → Post (Good ar s) (ev m ar n p s)
  post : ∀ r s, Inv ar s → Post (Good ar s) (evPost m ar n r s)
  loop : ∀ p r s, Inv ar s → Post (Good ar s) (evLoop m ar n p r s)
  ppmm : ∀ o v b s, Inv ar s → Post (Good ar s) (ppmm m ar n o v b s)
  intvar : ∀ r s, Inv ar s → Post (fun x => Good ar s x ∧
    ∀ y, r = .var y → (look s.st.vars y).inEval = true → num ar (look s.st.vars y) ≠ none)
      (intvar m ar n r s)
  vEval : ∀ t src σ, Inv ar (begin_ t src σ) →
    Post (fun x => x.2.2 = [] ∧ NoAsn ar x.2.1 ∧ (∀ y, (look x.2.1 y).inEval = (look σ y).inEval) ∧
      ∀ y, (look x.2.1 y).inEval = true → num ar (look x.2.1 y) = none) (vEval m ar n t src σ [])

/-- Continue with the state an evaluation left. -/
theorem step {α β : Type} {ar : Bool} {s : M} {a : R (α × M)} {F : α × M → R (β × M)}
    (h : Post (Good ar s) a) (h' : ∀ x, Inv ar x.2 → Post (Good ar x.2) (F x)) :
    Post (Good ar s) (a.bind F) :=
  h.bind fun x hx => (h' x hx.1).mono fun _ hy => ⟨hy.1, hx.2.trans hy.2⟩

theorem stepTok {β : Type} {ar : Bool} {s : M} (h : Inv ar s) {F : M → R (β × M)}
    (h' : ∀ x, Inv ar x → Post (Good ar x) (F x)) : Post (Good ar s) ((Exprmem.token ar s).bind F) :=
  h.token.bind fun x hx => (h' x hx.1).mono fun _ hy => ⟨hy.1, hx.2.trans hy.2⟩

theorem stepNum {β : Type} {m : Mach} {ar : Bool} {n : Nat} (ih : Safe m ar n) {s : M} (h : Inv ar s)
    (r : Ref) {F : Int × M → R (β × M)} (h' : ∀ x, Inv ar x.2 → Post (Good ar x.2) (F x)) :
    Post (Good ar s) ((Exprmem.intvar m ar n r s).bind F) :=
  step ((ih.intvar r s h).mono fun _ hx => hx.1) h'

theorem viaKeep {β : Type} {ar : Bool} {s s' : M} {a : R (β × M)} (hk : Keeps s s')
    (h : Post (Good ar s') a) : Post (Good ar s) a :=
  h.mono fun _ hy => ⟨hy.1, hk.trans hy.2⟩

theorem safe_ev {m : Mach} {ar : Bool} {n : Nat} (ih : Safe m ar n) (p : Nat) (s : M) (h : Inv ar s) :
    Post (Good ar s) (Exprmem.ev m ar (n + 1) p s) := by
  cases p with
  | zero =>
    unfold Exprmem.ev
    split
    · split
      · exact stepTok h fun s h => step (ih.ev 0 s h) fun x hx => stepNum ih hx x.1 fun y hy =>
          ih.post _ y.2 hy
      · split
        · refine stepTok h fun s h => step (ih.ev maxPrec s h) fun x hx => ?_
          simp only
          split
          · exact hx.fail _
          · exact stepTok hx fun s h => ih.post _ s h
        · split
          · exact stepTok h fun s h => step (ih.ppmm _ _ _ s h) fun x hx =>
              stepTok hx fun s h => ih.post _ s h
          · exact h.fail _
    · split
      · trivial
      · exact stepTok h fun s h => ih.post _ s h
    · split
      · trivial
      · exact stepTok h fun s h => ih.post _ s h
    · exact h.fail _
    · exact h.fail _
  | succ p =>
    unfold Exprmem.ev
    exact step (ih.ev p s h) fun x hx => ih.loop _ _ x.2 hx

theorem safe_post {m : Mach} {ar : Bool} {n : Nat} (ih : Safe m ar n) (r : Ref) (s : M) (h : Inv ar s) :
    Post (Good ar s) (Exprmem.evPost m ar (n + 1) r s) := by
  unfold Exprmem.evPost
  split
  · exact step (ih.ppmm _ _ _ s h) fun x hx => stepTok hx fun s h => ⟨h, .refl s⟩
  · split
    · exact step (ih.ppmm _ _ _ s h) fun x hx => stepTok hx fun s h => ⟨h, .refl s⟩
    · exact ⟨h, .refl s⟩

theorem safe_loop {m : Mach} {ar : Bool} {n : Nat} (ih : Safe m ar n) (p : Nat) (r : Ref) (s : M)
    (h : Inv ar s) : Post (Good ar s) (Exprmem.evLoop m ar (n + 1) p r s) := by
  unfold Exprmem.evLoop
  split
  · rename_i op htok
    split
    · -- an assignment is possible in the outermost expression only
      have hsrc : op = .asn → s.src = none := by
        intro ha
        cases hs : s.src with
        | none => rfl
        | some x => exact absurd (by rw [htok, ha]) (h.inner (by rw [hs]; simp)).2
      refine h.token.bind fun s1 ⟨h1, k1⟩ => viaKeep k1 ?_
      replace hsrc := fun ha => k1.src.trans (hsrc ha)
      split
      · rename_i hop
        have hs := hsrc hop
        refine (h1.assignCheck _).bind fun _ _ => (ih.ev pAssign s1 h1).bind fun x hx =>
          viaKeep hx.2 ((ih.intvar x.1 x.2 hx.1).bind fun y hy => viaKeep hy.1.2 ?_)
        have := hy.1.1.assign r y.1 (fun z _ => hy.1.1.outer
          ((hy.1.2.src.trans hx.2.src).trans hs) z)
        exact viaKeep this.2 (ih.loop _ _ _ this.1)
      · refine (ih.intvar r s1 h1).bind fun l hl => viaKeep hl.1.2 ?_
        obtain ⟨⟨hl, kl⟩, hn⟩ := hl
        simp only
        split
        · rename_i hop
          refine (hl.assignCheck _).bind fun _ _ => (ih.ev pAssign l.2 hl).bind fun x hx =>
            viaKeep hx.2 ((ih.intvar x.1 x.2 hx.1).bind fun y hy => viaKeep hy.1.2 ?_)
          split
          · exact hy.1.1.fail _
          · split
            · trivial
            · rename_i res _
              have := hy.1.1.assign r res (fun z hz => by
                rw [hy.1.2.eval, hx.2.eval, kl.eval]
                cases he : (look s1.st.vars z).inEval with
                | false => rfl
                | true => exact absurd (h1.nonum z he) (hn z hz he))
              exact viaKeep this.2 (ih.loop _ _ _ this.1)
        · split
          · obtain ⟨ha, ka⟩ := hl.na1 (l.1 = 0)
            refine viaKeep ka (step (ih.ev _ _ ha) fun x hx => stepNum ih hx x.1 fun y hy => ?_)
            obtain ⟨hb, kb⟩ := hy.na0 (l.1 = 0)
            exact viaKeep kb (ih.loop _ _ _ hb)
          · split
            · obtain ⟨ha, ka⟩ := hl.na1 (l.1 ≠ 0)
              refine viaKeep ka (step (ih.ev _ _ ha) fun x hx => stepNum ih hx x.1 fun y hy => ?_)
              obtain ⟨hb, kb⟩ := hy.na0 (l.1 ≠ 0)
              exact viaKeep kb (ih.loop _ _ _ hb)
            · split
              · obtain ⟨ha, ka⟩ := hl.na1 (l.1 = 0)
                refine viaKeep ka (step (ih.ev _ _ ha) fun x hx => ?_)
                obtain ⟨hb, kb⟩ := hx.na0 (l.1 = 0)
                refine viaKeep kb ?_
                split
                · exact hb.fail _
                · refine stepTok hb fun s2 h2 => ?_
                  obtain ⟨hc, kc⟩ := h2.na1 (l.1 ≠ 0)
                  refine viaKeep kc (step (ih.ev _ _ hc) fun y hy => ?_)
                  obtain ⟨hd, kd⟩ := hy.na0 (l.1 ≠ 0)
                  exact viaKeep kd (ih.loop _ _ _ hd)
              · refine step (ih.ev _ _ hl) fun x hx => stepNum ih hx x.1 fun y hy => ?_
                split
                · exact hy.fail _
                · split
                  · trivial
                  · exact ih.loop _ _ _ hy
    · exact ⟨h, .refl s⟩
  · exact ⟨h, .refl s⟩

theorem safe_ppmm {m : Mach} {ar : Bool} {n : Nat} (ih : Safe m ar n) (o : Op) (v : Option Ref)
    (b : Bool) (s : M) (h : Inv ar s) : Post (Good ar s) (Exprmem.ppmm m ar (n + 1) o v b s) := by
  unfold Exprmem.ppmm
  refine (h.assignCheck v).bind fun _ _ => ?_
  split
  · trivial
  · rename_i r
    refine (ih.intvar r s h).bind fun x ⟨⟨hx, kx⟩, hn⟩ => ?_
    simp only [Post]
    have := hx.assign r (wrap64 (if o = .plusplus then x.1 + 1 else x.1 - 1)) (by
      intro y hy
      rw [kx.eval]
      cases he : (look s.st.vars y).inEval with
      | false => rfl
      | true => exact absurd (h.nonum y he) (hn y hy he))
    exact ⟨this.1, kx.trans this.2⟩

theorem safe_intvar {m : Mach} {ar : Bool} {n : Nat} (ih : Safe m ar n) (r : Ref) (s : M)
    (h : Inv ar s) : Post (fun x => Good ar s x ∧
    ∀ y, r = .var y → (look s.st.vars y).inEval = true → num ar (look s.st.vars y) ≠ none)
      (Exprmem.intvar m ar (n + 1) r s) := by
  unfold Exprmem.intvar
  split
  · exact ⟨⟨h, .refl s⟩, fun y hy => by cases hy⟩
  · rename_i x
    split
    · rename_i v hv
      refine ⟨⟨h, .refl s⟩, fun y hy _ => ?_⟩
      cases hy
      rw [hv]
      simp
    · rename_i hv
      split
      · exact h.fail _
      · rename_i he
        have he : (look s.st.vars x).inEval = false := by simpa using he
        have hset : ∀ σ b y, look (setEval σ x b) y =
            if y = x then { look σ x with inEval := b } else look σ y := by
          intro σ b y
          simp only [setEval, look_put]
        have hnum : ∀ (w : Var) b, num ar { w with inEval := b } = num ar w := fun w b => rfl
        have hi : Inv ar (begin_ (textOf (look s.st.vars x)) (some x) (setEval s.st.vars x true)) := by
          refine ⟨rfl, fun hs => (by cases hs), fun _ => ⟨?_, by simp⟩, fun y t ht => ?_, fun y hy => ?_⟩
          · simp only [textOf]
            split
            · rename_i t ht
              exact h.plain x t ht
            · exact fun n => free_of_plain ar n [] (by simp)
          · simp only at ht
            rw [hset] at ht
            split at ht
            · exact h.plain x t ht
            · exact h.plain y t ht
          · simp only at hy ⊢
            rw [hset] at hy ⊢
            split
            · rw [hnum]; exact hv
            · rename_i e
              rw [if_neg e] at hy
              exact h.nonum y hy
        have e := ih.vEval _ _ _ hi
        rw [← h.dead] at e
        split
        · rename_i v σ d hr
          rw [hr] at e
          obtain ⟨hd, hp, hk, hn⟩ := e
          simp only at hd hp hk hn
          have hk' : ∀ y, (look (setEval σ x false) y).inEval = (look s.st.vars y).inEval := by
            intro y
            rw [hset]
            split
            · rename_i e; rw [e, he]
            · rename_i e
              rw [hk, hset, if_neg e]
          refine ⟨⟨⟨?_, fun hs y => ?_, h.inner, fun y t ht => ?_, fun y hy => ?_⟩, ⟨rfl, hk'⟩⟩,
            fun y hy hy' => ?_⟩
          · simp only [hd, h.dead, List.filter_nil]
          · exact (hk' y).trans (h.outer hs y)
          · simp only at ht
            rw [hset] at ht
            split at ht
            · exact hp x t ht
            · exact hp y t ht
          · simp only at hy ⊢
            rw [hset] at hy ⊢
            split at hy
            · cases hy
            · rename_i e
              rw [if_neg e]
              exact hn y hy
          · cases hy
            rw [he] at hy'
            cases hy'
        · trivial
        · trivial
        · rename_i hr
          rw [hr] at e
          exact e

theorem safe_vEval {m : Mach} {ar : Bool} {n : Nat} (ih : Safe m ar n) (t : List Char)
    (src : Option Name) (σ : Store)
    (h : Inv ar (begin_ t src σ)) :
    Post (fun x => x.2.2 = [] ∧ NoAsn ar x.2.1 ∧ (∀ y, (look x.2.1 y).inEval = (look σ y).inEval) ∧
      ∀ y, (look x.2.1 y).inEval = true → num ar (look x.2.1 y) = none)
      (Exprmem.vEval m ar (n + 1) t src σ []) := by
  unfold Exprmem.vEval
  refine h.token.bind fun s1 ⟨h1, k1⟩ => ?_
  have h2 : Inv ar (if s1.st.tok = .fin then
      { s1 with st := { s1.st with tok := .lit, val := some (.tmp 0 false) } } else s1) ∧
      Keeps s1 (if s1.st.tok = .fin then
      { s1 with st := { s1.st with tok := .lit, val := some (.tmp 0 false) } } else s1) := by
    split
    · exact ⟨⟨h1.dead, h1.outer, fun hs => ⟨(h1.inner hs).1, by simp⟩, h1.plain, h1.nonum⟩,
        ⟨rfl, fun _ => rfl⟩⟩
    · exact ⟨h1, .refl _⟩
  refine (ih.ev maxPrec _ h2.1).bind fun x hx => (ih.intvar x.1 x.2 hx.1).bind fun y hy => ?_
  have hk := ((k1.trans h2.2).trans hx.2).trans hy.1.2
  simp only
  split
  · exact hy.1.1.fail _
  · exact ⟨hy.1.1.dead, hy.1.1.plain, hk.eval, hy.1.1.nonum⟩

theorem safe (m : Mach) (ar : Bool) : ∀ n, Safe m ar n
  | 0 => by
    refine ⟨fun p s _ => ?_, fun r s _ => ?_, fun p r s _ => ?_, fun o v b s _ => ?_, fun r s _ => ?_,
      fun t src σ _ => ?_⟩
    · unfold Exprmem.ev; trivial
    · unfold Exprmem.evPost; trivial
    · unfold Exprmem.evLoop; trivial
    · unfold Exprmem.ppmm; trivial
    · unfold Exprmem.intvar; trivial
    · unfold Exprmem.vEval; trivial
  | n + 1 =>
    have ih := safe m ar n
    ⟨safe_ev ih, safe_post ih, safe_loop ih, safe_ppmm ih, safe_intvar ih, safe_vEval ih⟩

/-! ## Properties -/

/-- No variable is being evaluated. -/
def Idle (σ : Store) : Prop := ∀ x, (look σ x).inEval = false

/-- If no variable holds a text with the operator `=`, no expression whatsoever (which may itself
assign) reads freed memory, and its value and effects are those of the evaluation of texts as
values. -/
theorem memory_partial (m : Mach) (ar : Bool) (n : Nat) (t : List Char) (σ : Store) (hi : Idle σ)
    (hn : NoAsn ar σ) :
    match evaluate m ar n t σ with
    | .ok (v, σ', _) => Expr.vEval m ar n t σ = .ok (v, σ') ∧ NoAsn ar σ' ∧ Idle σ'
    | .err e σ' => Expr.vEval m ar n t σ = .err e σ'
    | .stuck k => Expr.vEval m ar n t σ = .stuck k
    | .uaf => False := by
  have h1 := (erase m ar n).vEval t none σ []
  have h2 := (safe m ar n).vEval t none σ
    ⟨rfl, fun _ => hi, fun h => absurd rfl h, hn, fun x hx => by rw [hi x] at hx; cases hx⟩
  unfold evaluate
  cases h : Exprmem.vEval m ar n t none σ [] with
  | ok a =>
    rw [h] at h1 h2
    obtain ⟨v, σ', d⟩ := a
    exact ⟨h1, h2.2.1, fun x => (h2.2.2.1 x).trans (hi x)⟩
  | err e σ' => rw [h] at h1; exact h1
  | stuck k => rw [h] at h1; exact h1
  | uaf => rw [h] at h2; exact h2

/-- Without conditions: if freed memory is not read, the memory makes no difference. -/
theorem only_memory (m : Mach) (ar : Bool) (n : Nat) (t : List Char) (σ : Store) :
    match evaluate m ar n t σ with
    | .ok (v, σ', _) => Expr.vEval m ar n t σ = .ok (v, σ')
    | .err e σ' => Expr.vEval m ar n t σ = .err e σ'
    | .stuck k => Expr.vEval m ar n t σ = .stuck k
    | .uaf => True := by
  have h1 := (erase m ar n).vEval t none σ []
  unfold evaluate
  cases h : Exprmem.vEval m ar n t none σ [] with
  | ok a => rw [h] at h1; exact h1
  | err e σ' => rw [h] at h1; exact h1
  | stuck k => rw [h] at h1; exact h1
  | uaf => trivial

/-! ## Where it fails -/

def m0 : Mach := ⟨fun _ _ => 0, fun _ _ => 0⟩

def str (t : String) : Var := ⟨false, .text t.toList, false, false⟩

/-- `x='x=5,7'; echo $((x))`: the assignment frees the text that is being read. -/
theorem self_assign : evaluate m0 true 100 "x".toList [("x".toList, str "x=5,7")] = .uaf := by
  decide +kernel

/-- `x='y+1'; y='x=5'; echo $((x))`: also by way of another variable. -/
theorem mutual_assign : evaluate m0 true 100 "x".toList
    [("x".toList, str "y+1"), ("y".toList, str "x=5")] = .uaf := by decide +kernel

/-- `x='x=5)'`: or in the message about an error. -/
theorem message_assign : evaluate m0 true 100 "x".toList [("x".toList, str "x=5)")] = .uaf := by
  decide +kernel

/-- By value the first would be 7. -/
example : (match Expr.vEval m0 true 100 "x".toList [("x".toList, str "x=5,7")] with
    | .ok (v, _) => v == 7
    | _ => false) = true := by decide +kernel

set_option maxRecDepth 4000 in
/-- `x=x; typeset -i x; echo $x` prints the address of the storage of `x`, whatever it is. -/
theorem typeset_address (a : Int) :
    typesetInt m0 20 ['x'] a [(['x'], ⟨false, .text ['x'], false, false⟩)] =
      .ok [(['x'], ⟨true, .int a, false, false⟩)] := by
  unfold typesetInt vEval
  simp only [textOf, look, List.find?]
  rfl

/-- With another text it is right. -/
example : typesetInt m0 100 "x".toList 4096 [("x".toList, str "y*2"), ("y".toList, str "21")] =
    .ok [("x".toList, ⟨true, .int 42, false, false⟩), ("y".toList, str "21")] := by decide +kernel

/-- With `x='x=5'` the text is read to its end before the assignment; in an expression that is no
variable's, assignments are harmless. -/
example : evaluate m0 true 100 "x".toList [("x".toList, str "x=5")] =
    .ok (5, [("x".toList, str "5")], []) := by decide +kernel

example : evaluate m0 true 100 "y = x == 3, y++ + x".toList
    [("x".toList, str "z<=4 ? z+=1 : 0"), ("y".toList, str "1"), ("z".toList, str "2")] =
    .ok (5, [("x".toList, str "z<=4 ? z+=1 : 0"), ("y".toList, str "2"), ("z".toList, str "4")], []) := by
  decide +kernel

end Ksh.Exprmem
