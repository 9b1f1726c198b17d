import Verif.Subst.Exec
import Verif.Glob.Scan
import Mathlib.Data.List.Induction
/-!
# C76: expansions with operators
-/

namespace Ksh.Subst

open Ksh.Glob (Trim debunk)

/-! ## Where splitting goes wrong -/

/-- The field begun at the end of a text: `none` if none is, `some []` if only quotes have begun it. -/
def begun (E : Env) (l : List Tok) : Option (List B) :=
  match (runs E (l.filter fun t => !t.isNote)).getLast? with
  | some (t :: r) => some (text (t :: r))
  | _ => none

/-- None of the notes is where it does harm: no word is entered, and nothing left over by a trim, after
quotes that are empty; a value made by `=`, `#` or `%` does not begin with a delimiter after a field has
begun; a value made by `=` is not empty before one has. -/
structure Harmless (E : Env) (t : List Tok) : Prop where
  enter : ∀ a b, t = a ++ .enter :: b → begun E a ≠ some []
  val : ∀ a c b, t = a ++ .val :: c :: b → c.delim E = true → begun E a = none
  anull : ∀ a b, t = a ++ .anull :: b → begun E a ≠ none

theorem runs_snoc (E : Env) : ∀ (l : List Tok) (t : Tok), runs E (l ++ [t]) =
    if t.delim E then runs E l ++ [[]] else (runs E l).dropLast ++ [(runs E l).getLast?.getD [] ++ [t]]
  | [], t => by
    by_cases h : t.delim E = true <;> simp [runs, h]
  | u :: l, t => by
    have ih := runs_snoc E l t
    have hne := runs_ne E l
    rw [List.cons_append, runs, runs]
    by_cases hu : u.delim E = true
    · rw [if_pos hu, if_pos hu, ih]
      by_cases h : t.delim E = true
      · rw [if_pos h, if_pos h]; rfl
      · rw [if_neg h, if_neg h]
        cases hr : runs E l with
        | nil => exact absurd hr hne
        | cons a b => simp [List.dropLast, List.getLast?]
    · rw [if_neg hu, if_neg hu, ih]
      by_cases h : t.delim E = true
      · rw [if_pos h, if_pos h]
        cases hr : runs E l with
        | nil => exact absurd hr hne
        | cons a b => rfl
      · rw [if_neg h, if_neg h]
        cases hr : runs E l with
        | nil => exact absurd hr hne
        | cons a b =>
          cases b with
          | nil => simp
          | cons c b => simp [List.dropLast, List.getLast?]

theorem begun_fold (E : Env) (l : List Tok) : begun E l = (l.foldl (fstep E) (none, [])).1 := by
  have key : ∀ l : List Tok, (∀ t ∈ l, t.isNote = false) → (match (runs E l).getLast? with
      | some (t :: r) => some (text (t :: r))
      | _ => none) = (l.foldl (fstep E) (none, [])).1 := by
    intro l
    induction l using List.reverseRecOn with
    | nil => intro _; simp [runs]
    | append_singleton l t ih =>
      intro hn
      have ih := ih fun u hu => hn u (by simp [hu])
      have hnt := hn t (by simp)
      rw [runs_snoc, List.foldl_append, List.foldl_cons, List.foldl_nil]
      by_cases h : t.delim E = true
      · rw [if_pos h]
        simp [fstep, hnt, h]
      · rw [if_neg h]
        simp only [List.getLast?_append, List.getLast?_singleton, Option.some_or]
        simp only [fstep, hnt, h, Bool.false_eq_true, if_false]
        rw [← ih]
        cases hr : (runs E l).getLast? with
        | none => simp [text]
        | some r =>
          cases r with
          | nil => simp [text]
          | cons a b => simp [text]
  unfold begun
  rw [key _ (by intro t ht; simpa using (List.mem_filter.1 ht).2), foldl_notes]

theorem Harmless.ok {E : Env} {t : List Tok} (h : Harmless E t) : Ok E (none, []) t := by
  have key : ∀ (b a : List Tok), t = a ++ b → Ok E (a.foldl (fstep E) (none, [])) b := by
    intro b
    induction b with
    | nil => intro a _; trivial
    | cons u b ih =>
      intro a ha
      refine ⟨?_, ?_⟩
      · cases u with
        | enter => simp only; rw [← begun_fold]; exact h.enter a b ha
        | anull => simp only; rw [← begun_fold]; exact h.anull a b ha
        | val =>
          simp only
          rw [← begun_fold]
          by_cases hb : begun E a = none
          · exact Or.inl hb
          · refine Or.inr fun u hu => ?_
            cases b with
            | nil => simp at hu
            | cons c b =>
              simp only [List.head?_cons, Option.some.injEq] at hu
              subst hu
              cases hd : c.delim E with
              | false => rfl
              | true => exact absurd (h.val a c b ha hd) hb
        | _ => trivial
      · have := ih (a ++ [u]) (by rw [ha]; simp)
        rw [List.foldl_append] at this
        exact this
  exact key t [] rfl

/-! ## The theorems -/

/-- The context at the beginning of a word. -/
def top (f : F) : Ctx := ⟨f, false, false⟩

/-- What `evalstr` makes of the words: the first, or nothing. -/
def str (out : List (List B)) : List B := out.head?.getD []

theorem init_match (f : F) (w : World) : Match (top f) (init f w) := ⟨rfl, rfl, fun _ => rfl⟩

/-- Errors are the errors of the tree, and everything evaluated before them has been (but the name of a
read-only variable that is long is read beyond its end). -/
theorem error_spec (E : Env) (f : F) (w : World) (wd : Wd) (hw : WF false wd) {e : Err} {w' : World} (hd : den E (top f) wd w = .error (e, w')) :
    expand E f w (compile wd) = .wide ∨ expand E f w (compile wd) = .error e w' ∨ expand E f w (compile wd) = .over ∧ e.long E := by
  have h := exec E wd (top f) (init f w) (init_match f w) hw
  rw [show (init f w).w = w from rfl, hd] at h
  have := h []
  rwa [List.append_nil] at this

/-- Where nothing is split (assignments, here documents, redirections, `case`): the text is the text of the
tree, and the variables and what has been evaluated are those of the tree. -/
theorem string_spec (E : Env) (f : F) (hf : f.blank = false) (w : World) (wd : Wd) (hw : WF false wd) {t : List Tok} {w' : World}
    (hd : den E (top f) wd w = .ok (t, w')) :
    expand E f w (compile wd) = .wide ∨ ∃ out, expand E f w (compile wd) = .words out w' ∧ out.length ≤ 1 ∧ str out = text t := by
  have h := exec E wd (top f) (init f w) (init_match f w) hw
  rw [show (init f w).w = w from rfl, hd] at h
  rcases h with h | ⟨s', hr, hp⟩
  · left
    have := h []
    rwa [List.append_nil] at this
  · right
    have hr := hr []
    rw [List.append_nil, run] at hr
    have hfl := hp.flat hf
    have hds : s'.ds = text t := hfl.ds
    have hout : s'.out = [] := (hfl.out (by simp [init, hf])).1
    refine ⟨_, hr.trans (by rw [finish, hp.w]), ?_, ?_⟩
    · rw [hout]; split <;> simp
    · rw [hout, hds]
      by_cases hw : s'.word = .word ∨ s'.word = .quote
      · rw [if_pos hw]; rfl
      · rw [if_neg hw]
        have : s'.ds = [] := by
          apply Classical.byContradiction
          intro hne
          exact hw (Or.inl (hfl.inv (by simp [init]) hne))
        rw [← hds, this]
        rfl

/-- Where fields are split, and IFS has white space only: the fields are those of the tree, unless the text
has one of the harmful places. -/
theorem fields_spec_partial (E : Env) (hi : WsIfs E) (f : F) (hf : f.blank = true) (w : World) (wd : Wd) (hw : WF false wd) {t : List Tok} {w' : World}
    (hd : den E (top f) wd w = .ok (t, w')) (hh : Harmless E t) :
    expand E f w (compile wd) = .wide ∨ expand E f w (compile wd) = .words (fields E t) w' := by
  have h := exec E wd (top f) (init f w) (init_match f w) hw
  rw [show (init f w).w = w from rfl, hd] at h
  rcases h with h | ⟨s', hr, hp⟩
  · left
    have := h []
    rwa [List.append_nil] at this
  · right
    have hr := hr []
    rw [List.append_nil, run] at hr
    have hR : R (init f w) (none, []) := ⟨rfl, Or.inr (Or.inr ⟨Or.inl (by simp [init, hf]), rfl, rfl⟩), by simp [init]⟩
    have h2 := hp.split hf hi _ hR hh.ok
    unfold expand
    rw [hr, finish, hp.w, fields_fin]
    congr 1
    unfold fin
    rw [← h2.out]
    rcases h2.st with ⟨h3, h4⟩ | ⟨h3, h4, h5⟩ | ⟨h3, h4, h5⟩
    · rw [if_pos (Or.inl h3), h4]; rfl
    · rw [if_pos (Or.inr h3), h5, h4]; rfl
    · rw [if_neg (by rcases h3 with h | h <;> rw [h] <;> simp), h5]; simp

/-- Whatever IFS is, and whatever happens to the fields: the variables and what has been evaluated are those
of the tree. -/
theorem world_spec (E : Env) (f : F) (w : World) (wd : Wd) (hw : WF false wd) {t : List Tok} {w' : World}
    (hd : den E (top f) wd w = .ok (t, w')) :
    expand E f w (compile wd) = .wide ∨ ∃ out, expand E f w (compile wd) = .words out w' := by
  have h := exec E wd (top f) (init f w) (init_match f w) hw
  rw [show (init f w).w = w from rfl, hd] at h
  rcases h with h | ⟨s', hr, hp⟩
  · left
    have := h []
    rwa [List.append_nil] at this
  · right
    have hr := hr []
    rw [List.append_nil, run] at hr
    exact ⟨_, hr.trans (by rw [finish, hp.w])⟩

/-! ### Text -/

/-- The characters of a text as a user sees them. -/
def plain : List Tok → List B
  | [] => []
  | .c ch _ _ :: l => ch :: plain l
  | .raw v :: l => v ++ plain l
  | _ :: l => plain l

/-- A text without pattern groups; expressions give digits. -/
def Clean (t : List Tok) : Prop := ∀ x ∈ t, (∀ ch v sp, x = .c ch v sp → ∃ f q, v = code f q ch) ∧ ∀ v, x = .raw v → 7 ∉ v

/-- However a character is stored, `debunk` makes it one again: what `${x=w}` assigns and `${x?w}` says are the
characters of the word. -/
theorem debunk_text : ∀ {t : List Tok}, Clean t → debunk (text t) = plain t
  | [], _ => rfl
  | x :: t, h => by
    have ih := debunk_text (t := t) fun y hy => h y (List.mem_cons_of_mem _ hy)
    obtain ⟨h1, h2⟩ := h x (by simp)
    have e : text (x :: t) = x.text ++ text t := by simp [text]
    rw [e]
    have hlit : ∀ v, 7 ∉ v → debunk (v ++ text t) = v ++ debunk (text t) := by
      intro v
      induction v with
      | nil => intro _; rfl
      | cons c v ihv =>
        intro hv
        simp only [List.mem_cons, not_or] at hv
        rw [List.cons_append, Ksh.Glob.debunk_plain (Ne.symm hv.1), ihv hv.2]
        rfl
    have hmag : ∀ c, Ksh.Glob.isExt c = false → debunk (7 :: c :: text t) = c :: debunk (text t) := by
      intro c hc
      rw [debunk]
      simp [hc]
    cases x with
    | c ch v sp =>
      obtain ⟨f, q, rfl⟩ := h1 ch v sp rfl
      show debunk (code f q ch ++ text t) = ch :: plain t
      unfold code
      split
      · rename_i hc
        obtain ⟨-, -, hc⟩ := hc
        rw [List.cons_append, List.cons_append, List.nil_append, hmag, ih]
        rcases hc with rfl | rfl | rfl | rfl | rfl | rfl <;> decide
      · split
        · rename_i hc
          subst hc
          rw [List.cons_append, List.cons_append, List.nil_append, hmag _ (by decide), ih]
        · rename_i hc
          rw [hlit [ch] (by simpa using Ne.symm hc), ih]
          rfl
    | raw v =>
      show debunk (v ++ text t) = v ++ plain t
      rw [hlit v (h2 v rfl), ih]
    | mark => exact ih
    | enter => exact ih
    | val => exact ih
    | anull => exact ih

/-- No patterns, in a word and in the words in it; expressions give no bytes 7. -/
def NoGroup : Wd → Prop
  | .nil => True
  | .char _ r | .qchar _ r | .com _ r | .arith _ r | .sub _ _ r => NoGroup r
  | .quoted w r => NoGroup w ∧ NoGroup r
  | .cond _ _ op w r => ((op = .minus ∨ op = .plus) → NoGroup w) ∧ NoGroup r
  | .group _ _ _ => False
  | .bar _ => False

theorem Clean.append {a b : List Tok} (h : Clean a) (k : Clean b) : Clean (a ++ b) := by
  intro x hx
  rcases List.mem_append.1 hx with hx | hx
  · exact h x hx
  · exact k x hx

theorem clean_value (C : Ctx) (v : List B) : Clean (value C v) := by
  intro x hx
  obtain ⟨c, -, rfl⟩ := List.mem_map.1 hx
  refine ⟨?_, fun v h => by cases h⟩
  intro ch u sp h
  simp only [lit, Tok.c.injEq] at h
  obtain ⟨rfl, rfl, rfl⟩ := h
  exact ⟨_, _, rfl⟩

theorem clean_notes (C : Ctx) {t : Tok} (h : t.isNote = true) : Clean (notes C t) := by
  unfold notes
  split
  · intro x hx; simp at hx
  · intro x hx
    simp only [List.mem_singleton] at hx
    subst hx
    cases x <;> simp [Tok.isNote] at h <;> exact ⟨fun _ _ _ h => (by cases h), fun _ h => (by cases h)⟩

theorem seq_ok {a : Den} {f : World → Den} {t : List Tok} {w' : World} (h : a.seq f = .ok (t, w')) :
    ∃ t1 w1 t2, a = .ok (t1, w1) ∧ f w1 = .ok (t2, w') ∧ t = t1 ++ t2 := by
  match a, h with
  | .ok (t1, w1), h =>
    unfold Den.seq at h
    simp only at h
    match hf : f w1, h with
    | .ok (t2, w2), h =>
      injection h with h
      injection h with h1 h2
      subst h1 h2
      exact ⟨t1, w1, t2, rfl, hf, rfl⟩

theorem clean_den (E : Env) (ha : ∀ k w w' v, E.arith k w = some (w', v) → 7 ∉ v) (wd : Wd) : NoGroup wd → ∀ (C : Ctx) (w w' : World) (t : List Tok),
    den E C wd w = .ok (t, w') → Clean t := by
  induction wd with
  | nil =>
    intro _ C w w' t h
    simp only [den, Except.ok.injEq, Prod.mk.injEq] at h
    rw [← h.1]
    intro x hx
    simp at hx
  | char c r ih =>
    intro hn C w w' t h
    obtain ⟨t1, w1, t2, h1, h2, rfl⟩ := seq_ok h
    simp only [Except.ok.injEq, Prod.mk.injEq] at h1
    rw [← h1.1]
    exact Clean.append (fun x hx => by
      simp only [List.mem_singleton] at hx
      subst hx
      refine ⟨?_, fun v h => by cases h⟩
      intro ch u sp h
      simp only [lit, Tok.c.injEq] at h
      obtain ⟨rfl, rfl, rfl⟩ := h
      exact ⟨_, _, rfl⟩) (ih hn C w1 w' t2 h2)
  | qchar c r ih =>
    intro hn C w w' t h
    obtain ⟨t1, w1, t2, h1, h2, rfl⟩ := seq_ok h
    simp only [Except.ok.injEq, Prod.mk.injEq] at h1
    rw [← h1.1]
    exact Clean.append (fun x hx => by
      simp only [List.mem_singleton] at hx
      subst hx
      refine ⟨?_, fun v h => by cases h⟩
      intro ch u sp h
      simp only [Tok.c.injEq] at h
      obtain ⟨rfl, rfl, rfl⟩ := h
      exact ⟨_, _, rfl⟩) (ih hn C w1 w' t2 h2)
  | quoted u r ih1 ih2 =>
    intro hn C w w' t h
    obtain ⟨t1, w1, t2, h1, h2, rfl⟩ := seq_ok h
    obtain ⟨t3, w3, t4, h3, h4, rfl⟩ := seq_ok h1
    simp only [Except.ok.injEq, Prod.mk.injEq] at h3
    rw [← h3.1]
    refine Clean.append (Clean.append ?_ (ih1 hn.1 _ w3 w1 t4 h4)) (ih2 hn.2 C w1 w' t2 h2)
    intro x hx
    simp only [List.mem_singleton] at hx
    subst hx
    exact ⟨fun _ _ _ h => (by cases h), fun _ h => (by cases h)⟩
  | com k r ih =>
    intro hn C w w' t h
    obtain ⟨t1, w1, t2, h1, h2, rfl⟩ := seq_ok h
    simp only [Except.ok.injEq, Prod.mk.injEq] at h1
    rw [← h1.1]
    exact Clean.append (clean_value C _) (ih hn C w1 w' t2 h2)
  | arith k r ih =>
    intro hn C w w' t h
    obtain ⟨t1, w1, t2, h1, h2, rfl⟩ := seq_ok h
    refine Clean.append ?_ (ih hn C w1 w' t2 h2)
    cases hk : E.arith k (note k w) with
    | none => rw [hk] at h1; cases h1
    | some p =>
      rw [hk] at h1
      simp only [Except.ok.injEq, Prod.mk.injEq] at h1
      rw [← h1.1]
      intro x hx
      simp only [List.mem_singleton] at hx
      subst hx
      refine ⟨fun _ _ _ h => (by cases h), ?_⟩
      intro v h
      injection h with h
      rw [← h]
      exact ha k _ p.1 p.2 hk
  | sub len x r ih =>
    intro hn C w w' t h
    obtain ⟨t1, w1, t2, h1, h2, rfl⟩ := seq_ok h
    refine Clean.append ?_ (ih hn C w1 w' t2 h2)
    split at h1
    · cases h1
    · simp only [Except.ok.injEq, Prod.mk.injEq] at h1
      rw [← h1.1]
      exact clean_value C _
  | cond x colon op u r ih1 ih2 =>
    intro hn C w w' t h
    obtain ⟨t1, w1, t2, h1, h2, rfl⟩ := seq_ok h
    refine Clean.append ?_ (ih2 hn.2 C w1 w' t2 h2)
    have hval : ∀ v, (Except.ok (value C v, w) : Den) = .ok (t1, w1) → Clean t1 := by
      intro v hv
      simp only [Except.ok.injEq, Prod.mk.injEq] at hv
      rw [← hv.1]
      exact clean_value C v
    have hword : NoGroup u → Den.seq (.ok (notes C .enter, w)) (den E { C with inn := true } u) = .ok (t1, w1) → Clean t1 := by
      intro hu hw
      obtain ⟨t3, w3, t4, h3, h4, rfl⟩ := seq_ok hw
      simp only [Except.ok.injEq, Prod.mk.injEq] at h3
      rw [← h3.1]
      exact Clean.append (clean_notes C rfl) (ih1 hu _ w3 w1 t4 h4)
    cases op with
    | minus =>
      simp only at h1
      split at h1
      · exact hword (hn.1 (Or.inl rfl)) h1
      · exact hval _ h1
    | plus =>
      simp only at h1
      split at h1
      · exact hval _ h1
      · exact hword (hn.1 (Or.inr rfl)) h1
    | assign =>
      simp only at h1
      split at h1
      · cases h1
      · split at h1
        · split at h1
          · cases h1
          · split at h1
            · cases h1
            · simp only [Except.ok.injEq, Prod.mk.injEq] at h1
              rw [← h1.1]
              exact Clean.append (clean_notes C (by split <;> rfl)) (clean_value C _)
        · exact hval _ h1
    | err =>
      simp only at h1
      split at h1
      · split at h1 <;> cases h1
      · exact hval _ h1
    | trim T =>
      simp only at h1
      split at h1
      · cases h1
      · split at h1
        · cases h1
        · simp only [Except.ok.injEq, Prod.mk.injEq] at h1
          rw [← h1.1]
          exact Clean.append (clean_notes C (by split <;> rfl)) (clean_value C _)
  | group c u r => intro hn; exact absurd hn id
  | bar r => intro hn; exact absurd hn id

/-- An assignment: the variable gets the characters of the word, as a user sees them, whatever MAGIC bytes they
were stored with. -/
theorem string_plain (E : Env) (ha : ∀ k w w' v, E.arith k w = some (w', v) → 7 ∉ v) (f : F) (hf : f.blank = false) (w : World) (wd : Wd)
    (hw : WF false wd) (hn : NoGroup wd) {t : List Tok} {w' : World} (hd : den E (top f) wd w = .ok (t, w')) :
    expand E f w (compile wd) = .wide ∨ ∃ out, expand E f w (compile wd) = .words out w' ∧ debunk (str out) = plain t := by
  rcases string_spec E f hf w wd hw hd with h | ⟨out, h1, -, h2⟩
  · exact Or.inl h
  · exact Or.inr ⟨out, h1, by rw [h2]; exact debunk_text (clean_den E ha wd hn _ _ _ _ hd)⟩

/-! ### The word that is not used -/

/-- Is the word of `${x op w}` used when the parameter has this value? -/
def uses (op : Op) (colon : Bool) (v : Option (List B)) : Prop :=
  match op with
  | .plus => absent colon v = false
  | .trim _ => True
  | _ => absent colon v = true

/-- A word that is not used is not looked at: it may be any word, whatever IFS and the flags are. -/
theorem unused_word (E : Env) (x : Nm) (colon : Bool) (op : Op) (u u' : Wd) (hu : okShort op u) (hu' : okShort op u') (r : Wd) (s : St)
    (h : ¬ uses op colon (s.w.vars x)) :
    run E (compile (.cond x colon op u r)) s = run E (compile (.cond x colon op u' r)) s := by
  have key : ∀ u, okShort op u → run E (compile (.cond x colon op u r)) s =
      if op = .assign ∧ E.assignable x = false then .error .bad s.w else run E (compile r) (dec (puts E true ((s.w.vars x).getD []) (unq (inc s)))) := by
    intro u hu
    have hv := varsub_cond (E := E) (w := s.w) (x := x) (colon := colon) (X := compile r) hu
    have e : compile (.cond x colon op u r) = .osubst false x :: (colonCodes colon ++ (opCodes op ++ (compile u ++ .csubst :: compile r))) := rfl
    rw [e]
    by_cases hA : op = .assign ∧ E.assignable x = false
    · rw [if_pos hA]
      obtain ⟨rfl, hA⟩ := hA
      simp only [hA, if_true] at hv
      rw [run_cons]
      simp only [step, hv]
    · rw [if_neg hA]
      refine run_value ?_ (skip_cond colon op u _)
      rw [hv]
      cases op <;> simp_all [uses]
  rw [key u hu, key u' hu']

/-! ### Wide -/

/-- No `=`, `?`, `#`, `%`. -/
def NoBase : Wd → Prop
  | .nil => True
  | .char _ r | .qchar _ r | .com _ r | .arith _ r | .sub _ _ r | .bar r => NoBase r
  | .quoted w r | .group _ w r => NoBase w ∧ NoBase r
  | .cond _ _ op w r => op.usesBase = false ∧ NoBase w ∧ NoBase r

/-- No substitution in these codes uses its position. -/
def Safe (l : List Code) : Prop := ∀ len x r, (Code.osubst len x :: r) <:+ l → ∀ q n, qualifier r = some (some q, n) → q.2.usesBase = false

theorem Safe.suffix {l m : List Code} (h : Safe l) (hs : m <:+ l) : Safe m := fun len x r hr => h len x r (hr.trans hs)

theorem Safe.cons {c : Code} {l : List Code} (h : Safe l) (hc : ∀ len x, c = .osubst len x → ∀ q n, qualifier l = some (some q, n) → q.2.usesBase = false) : Safe (c :: l) := by
  intro len x r hr
  rcases List.suffix_cons_iff.1 hr with he | hs
  · injection he with h1 h2
    subst h2
    exact hc len x h1.symm
  · exact h len x r hs

theorem skip_suffix : ∀ (l : List Code) (n : Nat), skip n l <:+ l
  | [], n => by simp [skip]
  | c :: l, n => by
    have h := fun m => (skip_suffix l m).trans (List.suffix_cons c l)
    cases c <;> simp only [skip] <;> first
      | exact h _
      | (cases n with
         | zero => exact List.suffix_cons _ _
         | succ n => exact h _)

theorem app_suffix (d : Drop) (r : List Code) : d.app r <:+ r := by
  cases d with
  | none => exact List.suffix_refl _
  | qual n => exact List.drop_suffix _ _
  | word => exact skip_suffix _ _

theorem varsub_expand {E : Env} {w : World} {len : Bool} {x : Nm} {l : List Code} {op : Op} {n : Nat} (h : varsub E w len x l = .expand op n) :
    ∃ c m, qualifier l = some (some (c, op), m) := by
  unfold varsub at h
  cases len with
  | true => simp only [if_true] at h; split at h <;> (try split at h) <;> cases h
  | false =>
    simp only [Bool.false_eq_true, if_false] at h
    cases hq : qualifier l with
    | none => rw [hq] at h; cases h
    | some p =>
      obtain ⟨q, m⟩ := p
      rw [hq] at h
      cases q with
      | none => simp only at h; split at h <;> (try split at h) <;> cases h
      | some q =>
        obtain ⟨c, o⟩ := q
        refine ⟨c, m, ?_⟩
        cases o <;> simp only at h <;> repeat' split at h
        all_goals first | cases h; done | (cases h; rfl)

theorem safe_not_wide (E : Env) : ∀ (n : Nat) (l : List Code) (s : St), l.length ≤ n → Safe l → run E l s ≠ .wide
  | n, [], s, _, _ => by rw [run, finish]; simp
  | 0, c :: l, s, h, _ => by simp at h
  | n + 1, c :: l, s, h, hs => by
    rw [run_cons]
    cases hst : step E c l s with
    | stop res =>
      simp only
      rintro rfl
      have hnamed : ∀ x e w, named E x e w ≠ .wide := by
        intro x e w
        unfold named
        split <;> simp
      cases c with
      | osubst len x =>
        simp only [step] at hst
        cases hv : varsub E s.w len x l with
        | fail e => rw [hv] at hst; simp at hst
        | value v => rw [hv] at hst; simp at hst
        | expand op n =>
          rw [hv] at hst
          simp only [enter] at hst
          obtain ⟨c, m, hq⟩ := varsub_expand hv
          have : op.usesBase = false := hs len x l (List.suffix_refl _) _ _ hq
          rw [if_neg (by simp [this])] at hst
          cases hst
      | csubst =>
        simp only [step] at hst
        cases hk : s.stack with
        | nil => rw [hk] at hst; cases hst
        | cons fr st =>
          rw [hk] at hst
          simp only [leave] at hst
          repeat' (first | cases hst | (injection hst with hst; exact absurd hst (hnamed _ _ _)) | split at hst)
      | arith k =>
        simp only [step] at hst
        split at hst <;> cases hst
      | _ => cases hst
    | go d s' =>
      simp only
      refine safe_not_wide E n _ _ ?_ ((hs.suffix (List.suffix_cons c l)).suffix (app_suffix d l))
      have := d.length l
      simp at h
      omega

theorem Safe.compile {w : Wd} (hn : NoBase w) : ∀ {X : List Code}, Safe X → Safe (compile w ++ X) := by
  have plain : ∀ {c : Code} {l : List Code}, (∀ len x, c ≠ .osubst len x) → Safe l → Safe (c :: l) :=
    fun hc hl => hl.cons fun len x h => absurd h (hc len x)
  induction w with
  | nil => exact fun {X} h => h
  | char c r ih => exact fun {X} h => plain (by simp) (ih hn h)
  | qchar c r ih => exact fun {X} h => plain (by simp) (ih hn h)
  | quoted w r ih1 ih2 =>
    intro X h
    simp only [Subst.compile, List.cons_append, List.append_assoc]
    exact plain (by simp) (ih1 hn.1 (plain (by simp) (ih2 hn.2 h)))
  | com k r ih => exact fun {X} h => plain (by simp) (ih hn h)
  | arith k r ih => exact fun {X} h => plain (by simp) (ih hn h)
  | sub len x r ih =>
    intro X h
    refine Safe.cons (plain (by simp) (ih hn h)) ?_
    intro _ _ _ q n hq
    simp [qualifier] at hq
  | cond x colon op w r ih1 ih2 =>
    intro X h
    obtain ⟨hop, hw, hr⟩ := hn
    have hok : okShort op w := by cases op <;> trivial
    simp only [Subst.compile, List.cons_append, List.append_assoc]
    have h1 : Safe (Subst.compile w ++ .csubst :: (Subst.compile r ++ X)) := ih1 hw (plain (by simp) (ih2 hr h))
    have h2 : Safe (opCodes op ++ (Subst.compile w ++ .csubst :: (Subst.compile r ++ X))) := by
      cases op with
      | minus => exact plain (by simp) h1
      | plus => exact plain (by simp) h1
      | _ => cases hop
    have h3 : Safe (colonCodes colon ++ (opCodes op ++ (Subst.compile w ++ .csubst :: (Subst.compile r ++ X)))) := by
      cases colon with
      | false => exact h2
      | true => exact plain (by simp) h2
    refine h3.cons ?_
    intro _ _ _ q n hq
    rw [qualifier_codes colon op w _ hok] at hq
    injection hq with hq
    injection hq with hq hn
    injection hq with hq
    rw [← hq]
    exact hop
  | group c w r ih1 ih2 =>
    intro X h
    simp only [Subst.compile, List.cons_append, List.append_assoc]
    exact plain (by simp) (ih1 hn.1 (plain (by simp) (ih2 hn.2 h)))
  | bar r ih => exact fun {X} h => plain (by simp) (ih hn h)

/-- A word without `=`, `?`, `#` and `%` is never expanded at a wrong place. -/
theorem not_wide (E : Env) (f : F) (w : World) {wd : Wd} (h : NoBase wd) : expand E f w (compile wd) ≠ .wide := by
  have := Safe.compile h (X := []) (by intro len x r hr; simp at hr)
  rw [List.append_nil] at this
  exact safe_not_wide E _ _ _ (Nat.le_refl _) this

/-! ### The places where the code is wrong -/

/-- Nothing special: IFS is white space, variables have no attributes. -/
def env : Env where
  ifs := ws
  nounset := false
  ro := fun _ => false
  assignable := fun _ => true
  long := fun _ => true
  conv := fun _ v => v
  trim := fun _ v _ => v.tail
  com := fun _ _ => []
  arith := fun _ w => some (w, [])

def noVars : World := ⟨fun _ => none, []⟩

/-- Words and log of a result. -/
def Res.get : Res → Option (List (List B) × List Nat)
  | .words o w => some (o, w.log)
  | _ => none

def want (E : Env) (f : F) (w : World) (wd : Wd) : Option (List (List B)) :=
  match den E (top f) wd w with
  | .ok (t, _) => some (fields E t)
  | .error _ => none

def blanks : F := ⟨true, false, false⟩

/-- `a${x=" b"}`, where `" b"` is `\ b`: the fields are `a` and `b`; the code makes one, `ab`. -/
theorem assign_joined : let wd := Wd.char 97 (.cond 0 false .assign (.qchar 32 (.char 98 .nil)) .nil)
    WF false wd ∧ want env blanks noVars wd = some [[97], [98]] ∧ (expand env blanks noVars (compile wd)).get = some ([[97, 98]], []) := by
  refine ⟨by simp [WF, okShort], by decide +kernel, by decide +kernel⟩

/-- `x="1 2"; a${x#1}` (whatever the pattern is, it takes off the first character): the fields are `a` and
`2`; the code makes one, `a2`. -/
theorem trim_joined : let wd := Wd.char 97 (.cond 0 false (.trim .prefixShort) (.char 49 .nil) .nil)
    let w : World := ⟨fun _ => some [49, 32, 50], []⟩
    WF false wd ∧ want env blanks w wd = some [[97], [50]] ∧ (expand env blanks w (compile wd)).get = some ([[97, 50]], []) := by
  refine ⟨by simp [WF, okShort], by decide +kernel, by decide +kernel⟩

/-- `${x=}`: there is no field; the code makes an empty one. -/
theorem assign_empty : let wd := Wd.cond 0 false .assign .nil .nil
    WF false wd ∧ want env blanks noVars wd = some [] ∧ (expand env blanks noVars (compile wd)).get = some ([[]], []) := by
  refine ⟨by simp [WF, okShort], by decide +kernel, by decide +kernel⟩

/-- `""${x-}`: there is an empty field; the code makes none. -/
theorem quotes_lost : let wd := Wd.quoted .nil (.cond 0 false .minus .nil .nil)
    WF false wd ∧ want env blanks noVars wd = some [[]] ∧ (expand env blanks noVars (compile wd)).get = some ([], []) := by
  refine ⟨by simp [WF, okShort], by decide +kernel, by decide +kernel⟩

/-- `"${x-"a" b c}"` is split at the blanks, although all of it is in quotes: the inner quotes end the outer
ones. -/
theorem inner_quotes_split : (expand env blanks noVars (compile (.quoted
    (.cond 0 false .minus (.quoted (.char 97 .nil) (.char 32 (.char 98 (.char 32 (.char 99 .nil))))) .nil) .nil))).get = some ([[97], [98], [99]], []) := by
  decide +kernel

/-- A place in a string of 32768 characters does not fit. -/
theorem wide_at : ∀ c, expand env blanks noVars (compile (.cond 0 false .assign .nil .nil)) ≠ .wide ∧
    run env (compile (.cond 0 false .assign .nil .nil)) { init blanks noVars with ds := List.replicate 32768 c, word := .word } = .wide := by
  intro c
  refine ⟨?_, ?_⟩
  · intro h
    have := congrArg Res.get h
    revert this
    decide +kernel
  · have : (compile (.cond 0 false .assign .nil .nil)) = head 0 false .assign (compile .nil ++ .csubst :: []) := rfl
    rw [this, run_enter]
    · exact if_pos ⟨rfl, by simp only [List.length_replicate]; exact Nat.le_refl _⟩
    · rfl

/-- `readonly a_long_name; ${a_long_name?}` reads the name beyond the end of the copy of the variable. -/
theorem name_overread : ∀ w, w.vars 0 = none → expand { env with ro := fun _ => true } blanks w (compile (.cond 0 false .err .nil .nil)) = .over ∧
    den { env with ro := fun _ => true } (top blanks) (.cond 0 false .err .nil .nil) w = .error (.param 0 none, w) := by
  intro w hw
  have hv : varsub { env with ro := fun _ => true } (init blanks w).w false 0 (colonCodes false ++ (opCodes .err ++ (compile .nil ++ .csubst :: []))) = .expand .err ((colonCodes false).length + (opCodes .err).length) := by
    rw [varsub_cond (by trivial)]
    simp [init, absent, hw]
  have := run_enter hv
  refine ⟨?_, ?_⟩
  · refine this.trans ?_
    rw [if_neg (by simp [init])]
    show run _ [.csubst] _ = _
    rw [run_leave (entered_stack .err 0 (init blanks w))]
    simp [leave, named, env]
  · simp [den, absent, hw, text, Den.seq]

/-! ### Examples -/

/-- `${x-a b}c`, `x` not set: the fields `a` and `bc`, and the text is harmless. -/
example : let wd := Wd.cond 0 false .minus (.char 97 (.char 32 (.char 98 .nil))) (.char 99 .nil)
    (expand env blanks noVars (compile wd)).get = some ([[97], [98, 99]], []) := by decide +kernel

/-- `x=1; ${x-$(cmd)}`: the command is not run; with `x` not set it is. -/
example : (expand env blanks ⟨fun _ => some [49], []⟩ (compile (.cond 0 false .minus (.com 5 .nil) .nil))).get = some ([[49]], []) ∧
    (expand env blanks noVars (compile (.cond 0 false .minus (.com 5 .nil) .nil))).get = some ([], [5]) := by
  decide +kernel

/-- `${x:=${y:-ab}}$x` in an assignment. -/
example : (expand env ⟨false, false, false⟩ noVars (compile (.cond 0 true .assign (.cond 1 true .minus (.char 97 (.char 98 .nil)) .nil) (.sub false 0 .nil)))).get =
    some ([[97, 98, 97, 98]], []) := by decide +kernel

/-- The hypothesis on the notes holds for a text with all kinds of them. -/
example : Harmless env [.c 97 [97] false, .enter, .val, .c 98 [98] true, .anull] := by
  refine ⟨?_, ?_, ?_⟩
  · intro a b h
    match a, h with
    | [_], h => simp only [List.cons_append, List.cons.injEq, List.nil_append] at h; rw [← h.1]; decide
    | [], h => cases h
    | [_, _], h => cases h
    | [_, _, _], h => cases h
    | [_, _, _, _], h => cases h
    | _ :: _ :: _ :: _ :: _ :: _, h => simp at h
  · intro a c b h hd
    match a, h with
    | [_, _], h => 
      simp only [List.cons_append, List.cons.injEq, List.nil_append] at h
      rw [← h.2.2.2.1] at hd
      cases hd
    | [], h => cases h
    | [_], h => cases h
    | [_, _, _], h => cases h
    | [_, _, _, _], h => cases h
    | _ :: _ :: _ :: _ :: _ :: _, h => simp at h
  · intro a b h
    match a, h with
    | [_, _, _, _], h => 
      simp only [List.cons_append, List.cons.injEq, List.nil_append] at h
      obtain ⟨h1, h2, h3, h4, -⟩ := h
      rw [← h1, ← h2, ← h3, ← h4]
      decide
    | [], h => cases h
    | [_], h => cases h
    | [_, _], h => cases h
    | [_, _, _], h => cases h
    | _ :: _ :: _ :: _ :: _ :: _, h => simp at h

end Ksh.Subst
