import Verif.Syn.Grammar
/-! # Lemmas about the parser model: more fuel does not change an answer; tokens -/

namespace Ksh.Syn

/-- `x'` is `x`, unless `x` ran out of fuel. -/
def Res.Le {α : Type} (x x' : Res α) : Prop := x = .out ∨ x' = x

theorem Res.Le.refl {α : Type} (x : Res α) : Res.Le x x := .inr rfl

theorem Res.Le.bind {α β : Type} {x x' : Res α} {f f' : α → St → Res β} (h : Res.Le x x')
    (hf : ∀ a s, Res.Le (f a s) (f' a s)) : Res.Le (x.bind f) (x'.bind f') := by
  rcases h with h | h
  · subst h; exact .inl rfl
  · subst h
    cases x' with
    | ok a s => exact hf a s
    | err => exact .inr rfl
    | out => exact .inl rfl

theorem Res.Le.ite {α : Type} {p : Prop} [Decidable p] {x x' y y' : Res α} (h : Res.Le x x') (h' : Res.Le y y') :
    Res.Le (if p then x else y) (if p then x' else y') := by
  by_cases hp : p <;> simp only [hp, if_true, if_false] <;> assumption

abbrev LeRec (r r' : Call → St → Res Op) : Prop := ∀ c s, Res.Le (r c s) (r' c s)

open Res.Le in
theorem nested_le {r r' : Call → St → Res Op} (h : LeRec r r') (ty close kw io s) :
    Res.Le (nested r ty close kw io s) (nested r' ty close kw io s) := by
  unfold nested
  exact bind (h _ _) fun _ _ => bind (refl _) fun _ _ => h _ _

open Res.Le in
theorem simpleBody_le {cfg : Cfg} {r r' : Call → St → Res Op} (h : LeRec r r') (ev vars args io s) :
    Res.Le (simpleBody cfg r ev vars args io s) (simpleBody cfg r' ev vars args io s) := by
  unfold simpleBody
  cases (tpeek {} s).1 <;> simp only <;> try exact h _ _
  · exact ite (h _ _) (h _ _)
  · refine ite (refl _) (bind (refl _) fun i s => ?_)
    cases i with
    | none => exact refl _
    | some i => exact h _ _
  · refine ite (nested_le h _ _ _ _ _) ?_
    split
    · exact bind (refl _) fun _ _ => bind (h _ _) fun _ _ => h _ _
    · exact refl _

open Res.Le in
theorem forBody_le {r r' : Call → St → Res Op} (h : LeRec r r') (ty s) :
    Res.Le (forBody r ty s) (forBody r' ty s) := by
  unfold forBody
  exact bind (refl _) fun _ _ => ite (bind (refl _) fun _ _ => bind (h _ _) fun _ _ => h _ _) (refl _)

open Res.Le in
theorem whileBody_le {r r' : Call → St → Res Op} (h : LeRec r r') (ty s) :
    Res.Le (whileBody r ty s) (whileBody r' ty s) := by
  unfold whileBody
  exact bind (h _ _) fun _ _ => ite (refl _) (bind (h _ _) fun _ _ => h _ _)

open Res.Le in
theorem cmdBody_le {cfg : Cfg} {o : DbOps} {r r' : Call → St → Res Op} (h : LeRec r r') (c s) :
    Res.Le (cmdBody cfg o r c s) (cmdBody cfg o r' c s) := by
  unfold cmdBody
  split
  · exact h _ _
  · exact h _ _
  · exact nested_le h _ _ _ _ _
  · exact nested_le h _ _ _ _ _
  · exact bind (refl _) fun _ _ => h _ _
  · exact bind (refl _) fun _ _ => h _ _
  · exact forBody_le h _ _
  · exact forBody_le h _ _
  · exact whileBody_le h _ _
  · exact whileBody_le h _ _
  · refine bind (refl _) fun _ s => ?_
    cases closeOf .kin .kesac (token { contin := true, keyword := true } s).1 with
    | none => exact refl _
    | some k => exact bind (h _ _) fun _ _ => h _ _
  · exact bind (h _ _) fun _ _ => bind (h _ _) fun _ _ => bind (refl _) fun _ _ => h _ _
  · exact bind (h _ _) fun _ _ => ite (refl _) (h _ _)
  · exact bind (h _ _) fun _ _ => h _ _
  · exact bind (refl _) fun _ _ => bind (h _ _) fun _ _ => h _ _
  · exact refl _

open Res.Le in
theorem clistBody_le {r r' : Call → St → Res Op} (h : LeRec r r') (multi acc s) :
    Res.Le (clistBody r multi acc s) (clistBody r' multi acc s) := by
  unfold clistBody
  refine bind (h _ _) fun p s => ite (h _ _) (ite (refl _) ?_)
  cases (token {} s).1 <;> simp only <;> first | exact h _ _ | exact refl _

open Res.Le in
theorem body_le {cfg : Cfg} {o : DbOps} {r r' : Call → St → Res Op} (h : LeRec r r') (c s) :
    Res.Le (body cfg o r c s) (body cfg o r' c s) := by
  cases c with
  | clist multi acc => exact clistBody_le h _ _ _
  | andor => exact bind (h _ _) fun _ _ => ite (refl _) (h _ _)
  | andorLoop t =>
    simp only [body]
    cases (token {} s).1 <;> simp only <;> first | exact refl _ | exact bind (h _ _) fun _ _ => ite (refl _) (h _ _)
  | pipeline c => exact bind (h _ _) fun _ _ => ite (refl _) (h _ _)
  | pipeLoop acc =>
    simp only [body]
    cases (token {} s).1 <;> simp only <;> first | exact refl _ | exact bind (h _ _) fun _ _ => ite (refl _) (h _ _)
  | command c => exact h _ _
  | cmd c => exact cmdBody_le (cfg := cfg) h _ _
  | simple ev vars args io => exact simpleBody_le h _ _ _ _ _
  | redirs kw t =>
    refine bind (refl _) fun i s => ?_
    cases i with
    | none => exact refl _
    | some i => exact ite (refl _) (h _ _)
  | dogroup =>
    simp only [body]
    cases closeOf .kdo .kdone (token { contin := true, keyword := true } s).1 with
    | none => exact refl _
    | some k => exact bind (h _ _) fun _ _ => refl _
  | thenpart => exact bind (refl _) fun _ _ => bind (h _ _) fun _ _ => ite (refl _) (bind (h _ _) fun _ _ => refl _)
  | elsepart =>
    simp only [body]
    split
    · exact bind (h _ _) fun _ _ => refl _
    · exact bind (h _ _) fun _ _ => bind (h _ _) fun _ _ => refl _
    · exact refl _
  | cases close acc =>
    refine ite (refl _) ?_
    split <;> exact h _ _
  | pats close acc ps =>
    exact bind (refl _) fun _ _ => ite (h _ _) (bind (refl _) fun _ _ => bind (h _ _) fun _ _ =>
      ite (h _ _) (bind (refl _) fun _ _ => h _ _))
  | funbody w ksh =>
    refine ite ?_ (refl _)
    exact ite (bind (refl _) fun _ _ => bind (h _ _) fun _ _ => refl _) (bind (h _ _) fun _ _ => refl _)

theorem parse_step (cfg : Cfg) (o : DbOps) (n : Nat) : LeRec (parse cfg o n) (parse cfg o (n + 1)) := by
  induction n with
  | zero => exact fun _ _ => .inl rfl
  | succ n ih => exact fun c s => body_le ih c s

/-- More fuel does not change an answer. -/
theorem parse_mono {cfg : Cfg} {o : DbOps} {n m : Nat} (h : n ≤ m) (c : Call) (s : St)
    (hn : parse cfg o n c s ≠ .out) : parse cfg o m c s = parse cfg o n c s := by
  induction h with
  | refl => rfl
  | @step m _ ih => rw [← ih]; exact (parse_step cfg o m c s).resolve_left (by rw [ih]; exact hn)

/-- The parser answers `t` and stops in the state `s'`. -/
def Parses (cfg : Cfg) (o : DbOps) (c : Call) (s : St) (t : Op) (s' : St) : Prop :=
  ∃ n, ∀ m ≥ n, parse cfg o m c s = .ok t s'

theorem Parses.of {cfg : Cfg} {o : DbOps} {n c s t s'} (h : parse cfg o n c s = .ok t s') : Parses cfg o c s t s' :=
  ⟨n, fun _ hm => by rw [parse_mono hm _ _ (by rw [h]; simp), h]⟩

theorem Parses.det {cfg : Cfg} {o : DbOps} {c s t s' u s''} (h : Parses cfg o c s t s') (h' : Parses cfg o c s u s'') :
    t = u ∧ s' = s'' := by
  obtain ⟨n, h⟩ := h
  obtain ⟨m, h'⟩ := h'
  have := (h (max n m) (by omega)).symm.trans (h' (max n m) (by omega))
  cases this; exact ⟨rfl, rfl⟩

/-! ## Tokens -/

/-- The state behind a phrase: one token has been looked at. -/
def atS (l : List Raw) : St := ⟨some (lex KW l).1, (lex KW l).2⟩

def fresh (l : List Raw) : St := ⟨none, l⟩

@[simp] theorem token_fresh (cf : Cf) (l : List Raw) : token cf (fresh l) = ((lex cf l).1, fresh (lex cf l).2) := rfl
@[simp] theorem token_some (cf : Cf) (t : Tok) (l : List Raw) : token cf ⟨some t, l⟩ = (t, fresh l) := rfl
@[simp] theorem token_at (cf : Cf) (l : List Raw) : token cf (atS l) = ((lex KW l).1, fresh (lex KW l).2) := rfl
@[simp] theorem unget_fresh (t : Tok) (l : List Raw) : unget t (fresh l) = ⟨some t, l⟩ := rfl
@[simp] theorem tpeek_fresh (cf : Cf) (l : List Raw) : tpeek cf (fresh l) = ((lex cf l).1, ⟨some (lex cf l).1, (lex cf l).2⟩) := rfl
@[simp] theorem tpeek_some (cf : Cf) (t : Tok) (l : List Raw) : tpeek cf ⟨some t, l⟩ = (t, ⟨some t, l⟩) := rfl
@[simp] theorem tpeek_at (cf : Cf) (l : List Raw) : tpeek cf (atS l) = ((lex KW l).1, atS l) := rfl
@[simp] theorem fresh_eta (l : List Raw) : (⟨none, l⟩ : St) = fresh l := rfl
@[simp] theorem fresh_rest (l : List Raw) : (fresh l).rest = l := rfl
theorem atS_eta (l : List Raw) : (⟨some (lex KW l).1, (lex KW l).2⟩ : St) = atS l := rfl

/-- `CONTIN|KEYWORD` -/
abbrev CK : Cf := { contin := true, keyword := true }

theorem lex_nls (cf : Cf) (h : cf.contin = true) (n : Nat) (l : List Raw) : lex cf (nls n ++ l) = lex cf l := by
  induction n with
  | zero => rfl
  | succ n ih => simp [nls, List.replicate_succ, lex, h] at ih ⊢; exact ih

/-- Every input is newlines and an input that does not begin with one. -/
theorem split_nls (l : List Raw) : ∃ n l', l = nls n ++ l' ∧ l'.head? ≠ some .nl := by
  induction l with
  | nil => exact ⟨0, [], rfl, by simp⟩
  | cons a l ih =>
    by_cases ha : a = .nl
    · obtain ⟨n, l', h, h'⟩ := ih
      exact ⟨n + 1, l', by simp [nls, List.replicate_succ, ha, h], h'⟩
    · exact ⟨0, a :: l, rfl, by simpa using ha⟩

theorem lex_contin (kw es : Bool) (l : List Raw) (h : l.head? ≠ some .nl) :
    lex ⟨true, kw, es⟩ l = lex ⟨false, kw, es⟩ l := by
  cases l with
  | nil => rfl
  | cons a l => cases a <;> first | rfl | simp at h

theorem lex_word (cf : Cf) (w : Word) (r : List Raw) : lex cf (.word w :: r) = (wordTok cf w, r) := rfl

theorem wordTok_kw {w : Word} {k : Kw} (h : kwOf w.ident = some k) : wordTok KW w = .kw k := by
  simp [wordTok, KW, h]

theorem wordTok_free {w : Word} (h : kwOf w.ident = none) (cf : Cf) : wordTok cf w = .word w := by
  unfold wordTok; rw [h]; simp

theorem lexKW_kw {r : Raw} {k : Kw} (h : IsKw k r) (l : List Raw) : lex KW (r :: l) = (.kw k, l) := by
  obtain ⟨w, rfl, h⟩ := h
  rw [lex_word, wordTok_kw h]

theorem lexCK_kw {r : Raw} {k : Kw} (h : IsKw k r) (l : List Raw) : lex CK (r :: l) = (.kw k, l) := by
  obtain ⟨w, rfl, h⟩ := h
  simp [lex_word, wordTok, h]

/-- The token `t` was read from `a`, with or without reserved words. -/
def Reads (kw : Bool) (t : Tok) (a : Raw) : Prop :=
  match t with
  | .kw k => kw = true ∧ IsKw k a
  | .word w => a = .word w ∧ (kw = true → kwOf w.ident = none)
  | .redir x => a = .redir x
  | .pipe => a = .pipe | .amp => a = .amp | .semi => a = .semi | .lpar => a = .lpar | .rpar => a = .rpar
  | .andand => a = .andand | .oror => a = .oror | .dsemi => a = .dsemi | .dlpar => a = .dlpar
  | .coproc => a = .coproc | .nl => a = .nl | .eof => False

/-- A token determines what was read. -/
theorem lex_inv {kw : Bool} {l : List Raw} {t : Tok} {r : List Raw} (h : lex { keyword := kw } l = (t, r)) :
    (t = .eof ∧ l = [] ∧ r = []) ∨ ∃ a, l = a :: r ∧ Reads kw t a := by
  cases l with
  | nil => simp [lex] at h; simp [h]
  | cons a l =>
    right
    cases a <;> simp [lex] at h
    case word w =>
      obtain ⟨rfl, rfl⟩ := h
      refine ⟨.word w, rfl, ?_⟩
      cases kw
      · simp [wordTok, Reads]
      · simp only [wordTok]
        cases hk : kwOf w.ident with
        | none => simp [Reads, hk]
        | some k => simp [Reads, IsKw, hk]
    all_goals (obtain ⟨rfl, rfl⟩ := h; exact ⟨_, rfl, rfl⟩)

/-! ## Trees -/

/-- The commands read so far and what follows. -/
def chainTo (acc : List Op) (u : Op) : Op := if u.isNil then chain .list acc else acc.foldr (block .list) u

theorem chain_concat (ty : Ty) (acc : List Op) (p : Op) : chain ty (acc ++ [p]) = acc.foldr (block ty) p := by
  induction acc with
  | nil => rfl
  | cons a r ih =>
    cases r with
    | nil => rfl
    | cons b r => simp only [List.cons_append, chain, List.foldr_cons] at ih ⊢; rw [← ih]

theorem chainTo_concat (acc : List Op) (p u : Op) (hp : p.isNil = false) :
    chainTo (acc ++ [p]) u = chainTo acc (consList p u) := by
  unfold chainTo consList
  by_cases hu : u.isNil = true
  · simp [hu, hp, chain_concat]
  · have hb : (block .list p u).isNil = false := rfl
    simp [hu, hb]

def patTo (acc : List (List Word × Op)) (u : Op) : Op :=
  acc.foldr (fun p r => .node .pat { vars := some p.1 } p.2 r) u

theorem patChain_eq (acc : List (List Word × Op)) : patChain acc = patTo acc .nil := by
  induction acc with
  | nil => rfl
  | cons a r ih => obtain ⟨vs, l⟩ := a; simp only [patChain, patTo, List.foldr_cons] at ih ⊢; rw [ih]

theorem patTo_concat (acc : List (List Word × Op)) (p : List Word × Op) (u : Op) :
    patTo (acc ++ [p]) u = patTo acc (.node .pat { vars := some p.1 } p.2 u) := by
  simp [patTo]

/-- Commands are not `NULL`, and behind a pipeline there is no bar. -/
theorem Der.shape {cfg : Cfg} {o : DbOps} {nt : NT} {x : List Raw} {e : End} {t : Op} (h : Der cfg o nt x e t) :
    match nt with
    | .list _ | .cases _ => True
    | .cmd | .thenp => t.isNil = false
    | .pipe | .andor => t.isNil = false ∧ 1 ≤ e.lvl := by
  induction h with
  | pipeOne x e t h ih => exact ⟨ih, by simp [End.up]; omega⟩
  | andorOne x e t h ih => exact ih
  | andorAnd x y n e e' t p _ _ _ ih1 ih2 => exact ⟨rfl, ih2.2⟩
  | andorOr x y n e e' t p _ _ _ ih1 ih2 => exact ⟨rfl, ih2.2⟩
  | pipeMore x y n e e' t u _ _ _ ih1 ih2 => exact ⟨rfl, ih2.2⟩
  | _ => first | trivial | rfl

end Ksh.Syn
