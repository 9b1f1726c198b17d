import Verif.Syn.Dbracket
/-! # The parser accepts every command of the grammar -/

namespace Ksh.Syn

variable {cfg : Cfg} {o : DbOps}

theorem Parses.step {c s t s'} (n : Nat) (h : ∀ m ≥ n, body cfg o (parse cfg o m) c s = .ok t s') :
    Parses cfg o c s t s' :=
  ⟨n + 1, fun m hm => by
    obtain ⟨m, rfl⟩ : ∃ k, m = k + 1 := ⟨m - 1, by omega⟩
    exact h m (by omega)⟩

/-! ## What may follow -/

theorem End.ok_not_redir {e : End} {l : List Raw} (h : e.ok l = true) (x : Redir) : (lex KW l).1 ≠ .redir x := by
  intro hl
  rcases lex_inv (kw := true) (l := l) (t := .redir x) (r := (lex KW l).2) (by rw [← hl]; rfl) with ⟨h', _⟩ | ⟨a, hl, ha⟩
  · cases h'
  · have ha : a = .redir x := ha
    subst ha
    rw [hl] at h
    cases e with | mk k lvl => cases k <;> simp [End.ok, End.okR, EK.ok, Raw.isRedir, Raw.starts] at h

theorem lex_head {l : List Raw} {t : Tok} {a : Raw} (h : (lex KW l).1 = t) (ht : t ≠ .eof) (hr : ∀ b, Reads true t b → b = a) :
    ∃ r, l = a :: r ∧ lex KW l = (t, r) := by
  rcases lex_inv (kw := true) (l := l) (t := t) (r := (lex KW l).2) (by rw [← h]; rfl) with ⟨h', _⟩ | ⟨b, hl, hb⟩
  · exact absurd h' ht
  · rw [hr b hb] at hl
    exact ⟨_, hl, by rw [← h]⟩

theorem End.ok_pipe {e : End} {l : List Raw} (h : e.ok l = true) (hl : 1 ≤ e.lvl) : (lex KW l).1 ≠ .pipe := by
  intro hp
  obtain ⟨r, rfl, _⟩ := lex_head (a := .pipe) hp (by simp) (fun _ h => h)
  simp [End.ok, End.okR, hl] at h

theorem End.ok_sep {e : End} {l : List Raw} (h : e.ok l = true) (hl : 2 ≤ e.lvl) :
    (lex KW l).1 ≠ .andand ∧ (lex KW l).1 ≠ .oror ∧ (lex KW l).1 ≠ .semi ∧ (lex KW l).1 ≠ .amp ∧ (lex KW l).1 ≠ .coproc := by
  refine ⟨?_, ?_, ?_, ?_, ?_⟩ <;> intro hp
  · obtain ⟨r, rfl, _⟩ := lex_head (a := .andand) hp (by simp) (fun _ h => h)
    simp [End.ok, End.okR, hl] at h
  · obtain ⟨r, rfl, _⟩ := lex_head (a := .oror) hp (by simp) (fun _ h => h)
    simp [End.ok, End.okR, hl] at h
  · obtain ⟨r, rfl, _⟩ := lex_head (a := .semi) hp (by simp) (fun _ h => h)
    simp [End.ok, End.okR, hl] at h
  · obtain ⟨r, rfl, _⟩ := lex_head (a := .amp) hp (by simp) (fun _ h => h)
    simp [End.ok, End.okR, hl] at h
  · obtain ⟨r, rfl, _⟩ := lex_head (a := .coproc) hp (by simp) (fun _ h => h)
    simp [End.ok, End.okR, hl] at h

theorem End.ok_nl {e : End} {l : List Raw} (h : e.ok l = true) (hl : 3 ≤ e.lvl) : (lex KW l).1 ≠ .nl := by
  intro hp
  obtain ⟨r, rfl, _⟩ := lex_head (a := .nl) hp (by simp) (fun _ h => h)
  simp [End.ok, End.okR, hl] at h

theorem End.ok_up {e : End} {n : Nat} {l : List Raw} (h : (e.up n).ok l = true) : e.ok l = true := by
  cases l with
  | nil => rfl
  | cons a l =>
    simp only [End.ok, End.okR, End.up, ge_iff_le, Bool.and_eq_true, Bool.not_eq_true', Bool.and_eq_false_iff, decide_eq_false_iff_not] at h ⊢
    obtain ⟨⟨⟨h1, h2⟩, h3⟩, h4⟩ := h
    refine ⟨⟨⟨h1, ?_⟩, ?_⟩, ?_⟩
    · rcases h2 with h2 | h2
      · exact .inl (by have := Nat.le_max_left e.lvl n; omega)
      · exact .inr h2
    · rcases h3 with h3 | h3
      · exact .inl (by have := Nat.le_max_left e.lvl n; omega)
      · exact .inr h3
    · rcases h4 with h4 | h4
      · exact .inl (by have := Nat.le_max_left e.lvl n; omega)
      · exact .inr h4

/-! ## Redirections -/

theorem redirs_none {kw : Bool} {t : Op} {s : St} (h : ∀ x, (tpeek { keyword := kw } s).1 ≠ .redir x) :
    Parses cfg o (.redirs kw t) s t (tpeek { keyword := kw } s).2 := by
  refine .step 0 fun m _ => ?_
  have : synio { keyword := kw } s = .ok none (tpeek { keyword := kw } s).2 := by
    unfold synio
    split
    · rename_i x hx; exact absurd hx (h x)
    · rfl
  simp only [body, this, Res.bind]

theorem redirs_at {kw : Bool} {t : Op} {l : List Raw} (h : ∀ x, (lex KW l).1 ≠ .redir x) :
    Parses cfg o (.redirs kw t) (atS l) t (atS l) := by
  have := redirs_none (cfg := cfg) (o := o) (kw := kw) (t := t) (s := atS l) (by simpa using h)
  simpa using this

theorem lexkw_redir (kw : Bool) (r : Redir) (l : List Raw) : lex { keyword := kw } (.redir r :: l) = (.redir r, l) := rfl

theorem synio_redir (kw : Bool) (i : IO) (l : List Raw) :
    synio { keyword := kw } (fresh (.redir i.r :: .word i.w :: l)) = .ok (some i) (fresh l) := by
  simp only [synio, tpeek_fresh, lexkw_redir, fresh_eta, mustWord, token_fresh, lex0_word, Res.bind]

theorem redirs_fresh {kw : Bool} {ty : Ty} {d : Data} {l r : Op} (js : List IO) {rest : List Raw}
    (h : ∀ x, (lex { keyword := kw } rest).1 ≠ .redir x) (hn : d.io.length + js.length ≤ NUFILE) :
    Parses cfg o (.redirs kw (.node ty d l r)) (fresh (ioRaw js ++ rest)) (.node ty { d with io := d.io ++ js } l r)
      ⟨some (lex { keyword := kw } rest).1, (lex { keyword := kw } rest).2⟩ := by
  induction js generalizing d with
  | nil =>
    have := redirs_none (cfg := cfg) (o := o) (kw := kw) (t := .node ty d l r) (s := fresh rest) (by simpa using h)
    simpa [ioRaw] using this
  | cons i js ih =>
    have hd : ¬ d.io.length ≥ NUFILE := by simp at hn; omega
    obtain ⟨n, hi⟩ := ih (d := { d with io := d.io ++ [i] }) (by simp at hn ⊢; omega)
    refine .step n fun m hm => ?_
    have := hi m hm
    simp only [ioRaw, List.cons_append, body, synio_redir, Res.bind, ioCount, hd, if_false, addIo]
    rw [this]; simp

theorem redirs_comp {e : End} {ty : Ty} {d : Data} {l r : Op} (js : List IO) {rest : List Raw}
    (h : e.ok rest = true) (hd : d.io = []) (hn : js.length ≤ NUFILE) :
    Parses cfg o (.redirs true (.node ty d l r)) (fresh (ioRaw js ++ rest)) (.node ty { d with io := js } l r) (atS rest) := by
  have := redirs_fresh (cfg := cfg) (o := o) (kw := true) (ty := ty) (d := d) (l := l) (r := r) js (rest := rest)
    (End.ok_not_redir h) (by simp [hd]; exact hn)
  simp only [hd, List.nil_append] at this
  exact this

/-! ## Motives -/

/-- The calls that read a phrase. -/
def Comp (cfg : Cfg) (o : DbOps) : NT → List Raw → End → Op → Prop
  | .list m, x, e, t => ∀ rest acc, e.ok rest = true → Parses cfg o (.clist m acc) (fresh (x ++ rest)) (chainTo acc t) (atS rest)
  | .andor, x, e, t => ∀ rest t' s', e.ok rest = true → Parses cfg o (.andorLoop t) (atS rest) t' s' →
      Parses cfg o .andor (fresh (x ++ rest)) t' s'
  | .pipe, x, e, t => ∀ rest, e.ok rest = true → ∃ p s1, p.isNil = false ∧
      (∀ contin k, (k > 0 → contin = true) → Parses cfg o (.command contin) (fresh (nls k ++ (x ++ rest))) p s1) ∧
      ∀ acc, Parses cfg o (.pipeLoop (acc ++ [p])) s1 (acc.foldr (block .pipe) t) (atS rest)
  | .cmd, x, e, t => (∃ a y, x = a :: y ∧ a ≠ .nl) ∧ ∀ rest, e.ok rest = true →
      Parses cfg o (.cmd (lex KW (x ++ rest)).1) (fresh (lex KW (x ++ rest)).2) t (atS rest)
  | .thenp, x, e, t => ∀ rest c, IsKw .kfi c → e.okR c = true → Parses cfg o .thenpart (atS (x ++ c :: rest)) t (atS (c :: rest))
  | .cases k, x, e, t => ∀ rest c acc, IsKw k c → e.okR c = true →
      Parses cfg o (.cases k acc) (fresh (x ++ c :: rest)) (patTo acc t) (fresh rest)

/-! ## Commands, pipelines, lists -/

theorem command_of_cmd {x : List Raw} {e : End} {t : Op} (h : Comp cfg o .cmd x e t) {rest : List Raw} (hr : e.ok rest = true)
    (contin : Bool) (k : Nat) (hk : k > 0 → contin = true) :
    Parses cfg o (.command contin) (fresh (nls k ++ (x ++ rest))) t (atS rest) := by
  obtain ⟨⟨a, y, rfl, ha⟩, h⟩ := h
  obtain ⟨n, h⟩ := h rest hr
  refine .step n fun m hm => ?_
  have : lex { contin := contin, keyword := true } (nls k ++ (a :: y ++ rest)) = lex KW (a :: y ++ rest) := by
    cases contin with
    | true =>
      rw [lex_nls _ rfl]
      exact lex_contin true false _ (by simpa using ha)
    | false =>
      have : k = 0 := by
        cases k with
        | zero => rfl
        | succ k => simp at hk
      subst this; rfl
  simp only [body, token_fresh, this]
  exact h m hm

theorem pipeLoop_stop {e : End} {rest : List Raw} (h : e.ok rest = true) (hl : 1 ≤ e.lvl) (acc : List Op) :
    Parses cfg o (.pipeLoop acc) (atS rest) (chain .pipe acc) (atS rest) := by
  refine .step 0 fun m _ => ?_
  have := End.ok_pipe h hl
  simp only [body, token_at]
  rfl

theorem pipeLoop_more {p : Op} {l : List Raw} {s1 : St} (hp : p.isNil = false) {acc : List Op} {t s'}
    (h1 : Parses cfg o (.command true) (fresh l) p s1) (h2 : Parses cfg o (.pipeLoop (acc ++ [p])) s1 t s') :
    Parses cfg o (.pipeLoop acc) (atS (.pipe :: l)) t s' := by
  obtain ⟨n1, h1⟩ := h1
  obtain ⟨n2, h2⟩ := h2
  refine .step (max n1 n2) fun m hm => ?_
  have hl : lex KW (.pipe :: l) = (.pipe, l) := rfl
  simp only [body, token_at, hl, h1 m (by omega), Res.bind, hp, h2 m (by omega)]
  rfl

/-- A pipeline. -/
theorem pipeline_of {x : List Raw} {e : End} {t : Op} (h : Comp cfg o .pipe x e t) {rest : List Raw} (hr : e.ok rest = true)
    (contin : Bool) (k : Nat) (hk : k > 0 → contin = true) :
    Parses cfg o (.pipeline contin) (fresh (nls k ++ (x ++ rest))) t (atS rest) := by
  obtain ⟨p, s1, hp, h1, h2⟩ := h rest hr
  obtain ⟨n1, h1⟩ := h1 contin k hk
  obtain ⟨n2, h2⟩ := h2 []
  refine .step (max n1 n2) fun m hm => ?_
  have := h2 m (by omega)
  simp only [List.nil_append, List.foldr_nil] at this
  simp [body, h1 m (by omega), Res.bind, hp, this]

theorem andorLoop_stop {e : End} {rest : List Raw} (h : e.ok rest = true) (hl : 2 ≤ e.lvl) (t : Op) :
    Parses cfg o (.andorLoop t) (atS rest) t (atS rest) := by
  refine .step 0 fun m _ => ?_
  have := End.ok_sep h hl
  simp only [body, token_at]
  split
  · rename_i h; exact absurd h this.1
  · rename_i h; exact absurd h this.2.1
  · rfl

theorem andorLoop_and {t p : Op} {l : List Raw} {s1 : St} {t' s'} (hp : p.isNil = false)
    (h1 : Parses cfg o (.pipeline true) (fresh l) p s1) (h2 : Parses cfg o (.andorLoop (block .and t p)) s1 t' s') :
    Parses cfg o (.andorLoop t) (atS (.andand :: l)) t' s' := by
  obtain ⟨n1, h1⟩ := h1
  obtain ⟨n2, h2⟩ := h2
  refine .step (max n1 n2) fun m hm => ?_
  have hl : lex KW (.andand :: l) = (.andand, l) := rfl
  simp only [body, token_at, hl, h1 m (by omega), Res.bind, hp, h2 m (by omega)]
  rfl

theorem andorLoop_or {t p : Op} {l : List Raw} {s1 : St} {t' s'} (hp : p.isNil = false)
    (h1 : Parses cfg o (.pipeline true) (fresh l) p s1) (h2 : Parses cfg o (.andorLoop (block .or t p)) s1 t' s') :
    Parses cfg o (.andorLoop t) (atS (.oror :: l)) t' s' := by
  obtain ⟨n1, h1⟩ := h1
  obtain ⟨n2, h2⟩ := h2
  refine .step (max n1 n2) fun m hm => ?_
  have hl : lex KW (.oror :: l) = (.oror, l) := rfl
  simp only [body, token_at, hl, h1 m (by omega), Res.bind, hp, h2 m (by omega)]
  rfl

/-- Where no command begins. -/
theorem cmd_none {l : List Raw} (h : (End.mk .noCmd 0).ok l = true) :
    Parses cfg o (.cmd (lex KW l).1) (fresh (lex KW l).2) .nil (atS l) := by
  refine .step 0 fun m _ => ?_
  cases l with
  | nil => rfl
  | cons a l =>
    cases a with
    | word w =>
      cases hk : kwOf w.ident with
      | none => simp [End.ok, End.okR, EK.ok, Raw.starts, hk] at h
      | some k =>
        have hl : lex KW (.word w :: l) = (.kw k, l) := by rw [lex_word, wordTok_kw hk]
        simp only [atS, hl]
        cases k <;> first | rfl | simp [End.ok, End.okR, EK.ok, Raw.starts, hk, Kw.starts] at h
    | redir r => simp [End.ok, End.okR, EK.ok, Raw.starts] at h
    | lpar => simp [End.ok, End.okR, EK.ok, Raw.starts] at h
    | dlpar => simp [End.ok, End.okR, EK.ok, Raw.starts] at h
    | _ => rfl

theorem command_none {l : List Raw} (h : (End.mk .noCmd 0).ok l = true) :
    Parses cfg o (.command false) (fresh l) .nil (atS l) := by
  obtain ⟨n, h⟩ := cmd_none (cfg := cfg) (o := o) h
  exact .step n fun m hm => h m hm

theorem pipeline_none {l : List Raw} (h : (End.mk .noCmd 0).ok l = true) :
    Parses cfg o (.pipeline false) (fresh l) .nil (atS l) := by
  obtain ⟨n, h⟩ := command_none (cfg := cfg) (o := o) h
  exact .step n fun m hm => by simp [body, h m hm, Res.bind, Op.isNil]

theorem andor_none {l : List Raw} (h : (End.mk .noCmd 0).ok l = true) :
    Parses cfg o .andor (fresh l) .nil (atS l) := by
  obtain ⟨n, h⟩ := pipeline_none (cfg := cfg) (o := o) h
  exact .step n fun m hm => by simp [body, h m hm, Res.bind, Op.isNil]

theorem command_none_contin {l : List Raw} (j : Nat) (h : (End.mk .noCmdNl 0).ok l = true) :
    Parses cfg o (.command true) (fresh (nls j ++ l)) .nil (atS l) := by
  have h0 : (End.mk .noCmd 0).ok l = true := by
    cases l with
    | nil => rfl
    | cons a l => simp [End.ok, End.okR, EK.ok] at h ⊢; exact h.1
  have h1 : l.head? ≠ some .nl := by
    cases l with
    | nil => simp
    | cons a l => simp [End.ok, End.okR, EK.ok] at h ⊢; exact h.2
  obtain ⟨n, h⟩ := cmd_none (cfg := cfg) (o := o) h0
  refine .step n fun m hm => ?_
  have : lex CK (nls j ++ l) = lex KW l := by rw [lex_nls _ rfl]; exact lex_contin true false l h1
  simp only [body, token_fresh, this]
  exact h m hm

theorem clist_nls {acc : List Op} {l : List Raw} {t s'} (n : Nat) (h : Parses cfg o (.clist true acc) (fresh l) t s') :
    Parses cfg o (.clist true acc) (fresh (nls n ++ l)) t s' := by
  induction n with
  | zero => exact h
  | succ n ih =>
    obtain ⟨n1, h1⟩ := andor_none (cfg := cfg) (o := o) (l := .nl :: (nls n ++ l)) rfl
    obtain ⟨n2, h2⟩ := ih
    refine .step (max n1 n2) fun m hm => ?_
    have hl : lex KW (.nl :: (nls n ++ l)) = (.nl, nls n ++ l) := rfl
    have hc : nls (n + 1) ++ l = .nl :: (nls n ++ l) := rfl
    simp only [hc, body, clistBody, h1 m (by omega), Res.bind, token_at, hl, Op.isNil, and_self, if_true]
    exact h2 m (by omega)

theorem clist_end {e : End} {m : Bool} {acc : List Op} {l rest : List Raw} {t : Op} (ht : t.isNil = false)
    (hr : (e.up (listLvl m)).ok rest = true) (h : Parses cfg o .andor (fresh l) t (atS rest)) :
    Parses cfg o (.clist m acc) (fresh l) (chain .list (acc ++ [t])) (atS rest) := by
  obtain ⟨n, h⟩ := h
  refine .step n fun m' hm => ?_
  have h2 := End.ok_sep hr (by simp [End.up, listLvl]; split <;> omega)
  have h3 : ¬ ((lex KW rest).1 = .nl ∧ m = true) := by
    rintro ⟨h3, rfl⟩
    exact End.ok_nl hr (by simp [End.up, listLvl]; omega) h3
  simp only [body, clistBody, h m' hm, Res.bind, token_at, h3, if_false, ht]
  simp only [Bool.false_eq_true, if_false]
  split
  · rename_i h; exact absurd h h2.2.2.2.1
  · rename_i h; exact absurd h h2.2.2.2.2
  · rename_i h; exact absurd h h2.2.2.1
  · rfl

theorem clist_more {m : Bool} {r : Raw} {acc : List Op} {l y : List Raw} {t p : Op} {t' s'} (ht : t.isNil = false)
    (hs : sepTree m r t = some p) (h : Parses cfg o .andor (fresh l) t (atS (r :: y)))
    (h' : Parses cfg o (.clist m (acc ++ [p])) (fresh y) t' s') : Parses cfg o (.clist m acc) (fresh l) t' s' := by
  obtain ⟨n1, h⟩ := h
  obtain ⟨n2, h'⟩ := h'
  refine .step (max n1 n2) fun m' hm => ?_
  have h2 := h' m' (by omega)
  cases r <;> simp [sepTree] at hs
  case amp =>
    have hl : lex KW (.amp :: y) = (.amp, y) := rfl
    simp [body, clistBody, h m' (by omega), Res.bind, hl, ht, hs, h2]
  case semi =>
    have hl : lex KW (.semi :: y) = (.semi, y) := rfl
    subst hs
    simp [body, clistBody, h m' (by omega), Res.bind, hl, ht, h2]
  case coproc =>
    have hl : lex KW (.coproc :: y) = (.coproc, y) := rfl
    simp [body, clistBody, h m' (by omega), Res.bind, hl, ht, hs, h2]
  case nl =>
    have hl : lex KW (.nl :: y) = (.nl, y) := rfl
    obtain ⟨rfl, rfl⟩ := hs
    simp [body, clistBody, h m' (by omega), Res.bind, hl, ht, h2]

theorem starts_rpar (l : List Raw) : lex KW (.rpar :: l) = (.rpar, l) := rfl

/-! ## Simple commands -/

/-- The state of the loop for simple commands after the parts `es`. -/
def simpleCall (cfg : Cfg) (es : List Elem) : Call :=
  .simple (declares cfg es) (asnWords cfg (elemWords es)) (argWords cfg (elemWords es)) (elemIos es)

theorem elemIos_append (a b : List Elem) : elemIos (a ++ b) = elemIos a ++ elemIos b := by
  induction a with
  | nil => rfl
  | cons x a ih => cases x <;> simp [elemIos, ih]

theorem elemWords_append (a b : List Elem) : elemWords (a ++ b) = elemWords a ++ elemWords b := by
  induction a with
  | nil => rfl
  | cons x a ih => cases x <;> simp [elemWords, ih]

theorem elemsRaw_append (a b : List Elem) : elemsRaw (a ++ b) = elemsRaw a ++ elemsRaw b := by
  induction a with
  | nil => rfl
  | cons x a ih => simp [elemsRaw, ih]

theorem takeWhile_snoc {α : Type} (p : α → Bool) (l : List α) (a : α) :
    (l ++ [a]).takeWhile p = if l.dropWhile p = [] ∧ p a = true then l.takeWhile p ++ [a] else l.takeWhile p := by
  induction l with
  | nil => by_cases h : p a = true <;> simp [h]
  | cons b l ih =>
    by_cases h : p b = true
    · simp [h, ih]; split <;> simp
    · simp [h]

theorem dropWhile_snoc {α : Type} (p : α → Bool) (l : List α) (a : α) :
    (l ++ [a]).dropWhile p = if l.dropWhile p = [] ∧ p a = true then l.dropWhile p else l.dropWhile p ++ [a] := by
  induction l with
  | nil => by_cases h : p a = true <;> simp [h]
  | cons b l ih =>
    by_cases h : p b = true
    · simp [h, ih]
    · simp [h]

theorem simpleCall_io (es : List Elem) (i : IO) :
    simpleCall cfg (es ++ [.io i]) =
      .simple (declares cfg es) (asnWords cfg (elemWords es)) (argWords cfg (elemWords es)) (elemIos es ++ [i]) := by
  have : declares cfg (es ++ [.io i]) = declares cfg es := by
    cases es with
    | nil => rfl
    | cons a es => cases a <;> rfl
  simp [simpleCall, elemIos_append, elemWords_append, elemIos, elemWords, this]

theorem asn_arg_nil (ws : List Word) (h1 : asnWords cfg ws = []) (h2 : argWords cfg ws = []) : ws = [] := by
  cases ws with
  | nil => rfl
  | cons w ws =>
    exfalso
    unfold asnWords at h1
    unfold argWords at h2
    cases hk : cfg.keyword <;> cases hw : w.asn <;> simp [hk, hw] at h1 h2

theorem parts_nil (es : List Elem) :
    (elemIos es = [] ∧ asnWords cfg (elemWords es) = [] ∧ argWords cfg (elemWords es) = []) ↔ es = [] := by
  constructor
  · rintro ⟨h1, h2, h3⟩
    have hw := asn_arg_nil _ h2 h3
    cases es with
    | nil => rfl
    | cons a es => cases a <;> simp [elemIos, elemWords] at h1 hw
  · rintro rfl
    simp [elemIos, elemWords, asnWords, argWords]

theorem simpleCall_word (es : List Elem) (w : Word) :
    simpleCall cfg (es ++ [.wd w]) =
      (if (argWords cfg (elemWords es) = [] ∨ cfg.keyword = true) ∧ w.asn = true then
        .simple (if elemIos es = [] ∧ asnWords cfg (elemWords es) = [] ∧ argWords cfg (elemWords es) = [] ∧ assignCommand cfg w.ident = true
            then true else declares cfg es)
          (asnWords cfg (elemWords es) ++ [w]) (argWords cfg (elemWords es)) (elemIos es)
      else
        .simple (if elemIos es = [] ∧ asnWords cfg (elemWords es) = [] ∧ argWords cfg (elemWords es) = [] ∧ assignCommand cfg w.ident = true
            then true else declares cfg es)
          (asnWords cfg (elemWords es)) (argWords cfg (elemWords es) ++ [w]) (elemIos es)) := by
  have hd : declares cfg (es ++ [.wd w]) =
      if elemIos es = [] ∧ asnWords cfg (elemWords es) = [] ∧ argWords cfg (elemWords es) = [] ∧ assignCommand cfg w.ident = true
        then true else declares cfg es := by
    cases es with
    | nil =>
      simp only [declares, List.nil_append, elemIos, elemWords]
      cases assignCommand cfg w.ident <;> simp [asnWords, argWords]
    | cons a es =>
      rw [if_neg]
      · cases a <;> rfl
      · rintro ⟨h1, h2, h3, _⟩
        exact absurd ((parts_nil (cfg := cfg) (a :: es)).1 ⟨h1, h2, h3⟩) (by simp)
  simp only [simpleCall, hd, elemIos_append, elemWords_append, elemIos, elemWords, List.append_nil]
  unfold asnWords argWords
  cases hk : cfg.keyword
  · simp only [Bool.false_eq_true, if_false, or_false, takeWhile_snoc, dropWhile_snoc]
    by_cases hc : List.dropWhile (fun x => x.asn) (elemWords es) = [] ∧ w.asn = true
    · rw [if_pos hc, if_pos hc, if_pos hc]
    · rw [if_neg hc, if_neg hc, if_neg hc]
  · cases hw : w.asn <;> simp [hw]

theorem simple_first {a : Raw} {l : List Raw} {t s'} (ha : (∃ w, a = .word w ∧ w.free) ∨ ∃ r, a = .redir r)
    (h : Parses cfg o (simpleCall cfg []) (fresh (a :: l)) t s') :
    Parses cfg o (.cmd (lex KW (a :: l)).1) (fresh (lex KW (a :: l)).2) t s' := by
  obtain ⟨n, h⟩ := h
  refine .step (n + 1) fun m hm => ?_
  have h := h m (by omega)
  obtain ⟨m, rfl⟩ : ∃ k, m = k + 1 := ⟨m - 1, by omega⟩
  have hc : simpleCall cfg [] = .simple false [] [] [] := by simp [simpleCall, declares, elemWords, elemIos, asnWords, argWords]
  rw [hc] at h
  rcases ha with ⟨w, rfl, hw⟩ | ⟨r, rfl⟩
  · have hl : lex KW (.word w :: l) = (.word w, l) := by rw [lex_word, wordTok_free hw]
    simp only [hl, body, cmdBody]
    exact h
  · exact h

/-! ## Commands of other forms -/

theorem nested_complete {x : List Raw} {e : End} {t : Op} (h : Comp cfg o (.list true) x e t) {c : Raw} {ct : Tok}
    (hc : ∀ l, lex KW (c :: l) = (ct, l)) (he : e.okR c = true) {ty : Ty} {io : List IO} {kw : Bool} {l : List Raw} {t' s'}
    (hr : Parses cfg o (.redirs kw (.node ty { io := io } t .nil)) (fresh l) t' s') :
    ∃ n, ∀ m ≥ n, nested (parse cfg o m) ty ct kw io (fresh (x ++ c :: l)) = .ok t' s' := by
  obtain ⟨n1, h⟩ := h (c :: l) [] he
  obtain ⟨n2, hr⟩ := hr
  refine ⟨max n1 n2, fun m hm => ?_⟩
  have h1 := h m (by omega)
  have hct : chainTo [] t = t := by
    unfold chainTo
    cases t <;> simp [Op.isNil, chain]
  rw [hct] at h1
  simp only [nested, h1, Res.bind, musthave, token_at, hc, if_true, hr m (by omega)]

theorem chainTo_nil (t : Op) : chainTo [] t = t := by
  unfold chainTo
  cases t <;> simp [Op.isNil, chain]

/-- `do ... done` behind newlines or behind a token that has been looked at. -/
theorem dogroup_complete {s : St} {b c : Raw} {x l : List Raw} {e : End} {t : Op} (hs : token CK s = ((lex KW (b :: (x ++ c :: l))).1, fresh (x ++ c :: l)))
    (hbc : (IsKw .kdo b ∧ IsKw .kdone c) ∨ (IsKw .klbrace b ∧ IsKw .krbrace c)) (h : Comp cfg o (.list true) x e t) (he : e.okR c = true) :
    Parses cfg o .dogroup s t (fresh l) := by
  obtain ⟨n1, h⟩ := h (c :: l) [] he
  rw [chainTo_nil] at h
  refine .step n1 fun m hm => ?_
  rcases hbc with ⟨hb, hc⟩ | ⟨hb, hc⟩
  · simp [body, hs, lexKW_kw hb, closeOf, h m hm, Res.bind, musthave, lexKW_kw hc]
  · simp [body, hs, lexKW_kw hb, closeOf, h m hm, Res.bind, musthave, lexKW_kw hc]

theorem takeWords_map (ws : List Word) (t : Raw) (l : List Raw) (h : t.isWord = false) :
    takeWords (ws.map .word ++ t :: l) = (ws, t :: l) := by
  induction ws with
  | nil => cases t <;> first | rfl | simp [Raw.isWord] at h
  | cons w ws ih => simp [takeWords, ih]

/-- `wordlist` stops where `dogroup` goes on. -/
theorem wordlist_complete {y : List Raw} {vs : Option (List Word)} (h : ForWords y vs) {b : Raw} {n : Nat} {z : List Raw}
    (hb : IsKw .kdo b ∨ IsKw .klbrace b) :
    ∃ s, wordlist (fresh (y ++ (nls n ++ b :: z))) = .ok vs s ∧ token CK s = ((lex KW (b :: z)).1, fresh z) := by
  have hlb : lex CK (b :: z) = ((lex KW (b :: z)).1, z) := by
    rcases hb with hb | hb <;> rw [lexCK_kw hb, lexKW_kw hb]
  cases h with
  | words k r t ws hr ht =>
    refine ⟨fresh (nls n ++ b :: z), ?_, by rw [token_fresh, lex_nls _ rfl, hlb]⟩
    have h1 : lex CK (nls k ++ r :: (ws.map .word ++ [t]) ++ (nls n ++ b :: z)) = (.kw .kin, ws.map .word ++ (t :: (nls n ++ b :: z))) := by
      rw [List.append_assoc, lex_nls _ rfl, List.cons_append, lexCK_kw hr]; simp
    rcases ht with rfl | rfl
    · simp only [wordlist, token_fresh, h1, fresh_rest, takeWords_map ws .nl _ rfl, fresh_eta]
    · simp only [wordlist, token_fresh, h1, fresh_rest, takeWords_map ws .semi _ rfl, fresh_eta]
  | semi k =>
    refine ⟨fresh (nls n ++ b :: z), ?_, by rw [token_fresh, lex_nls _ rfl, hlb]⟩
    have h1 : lex CK (nls k ++ [.semi] ++ (nls n ++ b :: z)) = (.semi, nls n ++ b :: z) := by
      rw [List.append_assoc, lex_nls _ rfl]; rfl
    simp only [wordlist, token_fresh, h1]
  | none =>
    refine ⟨⟨some (lex KW (b :: z)).1, z⟩, ?_, rfl⟩
    have h1 : lex CK ([] ++ (nls n ++ b :: z)) = ((lex KW (b :: z)).1, z) := by rw [List.nil_append, lex_nls _ rfl, hlb]
    simp only [wordlist, token_fresh, h1]
    rcases hb with hb | hb <;> rw [lexKW_kw hb] <;> rfl

/-- The patterns of a part. -/
theorem pats_complete {k : Kw} (p : Word) (ws ps : List Word) {acc : List (List Word × Op)} {y : List Raw} {t s'}
    (h : ∀ qs q, qs ++ [q] = ps ++ p :: ws → Parses cfg o (.pats k acc qs) (fresh (.word q :: .rpar :: y)) t s') :
    Parses cfg o (.pats k acc ps) (fresh (patsRaw (p :: ws) ++ .rpar :: y)) t s' := by
  induction ws generalizing p ps with
  | nil => exact h ps p rfl
  | cons w ws ih =>
    obtain ⟨n, hi⟩ := ih w (ps ++ [p]) (by intro qs q hq; exact h qs q (by simp [hq]))
    refine .step n fun m hm => ?_
    have hl : lex {} (.pipe :: (patsRaw (w :: ws) ++ .rpar :: y)) = (.pipe, patsRaw (w :: ws) ++ .rpar :: y) := rfl
    simp only [body, patsRaw, List.cons_append, mustWord, token_fresh, lex0_word, Res.bind, hl, if_true]
    exact hi m hm

/-- The last pattern, the list and what closes it. -/
theorem pats_last {k : Kw} {qs : List Word} {q : Word} {acc : List (List Word × Op)} {x : List Raw} {e : End} {l : Op}
    (h : Comp cfg o (.list true) x e l) {c : Raw} {rest : List Raw} (hc : IsKw k c) (he : e.okR c = true) :
    Parses cfg o (.pats k acc qs) (fresh (.word q :: .rpar :: (x ++ c :: rest))) (patTo acc (.node .pat { vars := some (qs ++ [q]) } l .nil))
      (fresh rest) := by
  obtain ⟨n, h⟩ := h (c :: rest) [] he
  rw [chainTo_nil] at h
  refine .step (n + 1) fun m hm => ?_
  have h := h m (by omega)
  obtain ⟨m, rfl⟩ : ∃ j, m = j + 1 := ⟨m - 1, by omega⟩
  have hl : ∀ cf r, lex cf (.rpar :: r) = (.rpar, r) := fun _ _ => rfl
  simp only [body, mustWord, token_fresh, lex0_word, Res.bind, hl, unget_fresh, musthave, token_some, if_true, h, tpeek_at, lexKW_kw hc,
    reduceCtorEq, if_false]
  simp only [parse, body, tpeek_at, lexKW_kw hc, if_true, musthave, token_at, Res.bind, patChain_eq, patTo_concat]

theorem pats_more {k : Kw} {qs : List Word} {q : Word} {acc : List (List Word × Op)} {x : List Raw} {e : End} {l : Op}
    (h : Comp cfg o (.list true) x e l) {y : List Raw} {u : Op} {s' : St} (he : e.okR .dsemi = true)
    (hy : Parses cfg o (.cases k (acc ++ [(qs ++ [q], l)])) (fresh y) u s') :
    Parses cfg o (.pats k acc qs) (fresh (.word q :: .rpar :: (x ++ .dsemi :: y))) u s' := by
  obtain ⟨n1, h⟩ := h (.dsemi :: y) [] he
  rw [chainTo_nil] at h
  obtain ⟨n2, hy⟩ := hy
  refine .step (max n1 n2) fun m hm => ?_
  have h := h m (by omega)
  have hl : ∀ cf r, lex cf (.rpar :: r) = (.rpar, r) := fun _ _ => rfl
  have hl2 : ∀ cf r, lex cf (.dsemi :: r) = (.dsemi, r) := fun _ _ => rfl
  simp only [body, mustWord, token_fresh, lex0_word, Res.bind, hl, unget_fresh, musthave, token_some, if_true, h, tpeek_at, hl2,
    reduceCtorEq, if_false, token_at, hy m (by omega)]

/-- The start of a part. -/
theorem cases_start {k : Kw} (hk : k = .kesac ∨ k = .krbrace) (n : Nat) (op : Bool) (p : Word) (ps : List Word)
    {acc : List (List Word × Op)} {y : List Raw} {t s'}
    (hp : op = false → kwOf p.ident ≠ some .kesac ∧ kwOf p.ident ≠ some .krbrace)
    (h : Parses cfg o (.pats k acc []) (fresh (patsRaw (p :: ps) ++ .rpar :: y)) t s') :
    Parses cfg o (.cases k acc) (fresh (nls n ++ ((if op then [.lpar] else []) ++ (patsRaw (p :: ps) ++ .rpar :: y)))) t s' := by
  obtain ⟨n1, h⟩ := h
  refine .step (n1 + 1) fun m hm => ?_
  have h := h m (by omega)
  obtain ⟨m, rfl⟩ : ∃ j, m = j + 1 := ⟨m - 1, by omega⟩
  cases op with
  | true =>
    have hl : lex { contin := true, keyword := true, esac := true } (nls n ++ ([.lpar] ++ (patsRaw (p :: ps) ++ .rpar :: y))) =
        (.lpar, patsRaw (p :: ps) ++ .rpar :: y) := by rw [lex_nls _ rfl]; rfl
    simp only [body, if_true, tpeek_fresh, hl, reduceCtorEq, if_false, token_some]
    exact h
  | false =>
    obtain ⟨z, hz⟩ : ∃ z, patsRaw (p :: ps) ++ .rpar :: y = .word p :: z := by cases ps <;> simp [patsRaw]
    have hw : wordTok { contin := true, keyword := true, esac := true } p = .word p := by
      simp only [wordTok, if_true]
      cases hk : kwOf p.ident with
      | none => rfl
      | some k =>
        have hp := hp rfl
        rw [hk] at hp
        refine if_neg ?_
        simp at hp ⊢; exact hp
    have hl : lex { contin := true, keyword := true, esac := true } (nls n ++ (.word p :: z)) = (.word p, z) := by
      rw [lex_nls _ rfl, lex_word, hw]
    rw [hz] at h ⊢
    simp only [body, Bool.false_eq_true, List.nil_append, tpeek_fresh, hl, reduceCtorEq, if_false, token_some, unget_fresh]
    exact h

theorem cases_close {k : Kw} (hk : k = .kesac ∨ k = .krbrace) (n : Nat) {c : Raw} (hc : IsKw k c) (acc : List (List Word × Op)) (rest : List Raw) :
    Parses cfg o (.cases k acc) (fresh (nls n ++ c :: rest)) (patTo acc .nil) (fresh rest) := by
  refine .step 0 fun m hm => ?_
  have hl : lex { contin := true, keyword := true, esac := true } (nls n ++ c :: rest) = (.kw k, rest) := by
    rw [lex_nls _ rfl]
    obtain ⟨w, rfl, hw⟩ := hc
    rw [lex_word]
    rcases hk with rfl | rfl <;> simp [wordTok, hw]
  simp only [body, tpeek_fresh, hl, if_true, musthave, token_some, Res.bind, patChain_eq]

theorem okR_eq (e : End) (r : Raw) (l : List Raw) : e.ok (r :: l) = e.okR r := rfl

theorem mustWord_fresh (cf : Cf) (hc : cf.contin = false) (hk : cf.keyword = false) (w : Word) (l : List Raw) :
    mustWord cf (fresh (.word w :: l)) = .ok w (fresh l) := by
  have : lex cf (.word w :: l) = (.word w, l) := by simp [lex, wordTok, hk]
  simp [mustWord, this]

/-- Redirections only: no words. -/
theorem ios_elems (is : List IO) : elemsRaw (is.map .io) = ioRaw is ∧ elemIos (is.map .io) = is ∧ elemWords (is.map .io) = [] := by
  induction is with
  | nil => exact ⟨rfl, rfl, rfl⟩
  | cons i is ih => simp [elemsRaw, Elem.raw, ioRaw, elemIos, elemWords, ih]

/-- The loop for simple commands reads any parts. -/
theorem simple_parts {l : List Raw} {t s'} (fs es : List Elem) (hn : (elemIos (es ++ fs)).length ≤ NUFILE)
    (h : Parses cfg o (simpleCall cfg (es ++ fs)) (fresh l) t s') :
    Parses cfg o (simpleCall cfg es) (fresh (elemsRaw fs ++ l)) t s' := by
  induction fs generalizing es with
  | nil => simpa [elemsRaw] using h
  | cons f fs ih =>
    have hass : es ++ f :: fs = (es ++ [f]) ++ fs := by simp
    obtain ⟨n, hi⟩ := ih (es ++ [f]) (by rw [← hass]; exact hn) (by rw [← hass]; exact h)
    refine .step n fun m hm => ?_
    have hi := hi m hm
    rw [← hi]
    cases f with
    | io i =>
      rw [simpleCall_io]
      have hlen : ¬ (elemIos es).length ≥ NUFILE := by simp [elemIos_append, elemIos] at hn; omega
      have hs := synio_redir false i (elemsRaw fs ++ l)
      simp only [simpleCall, body, simpleBody, elemsRaw, Elem.raw, List.cons_append, List.nil_append, tpeek_fresh, lexkw_redir, hlen, if_false,
        hs, Res.bind]
    | wd w =>
      rw [simpleCall_word]
      simp only [simpleCall, body, simpleBody, elemsRaw, Elem.raw, List.cons_append, List.nil_append, tpeek_fresh, lex0_word, fresh_eta]
      split <;> rfl

theorem simple_stop {rest : List Raw} (h : (End.mk .simple 0).ok rest = true) (es : List Elem) :
    Parses cfg o (simpleCall cfg es) (fresh rest) (simpleTree cfg es) (atS rest) := by
  have h0 : lex {} rest = lex KW rest ∧ (∀ w, (lex {} rest).1 ≠ .word w) ∧ (∀ r, (lex {} rest).1 ≠ .redir r) ∧ (lex {} rest).1 ≠ .lpar := by
    cases rest with
    | nil => simp [lex]
    | cons a rest => cases a <;> first | (simp [End.ok, End.okR, EK.ok, Raw.isWord, Raw.isRedir] at h; done) | simp [lex, KW]
  obtain ⟨n, hr⟩ := redirs_at (cfg := cfg) (o := o) (kw := false) (t := simpleTree cfg es) (l := rest) (by rw [← h0.1]; exact h0.2.2.1)
  refine .step n fun m hm => ?_
  simp only [simpleCall, body, simpleBody, tpeek_fresh]
  split
  · rename_i r hr; exact absurd hr (h0.2.2.1 r)
  · rename_i w hw; exact absurd hw (h0.2.1 w)
  · rename_i hl; exact absurd hl h0.2.2.2
  · rw [h0.1]; exact hr m hm

theorem elemsRaw_start {es : List Elem} (h : freeStart es) (l : List Raw) :
    ∃ a y, elemsRaw es ++ l = a :: (y ++ l) ∧ elemsRaw es = a :: y ∧ a ≠ .nl ∧ ((∃ w, a = .word w ∧ w.free) ∨ ∃ r, a = .redir r) := by
  cases es with
  | nil => exact h.elim
  | cons e es =>
    cases e with
    | io i => exact ⟨.redir i.r, .word i.w :: elemsRaw es, by simp [elemsRaw, Elem.raw], rfl, by simp, .inr ⟨_, rfl⟩⟩
    | wd w => exact ⟨.word w, elemsRaw es, by simp [elemsRaw, Elem.raw], rfl, by simp, .inl ⟨w, rfl, h⟩⟩

theorem IsKw.ne_nl {k : Kw} {a : Raw} (h : IsKw k a) : a ≠ .nl := by
  obtain ⟨w, rfl, _⟩ := h; simp

/-- A function whose name has been read. -/
theorem fn_call {w : Word} {l : List Raw} {t : Op} {s1 : St} (hw : w.free) (ha : w.asn = false)
    (hb : Parses cfg o (.funbody w false) (fresh l) t s1) (hr : Parses cfg o (.redirs false t) s1 t s1) :
    Parses cfg o (.cmd (lex KW (.word w :: .lpar :: .rpar :: l)).1) (fresh (lex KW (.word w :: .lpar :: .rpar :: l)).2) t s1 := by
  refine simple_first (.inl ⟨w, rfl, hw⟩) ?_
  refine simple_parts [.wd w] [] (by simp [elemIos]) ?_
  obtain ⟨n1, hb⟩ := hb
  obtain ⟨n2, hr⟩ := hr
  refine .step (max n1 n2) fun m hm => ?_
  have hl : ∀ r, lex {} (.lpar :: r) = (.lpar, r) := fun _ => rfl
  have hl2 : ∀ r, lex {} (.rpar :: r) = (.rpar, r) := fun _ => rfl
  have hargs : argWords cfg [w] = [w] ∧ asnWords cfg [w] = [] := by
    unfold argWords asnWords
    cases cfg.keyword <;> simp [ha]
  simp only [simpleCall, List.nil_append, elemWords, elemIos, hargs, body, simpleBody, tpeek_fresh, hl, reduceCtorEq, false_and, if_false,
    fresh_eta, musthave, token_fresh, hl2, if_true, Res.bind, hb m (by omega), hr m (by omega)]

theorem funbody_of {w : Word} {l : List Raw} {t : Op} {s1 : St} (hv : validName w.strip = true)
    (h : Parses cfg o (.command true) (fresh l) t s1) :
    Parses cfg o (.funbody w false) (fresh l) (.node .funct { str := w.strip } (if t.isNil then colon else t) .nil) s1 := by
  obtain ⟨n, h⟩ := h
  exact .step n fun m hm => by simp [body, hv, h m hm, Res.bind]

/-- Every phrase of the grammar is accepted, with its tree. -/
theorem Der.complete {nt : NT} {x : List Raw} {e : End} {t : Op} (h : Der cfg o nt x e t)
    (hnt : ∀ k, nt = .cases k → k = .kesac ∨ k = .krbrace) : Comp cfg o nt x e t := by
  induction h with
  | listNil n =>
    intro rest acc hr
    refine clist_nls n ?_
    have h0 : (End.mk .noCmd 0).ok rest = true := by
      cases rest with
      | nil => rfl
      | cons a l => simp [End.ok, End.okR, EK.ok] at hr ⊢; exact hr.1
    have h1 : (lex KW rest).1 ≠ .nl := by
      intro hp
      obtain ⟨r, rfl, _⟩ := lex_head (a := .nl) hp (by simp) (fun _ h => h)
      simp [End.ok, End.okR, EK.ok] at hr
    obtain ⟨n, h⟩ := andor_none (cfg := cfg) (o := o) h0
    refine .step n fun m hm => ?_
    simp [body, clistBody, h m hm, Res.bind, h1, Op.isNil, chainTo, atS]
  | listNil1 =>
    intro rest acc hr
    obtain ⟨n, h⟩ := andor_none (cfg := cfg) (o := o) hr
    refine .step n fun m hm => ?_
    simp [body, clistBody, h m hm, Res.bind, Op.isNil, chainTo, atS]
  | listOne m n x e t hm hx ih =>
    intro rest acc hr
    have ih := ih (by simp)
    have ht := hx.shape
    have h1 : 2 ≤ (e.up (listLvl m)).lvl := by simp [End.up, listLvl]; split <;> omega
    have h2 := ih rest t (atS rest) (End.ok_up hr) (andorLoop_stop hr h1 t)
    have h3 := clist_end (acc := acc) ht.1 hr h2
    have h4 : chain .list (acc ++ [t]) = chainTo acc t := by
      rw [chain_concat]; simp [chainTo, ht.1]
    rw [h4] at h3
    cases n with
    | zero => simpa [nls] using h3
    | succ n =>
      have hm := hm (by omega)
      subst hm
      rw [List.append_assoc]
      exact clist_nls (n + 1) h3
  | listMore m n x y e e' t u p r hm hx hr hs hy ihx ihy =>
    intro rest acc hrest
    have ihx := ihx (by simp)
    have ihy := ihy (by simp)
    have ht := hx.shape
    have hp : p.isNil = false := by
      unfold sepTree at hs
      split at hs
      · cases hs; exact ht.1
      · split at hs
        · cases hs; exact ht.1
        · cases hs
      · cases hs; rfl
      · cases hs; rfl
      · cases hs
    have hl : Parses cfg o (.andorLoop t) (atS (r :: (y ++ rest))) t (atS (r :: (y ++ rest))) := by
      refine .step 0 fun m _ => ?_
      simp only [body, token_at]
      cases r <;> first | (simp [sepTree] at hs; done) | rfl
    have h2 := ihx (r :: (y ++ rest)) t _ hr hl
    have h3 := clist_more ht.1 hs h2 (ihy rest (acc ++ [p]) hrest)
    rw [chainTo_concat _ _ _ hp] at h3
    cases n with
    | zero => simpa [nls] using h3
    | succ n =>
      have hm := hm (by omega)
      subst hm
      simp only [List.append_assoc, List.cons_append]
      exact clist_nls (n + 1) h3
  | andorOne x e t hx ih =>
    intro rest t' s' hr h
    obtain ⟨n1, h1⟩ := pipeline_of (ih (by simp)) hr false 0 (by simp)
    obtain ⟨n2, h2⟩ := h
    refine .step (max n1 n2) fun m hm => ?_
    have h1 := h1 m (by omega)
    simp only [nls, List.replicate_zero, List.nil_append] at h1
    simp [body, h1, Res.bind, hx.shape.1, h2 m (by omega)]
  | andorAnd x y n e e' t p hx he hy ihx ihy =>
    intro rest t' s' hr h
    have h1 := pipeline_of (ihy (by simp)) hr true n (by simp)
    have := (ihx (by simp)) (.andand :: (nls n ++ (y ++ rest))) t' s' he (andorLoop_and hy.shape.1 h1 h)
    simpa using this
  | andorOr x y n e e' t p hx he hy ihx ihy =>
    intro rest t' s' hr h
    have h1 := pipeline_of (ihy (by simp)) hr true n (by simp)
    have := (ihx (by simp)) (.oror :: (nls n ++ (y ++ rest))) t' s' he (andorLoop_or hy.shape.1 h1 h)
    simpa using this
  | pipeOne x e t hx ih =>
    intro rest hr
    refine ⟨t, atS rest, hx.shape, fun contin k hk => command_of_cmd (ih (by simp)) (End.ok_up hr) contin k hk, fun acc => ?_⟩
    have := pipeLoop_stop (cfg := cfg) (o := o) hr (by simp [End.up]; omega) (acc ++ [t])
    rwa [chain_concat] at this
  | pipeMore x y n e e' t u hx he hy ihx ihy =>
    intro rest hr
    obtain ⟨p, s1, hp, h1, h2⟩ := ihy (by simp) rest hr
    refine ⟨t, atS (.pipe :: (nls n ++ (y ++ rest))), hx.shape, fun contin k hk => ?_, fun acc => ?_⟩
    · have := command_of_cmd (ihx (by simp)) (rest := .pipe :: (nls n ++ (y ++ rest))) he contin k hk
      simpa using this
    · have := pipeLoop_more hp (h1 true n (by simp)) (h2 (acc ++ [t]))
      simpa using this
  | simple es hf hn =>
    obtain ⟨a, y, _, hy, ha, _⟩ := elemsRaw_start hf []
    refine ⟨⟨a, y, hy, ha⟩, fun rest hr => ?_⟩
    obtain ⟨a, y, h1, _, _, h4⟩ := elemsRaw_start hf rest
    have := simple_parts (cfg := cfg) (o := o) es [] (by simpa using hn) (by simpa using simple_stop hr es)
    rw [h1] at this ⊢
    exact simple_first h4 this
  | rsub is js x e t his hn hx he ih =>
    obtain ⟨hi1, hi2, hi3⟩ := ios_elems is
    obtain ⟨i, is', rfl⟩ := List.exists_cons_of_ne_nil his
    refine ⟨⟨_, _, rfl, by simp⟩, fun rest hr => ?_⟩
    refine simple_first (a := .redir i.r) (.inr ⟨_, rfl⟩) ?_
    have hre : lex {} rest = lex KW rest := by
      cases rest with
      | nil => rfl
      | cons a rest => cases a <;> first | (simp [End.ok, End.okR, EK.ok, Raw.isWord, Raw.isRedir] at hr; done) | simp [lex, KW]
    have hred := redirs_fresh (cfg := cfg) (o := o) (kw := false) (ty := .paren) (d := { io := i :: is' }) (l := t) (r := .nil) js (rest := rest)
      (by have := End.ok_not_redir hr; rw [← hre] at this; exact this) (by simp at hn ⊢; omega)
    obtain ⟨n, hnest⟩ := nested_complete (ih (by simp)) starts_rpar he hred
    have hmid : Parses cfg o (simpleCall cfg ([] ++ (i :: is').map .io)) (fresh (.lpar :: (x ++ .rpar :: (ioRaw js ++ rest))))
        (.node .paren { io := i :: is' ++ js } t .nil) (atS rest) := by
      refine .step n fun m hm => ?_
      have := hnest m hm
      have hl : ∀ r, lex {} (.lpar :: r) = (.lpar, r) := fun _ => rfl
      simp only [simpleCall, List.nil_append, hi2, hi3, body, simpleBody, tpeek_fresh, hl, fresh_eta]
      rw [if_pos (by simp [argWords, asnWords]), this]
      show Res.ok _ (⟨some (lex {} rest).1, (lex {} rest).2⟩ : St) = _
      rw [hre]; rfl
    have := simple_parts (cfg := cfg) (o := o) ((i :: is').map .io) [] (by rw [List.nil_append, hi2]; simp at hn ⊢; omega) hmid
    rw [hi1] at this
    simpa [ioRaw] using this
  | fn w n x e t hw ha hv hx ih =>
    refine ⟨⟨_, _, rfl, by simp⟩, fun rest hr => ?_⟩
    have h1 := command_of_cmd (ih (by simp)) hr true n (by simp)
    have h2 := funbody_of hv h1
    rw [hx.shape] at h2
    have := fn_call hw ha h2 (redirs_at (End.ok_not_redir hr))
    simpa using this
  | fnNone w n hw ha hv =>
    refine ⟨⟨_, _, rfl, by simp⟩, fun rest hr => ?_⟩
    have h2 := funbody_of hv (command_none_contin (cfg := cfg) (o := o) n hr)
    exact fn_call hw ha h2 (redirs_at (End.ok_not_redir hr))
  | kfn w k b n x e t hk hv hb hx ih =>
    refine ⟨⟨_, _, rfl, hk.ne_nl⟩, fun rest hr => ?_⟩
    obtain ⟨n1, h1⟩ := (ih (by simp)).2 rest hr
    obtain ⟨n2, h2⟩ := redirs_at (cfg := cfg) (o := o) (kw := true) (t := .node .funct { str := w.strip, ev := true } t .nil) (End.ok_not_redir hr)
    refine .step (max (n1 + 2) n2) fun m hm => ?_
    have h2 := h2 m (by omega)
    have h1 := h1 (m - 2) (by omega)
    obtain ⟨m, rfl⟩ : ∃ j, m = j + 2 := ⟨m - 2, by omega⟩
    rw [Nat.add_sub_cancel] at h1
    have hlb : lex CK (nls n ++ (b :: x) ++ rest) = (.kw .klbrace, x ++ rest) := by
      rw [List.append_assoc, lex_nls _ rfl, List.cons_append, lexCK_kw hb]
    simp only [List.cons_append, lexKW_kw hb] at h1
    have hs := hx.shape
    simp only at hs
    have hfb : parse cfg o (m + 2) (.funbody w true) (fresh (nls n ++ (b :: x) ++ rest)) =
        .ok (.node .funct { str := w.strip, ev := true } t .nil) (atS rest) := by
      show body cfg o (parse cfg o (m + 1)) (.funbody w true) _ = _
      simp only [body, hv, if_true, musthave, token_fresh, hlb, Res.bind, unget_fresh]
      have : parse cfg o (m + 1) (.command true) ⟨some (.kw .klbrace), x ++ rest⟩ = .ok t (atS rest) := h1
      simp [this, hs]
    simp only [List.cons_append, lexKW_kw hk, body, cmdBody, mustWord_fresh {} rfl rfl, Res.bind, hfb, h2]
  | paren js x e t hn hx he ih =>
    refine ⟨⟨_, _, rfl, by simp⟩, fun rest hr => ?_⟩
    obtain ⟨n, h⟩ := nested_complete (ih (by simp)) starts_rpar he (redirs_comp (cfg := cfg) (o := o) (ty := .paren) (d := {}) (l := t) (r := .nil) js hr rfl hn)
    refine .step n fun m hm => ?_
    have := h m hm
    simpa [lex, body, cmdBody] using this
  | brace a b js x e t ha hb hn hx he ih =>
    refine ⟨⟨_, _, rfl, ha.ne_nl⟩, fun rest hr => ?_⟩
    obtain ⟨n, h⟩ := nested_complete (ih (by simp)) (fun l => lexKW_kw hb l) he (redirs_comp (cfg := cfg) (o := o) (ty := .brace) (d := {}) (l := t) (r := .nil) js hr rfl hn)
    refine .step n fun m hm => ?_
    have := h m hm
    simpa [lexKW_kw ha, body, cmdBody] using this
  | letc w js hn =>
    refine ⟨⟨_, _, rfl, by simp⟩, fun rest hr => ?_⟩
    obtain ⟨n, h⟩ := redirs_comp (cfg := cfg) (o := o) (ty := .com) (d := { vars := some [], args := some [plainWord ['l', 'e', 't'], w] }) (l := .nil) (r := .nil) js hr rfl hn
    refine .step n fun m hm => ?_
    have := h m hm
    have hl : ∀ r, lex KW (.dlpar :: r) = (.dlpar, r) := fun _ => rfl
    simp only [List.cons_append, hl, body, cmdBody, mustWord_fresh {} rfl rfl, Res.bind, this]
  | dbr a x ws js ha hx hn =>
    refine ⟨⟨_, _, rfl, ha.ne_nl⟩, fun rest hr => ?_⟩
    obtain ⟨n, h⟩ := redirs_comp (cfg := cfg) (o := o) (ty := .dbracket) (d := { vars := some [], args := some ws }) (l := .nil) (r := .nil) js hr rfl hn
    have hd := (dbracket_iff o (x ++ (ioRaw js ++ rest)) ws (fresh (ioRaw js ++ rest))).2 ⟨x, _, rfl, hx, rfl⟩
    refine .step n fun m hm => ?_
    have := h m hm
    simp only [List.cons_append, List.append_assoc, lexKW_kw ha, body, cmdBody, hd, Res.bind, this]
  | «for» a ty w y vs n b c x e t js ha hw hy hbc hx he hn ih =>
    have hane : a ≠ .nl := by rcases ha with ⟨h, _⟩ | ⟨h, _⟩ <;> exact h.ne_nl
    refine ⟨⟨_, _, rfl, hane⟩, fun rest hr => ?_⟩
    obtain ⟨n1, h⟩ := redirs_comp (cfg := cfg) (o := o) (ty := ty) (d := { str := w.ident, vars := vs }) (l := t) (r := .nil) js hr rfl hn
    have hb : IsKw .kdo b ∨ IsKw .klbrace b := hbc.imp And.left And.left
    obtain ⟨s, hwl, htok⟩ := wordlist_complete hy (n := n) (z := x ++ c :: (ioRaw js ++ rest)) hb
    obtain ⟨n2, hd⟩ := dogroup_complete htok hbc (ih (by simp)) he
    refine .step (max n1 n2) fun m hm => ?_
    have h := h m (by omega)
    have hd := hd m (by omega)
    have hfor : forBody (parse cfg o m) ty (fresh (.word w :: (y ++ (nls n ++ b :: (x ++ c :: (ioRaw js ++ rest)))))) =
        .ok (.node ty { str := w.ident, vars := vs, io := js } t .nil) (atS rest) := by
      simp only [forBody, mustWord_fresh {} rfl rfl, Res.bind, hw, if_true, hwl, hd, h]
    simp only [List.cons_append, List.append_assoc]
    rcases ha with ⟨ha, rfl⟩ | ⟨ha, rfl⟩
    · rw [lexKW_kw ha]; exact hfor
    · rw [lexKW_kw ha]; exact hfor
  | «while» a ty x e l b c y e' t js ha hx hl he hbc hy he' hn ihx ihy =>
    have hane : a ≠ .nl := by rcases ha with ⟨h, _⟩ | ⟨h, _⟩ <;> exact h.ne_nl
    refine ⟨⟨_, _, rfl, hane⟩, fun rest hr => ?_⟩
    obtain ⟨n1, h⟩ := redirs_comp (cfg := cfg) (o := o) (ty := ty) (d := {}) (l := l) (r := t) js hr rfl hn
    obtain ⟨n2, hc⟩ := (ihx (by simp)) (b :: (y ++ c :: (ioRaw js ++ rest))) [] he
    rw [chainTo_nil] at hc
    have htok : token CK (atS (b :: (y ++ c :: (ioRaw js ++ rest)))) =
        ((lex KW (b :: (y ++ c :: (ioRaw js ++ rest)))).1, fresh (y ++ c :: (ioRaw js ++ rest))) := by
      rw [token_at]
      rcases hbc with ⟨hb, _⟩ | ⟨hb, _⟩ <;> rw [lexKW_kw hb]
    obtain ⟨n3, hd⟩ := dogroup_complete htok hbc (ihy (by simp)) he'
    have hln : l.isNil = false := by cases l <;> first | rfl | exact absurd rfl hl
    refine .step (max n1 (max n2 n3)) fun m hm => ?_
    have h := h m (by omega)
    have hd := hd m (by omega)
    have hc := hc m (by omega)
    have hwh : whileBody (parse cfg o m) ty (fresh (x ++ b :: (y ++ c :: (ioRaw js ++ rest)))) =
        .ok (.node ty { io := js } l t) (atS rest) := by
      simp only [whileBody, hc, Res.bind, hln, hd, block]
      simpa using h
    simp only [List.cons_append, List.append_assoc]
    rcases ha with ⟨ha, rfl⟩ | ⟨ha, rfl⟩
    · rw [lexKW_kw ha]; exact hwh
    · rw [lexKW_kw ha]; exact hwh
  | case a w n b c k x e t js ha hb hc hx he hn ih =>
    refine ⟨⟨_, _, rfl, ha.ne_nl⟩, fun rest hr => ?_⟩
    obtain ⟨n1, h⟩ := redirs_comp (cfg := cfg) (o := o) (ty := .case) (d := { word := some w }) (l := t) (r := .nil) js hr rfl hn
    have hk : k = .kesac ∨ k = .krbrace := hb.imp And.right And.right
    obtain ⟨n2, hx⟩ := (ih (by rintro k ⟨⟩; exact hk)) (ioRaw js ++ rest) c [] hc he
    refine .step (max n1 n2) fun m hm => ?_
    have h := h m (by omega)
    have hx := hx m (by omega)
    have hpt : patTo [] t = t := rfl
    rw [hpt] at hx
    have hlb : ∃ kb, lex CK (nls n ++ b :: (x ++ c :: (ioRaw js ++ rest))) = (.kw kb, x ++ c :: (ioRaw js ++ rest)) ∧
        closeOf .kin .kesac (.kw kb) = some k := by
      rcases hb with ⟨hb, rfl⟩ | ⟨hb, rfl⟩
      · exact ⟨.kin, by rw [lex_nls _ rfl, lexCK_kw hb], rfl⟩
      · exact ⟨.klbrace, by rw [lex_nls _ rfl, lexCK_kw hb], rfl⟩
    obtain ⟨kb, hlb, hcl⟩ := hlb
    simp only [List.cons_append, List.append_assoc, lexKW_kw ha, body, cmdBody, mustWord_fresh {} rfl rfl, Res.bind, token_fresh, hlb, hcl, hx, h]
  | «if» a c x e l y e' t js ha hx he hy hc he' hn ihx ihy =>
    refine ⟨⟨_, _, rfl, ha.ne_nl⟩, fun rest hr => ?_⟩
    obtain ⟨n1, h⟩ := redirs_comp (cfg := cfg) (o := o) (ty := .if) (d := {}) (l := l) (r := t) js hr rfl hn
    have he2 : e.ok (y ++ c :: (ioRaw js ++ rest)) = true := by
      cases y with
      | nil => cases hy
      | cons b y => exact he
    obtain ⟨n2, h2⟩ := (ihx (by simp)) (y ++ c :: (ioRaw js ++ rest)) [] he2
    rw [chainTo_nil] at h2
    obtain ⟨n3, h3⟩ := (ihy (by simp)) (ioRaw js ++ rest) c hc he'
    refine .step (max n1 (max n2 n3)) fun m hm => ?_
    have h := h m (by omega)
    have h2 := h2 m (by omega)
    have h3 := h3 m (by omega)
    simp only [List.cons_append, List.append_assoc, lexKW_kw ha, body, cmdBody, h2, Res.bind, h3, musthave, token_at, lexKW_kw hc, if_true, block, h]
  | bang a x e t ha hx ih =>
    refine ⟨⟨_, _, rfl, ha.ne_nl⟩, fun rest hr => ?_⟩
    obtain ⟨n1, h1⟩ := pipeline_of (ih (by simp)) hr false 0 (by simp)
    obtain ⟨n2, h2⟩ := redirs_at (cfg := cfg) (o := o) (kw := false) (t := block .bang .nil t) (End.ok_not_redir hr)
    refine .step (max n1 n2) fun m hm => ?_
    have h1 := h1 m (by omega)
    simp only [nls, List.replicate_zero, List.nil_append] at h1
    simp [List.cons_append, lexKW_kw ha, body, cmdBody, h1, Res.bind, hx.shape.1, h2 m (by omega)]
  | time a x e t ha hx ih =>
    refine ⟨⟨_, _, rfl, ha.ne_nl⟩, fun rest hr => ?_⟩
    obtain ⟨n1, h1⟩ := pipeline_of (ih (by simp)) hr false 0 (by simp)
    obtain ⟨n2, h2⟩ := redirs_at (cfg := cfg) (o := o) (kw := false) (t := block .time t .nil) (End.ok_not_redir hr)
    refine .step (max n1 n2) fun m hm => ?_
    have h1 := h1 m (by omega)
    simp only [nls, List.replicate_zero, List.nil_append] at h1
    simp [List.cons_append, lexKW_kw ha, body, cmdBody, h1, Res.bind, h2 m (by omega)]
  | timeNone a ha =>
    refine ⟨⟨_, _, rfl, ha.ne_nl⟩, fun rest hr => ?_⟩
    obtain ⟨n1, h1⟩ := pipeline_none (cfg := cfg) (o := o) hr
    obtain ⟨n2, h2⟩ := redirs_at (cfg := cfg) (o := o) (kw := false) (t := block .time .nil .nil) (End.ok_not_redir hr)
    refine .step (max n1 n2) fun m hm => ?_
    simp [List.cons_append, lexKW_kw ha, body, cmdBody, h1 m (by omega), Res.bind, h2 m (by omega)]
  | «then» a x e t ha hx ht ih =>
    intro rest c hc he
    obtain ⟨n1, h1⟩ := (ih (by simp)) (c :: rest) [] he
    rw [chainTo_nil] at h1
    have htn : t.isNil = false := by cases t <;> first | rfl | exact absurd rfl ht
    refine .step (n1 + 1) fun m hm => ?_
    have h1 := h1 m (by omega)
    obtain ⟨m, rfl⟩ : ∃ j, m = j + 1 := ⟨m - 1, by omega⟩
    have hep : parse cfg o (m + 1) .elsepart (atS (c :: rest)) = .ok .nil (atS (c :: rest)) := by
      show body cfg o (parse cfg o m) .elsepart _ = _
      have hat : atS (c :: rest) = ⟨some (.kw .kfi), rest⟩ := by simp [atS, lexKW_kw hc]
      rw [hat]; rfl
    simp [body, musthave, lexKW_kw ha, Res.bind, h1, htn, hep]
  | thenElse a b x y e e' t u ha hx ht hb he hy hu ihx ihy =>
    intro rest c hc he'
    obtain ⟨n1, h1⟩ := (ihx (by simp)) (b :: (y ++ c :: rest)) [] he
    obtain ⟨n2, h2⟩ := (ihy (by simp)) (c :: rest) [] he'
    rw [chainTo_nil] at h1 h2
    have htn : t.isNil = false := by cases t <;> first | rfl | exact absurd rfl ht
    have hun : u.isNil = false := by cases u <;> first | rfl | exact absurd rfl hu
    refine .step (max n1 n2 + 1) fun m hm => ?_
    have h1 := h1 m (by omega)
    have h2 := h2 (m - 1) (by omega)
    obtain ⟨m, rfl⟩ : ∃ j, m = j + 1 := ⟨m - 1, by omega⟩
    rw [Nat.add_sub_cancel] at h2
    have hep : parse cfg o (m + 1) .elsepart (atS (b :: (y ++ c :: rest))) = .ok u (atS (c :: rest)) := by
      show body cfg o (parse cfg o m) .elsepart _ = _
      simp [body, lexKW_kw hb, h2, Res.bind, hun]
    simp [body, musthave, lexKW_kw ha, Res.bind, h1, htn, hep]
  | thenElif a b x y z e e' e'' t l u ha hx ht hb he hy he' hz ihx ihy ihz =>
    intro rest c hc hec
    have he2 : e'.ok (z ++ c :: rest) = true := by
      cases z with
      | nil => cases hz
      | cons b y => exact he'
    obtain ⟨n1, h1⟩ := (ihx (by simp)) (b :: (y ++ (z ++ c :: rest))) [] he
    obtain ⟨n2, h2⟩ := (ihy (by simp)) (z ++ c :: rest) [] he2
    obtain ⟨n3, h3⟩ := (ihz (by simp)) rest c hc hec
    rw [chainTo_nil] at h1 h2
    have htn : t.isNil = false := by cases t <;> first | rfl | exact absurd rfl ht
    refine .step (max n1 (max n2 n3) + 1) fun m hm => ?_
    have h1 := h1 m (by omega)
    have h2 := h2 (m - 1) (by omega)
    have h3 := h3 (m - 1) (by omega)
    obtain ⟨m, rfl⟩ : ∃ j, m = j + 1 := ⟨m - 1, by omega⟩
    rw [Nat.add_sub_cancel] at h2 h3
    have hep : parse cfg o (m + 1) .elsepart (atS (b :: (y ++ (z ++ c :: rest)))) = .ok (block .elif l u) (atS (c :: rest)) := by
      show body cfg o (parse cfg o m) .elsepart _ = _
      simp [body, lexKW_kw hb, h2, Res.bind, h3]
    simp [body, musthave, lexKW_kw ha, Res.bind, h1, htn, hep]
  | caseNil k n =>
    intro rest c acc hc _
    exact cases_close (hnt k rfl) n hc acc rest
  | caseLast k n op p ps x e t hp hx ih =>
    intro rest c acc hc he
    have hk := hnt k rfl
    have := cases_start (cfg := cfg) (o := o) (acc := acc) hk n op p ps (y := x ++ c :: rest) hp (pats_complete p ps [] fun qs q hq => by
      have := pats_last (acc := acc) (qs := qs) (q := q) (ih (by simp)) (rest := rest) hc he
      rw [hq] at this; exact this)
    simpa using this
  | caseMore k n op p ps x y e e' t u hp hx he hy ihx ihy =>
    intro rest c acc hc he'
    have hk := hnt k rfl
    have := cases_start (cfg := cfg) (o := o) (acc := acc) hk n op p ps (y := x ++ .dsemi :: (y ++ c :: rest)) hp (pats_complete p ps [] fun qs q hq => by
      have := pats_more (acc := acc) (qs := qs) (q := q) (ihx (by simp)) he ((ihy (by rintro k ⟨⟩; exact hk)) rest c (acc ++ [(qs ++ [q], t)]) hc he')
      rw [hq, patTo_concat] at this; exact this)
    simpa using this

end Ksh.Syn
