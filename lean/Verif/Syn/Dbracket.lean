import Verif.Syn.Lemmas
/-! # `[[`: what is accepted is exactly the grammar of conditions -/

namespace Ksh.Syn

/-- The state after a look at the next token that is not a newline. -/
def ctS (l : List Raw) : St := ⟨some (lex CONTIN l).1, (lex CONTIN l).2⟩

theorem dbIs_fresh (p : Tok → Option Word) (l : List Raw) : dbIs p CONTIN (fresh l) = dbIs p CONTIN (ctS l) := rfl

theorem dbIs_ct (p : Tok → Option Word) (cf : Cf) (l : List Raw) :
    dbIs p cf (ctS l) = match p (lex CONTIN l).1 with
      | some w => (some w, fresh (lex CONTIN l).2)
      | none => (none, ctS l) := rfl

theorem dbIs_fresh0 (p : Tok → Option Word) (l : List Raw) :
    dbIs p {} (fresh l) = match p (lex {} l).1 with
      | some w => (some w, fresh (lex {} l).2)
      | none => (none, ⟨some (lex {} l).1, (lex {} l).2⟩) := rfl

/-- A token determines what was read. -/
theorem lexC_inv {l : List Raw} {t : Tok} {r : List Raw} (h : lex CONTIN l = (t, r)) :
    t = .eof ∨ ∃ n a, l = nls n ++ a :: r ∧ Reads false t a := by
  obtain ⟨n, l', rfl, hl⟩ := split_nls l
  rw [lex_nls _ rfl, show CONTIN = ⟨true, false, false⟩ from rfl, lex_contin _ _ _ hl] at h
  rcases lex_inv (kw := false) h with ⟨h, _⟩ | ⟨a, ha, hr⟩
  · exact .inl h
  · exact .inr ⟨n, a, by rw [ha], hr⟩

theorem lexC_nls (n : Nat) (l : List Raw) : lex CONTIN (nls n ++ l) = lex CONTIN l := lex_nls _ rfl _ _

theorem ctS_nls (n : Nat) (l : List Raw) : ctS (nls n ++ l) = ctS l := by unfold ctS; rw [lexC_nls]

theorem lexC_word (w : Word) (r : List Raw) : lex CONTIN (.word w :: r) = (.word w, r) := rfl

theorem lex0_word (w : Word) (r : List Raw) : lex {} (.word w :: r) = (.word w, r) := rfl

theorem pOr_some {t : Tok} {w : Word} (h : pOr t = some w) : t = .oror ∧ w = dbWord .or := by
  cases t <;> simp [pOr] at h; exact ⟨rfl, h.symm⟩
theorem pAnd_some {t : Tok} {w : Word} (h : pAnd t = some w) : t = .andand ∧ w = dbWord .and := by
  cases t <;> simp [pAnd] at h; exact ⟨rfl, h.symm⟩
theorem pOpar_some {t : Tok} {w : Word} (h : pOpar t = some w) : t = .lpar ∧ w = dbWord .opar := by
  cases t <;> simp [pOpar] at h; exact ⟨rfl, h.symm⟩
theorem pCpar_some {t : Tok} {w : Word} (h : pCpar t = some w) : t = .rpar ∧ w = dbWord .cpar := by
  cases t <;> simp [pCpar] at h; exact ⟨rfl, h.symm⟩
theorem pNot_some {t : Tok} {w : Word} (h : pNot t = some w) :
    ∃ v, t = .word v ∧ v.plain = true ∧ v.raw = ['!'] ∧ w = dbWord .not := by
  cases t <;> simp [pNot] at h; rename_i v; exact ⟨v, rfl, h.1.1, h.1.2, h.2.symm⟩
theorem pEnd_some {t : Tok} {w : Word} (h : pEnd t = some w) : t = .word w ∧ w.plain = true ∧ w.raw = [']', ']'] := by
  cases t <;> simp [pEnd] at h
  obtain ⟨⟨h1, h2⟩, rfl⟩ := h
  exact ⟨rfl, h1, h2⟩
theorem pUn_some {o : DbOps} {t : Tok} {w : Word} (h : pUn o t = some w) :
    t = .word w ∧ w.plain = true ∧ o.un w.ident = true := by
  cases t <;> simp [pUn] at h
  obtain ⟨⟨h1, h2⟩, rfl⟩ := h
  exact ⟨rfl, h1, h2⟩
theorem pOpnd_some {t : Tok} {w : Word} (h : pOpnd t = some w) : t = .word w := by
  cases t <;> simp [pOpnd] at h; rw [h]
theorem pBin_some {o : DbOps} {t : Tok} {w : Word} (h : pBin o t = some w) :
    (t = .word w ∧ w.plain = true ∧ o.bin w.ident = true) ∨ (∃ r, t = .redir r ∧ r.ty = .read ∧ w = dbWord .lt) ∨
    (∃ r, t = .redir r ∧ r.ty = .write ∧ r.opt = false ∧ w = dbWord .gt) := by
  cases t <;> simp [pBin] at h
  · obtain ⟨⟨h1, h2⟩, rfl⟩ := h
    exact .inl ⟨rfl, h1, h2⟩
  · rename_i r
    by_cases hr : r.ty = .read
    · simp [hr] at h; exact .inr (.inl ⟨r, rfl, hr, h.symm⟩)
    · simp [hr] at h; exact .inr (.inr ⟨r, rfl, h.1.1, h.1.2, h.2.symm⟩)

/-! ## Soundness -/

theorem dbSimple_sound {o : DbOps} {l : List Raw} {ws : List Word} {s' : St} (hn : pNot (lex CONTIN l).1 = none)
    (h : dbSimple o (ctS l) = some (ws, s')) : ∃ x rest, l = x ++ rest ∧ Db o .primary x ws ∧ s' = fresh rest := by
  unfold dbSimple at h
  rw [dbIs_ct] at h
  cases hu : pUn o (lex CONTIN l).1 with
  | some w =>
    simp only [hu, dbIs_fresh0] at h
    obtain ⟨hw, h1, h2⟩ := pUn_some hu
    have hraw : w.raw ≠ ['!'] := by
      intro hr; rw [hw] at hn; simp [pNot, h1, hr] at hn
    generalize hl : lex CONTIN l = tr at *
    obtain ⟨t, r⟩ := tr
    subst hw
    obtain ⟨n, a, rfl, ha⟩ := (lexC_inv hl).resolve_left (by simp)
    obtain ⟨rfl, _⟩ := ha
    cases hv : pOpnd (lex {} r).1 with
    | none => simp [hv] at h
    | some v =>
      simp only [hv] at h
      have hv' := pOpnd_some hv
      generalize hl2 : lex {} r = tr2 at *
      obtain ⟨t2, r2⟩ := tr2
      subst hv'
      rcases lex_inv (kw := false) hl2 with ⟨h, _⟩ | ⟨a, rfl, ha⟩
      · cases h
      · obtain ⟨rfl, _⟩ := ha
        simp only [Option.some.injEq, Prod.mk.injEq] at h
        obtain ⟨rfl, rfl⟩ := h
        exact ⟨nls n ++ [.word w, .word v], r2, by simp, .un n w v h1 h2 hraw, rfl⟩
  | none =>
    simp only [hu, dbIs_ct] at h
    cases ha : pOpnd (lex CONTIN l).1 with
    | none => simp [ha] at h
    | some a =>
      simp only [ha, dbIs_fresh0] at h
      have ha' := pOpnd_some ha
      have hna : ¬ (a.plain = true ∧ (a.raw = ['!'] ∨ o.un a.ident = true)) := by
        rintro ⟨hp, hr | hr⟩
        · rw [ha'] at hn; simp [pNot, hp, hr] at hn
        · rw [ha'] at hu; simp [pUn, hp, hr] at hu
      generalize hl : lex CONTIN l = tr at *
      obtain ⟨t, r⟩ := tr
      subst ha'
      obtain ⟨n, a', rfl, ha⟩ := (lexC_inv hl).resolve_left (by simp)
      obtain ⟨rfl, _⟩ := ha
      cases hb : pBin o (lex {} r).1 with
      | none => simp [hb] at h
      | some w =>
        simp only [hb, dbIs_fresh0] at h
        have hb' := pBin_some hb
        generalize hl2 : lex {} r = tr2 at *
        obtain ⟨t2, r2⟩ := tr2
        cases hv : pOpnd (lex {} r2).1 with
        | none => simp [hv] at h
        | some v =>
          simp only [hv] at h
          have hv' := pOpnd_some hv
          generalize hl3 : lex {} r2 = tr3 at *
          obtain ⟨t3, r3⟩ := tr3
          subst hv'
          rcases lex_inv (kw := false) hl3 with ⟨h, _⟩ | ⟨a3, rfl, ha3⟩
          · cases h
          obtain ⟨rfl, _⟩ := ha3
          simp only [Option.some.injEq, Prod.mk.injEq] at h
          obtain ⟨rfl, rfl⟩ := h
          rcases lex_inv (kw := false) hl2 with ⟨h, _⟩ | ⟨a2, rfl, ha2⟩
          · subst h; simp at hb'
          rcases hb' with ⟨rfl, h1, h2⟩ | ⟨x, rfl, h1, rfl⟩ | ⟨x, rfl, h1, h2, rfl⟩
          · obtain ⟨rfl, _⟩ := ha2
            exact ⟨nls n ++ [.word a, .word w, .word v], r3, by simp, .binW n a w v hna h1 h2, rfl⟩
          · subst ha2
            exact ⟨nls n ++ [.word a, .redir x, .word v], r3, by simp, .binR n a x v hna h1, rfl⟩
          · subst ha2
            exact ⟨nls n ++ [.word a, .redir x, .word v], r3, by simp, .binG n a x v hna h1 h2, rfl⟩

/-- The state behind an expression. -/
def dbPost : DbCall → List Raw → St
  | .oexpr, l | .aexpr, l => ctS l
  | .nexpr, l | .primary, l => fresh l

theorem dbParse_primary_ct (o : DbOps) (n : Nat) (l : List Raw) :
    dbParse o n .primary (ctS l) = dbParse o n .primary (fresh l) := by
  cases n <;> rfl

theorem dbParse_sound {o : DbOps} (n : Nat) : ∀ (c : DbCall) (l : List Raw) (ws : List Word) (s' : St),
    (c = .primary → pNot (lex CONTIN l).1 = none) →
    dbParse o n c (fresh l) = some (ws, s') → ∃ x rest, l = x ++ rest ∧ Db o c x ws ∧ s' = dbPost c rest := by
  induction n with
  | zero => intro c l ws s' _ h; simp [dbParse] at h
  | succ n ih =>
    intro c l ws s' hp h
    cases c with
    | oexpr =>
      simp only [dbParse] at h
      cases h1 : dbParse o n .aexpr (fresh l) with
      | none => simp [h1] at h
      | some v =>
        obtain ⟨vs, s1⟩ := v
        obtain ⟨x, rest, rfl, hx, rfl⟩ := ih .aexpr l vs s1 (by simp) h1
        simp only [h1, dbPost, dbIs_ct] at h
        cases h2 : pOr (lex CONTIN rest).1 with
        | none =>
          simp only [h2, Option.some.injEq, Prod.mk.injEq] at h
          exact ⟨x, rest, rfl, h.1 ▸ .or1 x vs hx, h.2.symm⟩
        | some w =>
          simp only [h2] at h
          obtain ⟨h3, rfl⟩ := pOr_some h2
          generalize hl : lex CONTIN rest = tr at *
          obtain ⟨t, r⟩ := tr
          subst h3
          obtain ⟨m, a, rfl, ha⟩ := (lexC_inv hl).resolve_left (by simp)
          obtain rfl := ha
          cases h4 : dbParse o n .oexpr (fresh r) with
          | none => simp [h4] at h
          | some v =>
            obtain ⟨us, s2⟩ := v
            obtain ⟨y, rest, rfl, hy, rfl⟩ := ih .oexpr r us s2 (by simp) h4
            simp only [h4, Option.map_some, Option.some.injEq, Prod.mk.injEq] at h
            obtain ⟨rfl, rfl⟩ := h
            exact ⟨_, rest, by simp, .or m x y vs us hx hy, rfl⟩
    | aexpr =>
      simp only [dbParse] at h
      cases h1 : dbParse o n .nexpr (fresh l) with
      | none => simp [h1] at h
      | some v =>
        obtain ⟨vs, s1⟩ := v
        obtain ⟨x, rest, rfl, hx, rfl⟩ := ih .nexpr l vs s1 (by simp) h1
        simp only [h1, dbPost, dbIs_fresh, dbIs_ct] at h
        cases h2 : pAnd (lex CONTIN rest).1 with
        | none =>
          simp only [h2, Option.some.injEq, Prod.mk.injEq] at h
          exact ⟨x, rest, rfl, h.1 ▸ .and1 x vs hx, h.2.symm⟩
        | some w =>
          simp only [h2] at h
          obtain ⟨h3, rfl⟩ := pAnd_some h2
          generalize hl : lex CONTIN rest = tr at *
          obtain ⟨t, r⟩ := tr
          subst h3
          obtain ⟨m, a, rfl, ha⟩ := (lexC_inv hl).resolve_left (by simp)
          obtain rfl := ha
          cases h4 : dbParse o n .aexpr (fresh r) with
          | none => simp [h4] at h
          | some v =>
            obtain ⟨us, s2⟩ := v
            obtain ⟨y, rest, rfl, hy, rfl⟩ := ih .aexpr r us s2 (by simp) h4
            simp only [h4, Option.map_some, Option.some.injEq, Prod.mk.injEq] at h
            obtain ⟨rfl, rfl⟩ := h
            exact ⟨_, rest, by simp, .and m x y vs us hx hy, rfl⟩
    | nexpr =>
      simp only [dbParse, dbIs_fresh, dbIs_ct] at h
      cases h2 : pNot (lex CONTIN l).1 with
      | none =>
        simp only [h2, dbParse_primary_ct] at h
        obtain ⟨x, rest, rfl, hx, rfl⟩ := ih .primary l ws s' (fun _ => h2) h
        exact ⟨x, rest, rfl, .prim x ws hx, rfl⟩
      | some w =>
        simp only [h2] at h
        obtain ⟨v, h3, h5, h6, rfl⟩ := pNot_some h2
        generalize hl : lex CONTIN l = tr at *
        obtain ⟨t, r⟩ := tr
        subst h3
        obtain ⟨m, a, rfl, ha⟩ := (lexC_inv hl).resolve_left (by simp)
        obtain ⟨rfl, _⟩ := ha
        cases h4 : dbParse o n .nexpr (fresh r) with
        | none => simp [h4] at h
        | some v =>
          obtain ⟨us, s2⟩ := v
          obtain ⟨y, rest, rfl, hy, rfl⟩ := ih .nexpr r us s2 (by simp) h4
          simp only [h4, Option.map_some, Option.some.injEq, Prod.mk.injEq] at h
          obtain ⟨rfl, rfl⟩ := h
          exact ⟨_, rest, by simp, .not m _ y us h5 h6 hy, rfl⟩
    | primary =>
      simp only [dbParse, dbIs_fresh, dbIs_ct] at h
      cases h2 : pOpar (lex CONTIN l).1 with
      | none =>
        simp only [h2] at h
        exact dbSimple_sound (hp rfl) h
      | some w =>
        simp only [h2] at h
        obtain ⟨h3, rfl⟩ := pOpar_some h2
        generalize hl : lex CONTIN l = tr at *
        obtain ⟨t, r⟩ := tr
        subst h3
        obtain ⟨m, a, rfl, ha⟩ := (lexC_inv hl).resolve_left (by simp)
        obtain rfl := ha
        cases h4 : dbParse o n .oexpr (fresh r) with
        | none => simp [h4] at h
        | some v =>
          obtain ⟨us, s2⟩ := v
          obtain ⟨y, rest, rfl, hy, rfl⟩ := ih .oexpr r us s2 (by simp) h4
          simp only [h4, dbPost, dbIs_ct] at h
          cases h5 : pCpar (lex CONTIN rest).1 with
          | none => simp [h5] at h
          | some v =>
            simp only [h5, Option.some.injEq, Prod.mk.injEq] at h
            obtain ⟨h6, rfl⟩ := pCpar_some h5
            obtain ⟨rfl, rfl⟩ := h
            generalize hl2 : lex CONTIN rest = tr2 at *
            obtain ⟨t2, r2⟩ := tr2
            subst h6
            obtain ⟨k, a, rfl, ha⟩ := (lexC_inv hl2).resolve_left (by simp)
            obtain rfl := ha
            exact ⟨_, r2, by simp, .par m k y us hy, rfl⟩

/-! ## Completeness -/

def dbRank : DbCall → Nat
  | .oexpr => 4
  | .aexpr => 3
  | .nexpr => 2
  | .primary => 1

def dbCont : DbCall → List Raw → Prop
  | .oexpr, l => (lex CONTIN l).1 ≠ .oror ∧ (lex CONTIN l).1 ≠ .andand
  | .aexpr, l => (lex CONTIN l).1 ≠ .andand
  | .nexpr, _ | .primary, _ => True

theorem Db.notNot {o : DbOps} {x : List Raw} {ws : List Word} (h : Db o .primary x ws) (rest : List Raw) :
    pNot (lex CONTIN (x ++ rest)).1 = none := by
  cases h with
  | un n w v h1 h2 h3 => simp [lexC_nls, lexC_word, pNot, h3]
  | binW n a w b h1 h2 h3 =>
    simp only [List.append_assoc, lexC_nls, List.cons_append, lexC_word, pNot]
    by_cases hp : a.plain = true ∧ a.raw = ['!']
    · exact absurd ⟨hp.1, .inl hp.2⟩ h1
    · simp; exact fun a b => hp ⟨a, b⟩
  | binR n a r b h1 h2 =>
    simp only [List.append_assoc, lexC_nls, List.cons_append, lexC_word, pNot]
    by_cases hp : a.plain = true ∧ a.raw = ['!']
    · exact absurd ⟨hp.1, .inl hp.2⟩ h1
    · simp; exact fun a b => hp ⟨a, b⟩
  | binG n a r b h1 h2 h3 =>
    simp only [List.append_assoc, lexC_nls, List.cons_append, lexC_word, pNot]
    by_cases hp : a.plain = true ∧ a.raw = ['!']
    · exact absurd ⟨hp.1, .inl hp.2⟩ h1
    · simp; exact fun a b => hp ⟨a, b⟩
  | par n m x ws h => simp [lexC_nls, lex, pNot]

theorem dbSimple_bin {o : DbOps} {n : Nat} {a b : Word} {r : Raw} {w : Word} {rest : List Raw}
    (ha : ¬ (a.plain = true ∧ (a.raw = ['!'] ∨ o.un a.ident = true)))
    (hr : pBin o (lex {} (r :: .word b :: rest)).1 = some w) (hr2 : (lex {} (r :: .word b :: rest)).2 = .word b :: rest) :
    dbSimple o (ctS (nls n ++ .word a :: r :: .word b :: rest)) = some ([a, w, b], fresh rest) := by
  have hu : pUn o (.word a) = none := by
    simp only [pUn]
    by_cases hp : a.plain = true ∧ o.un a.ident = true
    · exact absurd ⟨hp.1, .inr hp.2⟩ ha
    · simp; exact fun a => Bool.eq_false_iff.mpr fun c => hp ⟨a, c⟩
  unfold dbSimple
  simp only [ctS_nls, dbIs_ct, lexC_word, hu, pOpnd, dbIs_fresh0, hr, hr2, lex0_word]

theorem dbParse_complete {o : DbOps} {c : DbCall} {x : List Raw} {ws : List Word} (h : Db o c x ws) :
    ∀ (n : Nat) (rest : List Raw), 4 * x.length + dbRank c ≤ n → dbCont c rest →
      dbParse o n c (fresh (x ++ rest)) = some (ws, dbPost c rest) := by
  induction h with
  | un k w v h1 h2 h3 =>
    intro n rest hn _
    obtain ⟨n, rfl⟩ : ∃ m, n = m + 1 := ⟨n - 1, by simp [dbRank] at hn; omega⟩
    simp only [dbParse, dbIs_fresh, List.append_assoc, ctS_nls, List.cons_append, List.nil_append, dbIs_ct, lexC_word, pOpar,
      dbSimple, pUn, h1, h2, Bool.and_self, if_true, dbIs_fresh0, lex0_word, pOpnd, dbPost]
  | binW k a w b h1 h2 h3 =>
    intro n rest hn _
    obtain ⟨n, rfl⟩ : ∃ m, n = m + 1 := ⟨n - 1, by simp [dbRank] at hn; omega⟩
    have := dbSimple_bin (o := o) (n := 0) (a := a) (b := b) (r := .word w) (w := w) (rest := rest) h1
      (by simp [lex0_word, pBin, h2, h3]) rfl
    simp only [dbParse, dbIs_fresh, List.append_assoc, ctS_nls, List.cons_append, List.nil_append, dbIs_ct, lexC_word, pOpar, dbPost] at this ⊢
    exact this
  | binR k a r b h1 h2 =>
    intro n rest hn _
    obtain ⟨n, rfl⟩ : ∃ m, n = m + 1 := ⟨n - 1, by simp [dbRank] at hn; omega⟩
    have := dbSimple_bin (o := o) (n := 0) (a := a) (b := b) (r := .redir r) (w := dbWord .lt) (rest := rest) h1
      (by simp [lex, pBin, h2]) rfl
    simp only [dbParse, dbIs_fresh, List.append_assoc, ctS_nls, List.cons_append, List.nil_append, dbIs_ct, lexC_word, pOpar, dbPost] at this ⊢
    exact this
  | binG k a r b h1 h2 h3 =>
    intro n rest hn _
    obtain ⟨n, rfl⟩ : ∃ m, n = m + 1 := ⟨n - 1, by simp [dbRank] at hn; omega⟩
    have := dbSimple_bin (o := o) (n := 0) (a := a) (b := b) (r := .redir r) (w := dbWord .gt) (rest := rest) h1
      (by simp [lex, pBin, h2, h3]) rfl
    simp only [dbParse, dbIs_fresh, List.append_assoc, ctS_nls, List.cons_append, List.nil_append, dbIs_ct, lexC_word, pOpar, dbPost] at this ⊢
    exact this
  | par k m x ws hx ih =>
    intro n rest hn _
    obtain ⟨n, rfl⟩ : ∃ m, n = m + 1 := ⟨n - 1, by simp [dbRank] at hn; omega⟩
    have hl : lex CONTIN (nls m ++ .rpar :: rest) = (.rpar, rest) := by rw [lexC_nls]; rfl
    have := ih n (nls m ++ .rpar :: rest) (by simp [dbRank, nls] at hn ⊢; omega) (by simp [dbCont, hl])
    have hl2 : ∀ r, lex CONTIN (.lpar :: r) = (.lpar, r) := fun _ => rfl
    simp only [dbParse, dbIs_fresh, List.append_assoc, ctS_nls, List.cons_append, List.nil_append, dbIs_ct, hl2, pOpar, this,
      dbPost, show lex CONTIN (.rpar :: rest) = (.rpar, rest) from rfl, pCpar]
  | prim x ws h ih =>
    intro n rest hn _
    obtain ⟨n, rfl⟩ : ∃ m, n = m + 1 := ⟨n - 1, by simp [dbRank] at hn; omega⟩
    simp only [dbParse, dbIs_fresh, dbIs_ct, h.notNot rest, dbParse_primary_ct]
    exact ih n rest (by simp [dbRank] at hn ⊢; omega) trivial
  | not k w x ws h1 h2 h ih =>
    intro n rest hn _
    obtain ⟨n, rfl⟩ : ∃ m, n = m + 1 := ⟨n - 1, by simp [dbRank] at hn; omega⟩
    have := ih n rest (by simp [dbRank, nls] at hn ⊢; omega) trivial
    simp only [dbParse, dbIs_fresh, List.append_assoc, ctS_nls, List.cons_append, dbIs_ct, lexC_word, pNot, h1, h2, decide_true,
      Bool.and_self, if_true, this, Option.map_some, dbPost]
  | and1 x ws h ih =>
    intro n rest hn hc
    obtain ⟨n, rfl⟩ : ∃ m, n = m + 1 := ⟨n - 1, by simp [dbRank] at hn; omega⟩
    have := ih n rest (by simp [dbRank] at hn ⊢; omega) trivial
    have hp : pAnd (lex CONTIN rest).1 = none := by
      simp only [dbCont] at hc
      cases hl : (lex CONTIN rest).1 <;> first | rfl | exact absurd hl hc
    simp only [dbParse, this, dbPost, dbIs_fresh, dbIs_ct, hp]
  | and k x y ws vs hx hy ihx ihy =>
    intro n rest hn hc
    obtain ⟨n, rfl⟩ : ∃ m, n = m + 1 := ⟨n - 1, by simp [dbRank] at hn; omega⟩
    have h1 := ihx n (nls k ++ .andand :: (y ++ rest)) (by simp [dbRank] at hn ⊢; omega) trivial
    have h2 := ihy n rest (by simp [dbRank, nls] at hn ⊢; omega) hc
    have hl : lex CONTIN (.andand :: (y ++ rest)) = (.andand, y ++ rest) := rfl
    simp only [dbParse, List.append_assoc, List.cons_append, h1, dbPost, dbIs_fresh, ctS_nls, dbIs_ct, hl, pAnd, h2, Option.map_some]
  | or1 x ws h ih =>
    intro n rest hn hc
    obtain ⟨n, rfl⟩ : ∃ m, n = m + 1 := ⟨n - 1, by simp [dbRank] at hn; omega⟩
    have := ih n rest (by simp [dbRank] at hn ⊢; omega) hc.2
    have hp : pOr (lex CONTIN rest).1 = none := by
      cases hl : (lex CONTIN rest).1 <;> first | rfl | exact absurd hl hc.1
    simp only [dbParse, this, dbPost, dbIs_ct, hp]
  | or k x y ws vs hx hy ihx ihy =>
    intro n rest hn hc
    obtain ⟨n, rfl⟩ : ∃ m, n = m + 1 := ⟨n - 1, by simp [dbRank] at hn; omega⟩
    have hl : lex CONTIN (.oror :: (y ++ rest)) = (.oror, y ++ rest) := rfl
    have h1 := ihx n (nls k ++ .oror :: (y ++ rest)) (by simp [dbRank] at hn ⊢; omega) (by simp [dbCont, lexC_nls, hl])
    have h2 := ihy n rest (by simp [dbRank, nls] at hn ⊢; omega) hc
    simp only [dbParse, List.append_assoc, List.cons_append, h1, dbPost, ctS_nls, dbIs_ct, hl, pOr, h2, Option.map_some]

/-- `[[` reads exactly a condition of the grammar and its `]]`, and its operands and operators are
the words of the condition. -/
theorem dbracket_iff (o : DbOps) (l : List Raw) (ws : List Word) (s : St) :
    dbracket o (fresh l) = .ok ws s ↔ ∃ x rest, l = x ++ rest ∧ DbCond o x ws ∧ s = fresh rest := by
  constructor
  · intro h
    unfold dbracket at h
    rw [fresh_rest] at h
    cases h1 : dbParse o (4 * l.length + 4) .oexpr (fresh l) with
    | none => simp [h1] at h
    | some v =>
      obtain ⟨vs, s1⟩ := v
      obtain ⟨x, rest, rfl, hx, rfl⟩ := dbParse_sound _ .oexpr l vs s1 (by simp) h1
      simp only [h1, dbPost, dbIs_ct] at h
      cases h2 : pEnd (lex CONTIN rest).1 with
      | none => simp [h2] at h
      | some w =>
        simp only [h2, Res.ok.injEq] at h
        obtain ⟨rfl, rfl⟩ := h
        obtain ⟨h3, h4, h5⟩ := pEnd_some h2
        generalize hl : lex CONTIN rest = tr at *
        obtain ⟨t, r⟩ := tr
        subst h3
        obtain ⟨m, a, rfl, ha⟩ := (lexC_inv hl).resolve_left (by simp)
        obtain ⟨rfl, _⟩ := ha
        exact ⟨x ++ (nls m ++ [.word w]), r, by simp, ⟨x, m, w, hx, h4, h5, rfl⟩, rfl⟩
  · rintro ⟨_, rest, rfl, ⟨y, n, w, hy, h1, h2, rfl⟩, rfl⟩
    have hl : lex CONTIN (nls n ++ .word w :: rest) = (.word w, rest) := by rw [lexC_nls]; rfl
    have := dbParse_complete hy (4 * (y ++ (nls n ++ .word w :: rest)).length + 4) (nls n ++ .word w :: rest)
      (by simp [dbRank]; omega) (by simp [dbCont, hl])
    unfold dbracket
    simp only [fresh_rest, List.append_assoc, List.cons_append, List.nil_append] at this ⊢
    simp only [this, dbPost, dbIs_ct, hl, pEnd, h1, h2]
    simp

end Ksh.Syn
