import Verif.Syn.Complete
/-! # What the parser accepts is a command of the grammar -/

namespace Ksh.Syn

variable {cfg : Cfg} {o : DbOps}

theorem bind_ok {α β : Type} {x : Res α} {f : α → St → Res β} {b : β} {s' : St} (h : x.bind f = .ok b s') :
    ∃ a s, x = .ok a s ∧ f a s = .ok b s' := by
  cases x with
  | ok a s => exact ⟨a, s, rfl, h⟩
  | err => cases h
  | out => cases h

/-- The state behind a phrase; if the token looked at is a word that the parser does not take for
a reserved word, nothing can be accepted any more. -/
def Post (e : End) (l : List Raw) (s : St) : Prop := (s = atS l ∧ e.ok l = true) ∨ ∃ w, s.pk = some (.word w)

/-- No command is there. -/
def NoCmd (c : Bool) (l : List Raw) (s : St) : Prop :=
  ∃ k l', l = nls k ++ l' ∧ (k > 0 → c = true) ∧ s = atS l' ∧ (End.mk (if c then .noCmdNl else .noCmd) 0).ok l' = true

/-- What the answer `t` with the state `s'` of each call says. -/
def Sound (cfg : Cfg) (o : DbOps) (s : St) (t : Op) (s' : St) : Call → Prop
  | .clist m acc => ∀ l, s = fresh l → ∃ x rest e u, l = x ++ rest ∧ Der cfg o (.list m) x e u ∧ t = chainTo acc u ∧ Post e rest s'
  | .andor => ∀ l, s = fresh l → (t = .nil ∧ NoCmd false l s') ∨
      ∃ x rest e, l = x ++ rest ∧ Der cfg o .andor x e t ∧ Post e rest s' ∧ s'.pk ≠ some .andand ∧ s'.pk ≠ some .oror
  | .andorLoop t0 => ∀ l x0 e0, Der cfg o .andor x0 e0 t0 → Post e0 l s → ∃ x rest e, l = x ++ rest ∧
      Der cfg o .andor (x0 ++ x) e t ∧ Post e rest s' ∧ s'.pk ≠ some .andand ∧ s'.pk ≠ some .oror
  | .pipeline c => ∀ l, s = fresh l → (t = .nil ∧ NoCmd c l s') ∨
      ∃ k x rest e, (k > 0 → c = true) ∧ l = nls k ++ (x ++ rest) ∧ Der cfg o .pipe x e t ∧ Post e rest s'
  | .pipeLoop acc => ∀ l acc' p x0 e0, acc = acc' ++ [p] → Der cfg o .cmd x0 e0 p → Post e0 l s → ∃ x rest e u, l = x ++ rest ∧
      Der cfg o .pipe (x0 ++ x) e u ∧ t = acc'.foldr (block .pipe) u ∧ Post e rest s'
  | .command c => (∀ l, s = fresh l → (t = .nil ∧ NoCmd c l s') ∨
      ∃ k x rest e, (k > 0 → c = true) ∧ l = nls k ++ (x ++ rest) ∧ Der cfg o .cmd x e t ∧ Post e rest s') ∧
      (∀ l, s = atS l → (t = .nil ∧ NoCmd false l s') ∨ ∃ x rest e, l = x ++ rest ∧ Der cfg o .cmd x e t ∧ Post e rest s')
  | .cmd c => ∀ l, c = (lex KW l).1 → s = fresh (lex KW l).2 → (t = .nil ∧ NoCmd false l s') ∨
      ∃ x rest e, l = x ++ rest ∧ Der cfg o .cmd x e t ∧ Post e rest s'
  | .simple ev vars args io => ∀ l es, Call.simple ev vars args io = simpleCall cfg es → s = fresh l →
      (freeStart es ∨ (es = [] ∧ ∃ a r, l = a :: r ∧ ((∃ w, a = .word w ∧ w.free) ∨ ∃ x, a = .redir x))) → (elemIos es).length ≤ NUFILE →
      ∃ x rest e, l = x ++ rest ∧ Der cfg o .cmd (elemsRaw es ++ x) e t ∧ Post e rest s'
  | .redirs kw t0 => (∀ l ty d a b, t0 = .node ty d a b → s = fresh l → d.io.length ≤ NUFILE → ∃ js rest, l = ioRaw js ++ rest ∧
        t = .node ty { d with io := d.io ++ js } a b ∧ d.io.length + js.length ≤ NUFILE ∧
        s' = ⟨some (lex { keyword := kw } rest).1, (lex { keyword := kw } rest).2⟩ ∧ ∀ x, (lex { keyword := kw } rest).1 ≠ .redir x) ∧
      (∀ tok r, s = ⟨some tok, r⟩ → (∀ x, tok ≠ .redir x) → t = t0 ∧ s' = s)
  | .dogroup => ∃ kb x c rest e, token CK s = (.kw kb, fresh (x ++ c :: rest)) ∧
      ((kb = .kdo ∧ IsKw .kdone c) ∨ (kb = .klbrace ∧ IsKw .krbrace c)) ∧ Der cfg o (.list true) x e t ∧ e.okR c = true ∧ s' = fresh rest
  | .thenpart => ∀ l e0, Post e0 l s → ∃ x rest e, l = x ++ rest ∧ Der cfg o .thenp x e t ∧ Post e rest s' ∧ e0.ok x = true
  | .elsepart => ∀ l e0, Post e0 l s → (t = .nil ∧ s' = s) ∨
      (∃ b y rest e', l = b :: (y ++ rest) ∧ IsKw .kelse b ∧ e0.okR b = true ∧ Der cfg o (.list true) y e' t ∧ t ≠ .nil ∧ Post e' rest s') ∨
      (∃ b y z rest e' e'' lt u, l = b :: (y ++ (z ++ rest)) ∧ IsKw .kelif b ∧ e0.okR b = true ∧ Der cfg o (.list true) y e' lt ∧
        e'.ok z = true ∧ Der cfg o .thenp z e'' u ∧ t = block .elif lt u ∧ Post e'' rest s')
  | .cases k acc => k = .kesac ∨ k = .krbrace →
      (∀ l, s = fresh l → ∃ x c rest e u, l = x ++ c :: rest ∧ IsKw k c ∧ Der cfg o (.cases k) x e u ∧ e.okR c = true ∧ t = patTo acc u ∧ s' = fresh rest) ∧
      (∀ r, s = ⟨some (.kw k), r⟩ → t = patTo acc .nil ∧ s' = fresh r)
  | .pats k acc ps => k = .kesac ∨ k = .krbrace → ∀ l, s = fresh l → ∃ p ws x e lt, Der cfg o (.list true) x e lt ∧
      ((∃ c rest, l = patsRaw (p :: ws) ++ .rpar :: (x ++ c :: rest) ∧ IsKw k c ∧ e.okR c = true ∧
          t = patTo acc (.node .pat { vars := some (ps ++ p :: ws) } lt .nil) ∧ s' = fresh rest) ∨
       (∃ y e' u c rest, l = patsRaw (p :: ws) ++ .rpar :: (x ++ .dsemi :: (y ++ c :: rest)) ∧ e.okR .dsemi = true ∧
          Der cfg o (.cases k) y e' u ∧ IsKw k c ∧ e'.okR c = true ∧
          t = patTo acc (.node .pat { vars := some (ps ++ p :: ws) } lt u) ∧ s' = fresh rest))
  | .funbody w ksh => ∀ l, s = fresh l → validName w.strip = true ∧
      (ksh = false → (∃ k x rest e t1, l = nls k ++ (x ++ rest) ∧ Der cfg o .cmd x e t1 ∧ t = .node .funct { str := w.strip } t1 .nil ∧ Post e rest s') ∨
        (∃ k rest, l = nls k ++ rest ∧ t = .node .funct { str := w.strip } colon .nil ∧ s' = atS rest ∧ (End.mk .noCmdNl 0).ok rest = true)) ∧
      (ksh = true → ∃ k b x rest e t1, l = nls k ++ (b :: (x ++ rest)) ∧ IsKw .klbrace b ∧ Der cfg o .cmd (b :: x) e t1 ∧
        t = .node .funct { str := w.strip, ev := true } t1 .nil ∧ Post e rest s')

/-! ## Tokens behind a phrase -/

theorem at_inv {l : List Raw} {tok : Tok} (h : (lex KW l).1 = tok) (hne : tok ≠ .eof) : ∃ a, l = a :: (lex KW l).2 ∧ Reads true tok a := by
  rcases lex_inv (kw := true) (l := l) (t := tok) (r := (lex KW l).2) (by rw [← h]; rfl) with ⟨h', _⟩ | h
  · exact absurd h' hne
  · exact h

theorem musthave_post {e : End} {l : List Raw} {s s1 : St} {cf : Cf} {tok : Tok} {u : Unit} (hw : ∀ w, tok ≠ .word w) (hne : tok ≠ .eof)
    (h : musthave tok cf s = .ok u s1) (hp : Post e l s) : ∃ a r, l = a :: r ∧ Reads true tok a ∧ e.okR a = true ∧ s1 = fresh r := by
  unfold musthave at h
  split at h
  · rename_i ht
    cases h
    rcases hp with ⟨rfl, hok⟩ | ⟨w, hs⟩
    · rw [token_at] at ht ⊢
      obtain ⟨a, hl, hr⟩ := at_inv ht hne
      rw [hl] at hok
      exact ⟨a, _, hl, hr, hok, rfl⟩
    · obtain ⟨pk, r⟩ := s
      simp only at hs
      subst hs
      rw [token_some] at ht
      exact absurd ht.symm (hw w)
  · cases h

theorem post_token {e : End} {l : List Raw} {s : St} (hp : Post e l s) (cf : Cf) : unget (token cf s).1 (token cf s).2 = s ∧ s.pk = some (token cf s).1 := by
  rcases hp with ⟨rfl, _⟩ | ⟨w, hs⟩
  · exact ⟨rfl, rfl⟩
  · obtain ⟨pk, r⟩ := s
    simp only at hs
    subst hs
    exact ⟨rfl, rfl⟩

theorem post_read {e : End} {l : List Raw} {s : St} (hp : Post e l s) {cf : Cf} {tok : Tok} (h : (token cf s).1 = tok) (hne : tok ≠ .eof)
    (hw : ∀ w, tok ≠ .word w) : ∃ a r, l = a :: r ∧ Reads true tok a ∧ e.okR a = true ∧ (token cf s).2 = fresh r ∧ s = atS l := by
  rcases hp with ⟨rfl, hok⟩ | ⟨w, hs⟩
  · rw [token_at] at h ⊢
    obtain ⟨a, hl, hr⟩ := at_inv h hne
    rw [hl] at hok
    exact ⟨a, _, hl, hr, hok, rfl, rfl⟩
  · obtain ⟨pk, r⟩ := s
    simp only at hs
    subst hs
    rw [token_some] at h
    exact absurd h.symm (hw w)

theorem Post.not_redir {e : End} {l : List Raw} {s : St} (hp : Post e l s) : ∃ tok r, s = ⟨some tok, r⟩ ∧ ∀ x, tok ≠ .redir x := by
  rcases hp with ⟨rfl, hok⟩ | ⟨w, hs⟩
  · exact ⟨_, _, rfl, End.ok_not_redir hok⟩
  · obtain ⟨pk, r⟩ := s
    simp only at hs
    subst hs
    exact ⟨_, _, rfl, by simp⟩

theorem NoCmd.post {l : List Raw} {s : St} (h : NoCmd false l s) : s = atS l ∧ (End.mk .noCmd 0).ok l = true := by
  obtain ⟨k, l', rfl, hk, rfl, hok⟩ := h
  have : k = 0 := by
    cases k with
    | zero => rfl
    | succ k => simp at hk
  subst this
  exact ⟨rfl, hok⟩

/-- Redirections behind a phrase that has looked at the next token: there are none. -/
theorem redirs_post {n : Nat} (ih : ∀ c s t s', parse cfg o n c s = .ok t s' → Sound cfg o s t s' c) {kw : Bool} {t0 t : Op} {s s' : St}
    {e : End} {l : List Raw} (hp : Post e l s) (h : parse cfg o n (.redirs kw t0) s = .ok t s') : t = t0 ∧ s' = s := by
  obtain ⟨tok, r, rfl, hr⟩ := hp.not_redir
  exact (ih _ _ _ _ h).2 tok r rfl hr

theorem redirs_sound {n : Nat} (ih : ∀ c s t s', parse cfg o n c s = .ok t s' → Sound cfg o s t s' c) {ty : Ty} {d : Data} {a b t : Op} {l : List Raw} {s' : St}
    (hd : d.io = []) (h : parse cfg o n (.redirs true (.node ty d a b)) (fresh l) = .ok t s') :
    ∃ js rest, l = ioRaw js ++ rest ∧ t = .node ty { d with io := js } a b ∧ js.length ≤ NUFILE ∧ Post ⟨.comp, 0⟩ rest s' := by
  obtain ⟨js, rest, rfl, rfl, hn, rfl, hr⟩ := (ih _ _ _ _ h).1 l ty d a b rfl rfl (by simp [hd, NUFILE])
  refine ⟨js, rest, rfl, by simp [hd], by simpa [hd] using hn, .inl ⟨rfl, ?_⟩⟩
  cases rest with
  | nil => rfl
  | cons r rest =>
    cases r <;> first | rfl | exact absurd rfl (hr _)

theorem nested_sound {n : Nat} (ih : ∀ c s t s', parse cfg o n c s = .ok t s' → Sound cfg o s t s' c) {ty : Ty} {ct : Tok} {kw : Bool} {io : List IO} {l : List Raw} {t : Op} {s' : St}
    (hw : ∀ w, ct ≠ .word w) (hne : ct ≠ .eof) (h : nested (parse cfg o n) ty ct kw io (fresh l) = .ok t s') :
    ∃ x c l1 e u, l = x ++ c :: l1 ∧ Reads true ct c ∧ Der cfg o (.list true) x e u ∧ e.okR c = true ∧
      parse cfg o n (.redirs kw (.node ty { io := io } u .nil)) (fresh l1) = .ok t s' := by
  unfold nested at h
  obtain ⟨u, s1, h1, h⟩ := bind_ok h
  obtain ⟨_, s2, h2, h⟩ := bind_ok h
  obtain ⟨x, rest, e, u', rfl, hx, hu, hp⟩ := ih _ _ _ _ h1 l rfl
  rw [chainTo_nil] at hu
  subst hu
  obtain ⟨c, r, rfl, hc, he, rfl⟩ := musthave_post hw hne h2 hp
  exact ⟨x, c, r, e, _, rfl, hc, hx, he, h⟩

theorem isNil_iff (t : Op) : t.isNil = true ↔ t = .nil := by cases t <;> simp [Op.isNil]

theorem mustWord_inv {cf : Cf} (hc : cf.contin = false) (hk : cf.keyword = false) {l : List Raw} {w : Word} {s : St}
    (h : mustWord cf (fresh l) = .ok w s) : ∃ r, l = .word w :: r ∧ s = fresh r := by
  obtain ⟨c, k, es⟩ := cf
  simp only at hc hk
  subst hc hk
  unfold mustWord at h
  rw [token_fresh] at h
  cases l with
  | nil => simp [lex] at h
  | cons a l =>
    cases a <;> simp [lex, wordTok] at h
    obtain ⟨rfl, rfl⟩ := h
    exact ⟨l, rfl, rfl⟩

theorem synio_inv {kw : Bool} {l : List Raw} {i : Option IO} {s : St} (h : synio { keyword := kw } (fresh l) = .ok i s) :
    (∃ j r, i = some j ∧ l = .redir j.r :: .word j.w :: r ∧ s = fresh r) ∨
    (i = none ∧ s = ⟨some (lex { keyword := kw } l).1, (lex { keyword := kw } l).2⟩ ∧ ∀ x, (lex { keyword := kw } l).1 ≠ .redir x) := by
  unfold synio at h
  rw [tpeek_fresh] at h
  split at h
  · rename_i r hr
    obtain ⟨w, s1, h1, h2⟩ := bind_ok h
    obtain ⟨l', hl', rfl⟩ := mustWord_inv rfl rfl h1
    cases h2
    left
    rcases lex_inv (kw := kw) (l := l) (t := .redir r) (r := (lex { keyword := kw } l).2) (by rw [← hr]) with ⟨h', _⟩ | ⟨a, hl, ha⟩
    · cases h'
    · have ha : a = .redir r := ha
      subst ha
      simp only at hl'
      rw [hl'] at hl
      exact ⟨⟨r, w⟩, l', rfl, hl, rfl⟩
  · rename_i hr
    cases h
    exact .inr ⟨rfl, rfl, fun x hx => hr x hx⟩

theorem synio_some {kw : Bool} {tok : Tok} {r : List Raw} (h : ∀ x, tok ≠ .redir x) :
    synio { keyword := kw } ⟨some tok, r⟩ = .ok none ⟨some tok, r⟩ := by
  unfold synio
  rw [tpeek_some]
  split
  · rename_i x hx; exact absurd hx (h x)
  · rfl

/-- Where the parser finds no command, none begins. -/
theorem noCmd_of {l : List Raw} (h : match (lex KW l).1 with
    | .word _ | .redir _ | .lpar | .dlpar | .kw .klbrace | .kw .kdbracket | .kw .kfor | .kw .kselect | .kw .kwhile | .kw .kuntil
    | .kw .kcase | .kw .kif | .kw .kbang | .kw .ktime | .kw .kfunction => False
    | _ => True) : (End.mk .noCmd 0).ok l = true := by
  cases l with
  | nil => rfl
  | cons a l =>
    cases a with
    | word w =>
      cases hk : kwOf w.ident with
      | none => rw [lex_word, wordTok_free hk] at h; exact h.elim
      | some k =>
        rw [lex_word, wordTok_kw hk] at h
        cases k <;> first | exact h.elim | simp [End.ok, End.okR, EK.ok, Raw.starts, hk, Kw.starts]
    | redir r => exact h.elim
    | lpar => exact h.elim
    | dlpar => exact h.elim
    | _ => rfl

theorem takeWords_inv (l : List Raw) : l = (takeWords l).1.map .word ++ (takeWords l).2 := by
  induction l with
  | nil => rfl
  | cons a l ih => cases a <;> simp [takeWords]; exact ih

theorem lexCK_inv {l : List Raw} {tok : Tok} {r : List Raw} (h : lex CK l = (tok, r)) (hne : tok ≠ .eof) :
    ∃ n a, l = nls n ++ a :: r ∧ Reads true tok a := by
  obtain ⟨n, l', rfl, hl⟩ := split_nls l
  rw [lex_nls _ rfl, show CK = ⟨true, true, false⟩ from rfl, lex_contin _ _ _ hl] at h
  rcases lex_inv (kw := true) h with ⟨h, _⟩ | ⟨a, ha, hr⟩
  · exact absurd h hne
  · exact ⟨n, a, by rw [ha], hr⟩

/-- The words of a loop, and the state where `do` is looked for. -/
theorem wordlist_inv {l : List Raw} {vs : Option (List Word)} {s : St} (h : wordlist (fresh l) = .ok vs s) :
    (∃ y r, l = y ++ r ∧ ForWords y vs ∧ s = fresh r) ∨ (vs = none ∧ ∃ tok r, lex CK l = (tok, r) ∧ s = ⟨some tok, r⟩) := by
  unfold wordlist at h
  rw [token_fresh] at h
  generalize hl : lex CK l = tr at h
  obtain ⟨tok, r⟩ := tr
  simp only at h
  split at h
  · rename_i c s1 h1
    cases h1
    obtain ⟨n, a, rfl, ha⟩ := lexCK_inv hl (by simp)
    have hr := takeWords_inv r
    simp only [fresh_rest] at h
    split at h
    · rename_i ws r' hw
      cases h
      rw [hw] at hr
      exact .inl ⟨nls n ++ a :: (ws.map .word ++ [.nl]), r', by rw [hr]; simp, .words n a .nl ws ha.2 (.inl rfl), rfl⟩
    · rename_i ws r' hw
      cases h
      rw [hw] at hr
      exact .inl ⟨nls n ++ a :: (ws.map .word ++ [.semi]), r', by rw [hr]; simp, .words n a .semi ws ha.2 (.inr rfl), rfl⟩
    · cases h
  · rename_i c s1 h1
    cases h1
    cases h
    obtain ⟨n, a, rfl, ha⟩ := lexCK_inv hl (by simp)
    have ha : a = .semi := ha
    subst ha
    exact .inl ⟨nls n ++ [.semi], r, by simp, .semi n, rfl⟩
  · rename_i c s1 _ _ h1
    cases h1
    cases h
    exact .inr ⟨rfl, tok, r, rfl, rfl⟩

theorem musthave_inv {c : Tok} {cf : Cf} {s s' : St} {u : Unit} (h : musthave c cf s = .ok u s') :
    (token cf s).1 = c ∧ (token cf s).2 = s' := by
  unfold musthave at h
  split at h
  · rename_i h1; cases h; exact ⟨h1, rfl⟩
  · cases h

/-- What is proved about calls with less fuel. -/
abbrev IH (cfg : Cfg) (o : DbOps) (n : Nat) : Prop := ∀ c s t s', parse cfg o n c s = .ok t s' → Sound cfg o s t s' c

theorem andor_sound {n : Nat} (ih : IH cfg o n) {s t s'} (h : body cfg o (parse cfg o n) .andor s = .ok t s') : Sound cfg o s t s' .andor := by
  rintro l rfl
  replace h := bind_ok h; obtain ⟨p, s1, h1, h⟩ := h
  have h1 := ih _ _ _ _ h1 l rfl
  split at h
  · rename_i hp
    cases h
    rcases h1 with ⟨_, h1⟩ | ⟨k, x, rest, e, _, _, hx, _⟩
    · exact .inl ⟨rfl, h1⟩
    · rw [hx.shape.1] at hp; cases hp
  · rename_i hp
    right
    rcases h1 with ⟨rfl, _⟩ | ⟨k, x, rest, e, hk, rfl, hx, hpost⟩
    · exact absurd rfl hp
    · have hk0 : k = 0 := by
        cases k with
        | zero => rfl
        | succ k => simp at hk
      subst hk0
      obtain ⟨y, rest', e', rfl, hy, h2⟩ := ih _ _ _ _ h rest x e (.andorOne x e p hx) hpost
      exact ⟨x ++ y, rest', e', by simp [nls], hy, h2⟩

theorem andorLoop_sound {n : Nat} (ih : IH cfg o n) {s t s' t0} (h : body cfg o (parse cfg o n) (.andorLoop t0) s = .ok t s') :
    Sound cfg o s t s' (.andorLoop t0) := by
  intro l x0 e0 hx0 hp
  simp only [body] at h
  split at h
  · rename_i ht
    obtain ⟨a, r, rfl, ha, hok, h2, _⟩ := post_read hp ht (by simp) (by simp)
    have ha : a = .andand := ha
    subst ha
    rw [h2] at h
    replace h := bind_ok h; obtain ⟨p, s1, h1, h⟩ := h
    split at h
    · cases h
    · rename_i hpn
      rcases ih _ _ _ _ h1 r rfl with ⟨rfl, _⟩ | ⟨k, x, rest, e, _, rfl, hx, hpost⟩
      · exact absurd rfl hpn
      · obtain ⟨y, rest', e', rfl, hy, h2⟩ := ih _ _ _ _ h rest _ e (.andorAnd x0 x k e0 e t0 p hx0 hok hx) hpost
        exact ⟨.andand :: (nls k ++ (x ++ y)), rest', e', by simp, by simpa using hy, h2⟩
  · rename_i ht
    obtain ⟨a, r, rfl, ha, hok, h2, _⟩ := post_read hp ht (by simp) (by simp)
    have ha : a = .oror := ha
    subst ha
    rw [h2] at h
    replace h := bind_ok h; obtain ⟨p, s1, h1, h⟩ := h
    split at h
    · cases h
    · rename_i hpn
      rcases ih _ _ _ _ h1 r rfl with ⟨rfl, _⟩ | ⟨k, x, rest, e, _, rfl, hx, hpost⟩
      · exact absurd rfl hpn
      · obtain ⟨y, rest', e', rfl, hy, h2⟩ := ih _ _ _ _ h rest _ e (.andorOr x0 x k e0 e t0 p hx0 hok hx) hpost
        exact ⟨.oror :: (nls k ++ (x ++ y)), rest', e', by simp, by simpa using hy, h2⟩
  · rename_i h1 h2
    cases h
    obtain ⟨hu, hpk⟩ := post_token hp {}
    refine ⟨[], l, e0, rfl, by simpa using hx0, by rw [hu]; exact hp, ?_, ?_⟩
    · rw [hu, hpk]; simpa using h1
    · rw [hu, hpk]; simpa using h2

theorem pipeline_sound {n : Nat} (ih : IH cfg o n) {s t s' c} (h : body cfg o (parse cfg o n) (.pipeline c) s = .ok t s') :
    Sound cfg o s t s' (.pipeline c) := by
  rintro l rfl
  replace h := bind_ok h; obtain ⟨p, s1, h1, h⟩ := h
  have h1 := (ih _ _ _ _ h1).1 l rfl
  split at h
  · rename_i hp
    cases h
    rcases h1 with ⟨_, h1⟩ | ⟨k, x, rest, e, _, _, hx, _⟩
    · exact .inl ⟨rfl, h1⟩
    · have := hx.shape
      simp only at this
      rw [this] at hp; cases hp
  · rename_i hp
    right
    rcases h1 with ⟨rfl, _⟩ | ⟨k, x, rest, e, hk, rfl, hx, hpost⟩
    · exact absurd rfl hp
    · obtain ⟨y, rest', e', u, rfl, hy, rfl, h2⟩ := ih _ _ _ _ h rest [] p x e rfl hx hpost
      exact ⟨k, x ++ y, rest', e', hk, by simp, hy, h2⟩

theorem End.up_ok {e : End} {l : List Raw} (h : e.ok l = true) (hp : (lex KW l).1 ≠ .pipe) : (e.up 1).ok l = true := by
  cases l with
  | nil => rfl
  | cons a l =>
    have ha : a ≠ .pipe := by rintro rfl; exact hp rfl
    simp only [End.ok, End.okR, End.up, ge_iff_le, Bool.and_eq_true, Bool.not_eq_true', Bool.and_eq_false_iff, decide_eq_false_iff_not] at h ⊢
    obtain ⟨⟨⟨h1, h2⟩, h3⟩, h4⟩ := h
    refine ⟨⟨⟨h1, .inr ha⟩, ?_⟩, ?_⟩
    · exact h3.imp (fun h => by simp only [Nat.le_max_left, Nat.max_def]; split <;> omega) id
    · exact h4.imp (fun h => by simp only [Nat.max_def]; split <;> omega) id

theorem pipeLoop_sound {n : Nat} (ih : IH cfg o n) {s t s' acc} (h : body cfg o (parse cfg o n) (.pipeLoop acc) s = .ok t s') :
    Sound cfg o s t s' (.pipeLoop acc) := by
  rintro l acc' p x0 e0 rfl hx0 hp
  simp only [body] at h
  split at h
  · rename_i ht
    obtain ⟨a, r, rfl, ha, hok, h2, _⟩ := post_read hp ht (by simp) (by simp)
    have ha : a = .pipe := ha
    subst ha
    rw [h2] at h
    replace h := bind_ok h; obtain ⟨q, s1, h1, h⟩ := h
    split at h
    · cases h
    · rename_i hpn
      rcases (ih _ _ _ _ h1).1 r rfl with ⟨rfl, _⟩ | ⟨k, x, rest, e, _, rfl, hx, hpost⟩
      · exact absurd rfl hpn
      · obtain ⟨y, rest', e', u, rfl, hy, rfl, h2⟩ := ih _ _ _ _ h rest (acc' ++ [p]) q x e rfl hx hpost
        refine ⟨.pipe :: (nls k ++ (x ++ y)), rest', e', block .pipe p u, by simp, ?_, by simp, h2⟩
        exact .pipeMore x0 (x ++ y) k e0 e' p u hx0 hok hy
  · rename_i h1
    cases h
    obtain ⟨hu, hpk⟩ := post_token hp {}
    refine ⟨[], l, e0.up 1, p, rfl, by simpa using .pipeOne x0 e0 p hx0, by rw [chain_concat], ?_⟩
    rw [hu]
    rcases hp with ⟨rfl, hok⟩ | hd
    · exact .inl ⟨rfl, End.up_ok hok (by simpa using h1)⟩
    · exact .inr hd

theorem command_sound {n : Nat} (ih : IH cfg o n) {s t s' c} (h : body cfg o (parse cfg o n) (.command c) s = .ok t s') :
    Sound cfg o s t s' (.command c) := by
  simp only [body] at h
  constructor
  · rintro l rfl
    rw [token_fresh] at h
    cases c with
    | false =>
      replace h := ih _ _ _ _ h l rfl rfl
      rcases h with ⟨rfl, h⟩ | ⟨x, rest, e, rfl, hx⟩
      · exact .inl ⟨rfl, h⟩
      · exact .inr ⟨0, x, rest, e, by simp, rfl, hx⟩
    | true =>
      obtain ⟨k, l', rfl, hl⟩ := split_nls l
      have hlx : lex { contin := true, keyword := true } (nls k ++ l') = lex KW l' := by
        rw [lex_nls _ rfl]; exact lex_contin true false l' hl
      rw [hlx] at h
      replace h := ih _ _ _ _ h l' rfl rfl
      rcases h with ⟨rfl, h⟩ | ⟨x, rest, e, rfl, hx⟩
      · obtain ⟨rfl, hok⟩ := h.post
        refine .inl ⟨rfl, k, l', rfl, by simp, rfl, ?_⟩
        cases l' with
        | nil => rfl
        | cons a l' => simp [End.ok, End.okR, EK.ok] at hok hl ⊢; exact ⟨hok, hl⟩
      · exact .inr ⟨k, x, rest, e, by simp, rfl, hx⟩
  · rintro l rfl
    rw [token_at] at h
    exact ih _ _ _ _ h l rfl rfl

theorem redirsCall_sound {n : Nat} (ih : IH cfg o n) {s t s' kw t0} (h : body cfg o (parse cfg o n) (.redirs kw t0) s = .ok t s') :
    Sound cfg o s t s' (.redirs kw t0) := by
  simp only [body] at h
  constructor
  · rintro l ty d a b rfl rfl hd
    replace h := bind_ok h; obtain ⟨i, s1, h1, h⟩ := h
    rcases synio_inv h1 with ⟨j, r, rfl, rfl, rfl⟩ | ⟨rfl, rfl, hr⟩
    · replace h : (if d.io.length ≥ NUFILE then Res.err else parse cfg o n (.redirs kw (addIo j (.node ty d a b))) (fresh r)) = .ok t s' := h
      by_cases hc : d.io.length ≥ NUFILE
      · rw [if_pos hc] at h; cases h
      · rw [if_neg hc] at h
        obtain ⟨js, rest, rfl, rfl, hn, h2⟩ := (ih _ _ _ _ h).1 r _ _ _ _ rfl rfl (by simp only [List.length_append, List.length_cons, List.length_nil]; omega)
        exact ⟨j :: js, rest, by simp [ioRaw], by simp, by simp at hn ⊢; omega, h2⟩
    · cases h
      exact ⟨[], l, rfl, by simp, by simpa using hd, rfl, hr⟩
  · rintro tok r rfl hr
    rw [synio_some hr] at h
    cases h
    exact ⟨rfl, rfl⟩

theorem dogroup_sound {n : Nat} (ih : IH cfg o n) {s t s'} (h : body cfg o (parse cfg o n) .dogroup s = .ok t s') : Sound cfg o s t s' .dogroup := by
  simp only [body] at h
  cases hc : closeOf .kdo .kdone (token { contin := true, keyword := true } s).1 with
  | none => simp [hc] at h
  | some k =>
    simp only [hc] at h
    replace h := bind_ok h; obtain ⟨u, s1, h1, h⟩ := h
    replace h := bind_ok h; obtain ⟨_, s2, h2, h⟩ := h
    cases h
    have hs : ∃ r, (token CK s).2 = fresh r := by
      obtain ⟨pk, r⟩ := s
      cases pk <;> exact ⟨_, rfl⟩
    obtain ⟨r, hs⟩ := hs
    rw [hs] at h1
    obtain ⟨x, rest, e, u', rfl, hx, hu, hp⟩ := ih _ _ _ _ h1 r rfl
    rw [chainTo_nil] at hu
    subst hu
    obtain ⟨c, r', rfl, hc', he, rfl⟩ := musthave_post (by simp) (by simp) h2 hp
    have hkb : ∃ kb, (token CK s).1 = .kw kb ∧ ((kb = .kdo ∧ k = .kdone) ∨ (kb = .klbrace ∧ k = .krbrace)) := by
      cases ht : (token CK s).1 <;> rw [ht] at hc <;> simp [closeOf] at hc
      rename_i kb
      refine ⟨kb, rfl, ?_⟩
      by_cases h1 : kb = .kdo
      · simp [h1] at hc; exact .inl ⟨h1, hc.symm⟩
      · simp [h1] at hc; exact .inr ⟨hc.1, hc.2.symm⟩
    obtain ⟨kb, ht, hkb⟩ := hkb
    refine ⟨kb, x, c, r', e, by rw [← ht, ← hs], ?_, hx, he, rfl⟩
    rcases hkb with ⟨rfl, rfl⟩ | ⟨rfl, rfl⟩
    · exact .inl ⟨rfl, hc'.2⟩
    · exact .inr ⟨rfl, hc'.2⟩

theorem thenpart_sound {n : Nat} (ih : IH cfg o n) {s t s'} (h : body cfg o (parse cfg o n) .thenpart s = .ok t s') : Sound cfg o s t s' .thenpart := by
  intro l e0 hp
  simp only [body] at h
  replace h := bind_ok h; obtain ⟨_, s1, h1, h⟩ := h
  replace h := bind_ok h; obtain ⟨u, s2, h2, h⟩ := h
  obtain ⟨a, r, rfl, ha, hok, rfl⟩ := musthave_post (by simp) (by simp) h1 hp
  obtain ⟨x, rest, e, u', rfl, hx, hu, hp2⟩ := ih _ _ _ _ h2 r rfl
  rw [chainTo_nil] at hu
  subst hu
  split at h
  · cases h
  · rename_i hun
    have hun : u ≠ .nil := fun h => hun (by rw [h]; rfl)
    replace h := bind_ok h; obtain ⟨v, s3, h3, h⟩ := h
    cases h
    rcases ih _ _ _ _ h3 rest e hp2 with ⟨rfl, rfl⟩ | ⟨b, y, rest', e', rfl, hb, hokb, hy, hv, hp3⟩ |
      ⟨b, y, z, rest', e', e'', lt, w, rfl, hb, hokb, hy, hz0, hz, rfl, hp3⟩
    · exact ⟨a :: x, rest, e, by simp, .then a x e u ha.2 hx hun, hp2, hok⟩
    · exact ⟨a :: (x ++ b :: y), rest', e', by simp, .thenElse a b x y e e' u v ha.2 hx hun hb hokb hy hv, hp3, hok⟩
    · exact ⟨a :: (x ++ b :: (y ++ z)), rest', e'', by simp, .thenElif a b x y z e e' e'' u lt w ha.2 hx hun hb hokb hy hz0 hz, hp3, hok⟩

theorem elsepart_sound {n : Nat} (ih : IH cfg o n) {s t s'} (h : body cfg o (parse cfg o n) .elsepart s = .ok t s') : Sound cfg o s t s' .elsepart := by
  intro l e0 hp
  simp only [body] at h
  split at h
  · rename_i ht
    obtain ⟨a, r, rfl, ha, hok, h2, _⟩ := post_read hp ht (by simp) (by simp)
    rw [h2] at h
    replace h := bind_ok h; obtain ⟨u, s1, h1, h⟩ := h
    obtain ⟨x, rest, e, u', rfl, hx, hu, hp2⟩ := ih _ _ _ _ h1 r rfl
    rw [chainTo_nil] at hu
    subst hu
    split at h
    · cases h
    · rename_i hun
      cases h
      exact .inr (.inl ⟨a, x, rest, e, rfl, ha.2, hok, hx, fun h => hun (by rw [h]; rfl), hp2⟩)
  · rename_i ht
    obtain ⟨a, r, rfl, ha, hok, h2, _⟩ := post_read hp ht (by simp) (by simp)
    rw [h2] at h
    replace h := bind_ok h; obtain ⟨u, s1, h1, h⟩ := h
    replace h := bind_ok h; obtain ⟨v, s2, h3, h⟩ := h
    cases h
    obtain ⟨x, rest, e, u', rfl, hx, hu, hp2⟩ := ih _ _ _ _ h1 r rfl
    rw [chainTo_nil] at hu
    subst hu
    obtain ⟨z, rest', e', rfl, hz, hp3, hz0⟩ := ih _ _ _ _ h3 rest e hp2
    exact .inr (.inr ⟨a, x, z, rest', e, e', u, v, rfl, ha.2, hok, hx, hz0, hz, rfl, hp3⟩)
  · cases h
    exact .inl ⟨rfl, (post_token hp KW).1⟩

theorem sepTree_of {e : End} {m : Bool} {t : Op} {l : List Raw} {s : St} (hp : Post e l s)
    (h : ((token {} s).1 = .nl ∧ m = true) ∨ (token {} s).1 = .semi ∨ (token {} s).1 = .amp ∨ (token {} s).1 = .coproc) :
    ∃ r y, l = r :: y ∧ e.okR r = true ∧ (token {} s).2 = fresh y ∧
      (((token {} s).1 = .nl ∧ r = .nl) ∨ ((token {} s).1 = .semi ∧ r = .semi) ∨ ((token {} s).1 = .amp ∧ r = .amp) ∨
        ((token {} s).1 = .coproc ∧ r = .coproc)) := by
  rcases h with ⟨h, _⟩ | h | h | h
  all_goals
    obtain ⟨a, r, rfl, ha, hok, h2, _⟩ := post_read hp h (by simp) (by simp)
    exact ⟨a, r, rfl, hok, h2, by simp [h]; exact ha⟩

theorem End.up_list {e : End} {m : Bool} {l : List Raw} (h : e.ok l = true) (hl : 1 ≤ e.lvl)
    (h1 : (lex KW l).1 ≠ .andand ∧ (lex KW l).1 ≠ .oror ∧ (lex KW l).1 ≠ .semi ∧ (lex KW l).1 ≠ .amp ∧ (lex KW l).1 ≠ .coproc)
    (h2 : ¬ ((lex KW l).1 = .nl ∧ m = true)) : (e.up (listLvl m)).ok l = true := by
  cases l with
  | nil => rfl
  | cons a l =>
    simp only [End.ok, End.okR, End.up, ge_iff_le, Bool.and_eq_true, Bool.not_eq_true', Bool.and_eq_false_iff, decide_eq_false_iff_not] at h ⊢
    obtain ⟨⟨⟨h3, h4⟩, h5⟩, h6⟩ := h
    refine ⟨⟨⟨h3, .inr ?_⟩, .inr ?_⟩, ?_⟩
    · rcases h4 with h4 | h4
      · exact absurd hl h4
      · exact h4
    · rintro hm
      simp only [List.mem_cons, List.not_mem_nil, or_false] at hm
      rcases hm with rfl | rfl | rfl | rfl | rfl <;> simp [lex, KW] at h1
    · cases m with
      | false =>
        rcases h6 with h6 | h6
        · exact .inl (by simp [listLvl, Nat.max_def]; split <;> omega)
        · exact .inr h6
      | true => exact .inr (by rintro rfl; simp [lex, KW] at h2)

theorem clist_sound {n : Nat} (ih : IH cfg o n) {s t s' m acc} (h : body cfg o (parse cfg o n) (.clist m acc) s = .ok t s') :
    Sound cfg o s t s' (.clist m acc) := by
  rintro l rfl
  simp only [body, clistBody] at h
  replace h := bind_ok h; obtain ⟨p, s1, h1, h⟩ := h
  have h1 := ih _ _ _ _ h1 l rfl
  by_cases hpn : p = .nil
  · subst hpn
    have h1 : s1 = atS l ∧ (End.mk .noCmd 0).ok l = true := by
      rcases h1 with ⟨_, h1⟩ | ⟨x, rest, e, rfl, hx, _⟩
      · exact h1.post
      · have := hx.shape.1; simp [Op.isNil] at this
    obtain ⟨rfl, hok⟩ := h1
    by_cases hnl : (lex KW l).1 = .nl ∧ m = true
    · simp only [token_at, hnl, and_self, if_true, Op.isNil] at h
      obtain ⟨r, rfl, hl⟩ := lex_head (a := .nl) hnl.1 (by simp) (fun _ h => h)
      obtain ⟨_, rfl⟩ := hnl
      rw [hl] at h
      obtain ⟨x, rest, e, u, rfl, hx, rfl, hp⟩ := ih _ _ _ _ h r rfl
      -- one more newline before the list
      refine ⟨.nl :: x, rest, e, u, by simp, ?_, rfl, hp⟩
      cases hx with
      | listNil k => exact .listNil (k + 1)
      | listOne _ k x e _ hk hx => exact .listOne true (k + 1) x e _ (by simp) hx
      | listMore _ k x y e e' t u p r hk hx hr hs hy => exact .listMore true (k + 1) x y e _ t u p r (by simp) hx hr hs hy
    · simp only [token_at, hnl, if_false, Op.isNil, if_true] at h
      cases h
      cases m with
      | false => exact ⟨[], l, _, .nil, rfl, .listNil1, by simp [chainTo, Op.isNil], .inl ⟨rfl, hok⟩⟩
      | true =>
        refine ⟨[], l, _, .nil, rfl, .listNil 0, by simp [chainTo, Op.isNil], .inl ⟨rfl, ?_⟩⟩
        cases l with
        | nil => rfl
        | cons a l =>
          simp [End.ok, End.okR, EK.ok] at hok ⊢
          refine ⟨hok, ?_⟩
          rintro rfl
          simp [lex, KW] at hnl
  · have hpn' : p.isNil = false := by cases p <;> first | rfl | exact absurd rfl hpn
    obtain ⟨x, rest, e, rfl, hx, hpost, hna, hno⟩ : ∃ x rest e, l = x ++ rest ∧ Der cfg o .andor x e p ∧ Post e rest s1 ∧
        s1.pk ≠ some .andand ∧ s1.pk ≠ some .oror := by
      rcases h1 with ⟨h1, _⟩ | h1
      · exact absurd h1 hpn
      · exact h1
    have key : ∀ r y q, e.okR r = true → rest = r :: y → sepTree m r p = some q →
        parse cfg o n (.clist m (acc ++ [q])) (fresh y) = .ok t s' →
        ∃ x' rest' e' u, x ++ rest = x' ++ rest' ∧ Der cfg o (.list m) x' e' u ∧ t = chainTo acc u ∧ Post e' rest' s' := by
      rintro r y q hr rfl hs h
      obtain ⟨z, rest', e', u, rfl, hz, rfl, hp⟩ := ih _ _ _ _ h y rfl
      have hq : q.isNil = false := by
        unfold sepTree at hs
        split at hs
        · cases hs; exact hpn'
        · split at hs
          · cases hs; exact hpn'
          · cases hs
        · cases hs; rfl
        · cases hs; rfl
        · cases hs
      refine ⟨x ++ r :: z, rest', e', consList q u, by simp, ?_, chainTo_concat _ _ _ hq, hp⟩
      exact .listMore m 0 x z e e' p u q r (by simp) hx hr hs hz
    by_cases hnl : (token {} s1).1 = .nl ∧ m = true
    · rw [if_pos hnl, hpn'] at h
      simp only [Bool.false_eq_true, if_false] at h
      obtain ⟨a, r, rfl, ha, hok, h2, _⟩ := post_read hpost hnl.1 (by simp) (by simp)
      have ha : a = .nl := ha
      subst ha
      rw [h2] at h
      exact key .nl r p hok rfl (by simp [sepTree, hnl.2]) h
    · rw [if_neg hnl, hpn'] at h
      simp only [Bool.false_eq_true, if_false] at h
      split at h
      · rename_i ht
        obtain ⟨a, r, rfl, ha, hok, h2, _⟩ := post_read hpost ht (by simp) (by simp)
        have ha : a = .amp := ha
        subst ha
        rw [h2] at h
        exact key .amp r _ hok rfl rfl h
      · rename_i ht
        obtain ⟨a, r, rfl, ha, hok, h2, _⟩ := post_read hpost ht (by simp) (by simp)
        have ha : a = .coproc := ha
        subst ha
        rw [h2] at h
        exact key .coproc r _ hok rfl rfl h
      · rename_i ht
        obtain ⟨a, r, rfl, ha, hok, h2, _⟩ := post_read hpost ht (by simp) (by simp)
        have ha : a = .semi := ha
        subst ha
        rw [h2] at h
        exact key .semi r _ hok rfl rfl h
      · rename_i h1 h2 h3
        cases h
        obtain ⟨hu, hpk⟩ := post_token hpost {}
        refine ⟨x, rest, e.up (listLvl m), p, rfl, by simpa [nls] using .listOne m 0 x e p (by simp) hx, ?_, ?_⟩
        · rw [chain_concat]; simp [chainTo, hpn']
        · rw [hu]
          rcases hpost with ⟨rfl, hok⟩ | hd
          · refine .inl ⟨rfl, End.up_list hok hx.shape.2 ⟨?_, ?_, ?_, ?_, ?_⟩ hnl⟩
            · intro h; exact hna (by simp [atS, h])
            · intro h; exact hno (by simp [atS, h])
            · exact h3
            · exact h1
            · exact h2
          · exact .inr hd

theorem cases_sound {n : Nat} (ih : IH cfg o n) {s t s' k acc} (h : body cfg o (parse cfg o n) (.cases k acc) s = .ok t s') :
    Sound cfg o s t s' (.cases k acc) := by
  intro hk
  simp only [body] at h
  constructor
  · rintro l rfl
    rw [tpeek_fresh] at h
    obtain ⟨j, l', rfl, hl⟩ := split_nls l
    rw [lex_nls _ rfl] at h
    cases l' with
    | nil =>
      simp only [lex, reduceCtorEq, if_false, token_some, unget_fresh] at h
      obtain ⟨m, rfl⟩ : ∃ m, n = m + 1 := by
        cases n with
        | zero => simp [parse] at h
        | succ m => exact ⟨m, rfl⟩
      simp only [parse, body, mustWord, token_some, Res.bind] at h
      cases h
    | cons a l' =>
      by_cases ha : IsKw k a
      · obtain ⟨w, rfl, hw⟩ := ha
        have : lex { contin := true, keyword := true, esac := true } (.word w :: l') = (.kw k, l') := by
          rw [lex_word]
          rcases hk with rfl | rfl <;> simp [wordTok, hw]
        simp only [this, if_true, musthave, token_some, Res.bind] at h
        cases h
        exact ⟨nls j, .word w, l', _, .nil, rfl, ⟨w, rfl, hw⟩, .caseNil k j, rfl, patChain_eq acc, rfl⟩
      · have hstart : ∃ (op : Bool) (z : List Raw), a :: l' = (if op then [.lpar] else []) ++ z ∧ parse cfg o n (.pats k acc []) (fresh z) = .ok t s' ∧
            (op = false → ∃ w r, z = .word w :: r ∧ kwOf w.ident ≠ some .kesac ∧ kwOf w.ident ≠ some .krbrace) := by
          obtain ⟨m, rfl⟩ : ∃ m, n = m + 1 := by
            cases n with
            | zero =>
              exfalso
              split at h
              · cases a <;> simp [lex, wordTok] at *
                rename_i w _
                rename_i h'
                split at h'
                · rename_i k' hk'
                  split at h'
                  · simp at h'; exact ha ⟨_, rfl, h' ▸ hk'⟩
                  · cases h'
                · cases h'
              · split at h <;> simp [parse] at h
            | succ m => exact ⟨m, rfl⟩
          cases a with
          | lpar =>
            simp only [lex, reduceCtorEq, if_false, token_some] at h
            exact ⟨true, l', rfl, h, by simp⟩
          | word w =>
            have hne : wordTok { contin := true, keyword := true, esac := true } w ≠ .kw k := by
              intro hw
              simp only [wordTok, if_true] at hw
              split at hw
              · rename_i k' hk'
                split at hw
                · cases hw; exact ha ⟨w, rfl, hk'⟩
                · cases hw
              · cases hw
            have hne0 : (lex { contin := true, keyword := true, esac := true } (.word w :: l')).1 ≠ .kw k := by rw [lex_word]; exact hne
            rw [if_neg hne0] at h
            simp only [token_some, lex_word] at h
            refine ⟨false, .word w :: l', rfl, ?_, fun _ => ⟨w, l', rfl, ?_⟩⟩
            · split at h
              · rename_i heq
                simp only [Prod.mk.injEq] at heq
                simp only [wordTok, if_true] at heq
                split at heq
                · split at heq <;> simp at heq
                · simp at heq
              · rename_i heq
                simp only [Prod.mk.injEq] at heq
                obtain ⟨rfl, rfl⟩ := heq
                simp only [unget_fresh] at h
                have : wordTok { contin := true, keyword := true, esac := true } w = .word w := by
                  by_cases hww : wordTok { contin := true, keyword := true, esac := true } w = .word w
                  · exact hww
                  · exfalso
                    obtain ⟨k', hk'⟩ : ∃ k', wordTok { contin := true, keyword := true, esac := true } w = .kw k' := by
                      simp only [wordTok, if_true] at hww ⊢
                      split
                      · split
                        · exact ⟨_, rfl⟩
                        · rename_i hh1 hh2; simp [hh1] at hww; simp at hh2; simp [hh2] at hww
                      · rename_i hh1; simp [hh1] at hww
                    rw [hk'] at h
                    simp [parse, body, mustWord, Res.bind] at h
                rw [this] at h
                exact h
            · by_cases hww : kwOf w.ident = some .kesac ∨ kwOf w.ident = some .krbrace
              · exfalso
                have hk' : ∃ k', wordTok { contin := true, keyword := true, esac := true } w = .kw k' := by
                  rcases hww with hww | hww <;> simp [wordTok, hww]
                obtain ⟨k', hk'⟩ := hk'
                rw [hk'] at h
                simp [parse, body, mustWord, Res.bind] at h
              · simpa using hww
          | nl => simp at hl
          | _ => simp [lex, parse, body, mustWord, Res.bind] at h
        obtain ⟨op, z, hz, h, hop⟩ := hstart
        obtain ⟨p, ws, x, e, lt, hx, ⟨c, rest, hzz, hc, he, ht, hs⟩ | ⟨y, e', u, c, rest, hzz, he, hy, hc, he', ht, hs⟩⟩ := ih _ _ _ _ h hk z rfl
        · have hp : op = false → kwOf p.ident ≠ some .kesac ∧ kwOf p.ident ≠ some .krbrace := by
            intro ho
            obtain ⟨w, r, hw, h⟩ := hop ho
            rw [hzz] at hw
            have : p = w := by cases ws <;> simp [patsRaw] at hw <;> simp [hw]
            rw [this]; exact h
          refine ⟨_, c, rest, e, _, ?_, hc, .caseLast k j op p ws x e lt hp hx, he, ht, hs⟩
          rw [hz, hzz]; simp
        · have hp : op = false → kwOf p.ident ≠ some .kesac ∧ kwOf p.ident ≠ some .krbrace := by
            intro ho
            obtain ⟨w, r, hw, h⟩ := hop ho
            rw [hzz] at hw
            have : p = w := by cases ws <;> simp [patsRaw] at hw <;> simp [hw]
            rw [this]; exact h
          refine ⟨_, c, rest, e', _, ?_, hc, .caseMore k j op p ws x y e e' lt u hp hx he hy, he', ht, hs⟩
          rw [hz, hzz]; simp
  · rintro r rfl
    simp only [tpeek_some, if_true, musthave, token_some, Res.bind] at h
    cases h
    exact ⟨patChain_eq acc, rfl⟩

theorem pats_sound {n : Nat} (ih : IH cfg o n) {s t s' k acc ps} (h : body cfg o (parse cfg o n) (.pats k acc ps) s = .ok t s') :
    Sound cfg o s t s' (.pats k acc ps) := by
  rintro hk l rfl
  simp only [body] at h
  replace h := bind_ok h; obtain ⟨w, s1, h1, h⟩ := h
  obtain ⟨r, rfl, rfl⟩ := mustWord_inv rfl rfl h1
  rw [token_fresh] at h
  split at h
  · rename_i ht
    rcases lex_inv (kw := false) (l := r) (t := .pipe) (r := (lex {} r).2) (by rw [← ht]) with ⟨h', _⟩ | ⟨a, hl, ha⟩
    · cases h'
    have ha : a = .pipe := ha
    subst ha
    generalize (lex {} r).2 = r' at hl h
    subst hl
    obtain ⟨p, ws, x, e, lt, hx, ⟨c, rest, hzz, hc, he, ht, hs⟩ | ⟨y, e', u, c, rest, hzz, he, hy, hc, he', ht, hs⟩⟩ := ih _ _ _ _ h hk r' rfl
    · exact ⟨w, p :: ws, x, e, lt, hx, .inl ⟨c, rest, by simp [patsRaw, hzz], hc, he, by simpa using ht, hs⟩⟩
    · exact ⟨w, p :: ws, x, e, lt, hx, .inr ⟨y, e', u, c, rest, by simp [patsRaw, hzz], he, hy, hc, he', by simpa using ht, hs⟩⟩
  · rename_i ht
    replace h := bind_ok h; obtain ⟨_, s2, h2, h⟩ := h
    obtain ⟨ht2, rfl⟩ := musthave_inv h2
    clear h2
    · rw [unget_fresh, token_some] at ht2 h
      simp only at ht2 h
      rcases lex_inv (kw := false) (l := r) (t := .rpar) (r := (lex {} r).2) (by rw [← ht2]) with ⟨h', _⟩ | ⟨a, hl, ha⟩
      · cases h'
      have ha : a = .rpar := ha
      subst ha
      replace h := bind_ok h; obtain ⟨lt, s3, h3, h⟩ := h
      generalize (lex {} r).2 = r' at hl h3
      subst hl
      obtain ⟨x, rest, e, u', rfl, hx, hu, hp⟩ := ih _ _ _ _ h3 r' rfl
      rw [chainTo_nil] at hu
      subst hu
      refine ⟨w, [], x, e, lt, hx, ?_⟩
      obtain ⟨hu, hpk⟩ := post_token hp { contin := true, keyword := true }
      have htp : tpeek { contin := true, keyword := true } s3 = ((token { contin := true, keyword := true } s3).1, s3) := by
        unfold tpeek; rw [hu]
      rw [htp] at h
      split at h
      · rename_i htk
        obtain ⟨a, r2, rfl, ha, hok, h4, rfl⟩ := post_read hp htk (by simp) (by simp)
        have hat : atS (a :: r2) = ⟨some (.kw k), r2⟩ := by simp [atS, lexKW_kw ha.2]
        rw [hat] at h
        obtain ⟨rfl, rfl⟩ := (ih _ _ _ _ h hk).2 r2 rfl
        exact .inl ⟨a, r2, by simp [patsRaw], ha.2, hok, by rw [patTo_concat], rfl⟩
      · replace h := bind_ok h; obtain ⟨_, s4, h4, h⟩ := h
        obtain ⟨a, r2, rfl, ha, hok, rfl⟩ := musthave_post (by simp) (by simp) h4 hp
        have ha : a = .dsemi := ha
        subst ha
        obtain ⟨y, c, rest', e', u, rfl, hc, hy, he', ht, rfl⟩ := (ih _ _ _ _ h hk).1 r2 rfl
        exact .inr ⟨y, e', u, c, rest', by simp [patsRaw], hok, hy, hc, he', by rw [ht, patTo_concat], rfl⟩

theorem cmd_head {x : List Raw} {e : End} {t : Op} (h : Der cfg o .cmd x e t) : ∃ a y, x = a :: y ∧ a ≠ .nl :=
  (h.complete (by simp)).1

theorem funbody_sound {n : Nat} (ih : IH cfg o n) {s t s' w ksh} (h : body cfg o (parse cfg o n) (.funbody w ksh) s = .ok t s') :
    Sound cfg o s t s' (.funbody w ksh) := by
  rintro l rfl
  simp only [body] at h
  split at h
  · rename_i hv
    refine ⟨hv, ?_, ?_⟩
    · rintro rfl
      simp only [Bool.false_eq_true, if_false] at h
      replace h := bind_ok h; obtain ⟨u, s1, h1, h⟩ := h
      cases h
      rcases (ih _ _ _ _ h1).1 l rfl with ⟨rfl, k, l', rfl, _, rfl, hok⟩ | ⟨k, x, rest, e, _, rfl, hx, hp⟩
      · exact .inr ⟨k, l', rfl, rfl, rfl, hok⟩
      · have := hx.shape
        simp only at this
        exact .inl ⟨k, x, rest, e, u, rfl, hx, by simp [this], hp⟩
    · rintro rfl
      simp only [if_true] at h
      replace h := bind_ok h; obtain ⟨_, s1, h1, h⟩ := h
      replace h := bind_ok h; obtain ⟨u, s2, h2, h⟩ := h
      cases h
      unfold musthave at h1
      rw [token_fresh] at h1
      split at h1
      · rename_i ht
        cases h1
        generalize hl : lex CK l = tr at ht h2
        obtain ⟨tok, r⟩ := tr
        simp only at ht
        subst ht
        obtain ⟨k, b, rfl, hb⟩ := lexCK_inv hl (by simp)
        have hat : unget (.kw .klbrace) (fresh r) = atS (b :: r) := by simp [atS, lexKW_kw hb.2]
        simp only [hat] at h2
        rcases (ih _ _ _ _ h2).2 (b :: r) rfl with ⟨rfl, hno⟩ | ⟨x, rest, e, hl2, hx, hp⟩
        · have := hno.post.2
          obtain ⟨w', rfl, hw'⟩ := hb.2
          simp [End.ok, End.okR, EK.ok, Raw.starts, hw', Kw.starts] at this
        · obtain ⟨a, y, rfl, _⟩ := cmd_head hx
          simp only [List.cons_append, List.cons.injEq] at hl2
          obtain ⟨rfl, rfl⟩ := hl2
          have := hx.shape
          simp only at this
          exact ⟨k, b, y, rest, e, u, rfl, hb.2, hx, by simp [this], hp⟩
      · cases h1
  · cases h

theorem elems_noWords {es : List Elem} (h : elemWords es = []) : elemsRaw es = ioRaw (elemIos es) := by
  induction es with
  | nil => rfl
  | cons a es ih =>
    cases a with
    | io i => simp [elemsRaw, Elem.raw, elemIos, ioRaw, ih (by simpa [elemWords] using h)]
    | wd w => simp [elemWords] at h

theorem simple_sound {n : Nat} (ih : IH cfg o n) {s t s' ev vars args io} (h : body cfg o (parse cfg o n) (.simple ev vars args io) s = .ok t s') :
    Sound cfg o s t s' (.simple ev vars args io) := by
  rintro l es hes rfl hst hlen
  simp only [simpleCall, Call.simple.injEq] at hes
  obtain ⟨rfl, rfl, rfl, rfl⟩ := hes
  simp only [body, simpleBody, tpeek_fresh] at h
  split at h
  · rename_i r ht
    split at h
    · cases h
    rename_i hlt
    replace h := bind_ok h; obtain ⟨i, s1, h1, h⟩ := h
    rcases synio_inv (kw := false) h1 with ⟨j, r', rfl, rfl, rfl⟩ | ⟨rfl, _, hr⟩
    · replace h : parse cfg o n (.simple (declares cfg es) (asnWords cfg (elemWords es)) (argWords cfg (elemWords es)) (elemIos es ++ [j])) (fresh r') = .ok t s' := h
      rw [← simpleCall_io] at h
      have hst' : freeStart (es ++ [.io j]) := by
        rcases hst with hst | ⟨rfl, _⟩
        · cases es with
          | nil => exact hst.elim
          | cons a es => cases a <;> exact hst
        · trivial
      obtain ⟨x, rest, e, rfl, hx, hp⟩ := ih _ _ _ _ h r' _ rfl rfl (.inl hst') (by simp [elemIos_append, elemIos]; omega)
      rw [elemsRaw_append] at hx
      exact ⟨.redir j.r :: .word j.w :: x, rest, e, by simp, by simpa [elemsRaw, Elem.raw] using hx, hp⟩
    · cases h
  · rename_i w ht
    rcases lex_inv (kw := false) (l := l) (t := .word w) (r := (lex {} l).2) (by rw [← ht]) with ⟨h', _⟩ | ⟨a, hl, ha⟩
    · cases h'
    obtain ⟨rfl, _⟩ := ha
    generalize (lex {} l).2 = r at hl h
    subst hl
    have h' : parse cfg o n (simpleCall cfg (es ++ [.wd w])) (fresh r) = .ok t s' := by
      rw [simpleCall_word]
      split <;> rename_i hc
      · rw [if_pos hc] at h; exact h
      · rw [if_neg hc] at h; exact h
    have hst' : freeStart (es ++ [.wd w]) := by
      rcases hst with hst | ⟨rfl, a, r2, hl, hw⟩
      · cases es with
        | nil => exact hst.elim
        | cons a es => cases a <;> exact hst
      · cases hl
        rcases hw with ⟨w', hw1, hw2⟩ | ⟨x, hx⟩
        · cases hw1; exact hw2
        · cases hx
    obtain ⟨x, rest, e, rfl, hx, hp⟩ := ih _ _ _ _ h' r _ rfl rfl (.inl hst') (by simpa [elemIos_append, elemIos] using hlen)
    rw [elemsRaw_append] at hx
    exact ⟨.word w :: x, rest, e, by simp, by simpa [elemsRaw, Elem.raw] using hx, hp⟩
  · rename_i ht
    rcases lex_inv (kw := false) (l := l) (t := .lpar) (r := (lex {} l).2) (by rw [← ht]) with ⟨h', _⟩ | ⟨a, hl, ha⟩
    · cases h'
    have ha : a = .lpar := ha
    subst ha
    generalize (lex {} l).2 = r at hl h
    subst hl
    have hfree : freeStart es := by
      rcases hst with hst | ⟨rfl, a, r2, hl, hw⟩
      · exact hst
      · cases hl
        rcases hw with ⟨w', hw1, hw2⟩ | ⟨x, hx⟩
        · cases hw1
        · cases hx
    split at h
    · rename_i hnw
      have hw := asn_arg_nil _ hnw.2 hnw.1
      obtain ⟨x, c, l1, e, u, rfl, hc, hx, he, hred⟩ := nested_sound ih (by simp) (by simp) h
      have hc : c = .rpar := hc
      subst hc
      obtain ⟨js, rest, rfl, rfl, hn, rfl, hr⟩ := (ih _ _ _ _ hred).1 l1 _ _ _ _ rfl rfl hlen
      have hne : elemIos es ≠ [] := by
        intro hn
        have := (parts_nil (cfg := cfg) es).1 ⟨hn, hnw.2, hnw.1⟩
        subst this; exact hfree
      refine ⟨.lpar :: (x ++ .rpar :: ioRaw js), rest, ⟨.rsub, 0⟩, by simp, ?_, ?_⟩
      · rw [elems_noWords hw]
        exact .rsub (elemIos es) js x e u hne (by simpa using hn) hx he
      · cases rest with
        | nil => exact .inl ⟨rfl, rfl⟩
        | cons a rest =>
          cases a with
          | word w => exact .inr ⟨w, by simp [lex, wordTok]⟩
          | redir x => exact absurd rfl (hr x)
          | _ => exact .inl ⟨rfl, rfl⟩
    · rename_i hnw
      split at h
      · rename_i io args vars w hio hargs hvars
        replace h := bind_ok h; obtain ⟨_, s1, h1, h⟩ := h
        obtain ⟨ht2, rfl⟩ := musthave_inv h1
        clear h1
        · rw [fresh_eta, token_fresh] at ht2 h
          simp only at ht2 h
          rcases lex_inv (kw := false) (l := r) (t := .rpar) (r := (lex {} r).2) (by rw [← ht2]) with ⟨h', _⟩ | ⟨a, hl, ha⟩
          · cases h'
          have ha : a = .rpar := ha
          subst ha
          generalize (lex {} r).2 = r' at hl h
          subst hl
          replace h := bind_ok h; obtain ⟨u, s2, h2, h⟩ := h
          obtain ⟨hv, hb, _⟩ := ih _ _ _ _ h2 r' rfl
          -- the only part is the word
          have hes : es = [.wd w] ∧ w.asn = false := by
            cases es with
            | nil => exact hfree.elim
            | cons a es =>
              cases a with
              | io i => simp [elemIos] at hio
              | wd v =>
                simp only [elemIos] at hio
                simp only [elemWords] at hargs hvars
                have hv' : v.asn = false := by
                  unfold asnWords at hvars
                  cases hk : cfg.keyword <;> cases hv : v.asn <;> simp [hk, hv] at hvars <;> rfl
                have hvw : v = w ∧ elemWords es = [] := by
                  unfold argWords at hargs
                  unfold asnWords at hvars
                  cases hk : cfg.keyword
                  · simp [hk, hv'] at hargs; exact hargs
                  · simp [hk, hv'] at hargs hvars
                    refine ⟨hargs.1, ?_⟩
                    cases hew : elemWords es with
                    | nil => rfl
                    | cons z zs =>
                      have h1 := hvars z (by simp [hew])
                      have h2 := hargs.2 z (by simp [hew])
                      simp [h1] at h2
                obtain ⟨rfl, hvw⟩ := hvw
                have := (parts_nil (cfg := cfg) es).1 ⟨hio, by simp [hvw, asnWords], by simp [hvw, argWords]⟩
                subst this
                exact ⟨rfl, hv'⟩
          obtain ⟨rfl, hasn⟩ := hes
          rcases hb rfl with ⟨k, x, rest, e, t1, rfl, hx, rfl, hp⟩ | ⟨k, rest, rfl, rfl, rfl, hok⟩
          · obtain ⟨rfl, rfl⟩ := redirs_post ih hp h
            exact ⟨.lpar :: .rpar :: (nls k ++ x), rest, e, by simp, by simpa [elemsRaw, Elem.raw] using .fn w k x e t1 hfree hasn hv hx, hp⟩
          · have hp : Post ⟨.noCmdNl, 0⟩ rest (atS rest) := .inl ⟨rfl, hok⟩
            obtain ⟨rfl, rfl⟩ := redirs_post ih hp h
            exact ⟨.lpar :: .rpar :: nls k, rest, _, by simp, by simpa [elemsRaw, Elem.raw] using .fnNone w k hfree hasn hv, hp⟩
      · cases h
  · rename_i h1 h2 h3
    have hl : lex {} l = lex KW l := by
      cases l with
      | nil => rfl
      | cons a l => cases a <;> first | rfl | exact absurd rfl (h2 _)
    rw [hl] at h
    obtain ⟨rfl, rfl⟩ := (ih _ _ _ _ h).2 _ _ rfl (by rw [← hl]; exact fun x hx => h1 x hx)
    have hst : freeStart es := by
      rcases hst with hst | ⟨rfl, a, r2, rfl, hw⟩
      · exact hst
      · exfalso
        rcases hw with ⟨w', rfl, hw2⟩ | ⟨x, rfl⟩
        · exact h2 w' (by simp [lex, wordTok])
        · exact h1 x rfl
    refine ⟨[], l, _, rfl, by simpa using .simple es hst hlen, .inl ⟨rfl, ?_⟩⟩
    cases l with
    | nil => rfl
    | cons a l =>
      cases a <;> first | rfl | exact absurd rfl (h2 _) | exact absurd rfl (h1 _) | exact absurd rfl h3

theorem for_sound {n : Nat} (ih : IH cfg o n) {ty : Ty} {a : Raw} {r : List Raw} {t : Op} {s' : St}
    (ha : (IsKw .kfor a ∧ ty = .for) ∨ (IsKw .kselect a ∧ ty = .select)) (h : forBody (parse cfg o n) ty (fresh r) = .ok t s') :
    ∃ x rest e, a :: r = x ++ rest ∧ Der cfg o .cmd x e t ∧ Post e rest s' := by
  unfold forBody at h
  replace h := bind_ok h; obtain ⟨w, s1, h1, h⟩ := h
  obtain ⟨r', rfl, rfl⟩ := mustWord_inv rfl rfl h1
  split at h
  · rename_i hw
    replace h := bind_ok h; obtain ⟨vs, s2, h2, h⟩ := h
    replace h := bind_ok h; obtain ⟨u, s3, h3, h⟩ := h
    obtain ⟨kb, x, c, l1, e, htok, hkc, hx, he, rfl⟩ := ih _ _ _ _ h3
    obtain ⟨js, rest, rfl, rfl, hn, hp⟩ := redirs_sound ih rfl h
    have hmain : ∃ y k b, r' = y ++ (nls k ++ b :: (x ++ c :: (ioRaw js ++ rest))) ∧ ForWords y vs ∧ IsKw kb b := by
      rcases wordlist_inv h2 with ⟨y, q, rfl, hy, rfl⟩ | ⟨rfl, tok, q, hl, rfl⟩
      · rw [token_fresh] at htok
        simp only [Prod.mk.injEq] at htok
        have hl : lex CK q = (.kw kb, x ++ c :: (ioRaw js ++ rest)) := by
          have h2 : (lex CK q).2 = x ++ c :: (ioRaw js ++ rest) := by
            have := congrArg St.rest htok.2; exact this
          rw [← htok.1, ← h2]
        obtain ⟨k, b, rfl, hb⟩ := lexCK_inv hl (by simp)
        exact ⟨y, k, b, by simp, hy, hb.2⟩
      · rw [token_some] at htok
        simp only [Prod.mk.injEq] at htok
        obtain ⟨rfl, hq⟩ := htok
        have hq : q = x ++ c :: (ioRaw js ++ rest) := congrArg St.rest hq
        subst hq
        obtain ⟨k, b, rfl, hb⟩ := lexCK_inv hl (by simp)
        exact ⟨[], k, b, by simp, .none, hb.2⟩
    obtain ⟨y, k, b, rfl, hy, hb⟩ := hmain
    have hbc : (IsKw .kdo b ∧ IsKw .kdone c) ∨ (IsKw .klbrace b ∧ IsKw .krbrace c) := by
      rcases hkc with ⟨rfl, hc⟩ | ⟨rfl, hc⟩
      · exact .inl ⟨hb, hc⟩
      · exact .inr ⟨hb, hc⟩
    exact ⟨a :: .word w :: (y ++ (nls k ++ b :: (x ++ c :: ioRaw js))), rest, _, by simp,
      .for a ty w y vs k b c x e u js ha hw hy hbc hx he hn, hp⟩
  · cases h

theorem while_sound {n : Nat} (ih : IH cfg o n) {ty : Ty} {a : Raw} {r : List Raw} {t : Op} {s' : St}
    (ha : (IsKw .kwhile a ∧ ty = .while) ∨ (IsKw .kuntil a ∧ ty = .until)) (h : whileBody (parse cfg o n) ty (fresh r) = .ok t s') :
    ∃ x rest e, a :: r = x ++ rest ∧ Der cfg o .cmd x e t ∧ Post e rest s' := by
  unfold whileBody at h
  replace h := bind_ok h; obtain ⟨l, s1, h1, h⟩ := h
  obtain ⟨x, rest, e, u', rfl, hx, hu, hp⟩ := ih _ _ _ _ h1 r rfl
  rw [chainTo_nil] at hu
  subst hu
  split at h
  · cases h
  · rename_i hln
    have hln : l ≠ .nil := fun h => hln (by rw [h]; rfl)
    replace h := bind_ok h; obtain ⟨u, s3, h3, h⟩ := h
    obtain ⟨kb, y, c, l1, e', htok, hkc, hy, he', rfl⟩ := ih _ _ _ _ h3
    obtain ⟨js, rest', rfl, rfl, hn, hp2⟩ := redirs_sound ih rfl h
    have ht1 : (token CK s1).1 = .kw kb := by rw [htok]
    obtain ⟨b, q, rfl, hb, hok, h2, _⟩ := post_read hp ht1 (by simp) (by simp)
    rw [htok] at h2
    have hq : y ++ c :: (ioRaw js ++ rest') = q := congrArg St.rest h2
    subst hq
    have hbc : (IsKw .kdo b ∧ IsKw .kdone c) ∨ (IsKw .klbrace b ∧ IsKw .krbrace c) := by
      rcases hkc with ⟨rfl, hc⟩ | ⟨rfl, hc⟩
      · exact .inl ⟨hb.2, hc⟩
      · exact .inr ⟨hb.2, hc⟩
    exact ⟨a :: (x ++ b :: (y ++ c :: ioRaw js)), rest', _, by simp,
      .while a ty x e l b c y e' u js ha hx hln hok hbc hy he' hn, hp2⟩

theorem cmd_sound {n : Nat} (ih : IH cfg o n) {s t s' c} (h : body cfg o (parse cfg o n) (.cmd c) s = .ok t s') :
    Sound cfg o s t s' (.cmd c) := by
  rintro l rfl rfl
  simp only [body, cmdBody] at h
  generalize hlx : lex KW l = tr at h
  obtain ⟨tok, r⟩ := tr
  simp only at h
  have hinv := fun hne => at_inv (l := l) (tok := tok) (by rw [hlx]) hne
  rw [hlx] at hinv
  split at h
  -- simple commands
  · rename_i w
    obtain ⟨a, rfl, rfl, hw⟩ := hinv (by simp)
    right
    obtain ⟨m, rfl⟩ : ∃ m, n = m + 1 := by
      cases n with
      | zero => simp [parse] at h
      | succ m => exact ⟨m, rfl⟩
    have h' : parse cfg o (m + 1) (.simple false [] [] []) (fresh (.word w :: r)) = .ok t s' := h
    exact ih _ _ _ _ h' _ [] (by simp [simpleCall, declares, elemWords, elemIos, asnWords, argWords]) rfl
      (.inr ⟨rfl, _, _, rfl, .inl ⟨w, rfl, hw rfl⟩⟩) (by simp [elemIos])
  · rename_i x
    obtain ⟨a, rfl, ha⟩ := hinv (by simp)
    have ha : a = .redir x := ha
    subst ha
    right
    obtain ⟨m, rfl⟩ : ∃ m, n = m + 1 := by
      cases n with
      | zero => simp [parse] at h
      | succ m => exact ⟨m, rfl⟩
    have h' : parse cfg o (m + 1) (.simple false [] [] []) (fresh (.redir x :: r)) = .ok t s' := h
    exact ih _ _ _ _ h' _ [] (by simp [simpleCall, declares, elemWords, elemIos, asnWords, argWords]) rfl
      (.inr ⟨rfl, _, _, rfl, .inr ⟨x, rfl⟩⟩) (by simp [elemIos])
  · obtain ⟨a, rfl, ha⟩ := hinv (by simp)
    have ha : a = .lpar := ha
    subst ha
    obtain ⟨x, c, l1, e, u, rfl, hc, hx, he, hred⟩ := nested_sound ih (by simp) (by simp) h
    have hc : c = .rpar := hc
    subst hc
    obtain ⟨js, rest, rfl, rfl, hn, hp⟩ := redirs_sound ih rfl hred
    exact .inr ⟨.lpar :: (x ++ .rpar :: ioRaw js), rest, _, by simp, .paren js x e u hn hx he, hp⟩
  · obtain ⟨a, rfl, ha⟩ := hinv (by simp)
    obtain ⟨x, c, l1, e, u, rfl, hc, hx, he, hred⟩ := nested_sound ih (by simp) (by simp) h
    obtain ⟨js, rest, rfl, rfl, hn, hp⟩ := redirs_sound ih rfl hred
    exact .inr ⟨a :: (x ++ c :: ioRaw js), rest, _, by simp, .brace a c js x e u ha.2 hc.2 hn hx he, hp⟩
  · obtain ⟨a, rfl, ha⟩ := hinv (by simp)
    have ha : a = .dlpar := ha
    subst ha
    replace h := bind_ok h; obtain ⟨w, s1, h1, h⟩ := h
    obtain ⟨r', rfl, rfl⟩ := mustWord_inv rfl rfl h1
    obtain ⟨js, rest, rfl, rfl, hn, hp⟩ := redirs_sound ih rfl h
    exact .inr ⟨.dlpar :: .word w :: ioRaw js, rest, _, by simp, .letc w js hn, hp⟩
  · obtain ⟨a, rfl, ha⟩ := hinv (by simp)
    replace h := bind_ok h; obtain ⟨ws, s1, h1, h⟩ := h
    obtain ⟨x, rest, rfl, hx, rfl⟩ := (dbracket_iff _ _ _ _).1 h1
    obtain ⟨js, rest, rfl, rfl, hn, hp⟩ := redirs_sound ih rfl h
    exact .inr ⟨a :: (x ++ ioRaw js), rest, _, by simp, .dbr a x ws js ha.2 hx hn, hp⟩
  -- loops
  · obtain ⟨a, rfl, ha⟩ := hinv (by simp)
    exact .inr (for_sound ih (.inl ⟨ha.2, rfl⟩) h)
  · obtain ⟨a, rfl, ha⟩ := hinv (by simp)
    exact .inr (for_sound ih (.inr ⟨ha.2, rfl⟩) h)
  · obtain ⟨a, rfl, ha⟩ := hinv (by simp)
    exact .inr (while_sound ih (.inl ⟨ha.2, rfl⟩) h)
  · obtain ⟨a, rfl, ha⟩ := hinv (by simp)
    exact .inr (while_sound ih (.inr ⟨ha.2, rfl⟩) h)
  · obtain ⟨a, rfl, ha⟩ := hinv (by simp)
    right
    replace h := bind_ok h; obtain ⟨w, s1, h1, h⟩ := h
    obtain ⟨r', rfl, rfl⟩ := mustWord_inv rfl rfl h1
    rw [token_fresh] at h
    generalize hl : lex { contin := true, keyword := true } r' = tr at h
    obtain ⟨tok, r2⟩ := tr
    simp only at h
    cases hc : closeOf .kin .kesac tok with
    | none => simp [hc] at h
    | some k =>
      simp only [hc] at h
      have hkb : ∃ kb, tok = .kw kb ∧ ((kb = .kin ∧ k = .kesac) ∨ (kb = .klbrace ∧ k = .krbrace)) := by
        cases tok <;> simp [closeOf] at hc
        rename_i kb
        refine ⟨kb, rfl, ?_⟩
        by_cases h1 : kb = .kin
        · simp [h1] at hc; exact .inl ⟨h1, hc.symm⟩
        · simp [h1] at hc; exact .inr ⟨hc.1, hc.2.symm⟩
      obtain ⟨kb, rfl, hkb⟩ := hkb
      obtain ⟨j, b, rfl, hb⟩ := lexCK_inv hl (by simp)
      replace h := bind_ok h; obtain ⟨u, s2, h2, h⟩ := h
      obtain ⟨x, c, l1, e, u', rfl, hc', hx, he, hu, rfl⟩ := (ih _ _ _ _ h2 (hkb.imp And.right And.right)).1 r2 rfl
      have hu : u = u' := hu
      subst hu
      obtain ⟨js, rest, rfl, rfl, hn, hp⟩ := redirs_sound ih rfl h
      have hbk : (IsKw .kin b ∧ k = .kesac) ∨ (IsKw .klbrace b ∧ k = .krbrace) := by
        rcases hkb with ⟨rfl, rfl⟩ | ⟨rfl, rfl⟩
        · exact .inl ⟨hb.2, rfl⟩
        · exact .inr ⟨hb.2, rfl⟩
      exact ⟨a :: .word w :: (nls j ++ b :: (x ++ c :: ioRaw js)), rest, _, by simp, .case a w j b c k x e u js ha.2 hbk hc' hx he hn, hp⟩
  · obtain ⟨a, rfl, ha⟩ := hinv (by simp)
    replace h := bind_ok h; obtain ⟨u, s1, h1, h⟩ := h
    obtain ⟨x, rest, e, u', rfl, hx, hu, hp⟩ := ih _ _ _ _ h1 r rfl
    rw [chainTo_nil] at hu
    subst hu
    replace h := bind_ok h; obtain ⟨v, s2, h2, h⟩ := h
    obtain ⟨y, rest', e', rfl, hy, hp2, hey⟩ := ih _ _ _ _ h2 rest e hp
    replace h := bind_ok h; obtain ⟨_, s3, h3, h⟩ := h
    obtain ⟨c, l1, rfl, hc, hok, rfl⟩ := musthave_post (by simp) (by simp) h3 hp2
    obtain ⟨js, rest, rfl, rfl, hn, hp⟩ := redirs_sound ih rfl h
    exact .inr ⟨a :: (x ++ (y ++ c :: ioRaw js)), rest, _, by simp, .if a c x e u y e' v js ha.2 hx hey hy hc.2 hok hn, hp⟩
  · obtain ⟨a, rfl, ha⟩ := hinv (by simp)
    replace h := bind_ok h; obtain ⟨u, s1, h1, h⟩ := h
    split at h
    · cases h
    rename_i hun
    rcases ih _ _ _ _ h1 r rfl with ⟨rfl, _⟩ | ⟨k, x, rest, e, hk, rfl, hx, hp⟩
    · exact absurd rfl hun
    · have hk0 : k = 0 := by
        cases k with
        | zero => rfl
        | succ k => simp at hk
      subst hk0
      obtain ⟨rfl, rfl⟩ := redirs_post ih hp h
      exact .inr ⟨a :: x, rest, e, by simp [nls], .bang a x e u ha.2 hx, hp⟩
  · obtain ⟨a, rfl, ha⟩ := hinv (by simp)
    replace h := bind_ok h; obtain ⟨u, s1, h1, h⟩ := h
    rcases ih _ _ _ _ h1 r rfl with ⟨rfl, hno⟩ | ⟨k, x, rest, e, hk, rfl, hx, hp⟩
    · obtain ⟨rfl, hok⟩ := hno.post
      have hp : Post ⟨.noCmd, 0⟩ r (atS r) := .inl ⟨rfl, hok⟩
      obtain ⟨rfl, rfl⟩ := redirs_post ih hp h
      exact .inr ⟨[a], r, _, rfl, .timeNone a ha.2, hp⟩
    · have hk0 : k = 0 := by
        cases k with
        | zero => rfl
        | succ k => simp at hk
      subst hk0
      obtain ⟨rfl, rfl⟩ := redirs_post ih hp h
      exact .inr ⟨a :: x, rest, e, by simp [nls], .time a x e u ha.2 hx, hp⟩
  · obtain ⟨a, rfl, ha⟩ := hinv (by simp)
    replace h := bind_ok h; obtain ⟨w, s1, h1, h⟩ := h
    obtain ⟨r', rfl, rfl⟩ := mustWord_inv rfl rfl h1
    replace h := bind_ok h; obtain ⟨u, s2, h2, h⟩ := h
    obtain ⟨hv, _, hbb⟩ := ih _ _ _ _ h2 r' rfl
    obtain ⟨k, b, x, rest, e, t1, rfl, hb, hx, rfl, hp⟩ := hbb rfl
    obtain ⟨rfl, rfl⟩ := redirs_post ih hp h
    exact .inr ⟨a :: .word w :: (nls k ++ b :: x), rest, e, by simp, .kfn w a b k x e t1 ha.2 hv hb hx, hp⟩
  · cases h
    left
    refine ⟨rfl, 0, l, rfl, by simp, by simp [atS, hlx], ?_⟩
    refine noCmd_of ?_
    rw [hlx]
    cases tok with
    | kw k => cases k <;> first | trivial | (exfalso; simp_all)
    | word w => exfalso; simp_all
    | redir w => exfalso; simp_all
    | lpar => exfalso; simp_all
    | dlpar => exfalso; simp_all
    | _ => trivial

/-- What is accepted is a phrase of the grammar with its tree. -/
theorem parse_sound (n : Nat) : IH cfg o n := by
  induction n with
  | zero => intro c s t s' h; simp [parse] at h
  | succ n ih =>
    intro c s t s' h
    have h : body cfg o (parse cfg o n) c s = .ok t s' := h
    cases c with
    | clist m acc => exact clist_sound ih h
    | andor => exact andor_sound ih h
    | andorLoop t0 => exact andorLoop_sound ih h
    | pipeline c => exact pipeline_sound ih h
    | pipeLoop acc => exact pipeLoop_sound ih h
    | command c => exact command_sound ih h
    | cmd c => exact cmd_sound ih h
    | simple ev vars args io => exact simple_sound ih h
    | redirs kw t0 => exact redirsCall_sound ih h
    | dogroup => exact dogroup_sound ih h
    | thenpart => exact thenpart_sound ih h
    | elsepart => exact elsepart_sound ih h
    | cases k acc => exact cases_sound ih h
    | pats k acc ps => exact pats_sound ih h
    | funbody w ksh => exact funbody_sound ih h

end Ksh.Syn
