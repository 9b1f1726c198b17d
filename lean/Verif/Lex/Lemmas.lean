import Verif.Lex.Model
/-! # Running the lexer -/

namespace Ksh.Lex

/-- `s` runs to `s'`. -/
def Adv (s s' : LS) : Prop := ∃ k, ∀ n, loop (n + k) s = loop n s'

theorem Adv.refl (s) : Adv s s := ⟨0, fun _ => rfl⟩
theorem Adv.trans {a b c} (h : Adv a b) (h' : Adv b c) : Adv a c := by
  obtain ⟨k, h⟩ := h
  obtain ⟨m, h'⟩ := h'
  exact ⟨m + k, fun n => by rw [← Nat.add_assoc, h, h']⟩

/-- the current state accepts `c` as part of the word -/
def takes (st : List St) (c : Char) : Prop := (match st with | .base :: _ => true | _ => false) = true → lex1 c = false

theorem Adv.step {st i skip out c i' sk' s'} (hg : getsc (ignoring st) skip i = (some c, i', sk')) (ht : takes st c)
    (hs : step ⟨st, i', sk', out⟩ c = some s') : Adv ⟨st, i, skip, out⟩ s' := by
  refine ⟨1, fun n => ?_⟩
  rw [loop]
  simp only [hg, hs]
  rw [if_neg]
  simp only [Bool.and_eq_true, not_and, Bool.not_eq_true]
  exact ht

theorem get_plain {skip c r} (hs : skip ≠ 1) (hc : c ≠ '\\') : getsc false skip (c :: r) = (some c, r, 0) := by
  have : bn (c :: r) = (some c, r, 0) := by
    unfold bn
    split <;> simp_all
  simp [getsc, hs, this]
theorem get_bs {skip d r} (hs : skip ≠ 1) (hd : d ≠ '\n') : getsc false skip ('\\' :: d :: r) = (some '\\', d :: r, 1) := by
  simp [getsc, hs, bn, hd]
theorem get_raw {d r} : getsc false 1 (d :: r) = (some d, r, 2) := by simp [getsc]
theorem get_ign {skip d r} : getsc true skip (d :: r) = (some d, r, skip) := by simp [getsc]
theorem get_end {skip} (hs : skip ≠ 1) : getsc false skip [] = (none, [], 0) := by simp [getsc, hs, bn]

/-- What follows the word: the end of input or a blank or newline. -/
def Ends (rest : List Char) : Prop := rest = [] ∨ ∃ r, rest = ' ' :: r ∨ rest = '\n' :: r ∨ rest = '\t' :: r

theorem stops {rest skip out} (h : Ends rest) (hs : skip ≠ 1) (n : Nat) :
    loop (n + 1) ⟨[.base], rest, skip, out⟩ = .word out rest := by
  rw [loop]
  rcases h with rfl | ⟨r, rfl | rfl | rfl⟩
  · simp [ignoring, get_end hs, ungetsc]
  all_goals
    simp only [ignoring]
    rw [get_plain hs (by decide)]
    simp [lex1, ungetsc]

theorem lexes {i rest w skip} (hs : skip ≠ 1) (he : Ends rest) (h : Adv ⟨[.base], i, 0, []⟩ ⟨[.base], rest, skip, w⟩) :
    ∃ N, ∀ n ≥ N, lexWord n i = .word w rest := by
  obtain ⟨k, h⟩ := h
  refine ⟨k + 1, fun n hn => ?_⟩
  have : n = (n - k - 1 + 1) + k := by omega
  rw [lexWord, this, h, stops he hs]

/-- A lookahead character that is not `(` is put back. -/
def Safe (i : List Char) : Prop :=
  i = [] ∨ (∃ c r, i = c :: r ∧ c ≠ '(' ∧ c ≠ '\\') ∨ (∃ d r, i = '\\' :: d :: r ∧ d ≠ '\n')

theorem peek {i skip} (h : Safe i) (hs : skip ≠ 1) : ∃ d i' sk', getsc false skip i = (d, i', sk') ∧ d ≠ some '(' ∧
    ungetsc d i' sk' = (i, 0) := by
  rcases h with rfl | ⟨c, r, rfl, hc, hb⟩ | ⟨d, r, rfl, hd⟩
  · exact ⟨none, [], 0, get_end hs, by simp, rfl⟩
  · exact ⟨some c, r, 0, get_plain hs hb, by simpa using hc, rfl⟩
  · exact ⟨some '\\', d :: r, 1, get_bs hs hd, by simp, rfl⟩

/-- An ordinary character outside quotes. -/
theorem adv_plain {c r skip out} (hs : skip ≠ 1) (hl : lex1 c = false) (hc : c ≠ '\\' ∧ c ≠ '\'' ∧ c ≠ '"' ∧ c ≠ '$' ∧ c ≠ '`')
    (hsafe : Safe r) : Adv ⟨[.base], c :: r, skip, out⟩ ⟨[.base], r, 0, out ++ [.chr c]⟩ := by
  obtain ⟨h1, h2, h3, h4, h5⟩ := hc
  refine Adv.step (i' := r) (sk' := 0) (c := c) (get_plain hs h1) (fun _ => hl) ?_
  have hb : ∀ i sk, sbase2 ⟨[.base], i, sk, out⟩ c = some ⟨[.base], i, sk, out ++ [.chr c]⟩ := by
    intro i sk
    simp [sbase2, subst, h1, h2, h3, h4, h5]
  simp only [step, sbase1]
  split
  · obtain ⟨d, i', sk', hg, hd, hu⟩ := peek hsafe (skip := 0) (by decide)
    simp only [ignoring, hg, if_neg hd, hu]
    exact hb r 0
  · exact hb r 0

/-- `\c` outside quotes -/
theorem adv_escape {c r skip out} (hs : skip ≠ 1) (hc : c ≠ '\n') :
    Adv ⟨[.base], '\\' :: c :: r, skip, out⟩ ⟨[.base], r, 2, out ++ [.qchr c]⟩ := by
  refine Adv.step (c := '\\') (get_bs hs hc) (fun _ => rfl) ?_
  simp [step, sbase1, sbase2, ignoring, get_raw]

theorem adv_squote_open {r skip out} (hs : skip ≠ 1) :
    Adv ⟨[.base], '\'' :: r, skip, out⟩ ⟨[.squote, .base], r, 0, out ++ [.oq]⟩ := by
  refine Adv.step (c := '\'') (get_plain hs (by decide)) (fun _ => rfl) ?_
  simp [step, sbase1, sbase2]

theorem adv_squote_char {c r skip out} (hc : c ≠ '\'') :
    Adv ⟨[.squote, .base], c :: r, skip, out⟩ ⟨[.squote, .base], r, skip, out ++ [.qchr c]⟩ := by
  refine Adv.step (c := c) get_ign (fun h => by simp at h) ?_
  simp [step, hc]

theorem adv_squote_close {r skip out} :
    Adv ⟨[.squote, .base], '\'' :: r, skip, out⟩ ⟨[.base], r, skip, out ++ [.cq]⟩ := by
  refine Adv.step (c := '\'') get_ign (fun h => by simp at h) ?_
  simp [step]

/-! ## Items inside and outside double quotes -/

/-- The states in which characters and expansions are read. -/
inductive Ctx
  | base | dq | brace | braceq | tbrace | pat
  deriving DecidableEq, Repr

def Ctx.st : Ctx → St
  | .base => .base
  | .dq => .dquote
  | .brace => .brace
  | .braceq => .braceq
  | .tbrace => .tbrace
  | .pat => .pattern

def InB (st : List St) : Prop := ∃ k r, st = Ctx.st k :: r

theorem inB_base : InB [.base] := ⟨.base, [], rfl⟩
theorem inB_dq {r} : InB (.dquote :: r) := ⟨.dq, r, rfl⟩

theorem InB.ign {st} (h : InB st) : ignoring st = false := by rcases h with ⟨k, r, rfl⟩; cases k <;> rfl
theorem InB.takes {st} (_ : InB st) {c : Char} (hl : lex1 c = false) : takes st c := fun _ => hl

theorem InB.dollar {st} (h : InB st) {i sk out} :
    step ⟨st, i, sk, out⟩ '$' = subst ⟨st, i, sk, out⟩ '$' := by
  rcases h with ⟨k, r, rfl⟩; cases k <;> simp [step, sbase1, sbase2, Ctx.st]

/-- Has the state extended patterns? -/
def Ctx.pats : Ctx → Bool
  | .dq | .braceq => false
  | _ => true

/-- characters that stand for themselves in a state -/
def Plain (k : Ctx) (c : Char) : Prop :=
  c ≠ '\\' ∧ c ≠ '"' ∧ c ≠ '$' ∧ c ≠ '`' ∧
  match k with
  | .base => lex1 c = false ∧ c ≠ '\''
  | .dq => True
  | .brace => c ≠ '}' ∧ c ≠ '\''
  | .braceq => c ≠ '}'
  | .tbrace => c ≠ '}' ∧ c ≠ '|' ∧ c ≠ '(' ∧ c ≠ '\''
  | .pat => c ≠ ')' ∧ c ≠ '|' ∧ c ≠ '(' ∧ c ≠ '\''

/-- a character that begins an extended pattern if a parenthesis follows -/
def patChar (c : Char) : Bool := c = '*' || c = '@' || c = '+' || c = '?' || c = '!'

theorem Plain.takes {k c r} (h : Plain k c) : takes (Ctx.st k :: r) c := by
  intro h'
  cases k <;> first | exact h.2.2.2.2.1 | simp [Ctx.st] at h'

theorem ctx_ign {k r} : ignoring (Ctx.st k :: r) = false := by cases k <;> rfl

theorem sbase1_plain {st i out c} (hi : ignoring st = false)
    (hsafe : patChar c = true → Safe i) :
    sbase1 ⟨st, i, 0, out⟩ c = sbase2 ⟨st, i, 0, out⟩ c := by
  unfold sbase1
  split
  · rename_i hp
    obtain ⟨d, i', sk', hg, hd, hu⟩ := peek (hsafe (by simpa [patChar] using hp)) (skip := 0) (by decide)
    simp only [hi, hg, if_neg hd, hu]
  · rfl

theorem adv_char {k st c r skip out} (hs : skip ≠ 1) (h : Plain k c) (hsafe : k.pats = true → patChar c = true → Safe r) :
    Adv ⟨Ctx.st k :: st, c :: r, skip, out⟩ ⟨Ctx.st k :: st, r, 0, out ++ [.chr c]⟩ := by
  refine Adv.step (i' := r) (sk' := 0) (c := c) (by rw [ctx_ign]; exact get_plain hs h.1) h.takes ?_
  obtain ⟨h1, h2, h3, h4, h5⟩ := h
  have hsub : ∀ (st' : List St), subst ⟨st', r, 0, out⟩ c = some ⟨st', r, 0, out ++ [.chr c]⟩ := by
    intro st'; simp [subst, h1, h3, h4]
  cases k
  · simp only [Ctx.st, step]
    rw [sbase1_plain rfl (hsafe rfl)]
    simp [sbase2, h1, h2, h5.2, hsub]
  · simp [Ctx.st, step, h2, hsub]
  · simp only [Ctx.st, step, h5.1, if_false]
    rw [sbase1_plain rfl (hsafe rfl)]
    simp [sbase2, h1, h2, h5.2, hsub]
  · have h5' : c ≠ '}' := h5
    simp only [Ctx.st, step, h5', if_false]
    by_cases hq : c = '\''
    · simp [sbase2, hq]
    · simp [sbase2, h1, h2, hq, hsub]
  · simp only [Ctx.st, step, h5.1, h5.2.1, h5.2.2.1, if_false]
    rw [sbase1_plain rfl (hsafe rfl)]
    simp [sbase2, h1, h2, h5.2.2.2, hsub]
  · simp only [Ctx.st, step, h5.1, h5.2.1, h5.2.2.1, if_false]
    rw [sbase1_plain rfl (hsafe rfl)]
    simp [sbase2, h1, h2, h5.2.2.2, hsub]

/-- `\c` outside double quotes -/
theorem adv_esc {k st c r skip out} (hs : skip ≠ 1) (hk : k ≠ .dq) (hc : c ≠ '\n') :
    Adv ⟨Ctx.st k :: st, '\\' :: c :: r, skip, out⟩ ⟨Ctx.st k :: st, r, 2, out ++ [.qchr c]⟩ := by
  refine Adv.step (c := '\\') (by rw [ctx_ign]; exact get_bs hs hc) (fun _ => rfl) ?_
  cases k <;> first
    | exact absurd rfl hk
    | simp [Ctx.st, step, sbase1, sbase2, ignoring, get_raw]

theorem adv_oq {k st r skip out} (hs : skip ≠ 1) (hk : k ≠ .dq) :
    Adv ⟨Ctx.st k :: st, '"' :: r, skip, out⟩ ⟨.dquote :: Ctx.st k :: st, r, 0, out ++ [.oq]⟩ := by
  refine Adv.step (c := '"') (by rw [ctx_ign]; exact get_plain hs (by decide)) (fun _ => rfl) ?_
  cases k <;> first
    | exact absurd rfl hk
    | simp [Ctx.st, step, sbase1, sbase2]

theorem adv_cq {st r skip out} (hs : skip ≠ 1) :
    Adv ⟨.dquote :: st, '"' :: r, skip, out⟩ ⟨st, r, 0, out ++ [.cq]⟩ := by
  refine Adv.step (c := '"') (get_plain hs (by decide)) (fun h => by simp at h) ?_
  simp [step]

theorem adv_dq_esc {st c r skip out} (hs : skip ≠ 1) (hc : c = '"' ∨ c = '\\' ∨ c = '$' ∨ c = '`') :
    Adv ⟨.dquote :: st, '\\' :: c :: r, skip, out⟩ ⟨.dquote :: st, r, 2, out ++ [.qchr c]⟩ := by
  have hn : c ≠ '\n' := by rcases hc with rfl | rfl | rfl | rfl <;> decide
  refine Adv.step (c := '\\') (get_bs hs hn) (fun h => by simp at h) ?_
  simp only [step, subst, ignoring, get_raw]
  rcases hc with rfl | rfl | rfl | rfl <;> simp

theorem adv_dq_bs {st c r skip out} (hs : skip ≠ 1) (hc : c ≠ '"' ∧ c ≠ '\\' ∧ c ≠ '$' ∧ c ≠ '`' ∧ c ≠ '\n') :
    Adv ⟨.dquote :: st, '\\' :: c :: r, skip, out⟩ ⟨.dquote :: st, r, 2, out ++ [.chr '\\', .chr c]⟩ := by
  obtain ⟨h1, h2, h3, h4, h5⟩ := hc
  refine Adv.step (c := '\\') (get_bs hs h5) (fun h => by simp at h) ?_
  simp [step, subst, ignoring, get_raw, h1, h2, h3, h4]

/-- The text after a `$` that stands for itself. -/
def NoVar (i : List Char) : Prop :=
  ∀ d ∈ i.head?, d ≠ '(' ∧ d ≠ '{' ∧ alpha d = false ∧ var1 d = false ∧ digit d = false

theorem adv_dollar {st i skip out} (hst : InB st) (hs : skip ≠ 1) (hsafe : Safe i) (hn : NoVar i) :
    Adv ⟨st, '$' :: i, skip, out⟩ ⟨st, i, 0, out ++ [.chr '$']⟩ := by
  refine Adv.step (c := '$') (i' := i) (sk' := 0) (by rw [hst.ign]; exact get_plain hs (by decide)) (hst.takes rfl) ?_
  rw [hst.dollar]
  simp only [subst, show ('$' = '\\') = False from by simp, if_false, if_true, hst.ign]
  rcases hsafe with rfl | ⟨c, r, rfl, hc, hb⟩ | ⟨d, r, rfl, hd⟩
  · rw [get_end (by decide)]; simp [ungetsc]
  · rw [get_plain (by decide) hb]
    obtain ⟨h1, h2, h3, h4, h5⟩ := hn c (by simp)
    simp [h1, h2, h3, h4, h5, ungetsc]
  · rw [get_bs (by decide) hd]
    simp [show alpha '\\' = false from by decide, show var1 '\\' = false from by decide, show digit '\\' = false from by decide, ungetsc]

/-- `c(` -/
theorem adv_opat {k st c r skip out} (hs : skip ≠ 1) (hk : k.pats = true) (hc : patChar c = true) :
    Adv ⟨Ctx.st k :: st, c :: '(' :: r, skip, out⟩ ⟨.pattern :: Ctx.st k :: st, r, 0, out ++ [.opat c]⟩ := by
  have hc' : c = '*' ∨ c = '@' ∨ c = '+' ∨ c = '?' ∨ c = '!' := by simpa [patChar, or_assoc] using hc
  have hb : c ≠ '\\' := by rcases hc' with rfl | rfl | rfl | rfl | rfl <;> decide
  have hl : lex1 c = false := by rcases hc' with rfl | rfl | rfl | rfl | rfl <;> decide
  refine Adv.step (c := c) (i' := '(' :: r) (sk' := 0) (by rw [ctx_ign]; exact get_plain hs hb) (fun _ => hl) ?_
  have h1 : ∀ st', ignoring st' = false → sbase1 ⟨st', '(' :: r, 0, out⟩ c = some ⟨.pattern :: st', r, 0, out ++ [.opat c]⟩ := by
    intro st' hi
    have hp : (decide (c = '*') || decide (c = '@') || decide (c = '+') || decide (c = '?') || decide (c = '!')) = true := hc
    simp only [sbase1, hp, if_true, hi, get_plain (show 0 ≠ 1 by decide) (show '(' ≠ '\\' by decide)]
  have hne : c ≠ '}' ∧ c ≠ '|' ∧ c ≠ '(' ∧ c ≠ ')' := by rcases hc' with rfl | rfl | rfl | rfl | rfl <;> decide
  cases k <;> first
    | exact absurd hk (by decide)
    | (simp only [Ctx.st, step, hne.1, hne.2.1, hne.2.2.1, hne.2.2.2, if_false]; exact h1 _ rfl)

theorem adv_spat {k st r skip out} (hs : skip ≠ 1) (hk : k = .pat ∨ k = .tbrace) :
    Adv ⟨Ctx.st k :: st, '|' :: r, skip, out⟩ ⟨Ctx.st k :: st, r, 0, out ++ [.spat]⟩ := by
  refine Adv.step (c := '|') (by rw [ctx_ign]; exact get_plain hs (by decide)) ?_ ?_
  · rcases hk with rfl | rfl <;> intro h <;> simp [Ctx.st] at h
  · rcases hk with rfl | rfl <;> simp [Ctx.st, step]

theorem adv_cpat {st r skip out} (hs : skip ≠ 1) :
    Adv ⟨.pattern :: st, ')' :: r, skip, out⟩ ⟨st, r, 0, out ++ [.cpat]⟩ := by
  refine Adv.step (c := ')') (get_plain hs (by decide)) (fun h => by simp at h) ?_
  simp [step]

theorem adv_csub {k st r skip out} (hs : skip ≠ 1) (hk : k = .brace ∨ k = .braceq ∨ k = .tbrace) :
    Adv ⟨Ctx.st k :: st, '}' :: r, skip, out⟩ ⟨st, r, 0, out ++ [.csub true]⟩ := by
  refine Adv.step (c := '}') (by rw [ctx_ign]; exact get_plain hs (by decide)) ?_ ?_
  · rcases hk with rfl | rfl | rfl <;> intro h <;> simp [Ctx.st] at h
  · rcases hk with rfl | rfl | rfl <;> simp [Ctx.st, step]

/-- the character after a `$name` -/
def NameEnd (i : List Char) : Prop :=
  i = [] ∨ (∃ c r, i = c :: r ∧ letnum c = false ∧ c ≠ '\\') ∨ (∃ d r, i = '\\' :: d :: r ∧ d ≠ '\n')

theorem letnum_ne_bs {c} (h : letnum c = true) : c ≠ '\\' := by rintro rfl; revert h; decide

theorem nameRun_spec {i} (hi : NameEnd i) : ∀ (name : List Char) (n : Nat) (skip : Nat) (acc : List Char),
    (∀ c ∈ name, letnum c = true) → name.length < n → skip ≠ 1 → nameRun n (name ++ i) skip acc = (acc ++ name, i, 0)
  | [], n + 1, skip, acc, _, _, hs => by
    rw [nameRun]
    rcases hi with rfl | ⟨c, r, rfl, hc, hb⟩ | ⟨d, r, rfl, hd⟩
    · simp [get_end hs, ungetsc]
    · simp [get_plain hs hb, hc, ungetsc]
    · simp only [List.nil_append, get_bs hs hd]
      simp [ungetsc, show letnum '\\' = false from by decide]
  | c :: name, n + 1, skip, acc, hn, hl, hs => by
    have hc := hn c (by simp)
    rw [nameRun]
    simp only [List.cons_append, get_plain hs (letnum_ne_bs hc), hc, if_true]
    rw [nameRun_spec hi name n 0 _ (fun x hx => hn x (by simp [hx])) (by simp at hl; omega) (by decide)]
    simp
  | _, 0, _, _, _, hl, _ => by omega

theorem alpha_props {c} (h : alpha c = true) : c ≠ '\\' ∧ c ≠ '(' ∧ c ≠ '{' ∧ lex1 c = false ∧ letnum c = true ∧ digit c = false := by
  refine ⟨by rintro rfl; revert h; decide, by rintro rfl; revert h; decide, by rintro rfl; revert h; decide, ?_, by simp [letnum, h], ?_⟩
  · cases hl : lex1 c with
    | false => rfl
    | true =>
      simp only [lex1, List.contains_eq_mem, List.mem_cons, List.not_mem_nil, or_false, decide_eq_true_eq] at hl
      exfalso
      rcases hl with rfl | rfl | rfl | rfl | rfl | rfl | rfl | rfl | rfl | rfl <;> revert h <;> decide
  · cases hd : digit c with
    | false => rfl
    | true =>
      exfalso
      simp only [alpha, digit, Bool.or_eq_true, Bool.and_eq_true, decide_eq_true_eq, beq_iff_eq] at h hd
      rcases h with (h | h) | h
      · omega
      · omega
      · subst h; revert hd; decide

/-- `$name` -/
theorem adv_name {st c name i skip out} (hst : InB st) (hs : skip ≠ 1) (hc : alpha c = true)
    (hn : ∀ x ∈ name, letnum x = true) (hi : NameEnd i) :
    Adv ⟨st, '$' :: c :: (name ++ i), skip, out⟩ ⟨st, i, 0, out ++ [.osub false (c :: name), .csub false]⟩ := by
  obtain ⟨h1, h2, h3, h4, h5, h6⟩ := alpha_props hc
  refine Adv.step (c := '$') (i' := c :: (name ++ i)) (sk' := 0) (by rw [hst.ign]; exact get_plain hs (by decide)) (hst.takes rfl) ?_
  rw [hst.dollar]
  simp only [subst, show ('$' = '\\') = False from by simp, if_false, if_true]
  rw [hst.ign, get_plain (by decide) h1]
  simp only [h2, h3, hc, if_false, if_true]
  rw [nameRun_spec hi name _ 0 _ hn (by simp; omega) (by decide)]
  simp

/-- a special parameter or `$1` -/
theorem adv_special {st c i skip out} (hst : InB st) (hs : skip ≠ 1) (hc : (var1 c || digit c) = true) (ha : alpha c = false) :
    Adv ⟨st, '$' :: c :: i, skip, out⟩ ⟨st, i, 0, out ++ [.osub false [c], .csub false]⟩ := by
  have h1 : c ≠ '\\' := by rintro rfl; revert hc; decide
  have h2 : c ≠ '(' := by rintro rfl; revert hc; decide
  have h3 : c ≠ '{' := by rintro rfl; revert hc; decide
  refine Adv.step (c := '$') (i' := c :: i) (sk' := 0) (by rw [hst.ign]; exact get_plain hs (by decide)) (hst.takes rfl) ?_
  rw [hst.dollar]
  simp only [subst, show ('$' = '\\') = False from by simp, if_false, if_true]
  rw [hst.ign, get_plain (by decide) h1]
  simp [h2, h3, ha, hc]

/-- Brackets that match: the text of a subscript up to and with its `]`. -/
def Sub : Nat → List Char → Prop
  | _, [] => False
  | d, c :: r =>
    if c = '[' then Sub (d + 1) r
    else if c = ']' then (if d = 1 then r = [] else Sub (d - 1) r)
    else Sub d r

/-- The names `get_brace_var` reads before the character `t`. -/
inductive BraceName : Char → List Char → Prop
  | ident {t c r} : alpha c = true → (∀ x ∈ r, letnum x = true) → letnum t = false → t ≠ '[' → BraceName t (c :: r)
  | elem {t c r s} : alpha c = true → (∀ x ∈ r, letnum x = true) → Sub 1 s → (∀ x ∈ s, x ≠ '\n') → BraceName t (c :: r ++ '[' :: s)
  | number {t c r} : digit c = true → (∀ x ∈ r, digit x = true) → digit t = false → BraceName t (c :: r)
  | special {t c} : var1 c = true → c ≠ '#' → BraceName t [c]
  | hash {t} : alpha t = false → digit t = false → var1 t = false → BraceName t ['#']
  | lenIdent {t c r} : alpha c = true → (∀ x ∈ r, letnum x = true) → letnum t = false → t ≠ '[' → BraceName t ('#' :: c :: r)
  | lenElem {t c r s} : alpha c = true → (∀ x ∈ r, letnum x = true) → Sub 1 s → (∀ x ∈ s, x ≠ '\n') → BraceName t ('#' :: c :: r ++ '[' :: s)
  | lenNumber {t c r} : digit c = true → (∀ x ∈ r, digit x = true) → digit t = false → BraceName t ('#' :: c :: r)
  | lenSpecial {t c} : var1 c = true → BraceName t ['#', c]

theorem digit_props {c} (h : digit c = true) : c ≠ '\\' ∧ c ≠ '#' ∧ alpha c = false ∧ letnum c = true := by
  refine ⟨by rintro rfl; revert h; decide, by rintro rfl; revert h; decide, ?_, by simp [letnum, h]⟩
  cases ha : alpha c with
  | false => rfl
  | true => have := (alpha_props ha).2.2.2.2.2; rw [h] at this; cases this

theorem var1_props {c} (h : var1 c = true) : c ≠ '\\' ∧ alpha c = false ∧ digit c = false := by
  simp only [var1, List.contains_eq_mem, List.mem_cons, List.not_mem_nil, or_false, decide_eq_true_eq] at h
  rcases h with rfl | rfl | rfl | rfl | rfl | rfl | rfl <;> decide

/-- any character but a newline is read as it is -/
theorem get_any {skip c r} (h : ∀ d ∈ r.head?, d ≠ '\n') : ∃ sk, getsc false skip (c :: r) = (some c, r, sk) ∧
    (c ≠ '\\' → sk ≠ 1) := by
  by_cases hs : skip = 1
  · subst hs; exact ⟨2, get_raw, fun _ => by decide⟩
  · by_cases hc : c = '\\'
    · subst hc
      cases r with
      | nil => exact ⟨1, by simp [getsc, hs, bn], fun h => absurd rfl h⟩
      | cons d r => exact ⟨1, get_bs hs (h d (by simp)), fun h => absurd rfl h⟩
    · exact ⟨0, get_plain hs hc, fun _ => by decide⟩

theorem arraySub_spec {t i} (ht : t ≠ '\n') : ∀ (s : List Char) (n d skip : Nat) (acc : List Char), d ≠ 0 → Sub d s → (∀ x ∈ s, x ≠ '\n') →
    s.length < n → ∃ sk, sk ≠ 1 ∧ arraySub n d (s ++ t :: i) skip acc = some (acc ++ s, t :: i, sk)
  | [], _, _, _, _, _, h, _, _ => h.elim
  | c :: s, 0, _, _, _, _, _, _, hn => by omega
  | c :: s, n + 1, d, skip, acc, hd, h, hnl, hn => by
    have hh : ∀ x ∈ (s ++ t :: i).head?, x ≠ '\n' := by
      cases s with
      | nil => simpa using ht
      | cons y s => simpa using hnl y (by simp)
    obtain ⟨sk, hg, hsk⟩ := get_any (skip := skip) (c := c) hh
    have hc := hnl c (by simp)
    have rest := fun d (hd : d ≠ 0) (h : Sub d s) => arraySub_spec (i := i) ht s n d sk (acc ++ [c]) hd h (fun x hx => hnl x (by simp [hx])) (by simp at hn; omega)
    rw [arraySub]
    simp only [List.cons_append, hg]
    simp only [Sub] at h
    by_cases h1 : c = '['
    · rw [if_pos h1] at h
      simp only [if_pos h1, Nat.add_eq_zero_iff, Nat.one_ne_zero, and_false, if_false, hc]
      obtain ⟨sk', h2, h3⟩ := rest (d + 1) (by omega) h
      exact ⟨sk', h2, by simpa using h3⟩
    · rw [if_neg h1] at h
      simp only [if_neg h1]
      by_cases h2 : c = ']'
      · rw [if_pos h2] at h
        simp only [if_pos h2]
        by_cases h3 : d = 1
        · rw [if_pos h3] at h
          subst h h3
          exact ⟨sk, hsk (by subst h2; decide), by simp⟩
        · rw [if_neg h3] at h
          simp only [show ¬ (d - 1 = 0) from by omega, if_false, hc]
          obtain ⟨sk', h4, h5⟩ := rest (d - 1) (by omega) h
          exact ⟨sk', h4, by simpa using h5⟩
      · rw [if_neg h2] at h
        simp only [if_neg h2, hd, if_false, hc]
        obtain ⟨sk', h4, h5⟩ := rest d hd h
        exact ⟨sk', h4, by simpa using h5⟩

theorem braceVar_ident {t i} (ht : letnum t = false) (hb : t ≠ '\\') (hk : t ≠ '[') : ∀ (name : List Char) (n skip : Nat) (acc : List Char), (∀ c ∈ name, letnum c = true) →
    name.length < n → skip ≠ 1 → braceVar n .ident (name ++ t :: i) skip acc = some (acc ++ name, t :: i, 0)
  | [], n + 1, skip, acc, _, _, hs => by
    rw [braceVar]
    simp [get_plain hs hb, ht, hk, ungetsc]
  | c :: name, n + 1, skip, acc, hn, hl, hs => by
    have hc := hn c (by simp)
    rw [braceVar]
    simp only [List.cons_append, get_plain hs (letnum_ne_bs hc), hc, if_true]
    rw [braceVar_ident ht hb hk name n 0 _ (fun x hx => hn x (by simp [hx])) (by simp at hl; omega) (by decide)]
    simp
  | _, 0, _, _, _, hl, _ => by omega

theorem braceVar_elem {t i s} (hb : t ≠ '\\') (hnl : t ≠ '\n') (hsub : Sub 1 s) (hsn : ∀ x ∈ s, x ≠ '\n') : ∀ (name : List Char) (n skip : Nat) (acc : List Char), (∀ c ∈ name, letnum c = true) →
    name.length < n → skip ≠ 1 → braceVar n .ident (name ++ '[' :: (s ++ t :: i)) skip acc = some (acc ++ name ++ '[' :: s, t :: i, 0)
  | [], n + 1, skip, acc, _, _, hs => by
    rw [braceVar]
    obtain ⟨sk, hsk, he⟩ := arraySub_spec (i := i) hnl s ((s ++ t :: i).length + 1) 1 0 [] (by decide) hsub hsn (by simp; omega)
    simp only [List.nil_append, get_plain hs (show '[' ≠ '\\' by decide), show letnum '[' = false from by decide,
      Bool.false_eq_true, if_false, if_true, he, get_plain hsk hb, ungetsc]
    simp
  | c :: name, n + 1, skip, acc, hn, hl, hs => by
    have hc := hn c (by simp)
    rw [braceVar]
    simp only [List.cons_append, get_plain hs (letnum_ne_bs hc), hc, if_true]
    rw [braceVar_elem hb hnl hsub hsn name n 0 _ (fun x hx => hn x (by simp [hx])) (by simp at hl; omega) (by decide)]
    simp
  | _, 0, _, _, _, hl, _ => by omega

theorem braceVar_number {t i} (ht : digit t = false) (hb : t ≠ '\\') : ∀ (name : List Char) (n skip : Nat) (acc : List Char), (∀ c ∈ name, digit c = true) →
    name.length < n → skip ≠ 1 → braceVar n .number (name ++ t :: i) skip acc = some (acc ++ name, t :: i, 0)
  | [], n + 1, skip, acc, _, _, hs => by
    rw [braceVar]
    simp [get_plain hs hb, ht, ungetsc]
  | c :: name, n + 1, skip, acc, hn, hl, hs => by
    have hc := hn c (by simp)
    rw [braceVar]
    simp only [List.cons_append, get_plain hs (digit_props hc).1, hc, if_true]
    rw [braceVar_number ht hb name n 0 _ (fun x hx => hn x (by simp [hx])) (by simp at hl; omega) (by decide)]
    simp
  | _, 0, _, _, _, hl, _ => by omega

/-- the first character of a name -/
theorem braceVar_alpha {ps c i n skip acc} (hps : ps = .initial ∨ ps = .hash) (hs : skip ≠ 1) (hc : alpha c = true) :
    braceVar (n + 1) ps (c :: i) skip acc = braceVar n .ident i 0 (acc ++ [c]) := by
  have hp := alpha_props hc
  have hh : c ≠ '#' := by rintro rfl; revert hc; decide
  rw [braceVar]
  simp only [get_plain hs hp.1]
  rcases hps with rfl | rfl <;> simp [hh, hc]

theorem braceVar_digit {ps c i n skip acc} (hps : ps = .initial ∨ ps = .hash) (hs : skip ≠ 1) (hc : digit c = true) :
    braceVar (n + 1) ps (c :: i) skip acc = braceVar n .number i 0 (acc ++ [c]) := by
  have hp := digit_props hc
  rw [braceVar]
  simp only [get_plain hs hp.1]
  rcases hps with rfl | rfl <;> simp [hp.2.1, hp.2.2.1, hc]

theorem braceVar_var1 {ps c t i n skip acc} (hps : ps = .hash ∨ ps = .initial ∧ c ≠ '#') (hs : skip ≠ 1) (hc : var1 c = true)
    (ht : t ≠ '\\') :
    braceVar (n + 2) ps (c :: t :: i) skip acc = some (acc ++ [c], t :: i, 0) := by
  obtain ⟨h1, h2, h3⟩ := var1_props hc
  have e : braceVar (n + 1) .var1 (t :: i) 0 (acc ++ [c]) = some (acc ++ [c], t :: i, 0) := by
    rw [braceVar]; simp [get_plain, ht, ungetsc]
  rw [braceVar]
  simp only [get_plain hs h1]
  rcases hps with rfl | ⟨rfl, hh⟩
  · simp [h2, h3, hc, e]
  · simp [h2, h3, hc, e, hh]

theorem braceVar_hash {i n skip acc} (hs : skip ≠ 1) :
    braceVar (n + 1) .initial ('#' :: i) skip acc = braceVar n .hash i 0 (acc ++ ['#']) := by
  rw [braceVar]
  simp [get_plain hs (show '#' ≠ '\\' by decide)]

theorem braceVar_name {t name i skip n} (h : BraceName t name) (hb : t ≠ '\\') (hnl : t ≠ '\n') (hs : skip ≠ 1) (hn : name.length < n) :
    braceVar n .initial (name ++ t :: i) skip [] = some (name, t :: i, 0) := by
  obtain ⟨n, rfl⟩ : ∃ m, n = m + 1 := ⟨n - 1, by omega⟩
  cases h with
  | ident hc hr ht hk =>
    rw [List.cons_append, braceVar_alpha (Or.inl rfl) hs hc, braceVar_ident ht hb hk _ _ _ _ hr (by simp at hn; omega) (by decide)]; simp
  | elem hc hr h1 h2 =>
    simp only [List.cons_append, List.append_assoc]
    rw [braceVar_alpha (Or.inl rfl) hs hc, braceVar_elem hb hnl h1 h2 _ _ _ _ hr (by simp at hn; omega) (by decide)]; simp
  | number hc hr ht =>
    rw [List.cons_append, braceVar_digit (Or.inl rfl) hs hc, braceVar_number ht hb _ _ _ _ hr (by simp at hn; omega) (by decide)]; simp
  | special hc hh =>
    obtain ⟨n, rfl⟩ : ∃ m, n = m + 1 := ⟨n - 1, by simp at hn; omega⟩
    exact braceVar_var1 (Or.inr ⟨rfl, hh⟩) hs hc hb
  | hash h1 h2 h3 =>
    obtain ⟨n, rfl⟩ : ∃ m, n = m + 1 := ⟨n - 1, by simp at hn; omega⟩
    rw [List.cons_append, braceVar_hash hs, braceVar]
    simp [get_plain, hb, h1, h2, h3, ungetsc]
  | lenIdent hc hr ht hk =>
    obtain ⟨n, rfl⟩ : ∃ m, n = m + 1 := ⟨n - 1, by simp at hn; omega⟩
    rw [List.cons_append, braceVar_hash hs, List.cons_append, braceVar_alpha (Or.inr rfl) (by decide) hc,
      braceVar_ident ht hb hk _ _ _ _ hr (by simp at hn; omega) (by decide)]; simp
  | lenElem hc hr h1 h2 =>
    obtain ⟨n, rfl⟩ : ∃ m, n = m + 1 := ⟨n - 1, by simp at hn; omega⟩
    simp only [List.cons_append, List.append_assoc]
    rw [braceVar_hash hs, braceVar_alpha (Or.inr rfl) (by decide) hc, braceVar_elem hb hnl h1 h2 _ _ _ _ hr (by simp at hn; omega) (by decide)]; simp
  | lenNumber hc hr ht =>
    obtain ⟨n, rfl⟩ : ∃ m, n = m + 1 := ⟨n - 1, by simp at hn; omega⟩
    rw [List.cons_append, braceVar_hash hs, List.cons_append, braceVar_digit (Or.inr rfl) (by decide) hc,
      braceVar_number ht hb _ _ _ _ hr (by simp at hn; omega) (by decide)]; simp
  | lenSpecial hc =>
    obtain ⟨n, rfl⟩ : ∃ m, n = m + 2 := ⟨n - 2, by simp at hn; omega⟩
    rw [List.cons_append, braceVar_hash hs]
    exact braceVar_var1 (Or.inl rfl) (by decide) hc hb

/-- The state entered by `${name` before the operator `o`. -/
def Ctx.enter (k : Ctx) (o : Char) : Ctx :=
  if o = '#' ∨ o = '%' then .tbrace else match k with
    | .dq => .braceq
    | .braceq => .braceq
    | _ => .brace

/-- `${name` and the colon, if there is one -/
theorem adv_osub {k st name} {colon : Bool} {o i skip out} (hs : skip ≠ 1) (hn : BraceName (if colon then ':' else o) name)
    (h1 : o ≠ '\\') (h2 : o ≠ '\n') (h3 : o ≠ ':') :
    Adv ⟨Ctx.st k :: st, '$' :: '{' :: (name ++ ((if colon then [':'] else []) ++ o :: i)), skip, out⟩
      ⟨Ctx.st (k.enter o) :: Ctx.st k :: st, o :: i, 0, out ++ .osub true name :: (if colon then [.chr ':'] else [])⟩ := by
  have hst : InB (Ctx.st k :: st) := ⟨k, st, rfl⟩
  refine Adv.step (c := '$') (i' := '{' :: (name ++ ((if colon then [':'] else []) ++ o :: i))) (sk' := 0)
    (by rw [hst.ign]; exact get_plain hs (by decide)) (hst.takes rfl) ?_
  rw [hst.dollar]
  simp only [subst, show ('$' = '\\') = False from by simp, if_false, if_true]
  rw [hst.ign, get_plain (by decide) (by decide)]
  simp only [show ('{' = '(') = False from by simp, if_false, if_true]
  cases colon
  · simp only [Bool.false_eq_true, if_false, List.nil_append] at hn ⊢
    rw [braceVar_name hn h1 h2 (by decide) (by simp; omega)]
    simp only [get_plain (show 0 ≠ 1 by decide) h1, Option.some.injEq, h3, if_false, ungetsc, Nat.zero_sub]
    unfold Ctx.enter
    by_cases ho : o = '#' ∨ o = '%'
    · simp [ho, Ctx.st]
    · rw [if_neg ho]
      simp only [not_or] at ho
      cases k <;> simp [ho, Ctx.st]
  · simp only [if_true, List.cons_append, List.nil_append] at hn ⊢
    rw [braceVar_name hn (by decide) (by decide) (by decide) (by simp; omega)]
    simp only [get_plain (show 0 ≠ 1 by decide) (show ':' ≠ '\\' by decide), if_true, get_plain (show 0 ≠ 1 by decide) h1, ungetsc, Nat.zero_sub]
    unfold Ctx.enter
    by_cases ho : o = '#' ∨ o = '%'
    · simp [ho, Ctx.st]
    · rw [if_neg ho]
      simp only [not_or] at ho
      cases k <;> simp [ho, Ctx.st]

/-- `${name}` -/
theorem adv_brace {st name i skip out} (hst : InB st) (hs : skip ≠ 1) (hn : BraceName '}' name) :
    Adv ⟨st, '$' :: '{' :: (name ++ '}' :: i), skip, out⟩ ⟨st, i, 0, out ++ [.osub true name, .csub true]⟩ := by
  obtain ⟨k, r, rfl⟩ := hst
  have h := adv_osub (k := k) (st := r) (colon := false) (o := '}') (i := i) (out := out) hs hn (by decide) (by decide) (by decide)
  refine Adv.trans (by simpa using h) ?_
  have := adv_csub (k := k.enter '}') (st := Ctx.st k :: r) (r := i) (skip := 0) (out := out ++ [.osub true name]) (by decide) (by
    cases k <;> decide)
  simpa using this

/-- Text that `$(` reads up to its closing parenthesis: the parentheses outside quotes
match, and quotes are closed. -/
def CsOk : Nat → Nat → List Char → Prop
  | np, cs, [] => np = 1 ∧ cs = 0
  | np, cs, c :: r => (csStep np cs c).1 ≠ 0 ∧ CsOk (csStep np cs c).1 (csStep np cs c).2 r

/-- states of the quoting machine -/
def csRange (cs : Nat) : Prop := cs = 0 ∨ cs = 1 ∨ cs = 2 ∨ cs = 3 ∨ cs = 4

theorem csStep_range {np cs c} (h : csRange cs) : csRange (csStep np cs c).2 ∧
    ((csStep np cs c).2 = 1 ∨ (csStep np cs c).2 = 3 → c = '\\') ∧
    (c = '\\' → (cs = 0 ∨ cs = 2) → (csStep np cs c).2 = 1 ∨ (csStep np cs c).2 = 3) := by
  unfold csStep csRange
  rcases h with rfl | rfl | rfl | rfl | rfl <;>
    simp only [if_true, reduceIte, Nat.reduceEqDiff] <;>
    (repeat' split) <;> simp_all

theorem ignoring_cs {np cs buf st} (h : csRange cs) : ignoring (.csparen np cs buf :: st) = decide (cs = 4) := by
  rcases h with rfl | rfl | rfl | rfl | rfl <;> rfl

/-- after a character in state `cs`, is the next one read raw? -/
def skipOk (cs skip : Nat) : Prop := if cs = 1 ∨ cs = 3 then skip = 1 else skip ≠ 1

theorem adv_csText {st i out} : ∀ (s : List Char) (np cs skip : Nat) (buf : List Char), csRange cs → skipOk cs skip → np ≠ 0 →
    (∀ c ∈ s, c ≠ '\n') → CsOk np cs s →
    ∃ skip', skip' ≠ 1 ∧ Adv ⟨.csparen np cs buf :: st, s ++ ')' :: i, skip, out⟩ ⟨.csparen 1 0 (buf ++ s) :: st, ')' :: i, skip', out⟩
  | [], np, cs, skip, buf, hr, hk, hnp, _, ⟨h1, h2⟩ => by
    subst h1 h2
    exact ⟨skip, by simpa [skipOk] using hk, by simpa using Adv.refl _⟩
  | c :: s, np, cs, skip, buf, hr, hk, hnp, hnl, ⟨h1, h2⟩ => by
    obtain ⟨hr', hb1, hb2⟩ := csStep_range (np := np) (c := c) hr
    have hcn := hnl c (by simp)
    have nexthead : ∃ d r, s ++ ')' :: i = d :: r ∧ d ≠ '\n' := by
      cases s with
      | nil => exact ⟨')', i, rfl, by decide⟩
      | cons d s => exact ⟨d, s ++ ')' :: i, rfl, hnl d (by simp)⟩
    -- one character
    have hget : ∃ sk, getsc (ignoring (.csparen np cs buf :: st)) skip (c :: (s ++ ')' :: i)) = (some c, s ++ ')' :: i, sk) ∧
        skipOk (csStep np cs c).2 sk := by
      rw [ignoring_cs hr]
      by_cases h4 : cs = 4
      · subst h4
        refine ⟨skip, get_ign, ?_⟩
        have hk' : skip ≠ 1 := by simpa [skipOk] using hk
        unfold skipOk
        rw [if_neg]
        · exact hk'
        · unfold csStep; simp; split <;> simp
      · simp only [h4, decide_false]
        by_cases h13 : cs = 1 ∨ cs = 3
        · have hk' : skip = 1 := by simpa [skipOk, h13] using hk
          subst hk'
          refine ⟨2, get_raw, ?_⟩
          unfold skipOk csStep
          rcases h13 with rfl | rfl <;> simp
        · have hk' : skip ≠ 1 := by simpa [skipOk, h13] using hk
          have h02 : cs = 0 ∨ cs = 2 := by rcases hr with h | h | h | h | h <;> omega
          by_cases hc : c = '\\'
          · subst hc
            obtain ⟨d, r, he, hd⟩ := nexthead
            refine ⟨1, by rw [he]; exact get_bs hk' hd, ?_⟩
            unfold skipOk
            rw [if_pos (hb2 rfl h02)]
          · refine ⟨0, get_plain hk' hc, ?_⟩
            unfold skipOk
            rw [if_neg (fun h => hc (hb1 h))]
            decide
    obtain ⟨sk, hg, hsk⟩ := hget
    obtain ⟨skip', hs', ha⟩ := adv_csText (st := st) (i := i) (out := out) s _ _ sk (buf ++ [c]) hr' hsk h1 (fun x hx => hnl x (by simp [hx])) h2
    refine ⟨skip', hs', ?_⟩
    refine Adv.trans (Adv.step (c := c) hg (fun h => by simp at h) ?_) (by simpa using ha)
    simp [step, h1]

/-- `$(..)` -/
theorem adv_com {st s i skip out} (hst : InB st) (hs : skip ≠ 1) (hnl : ∀ c ∈ s, c ≠ '\n')
    (hp : s.head? ≠ some '(') (h : CsOk 1 0 s) :
    Adv ⟨st, '$' :: '(' :: (s ++ ')' :: i), skip, out⟩ ⟨st, i, 0, out ++ [.com s]⟩ := by
  have h1 : Adv ⟨st, '$' :: '(' :: (s ++ ')' :: i), skip, out⟩ ⟨.csparen 1 0 [] :: st, s ++ ')' :: i, 0, out⟩ := by
    refine Adv.step (c := '$') (i' := '(' :: (s ++ ')' :: i)) (sk' := 0) (by rw [hst.ign]; exact get_plain hs (by decide)) (hst.takes rfl) ?_
    rw [hst.dollar]
    simp only [subst, show ('$' = '\\') = False from by simp, if_false, if_true]
    rw [hst.ign, get_plain (by decide) (by decide)]
    simp only [if_true]
    have hsafe : Safe (s ++ ')' :: i) := by
      cases s with
      | nil => exact Or.inr (Or.inl ⟨')', i, rfl, by decide, by decide⟩)
      | cons d s =>
        by_cases hd : d = '\\'
        · subst hd
          refine Or.inr (Or.inr ?_)
          cases s with
          | nil => exact ⟨')', i, rfl, by decide⟩
          | cons e s => exact ⟨e, s ++ ')' :: i, rfl, hnl e (by simp)⟩
        · exact Or.inr (Or.inl ⟨d, s ++ ')' :: i, rfl, by simpa using hp, hd⟩)
    obtain ⟨d, i', sk', hg, hd, hu⟩ := peek hsafe (skip := 0) (by decide)
    simp only [hg, if_neg hd, hu]
  obtain ⟨skip', hs', h2⟩ := adv_csText (st := st) (i := i) (out := out) s 1 0 0 [] (Or.inl rfl) (by simp [skipOk]) (by decide) hnl h
  refine h1.trans (h2.trans ?_)
  refine Adv.step (c := ')') (get_plain hs' (by decide)) (fun h => by simp at h) ?_
  simp [step, csStep]

/-- Text inside `$((..))`: matching parentheses, no backslash. -/
def AsOk : Nat → List Char → Prop
  | np, [] => np = 2
  | np, c :: r => if c = '(' then AsOk (np + 1) r else if c = ')' then np ≥ 3 ∧ AsOk (np - 1) r else AsOk np r

theorem adv_asText {st i out} : ∀ (s : List Char) (np skip : Nat) (buf : List Char), skip ≠ 1 → np ≥ 2 →
    (∀ c ∈ s, c ≠ '\\') → AsOk np s →
    ∃ skip', skip' ≠ 1 ∧ Adv ⟨.asparen np buf :: st, s ++ i, skip, out⟩ ⟨.asparen 2 (buf ++ s) :: st, i, skip', out⟩
  | [], np, skip, buf, hk, _, _, h => by
    simp only [AsOk] at h
    subst h
    exact ⟨skip, hk, by simpa using Adv.refl _⟩
  | c :: s, np, skip, buf, hk, hnp, hbs, h => by
    have hc := hbs c (by simp)
    have hrest := fun x (hx : x ∈ s) => hbs x (by simp [hx])
    have hg : getsc (ignoring (.asparen np buf :: st)) skip (c :: (s ++ i)) = (some c, s ++ i, 0) := get_plain hk hc
    simp only [AsOk] at h
    by_cases h1 : c = '('
    · rw [if_pos h1] at h
      obtain ⟨skip', hs', ha⟩ := adv_asText (st := st) (i := i) (out := out) s (np + 1) 0 (buf ++ [c]) (by decide) (by omega) hrest h
      refine ⟨skip', hs', Adv.trans (Adv.step (c := c) hg (fun h => by simp at h) ?_) (by simpa using ha)⟩
      simp [step, h1]
    · rw [if_neg h1] at h
      by_cases h2 : c = ')'
      · rw [if_pos h2] at h
        obtain ⟨skip', hs', ha⟩ := adv_asText (st := st) (i := i) (out := out) s (np - 1) 0 (buf ++ [c]) (by decide) (by omega) hrest h.2
        refine ⟨skip', hs', Adv.trans (Adv.step (c := c) hg (fun h => by simp at h) ?_) (by simpa using ha)⟩
        have : ¬ (np - 1 = 1) := by omega
        simp only [step, h1, h2, this, if_false, if_true]
        simp
      · rw [if_neg h2] at h
        obtain ⟨skip', hs', ha⟩ := adv_asText (st := st) (i := i) (out := out) s np 0 (buf ++ [c]) (by decide) hnp hrest h
        refine ⟨skip', hs', Adv.trans (Adv.step (c := c) hg (fun h => by simp at h) ?_) (by simpa using ha)⟩
        simp [step, h1, h2]

/-- `$((..))` -/
theorem adv_exp {st s i skip out} (hst : InB st) (hs : skip ≠ 1) (hbs : ∀ c ∈ s, c ≠ '\\') (h : AsOk 2 s) :
    Adv ⟨st, '$' :: '(' :: '(' :: (s ++ ')' :: ')' :: i), skip, out⟩ ⟨st, i, 0, out ++ [.exp s]⟩ := by
  have h1 : Adv ⟨st, '$' :: '(' :: '(' :: (s ++ ')' :: ')' :: i), skip, out⟩ ⟨.asparen 2 [] :: st, s ++ ')' :: ')' :: i, 0, out⟩ := by
    refine Adv.step (c := '$') (i' := '(' :: '(' :: (s ++ ')' :: ')' :: i)) (sk' := 0)
      (by rw [hst.ign]; exact get_plain hs (by decide)) (hst.takes rfl) ?_
    rw [hst.dollar]
    simp only [subst, show ('$' = '\\') = False from by simp, if_false, if_true]
    rw [hst.ign, get_plain (by decide) (by decide)]
    simp only [if_true, get_plain (show 0 ≠ 1 by decide) (show '(' ≠ '\\' by decide)]
  obtain ⟨skip', hs', h2⟩ := adv_asText (st := st) (i := ')' :: ')' :: i) (out := out) s 2 0 [] (by decide) (by decide) hbs h
  refine h1.trans (h2.trans ?_)
  refine Adv.step (c := ')') (get_plain hs' (by decide)) (fun h => by simp at h) ?_
  simp [step, get_plain]

end Ksh.Lex
