import Verif.Alias.Lemmas
/-!
# C50: alias expansion terminates

The full claim is false for this code: `eof_loop` and `ctrl_loop` give two inputs on which
`yylex` expands the same alias for ever.  `yylex_terminates_partial` proves termination
when the input ends with a newline and no alias text ends with a white space character
other than blank, tab and newline.
-/

namespace Ksh.Alias

/-- The text is empty or its last line is complete. -/
def Complete (l : List Char) : Prop := l = [] ∨ l.getLast? = some '\n'

/-- Carriage return, vertical tab and form feed: white space for `isspace`, but an ordinary
character of a word. -/
def ctrl (c : Char) : Prop := c.toNat = 11 ∨ c.toNat = 12 ∨ c.toNat = 13

/-- No alias text ends with such a character. -/
def PlainEnd (e : Env) : Prop := ∀ p ∈ e.al, ∀ c, p.2.getLast? = some c → ¬ ctrl c

structure OK (e : Env) (s : S) : Prop where
  inv : s.Inv
  nodup : (names s.stk).Nodup
  find : ∀ a ∈ s.stk, e.find a.name = some a.val
  complete : Complete s.stream

theorem lookup_mem {w v : List Char} : ∀ {l : List (List Char × List Char)},
    l.lookup w = some v → (w, v) ∈ l := by
  intro l
  induction l with
  | nil => intro h; simp [List.lookup] at h
  | cons p l ih =>
    intro h
    obtain ⟨a, b⟩ := p
    simp only [List.lookup] at h
    split at h
    · next he =>
      have := (beq_iff_eq).1 he
      subst this; injection h with h; subst h; exact List.mem_cons_self
    · exact List.mem_cons_of_mem _ (ih h)

theorem nodup_le {α : Type} [DecidableEq α] : ∀ {l m : List α}, l.Nodup → (∀ x ∈ l, x ∈ m) →
    l.length ≤ m.length := by
  intro l
  induction l with
  | nil => intro m _ _; simp
  | cons a l ih =>
    intro m hn hs
    rw [List.nodup_cons] at hn
    have h1 : a ∈ m := hs a List.mem_cons_self
    have h2 := ih (m := m.erase a) hn.2 (by
      intro x hx
      have hne : x ≠ a := by rintro rfl; exact hn.1 hx
      exact (List.mem_erase_of_ne hne).2 (hs x (List.mem_cons_of_mem _ hx)))
    rw [List.length_erase_of_mem h1] at h2
    have := List.length_pos_of_mem h1
    simp only [List.length_cons]; omega

theorem plain_lex1 {e : Env} (hp : PlainEnd e) {w v : List Char} (h : e.find w = some v) :
    ∀ x, v.getLast? = some x → isspace x = true → lex1 x = true := by
  intro x hx hs
  have hn := hp _ (lookup_mem h) x hx
  simp only [isspace, Bool.or_eq_true, decide_eq_true_eq, Bool.and_eq_true] at hs
  rcases hs with rfl | ⟨h1, h2⟩
  · decide
  · have h9 : x.toNat = 9 ∨ x.toNat = 10 := by unfold ctrl at hn; omega
    rcases h9 with h9 | h9
    · have : x = '\t' := Char.toNat_inj.1 h9
      subst this; decide
    · have : x = '\n' := Char.toNat_inj.1 h9
      subst this; decide

theorem complete_tail {c : Char} {l : List Char} (h : Complete (c :: l)) : Complete l := by
  rcases h with h | h
  · cases h
  · cases l with
    | nil => left; rfl
    | cons d l => right; simpa using h

theorem complete_ne {c : Char} {l : List Char} (h : Complete (c :: l)) (hc : lex1 c = false) :
    l ≠ [] := by
  rintro rfl
  rcases h with h | h
  · cases h
  · simp only [List.getLast?_singleton, Option.some.injEq] at h
    subst h; exact absurd hc (by decide)

theorem complete_append {u l : List Char} (h : Complete (u ++ l)) : Complete l := by
  induction u with
  | nil => simpa using h
  | cons c u ih => exact ih (complete_tail h)

theorem unget_names (o : Option Char) (s : S) : names (unget o s).stk = names s.stk := by
  rcases s with ⟨st, b, f⟩
  cases o <;> cases st <;> simp [unget, names]

theorem unget_len (o : Option Char) (s : S) : (unget o s).stk.length = s.stk.length := by
  rcases s with ⟨st, b, f⟩
  cases o <;> cases st <;> simp [unget]

theorem unget_mem (o : Option Char) (s : S) : ∀ a ∈ (unget o s).stk,
    ∃ a' ∈ s.stk, a'.name = a.name ∧ a'.val = a.val := by
  rcases s with ⟨st, b, f⟩
  intro a ha
  cases o with
  | none => exact ⟨a, by simpa [unget] using ha, rfl, rfl⟩
  | some c =>
    cases st with
    | nil => simp [unget] at ha
    | cons x st =>
      simp only [unget, List.mem_cons] at ha
      rcases ha with rfl | ha
      · exact ⟨x, List.mem_cons_self, rfl, rfl⟩
      · exact ⟨a, List.mem_cons_of_mem _ ha, rfl, rfl⟩

theorem ok_get {e : Env} {s r : S} {o : Option Char} (h : OK e s) (hg : getsc s = (o, r)) :
    OK e r ∧ OK e (unget o r) := by
  obtain ⟨h1, h2, h3, h4⟩ := getscK_inv _ _ _ _ _ _ h.inv hg
  have hs := getsc_stream hg
  have hf : ∀ a ∈ r.stk, e.find a.name = some a.val := by
    intro a ha
    obtain ⟨a', hm, hn, hv⟩ := h4 a ha
    rw [← hn, ← hv]; exact h.find a' hm
  have hc := h.complete
  refine ⟨⟨h1, h3.nodup h.nodup, hf, ?_⟩, ⟨h2, ?_, ?_, ?_⟩⟩
  · rw [hs] at hc; exact complete_append hc
  · rw [unget_names]; exact h3.nodup h.nodup
  · intro a ha
    obtain ⟨a', hm, hn, hv⟩ := unget_mem o r a ha
    rw [← hn, ← hv]; exact hf a' hm
  · rw [unget_stream, ← hs]; exact hc

theorem ok_clear {e : Env} {s : S} (h : OK e s) : OK e s.clearFl := by
  obtain ⟨h1, h2, h3, h4⟩ := h
  rw [← clearFl_stream] at h4
  rcases s with ⟨st, b, f⟩
  cases st with
  | nil => exact ⟨h1, h2, h3, h4⟩
  | cons a st =>
    refine ⟨h1, h2, ?_, h4⟩
    intro x hx
    simp only [S.clearFl, List.mem_cons] at hx
    rcases hx with rfl | hx
    · exact h3 a List.mem_cons_self
    · exact h3 x (List.mem_cons_of_mem _ hx)

/-! ## Skipping blanks and comments -/

theorem skipBlank_spec (e : Env) (W : Nat → Nat) (hW : ∀ i, W (i+1) ≤ W i) :
    ∀ (n : Nat) (s : S), s.stream.length < n →
    ∃ o r, skipBlank n s = some (o, r) ∧ (OK e s → OK e r ∧ OK e (unget o r)) ∧
      (unget o r).weight W ≤ s.weight W ∧
      ∃ bl, s.stream = bl ++ (unget o r).stream ∧ ∀ c ∈ bl, c = ' ' ∨ c = '\t' := by
  intro n
  induction n with
  | zero => intro s h; omega
  | succ n ih =>
    intro s hl
    simp only [skipBlank]
    generalize hg : getsc s = g
    rcases g with ⟨o, r⟩
    have hs := getsc_stream hg
    have hw := getsc_weight_le W hW hg
    have base : (unget o r).weight W ≤ s.weight W ∧
      ∃ bl, s.stream = bl ++ (unget o r).stream ∧ ∀ c ∈ bl, c = ' ' ∨ c = '\t' :=
      ⟨hw, [], by rw [unget_stream, hs]; rfl, by simp⟩
    cases o with
    | none => exact ⟨none, r, rfl, fun h => ok_get h hg, base⟩
    | some c =>
      by_cases hc : c = ' ' ∨ c = '\t'
      · have hb : (decide (c = ' ') || decide (c = '\t')) = true := by simpa using hc
        simp only [hb, if_true]
        have hl' : r.stream.length < n := by
          rw [hs] at hl; simp at hl; omega
        obtain ⟨o', r', h1, h2, h3, bl, h4, h5⟩ := ih r hl'
        refine ⟨o', r', h1, fun h => h2 (ok_get h hg).1, ?_, c :: bl, ?_, ?_⟩
        · rw [weight_unget] at hw; omega
        · rw [hs, h4]; simp
        · intro x hx
          simp only [List.mem_cons] at hx
          rcases hx with rfl | hx
          · exact hc
          · exact h5 x hx
      · have hb : (decide (c = ' ') || decide (c = '\t')) = false := by
          simpa using hc
        simp only [hb]
        exact ⟨some c, r, rfl, fun h => ok_get h hg, base⟩

theorem skipComment_spec (e : Env) (W : Nat → Nat) (hW : ∀ i, W (i+1) ≤ W i) :
    ∀ (n : Nat) (s : S), s.stream.length < n →
    ∃ o r, skipComment n s = some (o, r) ∧ (OK e s → OK e (unget o r)) ∧
      (unget o r).weight W ≤ s.weight W ∧ (o = none ∨ o = some '\n') ∧
      ∃ pre, s.stream = pre ++ (unget o r).stream := by
  intro n
  induction n with
  | zero => intro s h; omega
  | succ n ih =>
    intro s hl
    simp only [skipComment]
    generalize hg : getsc s = g
    rcases g with ⟨o, r⟩
    have hs := getsc_stream hg
    have hw := getsc_weight_le W hW hg
    cases o with
    | none => exact ⟨none, r, rfl, fun h => (ok_get h hg).2, hw, Or.inl rfl, [],
        by rw [unget_stream, hs]; rfl⟩
    | some c =>
      by_cases hc : c = '\n'
      · simp only [if_pos hc]
        exact ⟨some c, r, rfl, fun h => (ok_get h hg).2, hw, Or.inr (by rw [hc]), [],
          by rw [unget_stream, hs]; rfl⟩
      · simp only [if_neg hc]
        have hl' : r.stream.length < n := by
          rw [hs] at hl; simp at hl; omega
        obtain ⟨o', r', h1, h2, h3, h4, pre, h5⟩ := ih r hl'
        refine ⟨o', r', h1, fun h => h2 (ok_get h hg).1, ?_, h4, c :: pre, by rw [hs, h5]; simp⟩
        rw [weight_unget] at hw; omega

/-- Nothing is left, or a line ends here. -/
def AtEol (l : List Char) : Prop := l = [] ∨ ∃ t, l = '\n' :: t

theorem skip_spec (e : Env) (W : Nat → Nat) (hW : ∀ i, W (i+1) ≤ W i) (s : S) :
    ∃ r, skip s = some r ∧ (OK e s → OK e r) ∧ r.weight W ≤ s.weight W ∧
      (∃ pre, s.stream = pre ++ r.stream ∧ ((∀ c ∈ pre, c = ' ' ∨ c = '\t') ∨ AtEol r.stream)) := by
  obtain ⟨o, r, h1, h2, h3, h4⟩ := skipBlank_spec e W hW (s.size + 1) s (by rw [size_stream]; omega)
  simp only [skip, h1]
  by_cases hc : o = some '#'
  · simp only [if_pos hc]
    obtain ⟨o', r', g1, g2, g3, g4, pre, g5⟩ := skipComment_spec e W hW (r.size + 1) r (by rw [size_stream]; omega)
    simp only [g1]
    refine ⟨_, rfl, fun h => g2 (h2 h).1, ?_, ?_⟩
    · have : (unget o r).weight W = r.weight W + W r.stk.length := by rw [hc, weight_unget]
      omega
    · obtain ⟨bl, hbl, _⟩ := h4
      refine ⟨bl ++ o.toList ++ pre, by rw [hbl, unget_stream, g5]; simp, ?_⟩
      right
      rw [unget_stream]
      rcases g4 with rfl | rfl
      · cases hq : r'.stream with
        | nil => left; rfl
        | cons x t =>
          exfalso
          obtain ⟨n, hn⟩ : ∃ n, n = r.size + 1 := ⟨_, rfl⟩
          rw [← hn] at g1
          clear hn
          have : ∀ n s, skipComment n s = some (none, r') → r'.stream = [] := by
            intro n
            induction n with
            | zero => intro s h; simp [skipComment] at h
            | succ n ih =>
              intro s h
              simp only [skipComment] at h
              generalize hg : getsc s = g at h
              rcases g with ⟨o, q⟩
              cases o with
              | none =>
                simp only [Option.some.injEq, Prod.mk.injEq, true_and] at h
                subst h
                have := (getscK_stream _ _ _ _ _ _ hg).2 rfl
                simp [S.stream, stream, this.1, this.2]
              | some c =>
                simp only at h
                by_cases hc : c = '\n'
                · rw [if_pos hc] at h; simp at h
                · rw [if_neg hc] at h; exact ih _ h
          rw [this _ _ g1] at hq; cases hq
      · right; exact ⟨_, rfl⟩
  · simp only [if_neg hc]
    obtain ⟨bl, hbl, hb⟩ := h4
    exact ⟨_, rfl, fun h => (h2 h).2, h3, bl, hbl, Or.inl hb⟩

/-! ## Collecting a word -/

theorem collect_total : ∀ (n : Nat) (w : List Char) (s : S), s.stream.length < n →
    ∃ col, collect n w s = some col := by
  intro n
  induction n with
  | zero => intro w s h; omega
  | succ n ih =>
    intro w s hl
    simp only [collect]
    generalize hg : getsc s = g
    rcases g with ⟨o, r⟩
    have hs := getsc_stream hg
    cases o with
    | none => exact ⟨_, rfl⟩
    | some c =>
      have hl' : r.stream.length < n := by
        rw [hs] at hl; simp at hl; omega
      simp only
      split
      · exact ⟨_, rfl⟩
      · split
        · exact ⟨_, rfl⟩
        · split
          · generalize hg2 : getsc r = g2
            rcases g2 with ⟨c2, q⟩
            simp only
            split
            · exact ⟨_, rfl⟩
            · refine ih _ _ ?_
              rw [unget_stream, ← getsc_stream hg2]; exact hl'
          · exact ih _ _ hl'

/-- What `collect` answers: the text of the word, read from the front of the stream; and,
below, that the word weighs at least as much as one character of the stack it leaves. -/
theorem collect_spec (e : Env) (W : Nat → Nat) (hW : ∀ i, W (i+1) ≤ W i) (hp : PlainEnd e) :
    ∀ (n : Nat) (w : List Char) (s : S) (col : Col), OK e s → collect n w s = some col →
    (∀ s', col = .other s' → OK e s') ∧
    (∀ w' c s', col = .word w' c s' →
      OK e s' ∧ OK e (unget c s') ∧ (unget c s').weight W ≤ s.weight W ∧
      (∃ u, w' = w ++ u ∧ s.stream = u ++ (unget c s').stream ∧ (c = none → u = []) ∧
        (∀ x ∈ u, lex1 x = false) ∧
        (u ≠ [] → (unget c s').weight W + W s'.stk.length ≤ s.weight W)) ∧
      (c = none → s'.stream = []) ∧ (∀ x, c = some x → lex1 x = true) ∧
      (c ≠ none → Stable s → names s'.stk = names s.stk)) := by
  intro n
  induction n with
  | zero => intro w s col hk h; simp [collect] at h
  | succ n ih =>
    intro w s col hk h
    simp only [collect] at h
    generalize hg : getsc s = g at h
    rcases g with ⟨o, r⟩
    have hs := getsc_stream hg
    have hw := getsc_weight_le W hW hg
    obtain ⟨hk1, hk2⟩ := ok_get hk hg
    cases o with
    | none =>
      simp only [Option.some.injEq] at h; subst h
      refine ⟨by simp, ?_⟩
      intro w' c s' h
      simp only [Col.word.injEq] at h; obtain ⟨rfl, rfl, rfl⟩ := h
      refine ⟨hk1, hk2, hw, ⟨[], by simp, ?_, by simp, by simp, by simp⟩, ?_, by simp, by simp⟩
      · rw [unget_stream, hs]; rfl
      · intro _
        have := (getscK_stream _ _ _ _ _ _ hg).2 rfl
        simp [S.stream, stream, this.1, this.2]
    | some c =>
      simp only at h
      cases h1 : lex1 c with
      | true =>
        simp only [h1, if_true, Option.some.injEq] at h; subst h
        refine ⟨by simp, ?_⟩
        intro w' c' s' h
        simp only [Col.word.injEq] at h; obtain ⟨rfl, rfl, rfl⟩ := h
        refine ⟨hk1, hk2, hw, ⟨[], by simp, ?_, by simp, by simp, by simp⟩, by simp, ?_, ?_⟩
        · rw [unget_stream, hs]; rfl
        · intro x hx; injection hx with hx; subst hx; exact h1
        · intro _ hst; exact hst _ _ hg
      | false =>
        simp only [h1, Bool.false_eq_true, if_false] at h
        cases h2 : special c with
        | true =>
          simp only [h2, if_true, Option.some.injEq] at h; subst h
          refine ⟨?_, by simp⟩
          intro s' h; injection h with h; subst h; exact hk1
        | false =>
          simp only [h2, Bool.false_eq_true, if_false] at h
          have hst : Stable r := getscK_stable _ _ _ _ _ _ hk.inv
            (fun a ha => plain_lex1 hp (hk.find a ha)) hg h1
          have hne : r.stream ≠ [] := by
            have := hk.complete
            rw [hs] at this
            exact complete_ne this h1
          have hwr : r.weight W + W r.stk.length ≤ s.weight W := by
            rw [weight_unget] at hw; exact hw
          -- the rest of the word is collected from a state `q` that is like `r`
          have key : ∀ q, OK e q → q.stream = r.stream → q.weight W ≤ r.weight W →
              names q.stk = names r.stk → Stable q → collect n (w ++ [c]) q = some col →
              (∀ s', col = .other s' → OK e s') ∧
              (∀ w' c s', col = .word w' c s' →
                OK e s' ∧ OK e (unget c s') ∧ (unget c s').weight W ≤ s.weight W ∧
                (∃ u, w' = w ++ u ∧ s.stream = u ++ (unget c s').stream ∧ (c = none → u = []) ∧
        (∀ x ∈ u, lex1 x = false) ∧
                  (u ≠ [] → (unget c s').weight W + W s'.stk.length ≤ s.weight W)) ∧
                (c = none → s'.stream = []) ∧ (∀ x, c = some x → lex1 x = true) ∧
                (c ≠ none → Stable s → names s'.stk = names s.stk)) := by
            intro q hkq hqs hqw hqn hqst hcol
            obtain ⟨g1, g2⟩ := ih _ _ _ hkq hcol
            refine ⟨g1, ?_⟩
            intro w' c' s' hw'
            obtain ⟨k1, k2, k3, ⟨u, k4, k5, k6, k6', k7⟩, k8, k9, k10⟩ := g2 w' c' s' hw'
            have hcn : c' ≠ none := by
              intro hcn
              have hu := k6 hcn
              subst hu; subst hcn
              rw [unget_stream, k8 rfl] at k5
              apply hne; rw [← hqs, k5]; rfl
            have hnm : names s'.stk = names r.stk := by rw [k10 hcn hqst, hqn]
            have hlen : s'.stk.length = r.stk.length := by
              have := congrArg List.length hnm
              simpa [names] using this
            have hmono : (unget c' s').weight W + W s'.stk.length ≤ s.weight W := by
              rw [hlen]; omega
            refine ⟨k1, k2, by omega, ⟨c :: u, by simp [k4], ?_, fun h => absurd h hcn, ?_, fun _ => hmono⟩,
              fun h => absurd h hcn, k9, ?_⟩
            · rw [hs, ← hqs, k5]; simp
            · intro x hx
              simp only [List.mem_cons] at hx
              rcases hx with rfl | hx
              · exact h1
              · exact k6' x hx
            · intro _ hss
              rw [hnm]; exact hss _ _ hg
          cases h3 : patc c with
          | false =>
            simp only [h3, Bool.false_eq_true, if_false] at h
            exact key r hk1 rfl (Nat.le_refl _) rfl hst h
          | true =>
            simp only [h3, if_true] at h
            generalize hg2 : getsc r = g2 at h
            rcases g2 with ⟨c2, q⟩
            obtain ⟨hkq1, hkq2⟩ := ok_get hk1 hg2
            simp only at h
            by_cases h4 : c2 = some '('
            · rw [if_pos h4] at h
              injection h with h; subst h
              refine ⟨?_, by simp⟩
              intro s' h; injection h with h; subst h; exact hkq1
            · rw [if_neg h4] at h
              have hs2 := getsc_stream hg2
              cases c2 with
              | none =>
                exfalso
                have := (getscK_stream _ _ _ _ _ _ hg2).2 rfl
                apply hne
                rw [hs2]; simp [S.stream, stream, this.1, this.2]
              | some x =>
                refine key _ hkq2 (by rw [unget_stream, hs2]) (getsc_weight_le W hW hg2) ?_ ?_ h
                · rw [unget_names]; exact hst _ _ hg2
                · intro c' r' hg'
                  rw [getsc_unget] at hg'
                  injection hg' with _ hg'
                  subst hg'
                  rw [unget_names]

/-! ## One pass -/

theorem step_spec (e : Env) (W : Nat → Nat) (hW : ∀ i, W (i+1) ≤ W i) (hp : PlainEnd e)
    (hpos : ∀ i, 0 < W i)
    (hbig : ∀ (p : List Char × List Char) (k : Nat), p ∈ e.al → k < e.al.length →
      p.2.length * W (k+1) < W k)
    (cf : Cf) (s : S) (hk : OK e s) :
    ∃ out, step e cf s = some out ∧ (∀ r s', out = .ret r s' → OK e s') ∧
      (∀ cf' s', out = .again cf' s' → OK e s' ∧ s'.weight W < s.weight W) := by
  obtain ⟨s1, h1, h2, h3, _⟩ := skip_spec e W hW s
  have hk1 := ok_clear (h2 hk)
  obtain ⟨col, hc⟩ := collect_total ((S.clearFl s1).size + 1) [] (S.clearFl s1) (by rw [size_stream]; omega)
  obtain ⟨g1, g2⟩ := collect_spec e W hW hp _ _ _ _ hk1 hc
  simp only [step, h1, hc]
  refine ⟨_, rfl, ?_⟩
  generalize setCf e cf s1 = cf1
  rw [clearFl_weight] at g2
  cases col with
  | other s' =>
    refine ⟨?_, by simp [finish]⟩
    intro r s'' h
    simp only [finish, Out.ret.injEq] at h
    rw [← h.2]; exact g1 _ rfl
  | word w c s' =>
    obtain ⟨k1, k2, k3, ⟨u, k4, k5, k6, k6', k7⟩, k8, k9, k10⟩ := g2 _ _ _ rfl
    simp only [List.nil_append] at k4; subst k4
    simp only [finish]
    split
    · refine ⟨?_, by simp⟩
      intro r s'' h; simp only [Out.ret.injEq] at h; rw [← h.2]; exact k1
    · split
      · split
        · next hn =>
          refine ⟨by simp, ?_⟩
          intro cf' s'' h
          simp only [Out.again.injEq] at h; rw [← h.2]
          refine ⟨k1, ?_⟩
          simp only [Bool.and_eq_true, decide_eq_true_eq] at hn
          rw [hn.1, weight_unget] at k3
          have := hpos s'.stk.length
          omega
        · refine ⟨?_, by simp⟩
          intro r s'' h; simp only [Out.ret.injEq] at h; rw [← h.2]; exact k1
      · next hw =>
        have hret : ∀ res, (∀ r s'', Out.ret res (unget c s') = .ret r s'' → OK e s'') ∧
            (∀ cf' s'', Out.ret res (unget c s') = .again cf' s'' → OK e s'' ∧ s''.weight W < s.weight W) := by
          intro res
          refine ⟨?_, by simp⟩
          intro r s'' h; simp only [Out.ret.injEq] at h; rw [← h.2]; exact k2
        simp only [found]
        split
        · split
          · exact hret _
          · split
            · split
              · exact hret _
              · next v hv =>
                split
                · exact hret _
                · next hany =>
                  refine ⟨by simp, ?_⟩
                  intro cf' s'' h
                  simp only [Out.again.injEq] at h
                  obtain ⟨_, rfl⟩ := h
                  have hcn : c ≠ none := fun h => hw (k6 h)
                  obtain ⟨x, rfl⟩ := Option.ne_none_iff_exists'.1 hcn
                  have hx := k9 x rfl
                  have hnew : w ∉ names (unget (some x) s').stk := by
                    intro hm
                    simp only [names, List.mem_map] at hm
                    obtain ⟨a, ha, hn⟩ := hm
                    exact hany (List.any_eq_true.2 ⟨a, ha, by simp [hn]⟩)
                  have hnd : (names (⟨w, v, v, false, false⟩ :: (unget (some x) s').stk)).Nodup := by
                    simp only [names, List.map_cons, List.nodup_cons]
                    exact ⟨hnew, k2.nodup⟩
                  have hfind : ∀ a ∈ (⟨w, v, v, false, false⟩ :: (unget (some x) s').stk : List ASrc),
                      e.find a.name = some a.val := by
                    intro a ha
                    simp only [List.mem_cons] at ha
                    rcases ha with rfl | ha
                    · exact hv
                    · exact k2.find a ha
                  refine ⟨⟨⟨k2.inv, by simp, fun _ => ⟨⟨[], rfl⟩, ?_⟩⟩, hnd, hfind, ?_⟩, ?_⟩
                  · -- the character below ends a word
                    rcases s' with ⟨st, b, f⟩
                    cases st with
                    | nil =>
                      intro y hy
                      simp only [unget, List.head?_cons, Option.some.injEq] at hy
                      subst hy; exact hx
                    | cons a st => exact ⟨x, a.text, rfl, hx⟩
                  · -- the input stays complete
                    have hc2 := k2.complete
                    have hst : (⟨⟨w, v, v, false, false⟩ :: (unget (some x) s').stk,
                        (unget (some x) s').base, (unget (some x) s').bfl⟩ : S).stream =
                        v ++ (unget (some x) s').stream := by
                      simp [S.stream, stream]
                    rw [hst]
                    rw [unget_stream] at hc2 ⊢
                    rcases hc2 with hc2 | hc2
                    · simp at hc2
                    · right; simp only [Option.toList_some, List.cons_append, List.nil_append] at hc2 ⊢
                      rw [List.getLast?_append, hc2]; rfl
                  · -- the weight
                    have hlen : (names (⟨w, v, v, false, false⟩ :: (unget (some x) s').stk)).length ≤
                        (e.al.map (·.1)).length := by
                      apply nodup_le hnd
                      intro y hy
                      simp only [names, List.mem_map] at hy
                      obtain ⟨a, ha, rfl⟩ := hy
                      exact List.mem_map.2 ⟨_, lookup_mem (hfind a ha), rfl⟩
                    simp only [names, List.length_map, List.length_cons] at hlen
                    have := k7 hw
                    have hb := hbig _ (unget (some x) s').stk.length (lookup_mem hv) (by omega)
                    simp only [S.weight, weight]
                    simp only [S.weight] at this h3
                    rw [← unget_len (some x) s'] at this
                    simp only at hb
                    omega
            · exact hret _
        · exact hret _

/-- longest alias text -/
def maxLen (al : List (List Char × List Char)) : Nat := al.foldr (fun p m => max p.2.length m) 0

theorem le_maxLen {al : List (List Char × List Char)} {p : List Char × List Char} (h : p ∈ al) :
    p.2.length ≤ maxLen al := by
  induction al with
  | nil => cases h
  | cons q al ih =>
    simp only [maxLen, List.foldr_cons]
    simp only [List.mem_cons] at h
    rcases h with rfl | h
    · omega
    · have := ih h
      simp only [maxLen] at this; omega

/-- The weight of a character below `i` aliases. -/
def wt (e : Env) (i : Nat) : Nat := (maxLen e.al + 1) ^ (e.al.length - i)

theorem wt_mono (e : Env) (i : Nat) : wt e (i+1) ≤ wt e i :=
  Nat.pow_le_pow_right (by omega) (by omega)

theorem wt_pos (e : Env) (i : Nat) : 0 < wt e i := Nat.pow_pos (by omega)

theorem wt_big (e : Env) (p : List Char × List Char) (k : Nat) (hp : p ∈ e.al) (hk : k < e.al.length) :
    p.2.length * wt e (k+1) < wt e k := by
  have h : wt e k = (maxLen e.al + 1) * wt e (k+1) := by
    have : e.al.length - k = (e.al.length - (k+1)) + 1 := by omega
    simp only [wt, this, Nat.pow_succ, Nat.mul_comm]
  rw [h]
  have := le_maxLen hp
  exact Nat.mul_lt_mul_of_pos_right (by omega) (wt_pos e _)

/-- C50 (partial): with complete lines and plain alias texts, `yylex` answers after
finitely many alias expansions, from every state of the input stack that reading can
produce, and leaves such a state.  Missing: input that does not end with a newline
(`eof_loop`) and alias texts ending in CR, VT or FF (`ctrl_loop`), where the claim is
false. -/
theorem yylex_terminates_partial (e : Env) (hp : PlainEnd e) (cf : Cf) (s : S) (hk : OK e s) :
    ∃ n r s', yylex e n cf s = some (r, s') ∧ OK e s' := by
  generalize hm : s.weight (wt e) = m
  induction m using Nat.strongRecOn generalizing cf s with
  | _ m ih =>
    obtain ⟨out, h1, h2, h3⟩ := step_spec e (wt e) (wt_mono e) hp (wt_pos e) (wt_big e) cf s hk
    cases out with
    | ret r s' =>
      exact ⟨1, r, s', by simp [yylex, h1], h2 _ _ rfl⟩
    | again cf' s' =>
      obtain ⟨g1, g2⟩ := h3 _ _ rfl
      obtain ⟨n, r, s'', g3, g4⟩ := ih _ (by omega) cf' s' g1 rfl
      exact ⟨n+1, r, s'', by simp only [yylex, h1]; exact g3, g4⟩

/-- The start: nothing pushed yet. -/
theorem start_ok (e : Env) (input : List Char) (f : Bool) (h : Complete input) :
    OK e ⟨[], input, f⟩ :=
  ⟨trivial, by simp [names], by simp, by simpa [S.stream, stream] using h⟩

/-- A parse: one `yylex` call after the other, with whatever flags the grammar wants. -/
def calls (e : Env) (n : Nat) : List Cf → S → Option (List Res × S)
  | [], s => some ([], s)
  | cf :: l, s =>
    match yylex e n cf s with
    | none => none
    | some (r, s') =>
      match calls e n l s' with
      | none => none
      | some (rs, s'') => some (r :: rs, s'')

theorem yylex_mono (e : Env) : ∀ (n m : Nat) (cf : Cf) (s : S) (x : Res × S), n ≤ m →
    yylex e n cf s = some x → yylex e m cf s = some x := by
  intro n
  induction n with
  | zero => intro m cf s x _ h; simp [yylex] at h
  | succ n ih =>
    intro m cf s x hm h
    cases m with
    | zero => omega
    | succ m =>
      simp only [yylex] at h ⊢
      generalize step e cf s = st at h ⊢
      cases st with
      | none => cases h
      | some o =>
        cases o with
        | ret r s' => exact h
        | again cf' s' => exact ih _ _ _ _ (by omega) h

theorem calls_mono (e : Env) (n m : Nat) (hm : n ≤ m) : ∀ (l : List Cf) (s : S) (x : List Res × S),
    calls e n l s = some x → calls e m l s = some x := by
  intro l
  induction l with
  | nil => intro s x h; exact h
  | cons cf l ih =>
    intro s x h
    simp only [calls] at h ⊢
    cases h1 : yylex e n cf s with
    | none => rw [h1] at h; cases h
    | some y =>
      rw [h1] at h
      rw [yylex_mono e n m cf s y hm h1]
      rcases y with ⟨r, s'⟩
      simp only at h ⊢
      cases h2 : calls e n l s' with
      | none => rw [h2] at h; cases h
      | some z => rw [h2] at h; rw [ih _ _ h2]; exact h

/-- Every sequence of calls on a complete input terminates. -/
theorem calls_terminate_partial (e : Env) (hp : PlainEnd e) (l : List Cf) (s : S) (hk : OK e s) :
    ∃ n x, calls e n l s = some x := by
  induction l generalizing s with
  | nil => exact ⟨0, _, rfl⟩
  | cons cf l ih =>
    obtain ⟨n, r, s', h1, h2⟩ := yylex_terminates_partial e hp cf s hk
    obtain ⟨m, ⟨rs, s''⟩, h3⟩ := ih s' h2
    refine ⟨n + m, (r :: rs, s''), ?_⟩
    simp only [calls, yylex_mono e n (n+m) cf s _ (by omega) h1,
      calls_mono e m (n+m) (by omega) l s' _ h3]

/-! ## What an expansion does -/

theorem found_again {e : Env} {cf cf' : Cf} {w : List Char} {s s' : S}
    (h : found e cf w s = .again cf' s') :
    cf' = cf ∧ cf.alias = true ∧ w ∉ names s.stk ∧ ∃ v, e.find w = some v ∧ s'.stream = v ++ s.stream ∧
      names s'.stk = w :: names s.stk := by
  simp only [found] at h
  split at h
  · split at h
    · cases h
    · split at h
      · next ha =>
        split at h
        · cases h
        · next v hv =>
          split at h
          · cases h
          · next hany =>
            simp only [Out.again.injEq] at h
            obtain ⟨rfl, rfl⟩ := h
            refine ⟨rfl, ha, ?_, v, hv, by simp [S.stream, stream], rfl⟩
            intro hm
            simp only [names, List.mem_map] at hm
            obtain ⟨a, hm, hn⟩ := hm
            exact hany (List.any_eq_true.2 ⟨a, hm, by simp [hn]⟩)
      · cases h
  · cases h

/-- Text substitution: a pass that starts over has either skipped an empty line (only when
asked to), or replaced a whole word, which is an alias that is not being expanded already,
by the text of the alias.  The text after the word is untouched. -/
theorem again_spec (e : Env) (hp : PlainEnd e) (cf cf' : Cf) (s s' : S) (hk : OK e s)
    (h : step e cf s = some (.again cf' s')) :
    (cf.contin = true ∧ ∃ pre, s.stream = pre ++ '\n' :: s'.stream) ∨
    (∃ bl w v post, s.stream = bl ++ w ++ post ∧ (∀ c ∈ bl, c = ' ' ∨ c = '\t') ∧
      (∀ c ∈ w, lex1 c = false) ∧ (∃ x t, post = x :: t ∧ lex1 x = true) ∧ w ≠ [] ∧
      e.find w = some v ∧ s'.stream = v ++ post ∧ w ∈ names s'.stk) := by
  obtain ⟨s1, h1, h2, h3, pre, hpre, hpre2⟩ := skip_spec e (fun _ => 0) (fun _ => Nat.le_refl _) s
  have hk1 := ok_clear (h2 hk)
  obtain ⟨col, hc⟩ := collect_total ((S.clearFl s1).size + 1) [] (S.clearFl s1) (by rw [size_stream]; omega)
  obtain ⟨_, g2⟩ := collect_spec e (fun _ => 0) (fun _ => Nat.le_refl _) hp _ _ _ _ hk1 hc
  simp only [step, h1, hc, Option.some.injEq] at h
  rw [clearFl_stream] at g2
  cases col with
  | other q => simp [finish] at h
  | word w c q =>
    obtain ⟨k1, k2, k3, ⟨u, k4, k5, k6, k6', k7⟩, k8, k9, k10⟩ := g2 _ _ _ rfl
    simp only [List.nil_append] at k4; subst k4
    simp only [finish] at h
    split at h
    · cases h
    · split at h
      · next hw =>
        subst hw
        split at h
        · next hn =>
          simp only [Bool.and_eq_true, decide_eq_true_eq] at hn
          obtain ⟨rfl, hn2⟩ := hn
          simp only [Out.again.injEq] at h
          obtain ⟨_, rfl⟩ := h
          left
          refine ⟨?_, pre, ?_⟩
          · simp only [setCf] at hn2
            split at hn2 <;> exact hn2
          · rw [hpre, k5, unget_stream]; simp
        · cases h
      · next hw =>
        obtain ⟨_, _, _, v, hv, hs', hn⟩ := found_again h
        right
        have hcn : c ≠ none := fun h => hw (k6 h)
        obtain ⟨x, rfl⟩ := Option.ne_none_iff_exists'.1 hcn
        refine ⟨pre, w, v, (unget (some x) q).stream, by rw [hpre, k5]; simp, ?_, k6', ?_, hw, hv, hs', ?_⟩
        · rcases hpre2 with hb | hb
          · exact hb
          · exfalso
            rw [k5] at hb
            cases w with
            | nil => exact hw rfl
            | cons y w =>
              rcases hb with hb | ⟨t, hb⟩
              · cases hb
              · simp only [List.cons_append, List.cons.injEq] at hb
                have := k6' y List.mem_cons_self
                rw [hb.1] at this
                exact absurd this (by decide)
        · exact ⟨x, q.stream, by rw [unget_stream]; rfl, k9 x rfl⟩
        · rw [hn]; exact List.mem_cons_self

theorem step_word {e : Env} {cf : Cf} {s s' : S} {w : List Char}
    (h : step e cf s = some (.ret (.word w) s')) (ha : cf.alias = true) :
    e.find w = none ∨ w ∈ names s'.stk ∨ IDENT ≤ w.length := by
  simp only [step] at h
  split at h
  · cases h
  · next s1 _ =>
    split at h
    · cases h
    · next col _ =>
      have hcf : (setCf e cf s1).alias = true := by
        simp only [setCf]; split
        · rfl
        · exact ha
      generalize setCf e cf s1 = cf1 at h hcf
      simp only [Option.some.injEq] at h
      cases col with
      | other q => simp [finish] at h
      | word w' c q =>
        simp only [finish] at h
        split at h
        · simp at h
        · split at h
          · split at h <;> simp at h
          · simp only [found] at h
            split at h
            · split at h
              · simp at h
              · split at h
                · next hf => simp only [Out.ret.injEq, Res.word.injEq] at h; rw [← h.1]; left; exact hf
                · split at h
                  · next hany =>
                    simp only [Out.ret.injEq, Res.word.injEq] at h
                    obtain ⟨rfl, rfl⟩ := h
                    right; left
                    obtain ⟨a, h1, h2⟩ := List.any_eq_true.1 hany
                    exact List.mem_map.2 ⟨a, h1, by simpa using h2⟩
                  · cases h
            · next hl =>
              simp only [Out.ret.injEq, Res.word.injEq] at h
              obtain ⟨rfl, rfl⟩ := h
              right; right
              simp only [hcf, Bool.or_true, Bool.and_true, decide_eq_true_eq] at hl
              omega

theorem step_again_alias {e : Env} {cf cf' : Cf} {s s' : S}
    (h : step e cf s = some (.again cf' s')) (ha : cf.alias = true) : cf'.alias = true := by
  simp only [step] at h
  split at h
  · cases h
  · next s1 _ =>
    split at h
    · cases h
    · next col _ =>
      have hcf : (setCf e cf s1).alias = true := by
        simp only [setCf]; split
        · rfl
        · exact ha
      generalize setCf e cf s1 = cf1 at h hcf
      simp only [Option.some.injEq] at h
      cases col with
      | other q => simp [finish] at h
      | word w' c q =>
        simp only [finish] at h
        split at h
        · cases h
        · split at h
          · split at h
            · simp only [Out.again.injEq] at h; rw [← h.1]; exact hcf
            · cases h
          · rw [(found_again h).1]; exact hcf

/-- Expansion is complete: a plain word that comes out where aliases are wanted is not an
alias, unless that very alias is being expanded (or the name is longer than any name the
lexer looks up).  This holds without any condition on the input. -/
theorem word_final (e : Env) : ∀ (n : Nat) (cf : Cf) (s s' : S) (w : List Char), cf.alias = true →
    yylex e n cf s = some (.word w, s') →
    e.find w = none ∨ w ∈ names s'.stk ∨ IDENT ≤ w.length := by
  intro n
  induction n with
  | zero => intro cf s s' w _ h; simp [yylex] at h
  | succ n ih =>
    intro cf s s' w ha h
    simp only [yylex] at h
    cases hst : step e cf s with
    | none => rw [hst] at h; cases h
    | some o =>
      rw [hst] at h
      cases o with
      | ret r q =>
        simp only [Option.some.injEq, Prod.mk.injEq] at h
        obtain ⟨rfl, rfl⟩ := h
        exact step_word hst ha
      | again cf' q => exact ih cf' q s' w (step_again_alias hst ha) h

/-! ## The word after an alias that ends with a blank -/

theorem getscK_fl : ∀ (st : List ASrc) (k : Bool) (b : List Char) (f : Bool) (o : Option Char) (r : S),
    (k = true ∨ (S.mk st b f).topFl = true) → getscK k st b f = (o, r) → r.topFl = true := by
  intro st
  induction st with
  | nil =>
    intro k b f o r hk h
    cases b with
    | nil =>
      simp only [getscK, Prod.mk.injEq] at h; obtain ⟨_, rfl⟩ := h
      simpa [S.topFl, or_comm] using hk
    | cons c b =>
      simp only [getscK, Prod.mk.injEq] at h; obtain ⟨_, rfl⟩ := h
      simpa [S.topFl, or_comm] using hk
  | cons s st ih =>
    intro k b f o r hk h
    rcases s with ⟨nm, v, t, fn, fl⟩
    have hk' : (fl || k) = true := by simpa [S.topFl, or_comm] using hk
    cases t with
    | cons c t => simp only [getscK, Prod.mk.injEq] at h; obtain ⟨_, rfl⟩ := h; exact hk'
    | nil =>
      simp only [getscK] at h
      by_cases h1 : fn = true
      · rw [if_pos h1] at h; exact ih _ _ _ _ _ (Or.inl hk') h
      · rw [if_neg h1] at h
        by_cases h2 : endsSpace v = true
        · rw [if_pos h2] at h; exact ih _ _ _ _ _ (Or.inl rfl) h
        · rw [if_neg h2] at h
          generalize hg : getscK (fl || k) st b f = g at h
          rcases g with ⟨o', r'⟩
          cases o' with
          | none =>
            simp only [Prod.mk.injEq] at h; obtain ⟨_, rfl⟩ := h
            exact ih _ _ _ _ _ (Or.inl hk') hg
          | some c => simp only [Prod.mk.injEq] at h; obtain ⟨_, rfl⟩ := h; exact hk'

theorem unget_fl (o : Option Char) (s : S) : (unget o s).topFl = s.topFl := by
  rcases s with ⟨st, b, f⟩
  cases o <;> cases st <;> simp [unget, S.topFl]

theorem skipBlank_fl : ∀ (n : Nat) (s : S) (o : Option Char) (r : S), s.topFl = true →
    skipBlank n s = some (o, r) → r.topFl = true := by
  intro n
  induction n with
  | zero => intro s o r _ h; simp [skipBlank] at h
  | succ n ih =>
    intro s o r hf h
    simp only [skipBlank] at h
    generalize hg : getsc s = g at h
    rcases g with ⟨o', r'⟩
    have hr := getscK_fl _ _ _ _ _ _ (Or.inr hf) hg
    cases o' with
    | none => simp only [Option.some.injEq, Prod.mk.injEq] at h; rw [← h.2]; exact hr
    | some c =>
      simp only at h
      split at h
      · exact ih _ _ _ hr h
      · simp only [Option.some.injEq, Prod.mk.injEq] at h; rw [← h.2]; exact hr

theorem skipComment_fl : ∀ (n : Nat) (s : S) (o : Option Char) (r : S), s.topFl = true →
    skipComment n s = some (o, r) → r.topFl = true := by
  intro n
  induction n with
  | zero => intro s o r _ h; simp [skipComment] at h
  | succ n ih =>
    intro s o r hf h
    simp only [skipComment] at h
    generalize hg : getsc s = g at h
    rcases g with ⟨o', r'⟩
    have hr := getscK_fl _ _ _ _ _ _ (Or.inr hf) hg
    cases o' with
    | none => simp only [Option.some.injEq, Prod.mk.injEq] at h; rw [← h.2]; exact hr
    | some c =>
      simp only at h
      split at h
      · simp only [Option.some.injEq, Prod.mk.injEq] at h; rw [← h.2]; exact hr
      · exact ih _ _ _ hr h

theorem skipBlank_leave : ∀ (n : Nat) (a : ASrc) (st : List ASrc) (b : List Char) (f : Bool)
    (o : Option Char) (r : S), a.fin = false → endsSpace a.val = true →
    (∀ c ∈ a.text, c = ' ' ∨ c = '\t') → skipBlank n ⟨a :: st, b, f⟩ = some (o, r) → r.topFl = true := by
  intro n
  induction n with
  | zero => intro a st b f o r _ _ _ h; simp [skipBlank] at h
  | succ n ih =>
    intro a st b f o r hf he ht h
    rcases a with ⟨nm, v, t, fn, fl⟩
    simp only at hf he ht
    cases t with
    | cons c t =>
      have hc : (decide (c = ' ') || decide (c = '\t')) = true := by
        simpa using ht c List.mem_cons_self
      simp only [skipBlank, getsc, getscK, hc, if_true] at h
      exact ih _ _ _ _ _ _ hf he (fun x hx => ht x (List.mem_cons_of_mem _ hx)) h
    | nil =>
      simp only [skipBlank, getsc, getscK, hf, Bool.false_eq_true, if_false, he, if_true] at h
      generalize hg : getscK true st b f = g at h
      rcases g with ⟨o', r'⟩
      have hr := getscK_fl _ _ _ _ _ _ (Or.inl rfl) hg
      cases o' with
      | none => simp only [Option.some.injEq, Prod.mk.injEq] at h; rw [← h.2]; exact hr
      | some c =>
        simp only at h
        split at h
        · exact skipBlank_fl _ _ _ _ hr h
        · simp only [Option.some.injEq, Prod.mk.injEq] at h; rw [← h.2]; exact hr

/-- When all that is left of an alias is its final blanks, the next word is looked up as an
alias whether the grammar asks for it or not (unless in posix mode). -/
theorem blank_next (e : Env) (hp : e.posix = false) (cf : Cf) (a : ASrc) (st : List ASrc)
    (b : List Char) (f : Bool) (hf : a.fin = false)
    (he : a.val.getLast? = some ' ' ∨ a.val.getLast? = some '\t')
    (ht : ∀ c ∈ a.text, c = ' ' ∨ c = '\t') :
    step e cf ⟨a :: st, b, f⟩ = step e { cf with alias := true } ⟨a :: st, b, f⟩ := by
  have hes : endsSpace a.val = true := by
    rcases he with he | he <;> (simp only [endsSpace, he]; decide)
  simp only [step]
  cases hs : skip ⟨a :: st, b, f⟩ with
  | none => rfl
  | some s1 =>
    have hfl : s1.topFl = true := by
      simp only [skip] at hs
      split at hs
      · cases hs
      · next o r hsb =>
        have hr := skipBlank_leave _ _ _ _ _ _ _ hf hes ht hsb
        split at hs
        · split at hs
          · cases hs
          · next o' r' hsc =>
            injection hs with hs
            rw [← hs, unget_fl]; exact skipComment_fl _ _ _ _ hr hsc
        · injection hs with hs
          rw [← hs, unget_fl]; exact hr
    have : setCf e cf s1 = setCf e { cf with alias := true } s1 := by
      simp [setCf, hfl, hp]
    simp only [this]

/-- With no alias text pending, a word is looked up only where the grammar asks for it. -/
theorem not_looked_up (e : Env) (cf : Cf) (hc : cf.alias = false) (b : List Char) (cf' : Cf) (s' : S)
    (h : step e cf ⟨[], b, false⟩ = some (.again cf' s')) : s'.stk = [] ∧ cf' = cf := by
  have base : ∀ (s r : S) (o : Option Char), s.stk = [] → s.bfl = false → getsc s = (o, r) →
      r.stk = [] ∧ r.bfl = false := by
    intro s r o h1 h2 h
    rcases s with ⟨st, b, f⟩
    simp only at h1 h2; subst h1; subst h2
    cases b <;> (simp only [getsc, getscK, Prod.mk.injEq] at h; obtain ⟨_, rfl⟩ := h; simp)
  have un : ∀ (o : Option Char) (r : S), r.stk = [] ∧ r.bfl = false →
      (unget o r).stk = [] ∧ (unget o r).bfl = false := by
    intro o r h
    rcases r with ⟨st, b, f⟩
    simp only at h; obtain ⟨rfl, rfl⟩ := h
    cases o <;> simp [unget]
  have sb : ∀ (n : Nat) (s r : S) (o : Option Char), s.stk = [] ∧ s.bfl = false →
      skipBlank n s = some (o, r) → r.stk = [] ∧ r.bfl = false := by
    intro n
    induction n with
    | zero => intro s r o _ h; simp [skipBlank] at h
    | succ n ih =>
      intro s r o hk h
      simp only [skipBlank] at h
      generalize hg : getsc s = g at h
      rcases g with ⟨o', r'⟩
      have hr := base _ _ _ hk.1 hk.2 hg
      cases o' with
      | none => simp only [Option.some.injEq, Prod.mk.injEq] at h; rw [← h.2]; exact hr
      | some c =>
        simp only at h
        split at h
        · exact ih _ _ _ hr h
        · simp only [Option.some.injEq, Prod.mk.injEq] at h; rw [← h.2]; exact hr
  have sc : ∀ (n : Nat) (s r : S) (o : Option Char), s.stk = [] ∧ s.bfl = false →
      skipComment n s = some (o, r) → r.stk = [] ∧ r.bfl = false := by
    intro n
    induction n with
    | zero => intro s r o _ h; simp [skipComment] at h
    | succ n ih =>
      intro s r o hk h
      simp only [skipComment] at h
      generalize hg : getsc s = g at h
      rcases g with ⟨o', r'⟩
      have hr := base _ _ _ hk.1 hk.2 hg
      cases o' with
      | none => simp only [Option.some.injEq, Prod.mk.injEq] at h; rw [← h.2]; exact hr
      | some c =>
        simp only at h
        split at h
        · simp only [Option.some.injEq, Prod.mk.injEq] at h; rw [← h.2]; exact hr
        · exact ih _ _ _ hr h
  have sk : ∀ s1, skip ⟨[], b, false⟩ = some s1 → s1.stk = [] ∧ s1.bfl = false := by
    intro s1 hs
    simp only [skip] at hs
    split at hs
    · cases hs
    · next o r hsb =>
      have hr := sb _ _ _ _ ⟨rfl, rfl⟩ hsb
      split at hs
      · split at hs
        · cases hs
        · next o' r' hsc =>
          injection hs with hs
          rw [← hs]; exact un _ _ (sc _ _ _ _ hr hsc)
      · injection hs with hs
        rw [← hs]; exact un _ _ hr
  have co : ∀ (n : Nat) (w : List Char) (s s' : S) (w' : List Char) (c : Option Char),
      s.stk = [] ∧ s.bfl = false → collect n w s = some (.word w' c s') → s'.stk = [] := by
    intro n
    induction n with
    | zero => intro w s s' w' c _ h; simp [collect] at h
    | succ n ih =>
      intro w s s' w' c hk h
      simp only [collect] at h
      generalize hg : getsc s = g at h
      rcases g with ⟨o', r'⟩
      have hr := base _ _ _ hk.1 hk.2 hg
      cases o' with
      | none => simp only [Option.some.injEq, Col.word.injEq] at h; rw [← h.2.2]; exact hr.1
      | some x =>
        simp only at h
        split at h
        · simp only [Option.some.injEq, Col.word.injEq] at h; rw [← h.2.2]; exact hr.1
        · split at h
          · simp at h
          · split at h
            · generalize hg2 : getsc r' = g2 at h
              rcases g2 with ⟨c2, q⟩
              have hq := base _ _ _ hr.1 hr.2 hg2
              simp only at h
              split at h
              · simp at h
              · exact ih _ _ _ _ _ (un c2 q hq) h
            · exact ih _ _ _ _ _ hr h
  simp only [step] at h
  cases hs : skip ⟨[], b, false⟩ with
  | none => rw [hs] at h; cases h
  | some s1 =>
    rw [hs] at h
    have hs1 := sk _ hs
    have hcf : setCf e cf s1 = cf := by simp [setCf, S.topFl, hs1.1, hs1.2]
    have hcl : s1.clearFl.stk = [] ∧ s1.clearFl.bfl = false := by
      rcases s1 with ⟨st, b, f⟩
      simp only at hs1; obtain ⟨rfl, rfl⟩ := hs1
      simp [S.clearFl]
    simp only [hcf] at h
    split at h
    · cases h
    · next col hcol =>
      simp only [Option.some.injEq] at h
      cases col with
      | other q => simp [finish] at h
      | word w c q =>
        have hq := co _ _ _ _ _ _ hcl hcol
        simp only [finish] at h
        split at h
        · cases h
        · split at h
          · split at h
            · simp only [Out.again.injEq] at h; rw [← h.2, ← h.1]; exact ⟨hq, rfl⟩
            · cases h
          · have := (found_again h).2.1
            rw [hc] at this; cases this

/-! ## Where the claim fails -/

/-- Flags of `token(KEYWORD|ALIAS)`. -/
def cmdCf : Cf := ⟨false, true, true, false⟩

def noKw (al : List (List Char × List Char)) : Env := ⟨al, fun _ => false, false⟩

/-- `alias a=a`, and `a` is the last word of an input without a final newline, such as
`$(a)`: the alias has been popped when the end of input is seen, so its recursion is not
noticed. -/
theorem eof_loop (n : Nat) : yylex (noKw [(['a'], ['a'])]) n cmdCf ⟨[], ['a'], false⟩ = none := by
  have h1 : step (noKw [(['a'], ['a'])]) cmdCf ⟨[], ['a'], false⟩ =
      some (.again cmdCf ⟨[⟨['a'], ['a'], ['a'], false, false⟩], [], false⟩) := by decide +kernel
  have h2 : step (noKw [(['a'], ['a'])]) cmdCf ⟨[⟨['a'], ['a'], ['a'], false, false⟩], [], false⟩ =
      some (.again cmdCf ⟨[⟨['a'], ['a'], ['a'], false, false⟩], [], false⟩) := by decide +kernel
  have h3 : ∀ n, yylex (noKw [(['a'], ['a'])]) n cmdCf
      ⟨[⟨['a'], ['a'], ['a'], false, false⟩], [], false⟩ = none := by
    intro n
    induction n with
    | zero => rfl
    | succ n ih => simp only [yylex, h2]; exact ih
  cases n with
  | zero => rfl
  | succ n => simp only [yylex, h1]; exact h3 n

/-- An alias whose name and text are `x` and a carriage return, used on a complete line:
leaving the alias at white space drops it from the stack although the word goes on. -/
theorem ctrl_loop (n : Nat) :
    yylex (noKw [(['x', '\r'], ['x', '\r'])]) n cmdCf ⟨[], ['x', '\r', '\n'], false⟩ = none := by
  have h1 : step (noKw [(['x', '\r'], ['x', '\r'])]) cmdCf ⟨[], ['x', '\r', '\n'], false⟩ =
      some (.again cmdCf ⟨[⟨['x', '\r'], ['x', '\r'], ['x', '\r'], false, false⟩], ['\n'], false⟩) := by
    decide +kernel
  have h2 : ∀ f, step (noKw [(['x', '\r'], ['x', '\r'])]) cmdCf
      ⟨[⟨['x', '\r'], ['x', '\r'], ['x', '\r'], false, false⟩], ['\n'], f⟩ =
      some (.again cmdCf ⟨[⟨['x', '\r'], ['x', '\r'], ['x', '\r'], false, false⟩], ['\n'], true⟩) := by
    intro f; cases f <;> decide +kernel
  have h3 : ∀ n f, yylex (noKw [(['x', '\r'], ['x', '\r'])]) n cmdCf
      ⟨[⟨['x', '\r'], ['x', '\r'], ['x', '\r'], false, false⟩], ['\n'], f⟩ = none := by
    intro n
    induction n with
    | zero => intro f; rfl
    | succ n ih => intro f; simp only [yylex, h2]; exact ih _
  cases n with
  | zero => rfl
  | succ n => simp only [yylex, h1]; exact h3 n _

/-! ## Concrete cases -/

/-- Mutual recursion stops: `alias a='b x' b='a y'`, input `a`. -/
example : yylex (noKw [("a".toList, "b x".toList), ("b".toList, "a y".toList)]) 5 cmdCf
    ⟨[], "  a z\n".toList, false⟩ =
    some (.word "a".toList,
      ⟨[⟨"b".toList, "a y".toList, " y".toList, false, false⟩,
        ⟨"a".toList, "b x".toList, " x".toList, false, false⟩], " z\n".toList, false⟩) := by
  decide +kernel

/-- The hypotheses of the termination theorem hold there. -/
example : PlainEnd (noKw [("a".toList, "b x".toList), ("b".toList, "a y".toList)]) ∧
    Complete "  a z\n".toList := by
  constructor
  · intro p hp c hc
    simp only [noKw, List.mem_cons, List.not_mem_nil, or_false] at hp
    rcases hp with rfl | rfl
    · have : c = 'x' := by simpa using hc.symm
      subst this; unfold ctrl; decide
    · have : c = 'y' := by simpa using hc.symm
      subst this; unfold ctrl; decide
  · right; decide

/-- A text that ends with a blank makes the next word an alias candidate: `alias s='sudo '
l='ls -l'`, input `s l`, second word looked up although not asked for. -/
example : calls (noKw [("s".toList, "sudo ".toList), ("l".toList, "ls -l".toList)]) 5
    [cmdCf, ⟨false, false, false, false⟩] ⟨[], "s l\n".toList, false⟩ =
    some ([.word "sudo".toList, .word "ls".toList],
      ⟨[⟨"l".toList, "ls -l".toList, " -l".toList, false, false⟩], "\n".toList, false⟩) := by
  decide +kernel

/-- Without the blank the second word is left alone. -/
example : (calls (noKw [("s".toList, "sudo".toList), ("l".toList, "ls -l".toList)]) 5
    [cmdCf, ⟨false, false, false, false⟩] ⟨[], "s l\n".toList, false⟩).map (·.1) =
    some [.word "sudo".toList, .word "l".toList] := by
  decide +kernel

end Ksh.Alias
