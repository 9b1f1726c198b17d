import Verif.Lex.Lemmas
import Verif.Ifs.Model
/-!
# Properties: what the shell prints can be read back (C19, C49)

Specification.  A word read by the lexer is a list of symbols; `Literal` words consist of
characters and quotes only and stand for a text.  Expanding such a word is `Ifs.expand`
of the corresponding pieces.
-/

namespace Ksh.Lex

/-! ## C19: quoted values -/

/-- Spec: the text of a word without expansions. -/
def text : List Sym → Option (List Char)
  | [] => some []
  | .chr c :: w => (text w).map (c :: ·)
  | .qchr c :: w => (text w).map (c :: ·)
  | .oq :: w => text w
  | .cq :: w => text w
  | _ :: _ => none

/-- Spec: such a word as input to `expand`. -/
def pieces : List Sym → List Ifs.Piece
  | [] => []
  | .chr c :: w => .char c :: pieces w
  | .qchr c :: w => .qchar c :: pieces w
  | .oq :: w => .oquote :: pieces w
  | .cq :: w => .cquote :: pieces w
  | _ :: w => pieces w

/-- Spec: characters that are not literal when unquoted, apart from `~` and `{` which the
shell treats specially only in some positions. -/
def special (c : Char) : Prop := c ∈ " \t\n|&;<>()$`\\\"'*?[#".toList

/-- the word that `quoteLoop` produces -/
def qword : Bool → List Char → List Sym
  | inq, [] => if inq then [.cq] else []
  | inq, c :: r =>
    if c = '\'' then (if inq then [.cq, .qchr '\''] else [.qchr '\'']) ++ qword false r
    else (if inq then [.qchr c] else [.oq, .qchr c]) ++ qword true r

theorem adv_quoteLoop {rest} : ∀ (v : List Char) (inq : Bool) (skip : Nat) (out : List Sym), skip ≠ 1 →
    ∃ skip', skip' ≠ 1 ∧ Adv ⟨if inq then [.squote, .base] else [.base], quoteLoop inq v ++ rest, skip, out⟩
      ⟨[.base], rest, skip', out ++ qword inq v⟩
  | [], inq, skip, out, hs => by
    cases inq
    · exact ⟨skip, hs, by simpa [quoteLoop, qword] using Adv.refl _⟩
    · exact ⟨skip, hs, adv_squote_close⟩
  | c :: v, inq, skip, out, hs => by
    by_cases hc : c = '\''
    · subst hc
      cases inq
      · obtain ⟨s', h1, h2⟩ := adv_quoteLoop (rest := rest) v false 2 (out ++ [.qchr '\'']) (by decide)
        refine ⟨s', h1, ?_⟩
        simp only [quoteLoop, qword, if_true, Bool.false_eq_true, if_false, List.cons_append, List.nil_append]
        exact (adv_escape hs (by decide)).trans (by simpa using h2)
      · obtain ⟨s', h1, h2⟩ := adv_quoteLoop (rest := rest) v false 2 (out ++ [.cq] ++ [.qchr '\'']) (by decide)
        refine ⟨s', h1, ?_⟩
        simp only [quoteLoop, qword, if_true, List.cons_append, List.nil_append]
        exact adv_squote_close.trans ((adv_escape hs (by decide)).trans (by simpa using h2))
    · cases inq
      · obtain ⟨s', h1, h2⟩ := adv_quoteLoop (rest := rest) v true 0 (out ++ [.oq] ++ [.qchr c]) (by decide)
        refine ⟨s', h1, ?_⟩
        simp only [quoteLoop, qword, if_neg hc, Bool.false_eq_true, if_false, List.cons_append, List.nil_append]
        exact (adv_squote_open hs).trans ((adv_squote_char hc).trans (by simpa using h2))
      · obtain ⟨s', h1, h2⟩ := adv_quoteLoop (rest := rest) v true skip (out ++ [.qchr c]) hs
        refine ⟨s', h1, ?_⟩
        simp only [quoteLoop, qword, if_neg hc, if_true, List.cons_append, List.nil_append]
        exact (adv_squote_char hc).trans (by simpa using h2)

theorem ends_safe {rest} (h : Ends rest) : Safe rest := by
  rcases h with rfl | ⟨r, rfl | rfl | rfl⟩
  · exact Or.inl rfl
  all_goals exact Or.inr (Or.inl ⟨_, r, rfl, by decide, by decide⟩)

theorem needs_props {c} (h : needsQuote c = false) :
    lex1 c = false ∧ (c ≠ '\\' ∧ c ≠ '\'' ∧ c ≠ '"' ∧ c ≠ '$' ∧ c ≠ '`') ∧ c ≠ '(' := by
  simp only [needsQuote, List.contains_eq_mem, List.mem_cons, List.not_mem_nil, or_false, decide_eq_false_iff_not, not_or] at h
  refine ⟨?_, by simp [h], by simp [h]⟩
  cases hl : lex1 c with
  | false => rfl
  | true =>
    simp only [lex1, List.contains_eq_mem, List.mem_cons, List.not_mem_nil, or_false, decide_eq_true_eq] at hl
    exfalso
    rcases hl with rfl | rfl | rfl | rfl | rfl | rfl | rfl | rfl | rfl | rfl <;> simp at h

theorem adv_bare {rest} (hr : Ends rest) : ∀ (v : List Char) (skip : Nat) (out : List Sym), skip ≠ 1 →
    (∀ c ∈ v, needsQuote c = false) →
    ∃ skip', skip' ≠ 1 ∧ Adv ⟨[.base], v ++ rest, skip, out⟩ ⟨[.base], rest, skip', out ++ v.map .chr⟩
  | [], skip, out, hs, _ => ⟨skip, hs, by simpa using Adv.refl _⟩
  | c :: v, skip, out, hs, hv => by
    obtain ⟨h1, h2, h3⟩ := needs_props (hv c (by simp))
    have hv' := fun x (hx : x ∈ v) => hv x (by simp [hx])
    obtain ⟨s', h4, h5⟩ := adv_bare hr v 0 (out ++ [.chr c]) (by decide) hv'
    refine ⟨s', h4, (adv_plain hs h1 h2 ?_).trans (by simpa using h5)⟩
    cases v with
    | nil => exact ends_safe hr
    | cons d v =>
      obtain ⟨_, g2, g3⟩ := needs_props (hv' d (by simp))
      exact Or.inr (Or.inl ⟨d, v ++ rest, rfl, g3, g2.1⟩)

theorem text_qword : ∀ (v : List Char) (inq : Bool), text (qword inq v) = some v
  | [], true => rfl
  | [], false => rfl
  | c :: v, inq => by
    unfold qword
    by_cases hc : c = '\''
    · subst hc; cases inq <;> simp [text, text_qword v]
    · cases inq <;> simp [hc, text, text_qword v]

theorem text_chr : ∀ (v : List Char), text (v.map .chr) = some v
  | [] => rfl
  | c :: v => by simp [text, text_chr v]

theorem qword_quoted : ∀ (v : List Char) (inq : Bool) (c : Char), Sym.chr c ∉ qword inq v
  | [], true, c => by simp [qword]
  | [], false, c => by simp [qword]
  | d :: v, inq, c => by
    unfold qword
    have h1 := qword_quoted v false c
    have h2 := qword_quoted v true c
    by_cases hc : d = '\''
    · cases inq <;> simp [hc, h1]
    · cases inq <;> simp [hc, h2]

/-- A word without expansions expands to its text, one field, whatever IFS is. -/
theorem expand_text (E : Ifs.Env) (blank : Bool) : ∀ (w : List Sym) (s : Ifs.S) (v : List Char), text w = some v →
    s.out = [] → s.fresh = false → (v = [] → s.word = .word ∨ s.word = .quote) →
    Ifs.finish ((pieces w).foldl (Ifs.piece E blank) s) = [s.cur ++ v]
  | [], s, v, h, ho, hf, hw => by
    simp only [text, Option.some.injEq] at h
    subst h
    simp [pieces, Ifs.finish, hw rfl, ho]
  | .chr c :: w, s, v, h, ho, hf, hw => by
    simp only [text, Option.map_eq_some_iff] at h
    obtain ⟨v', h, rfl⟩ := h
    simp only [pieces, List.foldl_cons]
    rw [expand_text E blank w _ v' h] <;> simp [Ifs.piece, Ifs.put, hf, ho]
  | .qchr c :: w, s, v, h, ho, hf, hw => by
    simp only [text, Option.map_eq_some_iff] at h
    obtain ⟨v', h, rfl⟩ := h
    simp only [pieces, List.foldl_cons]
    rw [expand_text E blank w _ v' h] <;> simp [Ifs.piece, Ifs.put, hf, ho]
  | .oq :: w, s, v, h, ho, hf, hw => by
    simp only [pieces, List.foldl_cons]
    rw [expand_text E blank w _ v h]
    · simp [Ifs.piece]
    · simp [Ifs.piece, ho]
    · simp [Ifs.piece, hf]
    · intro _; simp only [Ifs.piece]; split <;> simp
  | .cq :: w, s, v, h, ho, hf, hw => by
    simp only [pieces, List.foldl_cons]
    rw [expand_text E blank w _ v h]
    · simp [Ifs.piece]
    · simp [Ifs.piece, ho]
    · simp [Ifs.piece, hf]
    · intro hv; simpa [Ifs.piece] using hw hv

theorem special_iff {c} : special c ↔ needsQuote c = true := by
  have : " \t\n|&;<>()$`\\\"'*?[#".toList = [' ', '\t', '\n', '|', '&', ';', '<', '>', '(', ')', '$', '`', '\\', '"', '\'', '*', '?', '[', '#'] := by
    decide
  simp only [special, needsQuote, List.contains_eq_mem, decide_eq_true_eq, this, List.mem_cons, List.not_mem_nil, or_false]
  grind

/-- **C19** (partial).  The text printed for a non-empty value, followed by a blank, a
newline or the end of input, is read back as one word whose text is the value; expanding
that word gives the value as a single field for every IFS; no special character is left
unquoted in it, and if the value has a special character all of it is quoted.  Missing for
the full property: the empty value is printed as nothing (`empty_value_not_quoted`), and
unquoted `~` and `{` (`tilde_not_quoted`, `brace_not_quoted`). -/
theorem quoted_value_reread_partial (v rest : List Char) (hv : v ≠ []) (hr : Ends rest) :
    ∃ w, (∃ N, ∀ n ≥ N, lexWord n (printQuoted v ++ rest) = .word w rest) ∧ text w = some v ∧
      (∀ E blank, Ifs.expand E blank (pieces w) = [v]) ∧
      (∀ c, Sym.chr c ∈ w → ¬ special c) ∧
      ((∃ c ∈ v, special c) → ∀ c, Sym.chr c ∉ w) := by
  have hexp : ∀ w, text w = some v → ∀ E blank, Ifs.expand E blank (pieces w) = [v] := by
    intro w h E blank
    rw [Ifs.expand, expand_text E blank w _ v h] <;> simp [Ifs.init, hv]
  by_cases hq : v.any needsQuote = true
  · obtain ⟨sk, h1, h2⟩ := adv_quoteLoop (rest := rest) v false 0 [] (by decide)
    have ht := text_qword v false
    refine ⟨qword false v, ?_, ht, hexp _ ht, fun c hc => absurd hc (qword_quoted v false c), fun _ => qword_quoted v false⟩
    rw [printQuoted, if_pos hq]
    exact lexes h1 hr (by simpa using h2)
  · have hn : ∀ c ∈ v, needsQuote c = false := by
      intro c hc
      simp only [List.any_eq_true, not_exists, not_and, Bool.not_eq_true] at hq
      exact hq c hc
    obtain ⟨sk, h1, h2⟩ := adv_bare hr v 0 [] (by decide) hn
    have ht := text_chr v
    refine ⟨v.map .chr, ?_, ht, hexp _ ht, ?_, ?_⟩
    · rw [printQuoted, if_neg hq]
      exact lexes h1 hr (by simpa using h2)
    · intro c hc
      simp only [List.mem_map, Sym.chr.injEq, exists_eq_right] at hc
      rw [special_iff, hn c hc]; simp
    · rintro ⟨c, hc, hs⟩
      rw [special_iff, hn c hc] at hs
      simp at hs

/-- `print_value_quoted("")` prints nothing: `trap '' INT; trap` shows `trap --  INT`. -/
theorem empty_value_not_quoted : printQuoted [] = [] := rfl

/-- `x='~'; set` prints `x=~`: the tilde comes back unquoted and, at the start of a word,
is subject to tilde expansion. -/
theorem tilde_not_quoted : printQuoted ['~'] = ['~'] ∧ lexWord 9 (printQuoted ['~']) = .word [.chr '~'] [] := by decide

/-- `{a,b}` is printed bare and would be brace expanded in a command word. -/
theorem brace_not_quoted : lexWord 9 (printQuoted "{a,b}".toList) = .word ("{a,b}".toList.map .chr) [] := by decide +kernel

example : printQuoted "it's \\ fine\n".toList = "'it'\\''s \\ fine\n'".toList := by decide
example : lexWord 40 "'it'\\''s \\ fine\n' x".toList =
    .word [.oq, .qchr 'i', .qchr 't', .cq, .qchr '\'', .oq, .qchr 's', .qchr ' ', .qchr '\\', .qchr ' ', .qchr 'f',
      .qchr 'i', .qchr 'n', .qchr 'e', .qchr '\n', .cq] " x".toList := by decide +kernel

end Ksh.Lex
