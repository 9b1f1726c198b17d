import Verif.Compl.Model
import Verif.Emacs.Spec
import Verif.Lex.Reread
import Verif.Glob.Props
/-! # What completion inserts, read again -/

namespace Ksh.Compl

open Lex

/-- the text `x_escape` inserts for a name (edit.c:943-971); `Ksh.Emacs.completes_partial` and `Ksh.Vi` say that it does -/
abbrev inserted := @Emacs.Line.quoted

/-- The word a name is read as: the characters with a backslash are quoted. -/
def syms (ifs : List Char) (name : List Char) : List Sym := name.map fun c => if Emacs.special ifs c then .qchr c else .chr c

/-- `special` without the string literal -/
theorem special_eq (ifs : List Char) (c : Char) : Emacs.special ifs c =
    (['!', '"', '#', '$', '&', '\'', '(', ')', '*', ':', ';', '<', '=', '>', '?', '[', '\\', ']', '`', '{', '|', '}'].contains c || ifs.contains c) := rfl

theorem plain_char {ifs : List Char} {c : Char} (h : Emacs.special ifs c = false) (hc : c = ' ' ∨ c = '\t' ∨ c = '\n' → c ∈ ifs) :
    Plain .base c ∧ c ≠ '(' ∧ c ≠ '*' ∧ c ≠ '?' ∧ c ≠ '[' ∧ c ≠ ']' ∧ c ≠ '!' := by
  rw [special_eq, Bool.or_eq_false_iff] at h
  have h1 := h.1
  rw [List.contains_eq_mem, decide_eq_false_iff_not] at h1
  have h2 : c ∉ ifs := by simpa using h.2
  have hi : ¬ (c = ' ' ∨ c = '\t' ∨ c = '\n') := fun hx => h2 (hc hx)
  simp only [List.mem_cons, List.not_mem_nil, or_false, not_or] at h1 hi
  simp only [Plain, lex1, List.contains_cons, List.contains_nil, Bool.or_false, Bool.or_eq_false_iff, beq_eq_false_iff_ne]
  simp_all

theorem quoted_nil (ifs) : inserted ifs [] = [] := rfl
theorem quoted_cons (ifs c w) : inserted ifs (c :: w) = (if Emacs.special ifs c then ['\\', c] else [c]) ++ inserted ifs w := by
  simp [inserted, Emacs.Line.quoted]

/-- The blanks in a name are characters `IFS` contains, and there is no newline. -/
def Typable (ifs name : List Char) : Prop := ∀ c ∈ name, c ≠ '\n' ∧ (c = ' ' ∨ c = '\t' → c ∈ ifs)

theorem blank_in {ifs : List Char} {c : Char} (h1 : c ≠ '\n') (h2 : c = ' ' ∨ c = '\t' → c ∈ ifs) :
    c = ' ' ∨ c = '\t' ∨ c = '\n' → c ∈ ifs := by
  rintro (h | h | h)
  · exact h2 (.inl h)
  · exact h2 (.inr h)
  · exact absurd h h1

theorem safe_quoted {ifs name rest : List Char} (h : Typable ifs name) (hr : Lex.Ends rest) : Safe (inserted ifs name ++ rest) := by
  cases name with
  | nil =>
    rcases hr with rfl | ⟨r, rfl | rfl | rfl⟩
    · exact .inl rfl
    all_goals exact .inr (.inl ⟨_, _, rfl, by decide, by decide⟩)
  | cons c w =>
    rw [quoted_cons]
    obtain ⟨h1, h2⟩ := h c (by simp)
    by_cases hs : Emacs.special ifs c = true
    · rw [if_pos hs]; exact .inr (.inr ⟨c, _, rfl, h1⟩)
    · rw [if_neg hs]
      obtain ⟨hp, hq⟩ := plain_char (by simpa using hs) (blank_in h1 h2)
      exact .inr (.inl ⟨c, _, rfl, hq.1, hp.1⟩)

theorem adv_quoted {ifs rest : List Char} (hr : Lex.Ends rest) : ∀ {name : List Char}, Typable ifs name → ∀ skip out, skip ≠ 1 →
    ∃ skip', skip' ≠ 1 ∧ Adv ⟨[.base], inserted ifs name ++ rest, skip, out⟩ ⟨[.base], rest, skip', out ++ syms ifs name⟩
  | [], _, skip, out, hs => ⟨skip, hs, by simpa [quoted_nil, syms] using Adv.refl _⟩
  | c :: w, h, skip, out, hs => by
    have hw : Typable ifs w := fun d hd => h d (List.mem_cons_of_mem _ hd)
    obtain ⟨h1, h2⟩ := h c (by simp)
    rw [quoted_cons]
    by_cases hsp : Emacs.special ifs c = true
    · obtain ⟨k, hk, ha⟩ := adv_quoted hr hw 2 (out ++ [.qchr c]) (by decide)
      refine ⟨k, hk, ?_⟩
      rw [if_pos hsp]
      have e : out ++ syms ifs (c :: w) = out ++ [.qchr c] ++ syms ifs w := by simp [syms, hsp]
      rw [e]
      exact (adv_esc (k := .base) (st := []) hs (by decide) h1).trans ha
    · obtain ⟨hp, hq⟩ := plain_char (by simpa using hsp) (blank_in h1 h2)
      obtain ⟨k, hk, ha⟩ := adv_quoted hr hw 0 (out ++ [.chr c]) (by decide)
      refine ⟨k, hk, ?_⟩
      rw [if_neg hsp]
      have e : out ++ syms ifs (c :: w) = out ++ [.chr c] ++ syms ifs w := by simp [syms, hsp]
      rw [e]
      exact (adv_char (k := .base) (st := []) hs hp (fun _ _ => safe_quoted hw hr)).trans ha

/-! ## What the word expands to -/

/-- The bytes stored for a word of characters. -/
def stored (f : Subst.F) : List Sym → List Nat
  | [] => []
  | .chr c :: w => Subst.code f false c.toNat ++ stored f w
  | .qchr c :: w => Subst.code f true c.toNat ++ stored f w
  | _ :: w => stored f w

def Chars (w : List Sym) : Prop := ∀ s ∈ w, (∃ c, s = .chr c) ∨ ∃ c, s = .qchr c

theorem chars_syms (ifs name) : Chars (syms ifs name) := by
  intro s hs
  simp only [syms, List.mem_map] at hs
  obtain ⟨c, -, rfl⟩ := hs
  split
  · exact .inr ⟨c, rfl⟩
  · exact .inl ⟨c, rfl⟩

theorem run_chars (nm : List Char → Bool × Subst.Nm) (com arith : List Char → Nat) (E : Subst.Env) : ∀ {w : List Sym}, Chars w →
    ∀ s : Subst.St, s.quote = false → s.doblank = 0 → ∃ s' : Subst.St,
      Subst.run E (codes nm com arith w) s = Subst.finish s' ∧ s'.ds = s.ds ++ stored s.f w ∧ s'.out = s.out ∧ s'.w = s.w ∧
      (w ≠ [] ∨ s.word = .word → s'.word = .word)
  | [], _, s, _, _ => ⟨s, by simp [codes, Subst.run], by simp [stored], rfl, rfl, fun h => h.resolve_left (fun h => h rfl)⟩
  | x :: w, h, s, hq, hb => by
    have hw : Chars w := fun y hy => h y (List.mem_cons_of_mem _ hy)
    rcases h x (by simp) with ⟨c, rfl⟩ | ⟨c, rfl⟩
    · obtain ⟨s', h1, h2, h3, h4, h5⟩ := run_chars nm com arith E hw
        { s with ds := s.ds ++ Subst.code s.f false c.toNat, word := .word } hq hb
      refine ⟨s', ?_, ?_, h3, h4, fun _ => h5 (.inr rfl)⟩
      · rw [← h1, codes, Subst.run]
        simp [Subst.step, Subst.put, Subst.splits, hq, hb, Subst.Drop.app]
      · rw [h2]; simp [stored]
    · obtain ⟨s', h1, h2, h3, h4, h5⟩ := run_chars nm com arith E hw
        { s with ds := s.ds ++ Subst.code s.f true c.toNat, word := .word } hq hb
      refine ⟨s', ?_, ?_, h3, h4, fun _ => h5 (.inr rfl)⟩
      · rw [← h1, codes, Subst.run]
        simp [Subst.step, Subst.put, Subst.Drop.app]
      · rw [h2]; simp [stored]

open Ksh.Glob (Literal Pat debunk hasGlobbing gmatch CStr)

/-- A character of a name that is not quoted and is stored with a mark is a hyphen or the byte 7. -/
theorem stored_char {ifs : List Char} {c : Char} (h : Emacs.special ifs c = false)
    (hc : c = ' ' ∨ c = '\t' ∨ c = '\n' → c ∈ ifs) (f : Subst.F) :
    Subst.code f false c.toNat = [7, 45] ∧ c.toNat = 45 ∨ Subst.code f false c.toNat = (if c.toNat = 7 then [7, 7] else [c.toNat]) := by
  obtain ⟨-, -, h1, h2, h3, h4, h5⟩ := plain_char h hc
  unfold Subst.code
  by_cases hx : c.toNat = 45
  · rw [hx]
    cases f.pat <;> cases f.glob <;> simp
  · right
    rw [if_neg]
    rintro ⟨-, -, hy⟩
    rcases hy with hy | hy | hy | hy | hy | hy
    · exact h3 (Char.toNat_inj.mp hy)
    · exact h5 (Char.toNat_inj.mp hy)
    · exact hx hy
    · exact h4 (Char.toNat_inj.mp hy)
    · exact h1 (Char.toNat_inj.mp hy)
    · exact h2 (Char.toNat_inj.mp hy)

theorem stored_quoted (c : Char) (f : Subst.F) : Subst.code f true c.toNat = (if c.toNat = 7 then [7, 7] else [c.toNat]) := by
  simp [Subst.code]

theorem stored_literal {ifs : List Char} (f : Subst.F) : ∀ {name : List Char}, Typable ifs name → (∀ c ∈ name, c.toNat ≠ 0) →
    Literal (stored f (syms ifs name)) (name.map Char.toNat)
  | [], _, _ => .nil
  | c :: w, h, h0 => by
    have ih := stored_literal f (name := w) (fun d hd => h d (List.mem_cons_of_mem _ hd)) (fun d hd => h0 d (List.mem_cons_of_mem _ hd))
    obtain ⟨h1, h2⟩ := h c (by simp)
    have hz := h0 c (by simp)
    have one : ∀ l t, Literal l t → Literal ((if c.toNat = 7 then [7, 7] else [c.toNat]) ++ l) (c.toNat :: t) := by
      intro l t hl
      by_cases h7 : c.toNat = 7
      · rw [if_pos h7, h7]
        exact .mark (by decide) (by decide) (by decide) (by decide) (by decide) hl
      · rw [if_neg h7]
        exact .char h7 hz hl
    by_cases hs : Emacs.special ifs c = true
    · have e : syms ifs (c :: w) = .qchr c :: syms ifs w := by simp [syms, hs]
      rw [e, stored, stored_quoted]
      exact one _ _ ih
    · have e : syms ifs (c :: w) = .chr c :: syms ifs w := by simp [syms, hs]
      rw [e, stored]
      rcases stored_char (by simpa using hs) (blank_in h1 h2) f with ⟨hx, hy⟩ | hx
      · rw [hx, List.map_cons, hy]
        exact .mark (by decide) (by decide) (by decide) (by decide) (by decide) ih
      · rw [hx]
        exact one _ _ ih

/-- **C111** The text completion inserts for a name is read as one word, and the word expands to that name and is no
pattern, whatever the name's characters, if it has no newline and does not begin with a tilde and `IFS` contains the
blanks that are in it. -/
theorem inserted_reads_back_partial {ifs name rest : List Char} (hne : name ≠ []) (ht : Typable ifs name)
    (h0 : ∀ c ∈ name, c.toNat ≠ 0) (htl : name.head? ≠ some '~') (hr : Lex.Ends rest) :
    ∃ N w, (∀ n ≥ N, lexWord n (inserted ifs name ++ rest) = .word w rest) ∧ w.head? ≠ some (.chr '~') ∧
      ∀ nm com arith E f W, ∃ ds, Subst.expand E f W (codes nm com arith w) = .words [ds] W ∧
        hasGlobbing ds = false ∧ debunk ds = name.map Char.toNat := by
  obtain ⟨k, hk, ha⟩ := adv_quoted hr ht 0 [] (by decide)
  obtain ⟨N, hN⟩ := lexes hk hr ha
  refine ⟨N, syms ifs name, by simpa using hN, ?_, ?_⟩
  · cases name with
    | nil => exact absurd rfl hne
    | cons c w =>
      simp only [syms, List.map_cons, List.head?_cons]
      split
      · simp
      · simpa using htl
  · intro nm com arith E f W
    obtain ⟨s', h1, h2, h3, h4, h5⟩ := run_chars nm com arith E (chars_syms ifs name) (Subst.init f W) rfl rfl
    have hw : s'.word = .word := h5 (.inl (by simpa [syms] using hne))
    have hl := stored_literal f ht h0
    refine ⟨stored f (syms ifs name), ?_, (Glob.literal_word hl).1, hl.debunk⟩
    rw [Subst.expand, h1, Subst.finish, h2, h3, h4, if_pos (.inl hw)]
    rfl

/-! ## The pattern of a name typed in part -/

/-- The text of a name and a pattern behind it. -/
theorem name_pattern {ifs : List Char} (f : Subst.F) (R : Pat) (hR : R.Ok) (hS : R.ScanOk) : ∀ {name : List Char}, Typable ifs name →
    (∀ c ∈ name, c.toNat ≠ 0) → ∃ P : Pat, P.Ok ∧ P.ScanOk ∧ P.enc = stored f (syms ifs name) ++ R.enc ∧
      ∀ s, P.Den s ↔ ∃ t, s = name.map Char.toNat ++ t ∧ R.Den t
  | [], _, _ => ⟨R, hR, hS, rfl, fun s => by simp⟩
  | c :: w, h, h0 => by
    obtain ⟨P, g1, g2, g3, g4⟩ := name_pattern f R hR hS (name := w) (fun d hd => h d (List.mem_cons_of_mem _ hd))
      (fun d hd => h0 d (List.mem_cons_of_mem _ hd))
    obtain ⟨h1, h2⟩ := h c (by simp)
    have hz := h0 c (by simp)
    have den : ∀ s, (∃ t, s = c.toNat :: t ∧ P.Den t) ↔ ∃ t, s = (c :: w).map Char.toNat ++ t ∧ R.Den t := by
      intro s
      constructor
      · rintro ⟨t, rfl, ht⟩
        obtain ⟨t', rfl, ht'⟩ := (g4 t).mp ht
        exact ⟨t', by simp, ht'⟩
      · rintro ⟨t, rfl, ht⟩
        exact ⟨_, by simp, (g4 _).mpr ⟨t, rfl, ht⟩⟩
    have one : ∃ Q : Pat, Q.Ok ∧ Q.ScanOk ∧ Q.enc = (if c.toNat = 7 then [7, 7] else [c.toNat]) ++ P.enc ∧
        ∀ s, Q.Den s ↔ ∃ t, s = c.toNat :: t ∧ P.Den t := by
      by_cases h7 : c.toNat = 7
      · exact ⟨.esc 7 P, by simp [Pat.Ok, g1], by simpa [Pat.ScanOk] using g2, by simp [Pat.enc, h7], fun s => by simp [Pat.Den, h7]⟩
      · exact ⟨.lit c.toNat P, by simp [Pat.Ok, g1, hz, h7], by simpa [Pat.ScanOk] using g2, by simp [Pat.enc, h7], fun s => by simp [Pat.Den]⟩
    by_cases hs : Emacs.special ifs c = true
    · obtain ⟨Q, q1, q2, q3, q4⟩ := one
      refine ⟨Q, q1, q2, ?_, fun s => (q4 s).trans (den s)⟩
      rw [q3, g3]
      simp [syms, hs, stored, stored_quoted]
    · rcases stored_char (by simpa using hs) (blank_in h1 h2) f with ⟨hx, hy⟩ | hx
      · refine ⟨.esc 45 P, by simp [Pat.Ok, g1], by simpa [Pat.ScanOk] using g2, ?_, fun s => ?_⟩
        · simp [Pat.enc, g3, syms, hs, stored, hx]
        · rw [← den s, hy]; simp [Pat.Den]
      · obtain ⟨Q, q1, q2, q3, q4⟩ := one
        refine ⟨Q, q1, q2, ?_, fun s => (q4 s).trans (den s)⟩
        rw [q3, g3]
        simp [syms, hs, stored, hx]

theorem globScan_quoted {ifs : List Char} : ∀ {name : List Char}, Typable ifs name → ∀ saw, ∃ saw', globScan (inserted ifs name) saw = some saw'
  | [], _, saw => ⟨saw, rfl⟩
  | c :: w, h, saw => by
    have hw : Typable ifs w := fun d hd => h d (List.mem_cons_of_mem _ hd)
    obtain ⟨h1, h2⟩ := h c (by simp)
    rw [quoted_cons]
    by_cases hs : Emacs.special ifs c = true
    · obtain ⟨saw', hx⟩ := globScan_quoted hw saw
      refine ⟨saw', ?_⟩
      rw [if_pos hs]
      simp only [List.cons_append, List.nil_append, globScan, ne_eq, reduceCtorEq, not_false_eq_true, and_self, if_true]
      exact hx
    · obtain ⟨hp, hq, hr1, hr2, hr3, -, hr4⟩ := plain_char (by simpa using hs) (blank_in h1 h2)
      obtain ⟨saw', hx⟩ := globScan_quoted hw (saw || c = '/')
      refine ⟨saw', ?_⟩
      rw [if_neg hs]
      simp only [List.cons_append, List.nil_append]
      rw [globScan.eq_def]
      dsimp only
      rw [if_neg (by rintro ⟨hb, -⟩; exact hp.1 hb), if_neg, hx]
      have hnext : (inserted ifs w).head? ≠ some '(' := by
        cases w with
        | nil => simp [quoted_nil]
        | cons d w =>
          rw [quoted_cons]
          by_cases hd : Emacs.special ifs d = true
          · simp [hd]
          · obtain ⟨k1, k2⟩ := h d (by simp)
            have := (plain_char (by simpa using hd) (blank_in k1 k2)).2.1
            simpa [hd] using this
      simp [hr1, hr2, hr3, hp.2.2.1, hnext]

/-- `s` runs to `s'` in `ONEWORD` mode. -/
def AdvW (u : Bool) (s s' : LS) : Prop := ∃ k, ∀ n, loopW u (n + k) s = loopW u n s'

theorem AdvW.trans {u a b c} (h : AdvW u a b) (h' : AdvW u b c) : AdvW u a c := by
  obtain ⟨k, h⟩ := h
  obtain ⟨m, h'⟩ := h'
  exact ⟨m + k, fun n => by rw [← Nat.add_assoc, h, h']⟩

theorem advW_char {u c r skip out} (hs : skip ≠ 1) (h1 : c ≠ '\\') (h2 : c ≠ '$') (h3 : c ≠ '`') :
    AdvW u ⟨[.base], c :: r, skip, out⟩ ⟨[.base], r, 0, out ++ [.chr c]⟩ :=
  ⟨1, fun n => by
    rw [loopW]
    simp only [ignoring, get_plain hs h1]
    simp [stepW, subst, h1, h2, h3]⟩

theorem advW_esc {c r skip out} (hs : skip ≠ 1) (hc : c ≠ '\n') :
    AdvW true ⟨[.base], '\\' :: c :: r, skip, out⟩ ⟨[.base], r, 2, out ++ [.qchr c]⟩ :=
  ⟨1, fun n => by
    rw [loopW]
    simp only [ignoring, get_bs hs hc]
    simp [stepW, unescape, ignoring, get_raw]⟩

theorem advW_quoted {u : Bool} {ifs rest : List Char} : ∀ {name : List Char}, Typable ifs name →
    (u = false → ∀ c ∈ name, Emacs.special ifs c = false) → ∀ skip out, skip ≠ 1 →
    ∃ skip', skip' ≠ 1 ∧ AdvW u ⟨[.base], inserted ifs name ++ rest, skip, out⟩ ⟨[.base], rest, skip', out ++ syms ifs name⟩
  | [], _, _, skip, out, hs => ⟨skip, hs, 0, fun n => by simp [quoted_nil, syms]⟩
  | c :: w, h, hu, skip, out, hs => by
    have hw : Typable ifs w := fun d hd => h d (List.mem_cons_of_mem _ hd)
    have hu' : u = false → ∀ d ∈ w, Emacs.special ifs d = false := fun hf d hd => hu hf d (List.mem_cons_of_mem _ hd)
    obtain ⟨h1, h2⟩ := h c (by simp)
    rw [quoted_cons]
    by_cases hsp : Emacs.special ifs c = true
    · have hut : u = true := by
        cases u with
        | true => rfl
        | false => rw [hu rfl c (by simp)] at hsp; cases hsp
      subst hut
      obtain ⟨k, hk, ha⟩ := advW_quoted (rest := rest) hw hu' 2 (out ++ [.qchr c]) (by decide)
      refine ⟨k, hk, ?_⟩
      rw [if_pos hsp]
      have e : out ++ syms ifs (c :: w) = out ++ [.qchr c] ++ syms ifs w := by simp [syms, hsp]
      rw [e]
      exact (advW_esc hs h1).trans ha
    · obtain ⟨hp, hq⟩ := plain_char (by simpa using hsp) (blank_in h1 h2)
      obtain ⟨k, hk, ha⟩ := advW_quoted (rest := rest) hw hu' 0 (out ++ [.chr c]) (by decide)
      refine ⟨k, hk, ?_⟩
      rw [if_neg hsp]
      have e : out ++ syms ifs (c :: w) = out ++ [.chr c] ++ syms ifs w := by simp [syms, hsp]
      rw [e]
      exact (advW_char hs hp.1 hp.2.2.1 hp.2.2.2.1).trans ha

theorem chars_append {v w : List Sym} (hv : Chars v) (hw : Chars w) : Chars (v ++ w) := by
  intro s hs
  rcases List.mem_append.mp hs with hs | hs
  · exact hv s hs
  · exact hw s hs

theorem stored_append (f : Subst.F) : ∀ {v w : List Sym}, Chars v → stored f (v ++ w) = stored f v ++ stored f w
  | [], _, _ => rfl
  | x :: v, w, h => by
    have ih := stored_append f (v := v) (w := w) fun y hy => h y (List.mem_cons_of_mem _ hy)
    rcases h x (by simp) with ⟨c, rfl⟩ | ⟨c, rfl⟩ <;> simp [stored, ih]

/-- **C111** The beginning of a name, quoted in the way completion quotes, is made a pattern that matches exactly the
strings that begin with it.  In a command (`u` is false) this needs that no character of it had to be quoted. -/
theorem typed_prefix_pattern_partial {u : Bool} {ifs name : List Char} (ht : Typable ifs name) (h0 : ∀ c ∈ name, c.toNat ≠ 0)
    (htl : name.head? ≠ some '~') (hu : u = false → ∀ c ∈ name, Emacs.special ifs c = false) :
    ∃ N w, (∀ n ≥ N, oneWord u n (addGlob (inserted ifs name)) = .word w []) ∧
      ∀ nm com arith E f W, (f.pat || f.glob) = true → ∃ ds, Subst.expand E f W (codes nm com arith w) = .words [ds] W ∧
        ∀ s, CStr s → ∀ isfile, ∃ M, ∀ n ≥ M, ∃ b, gmatch n s ds isfile = some b ∧ (b = true ↔ name.map Char.toNat <+: s) := by
  obtain ⟨saw, hsaw⟩ := globScan_quoted ht false
  have hhead : (inserted ifs name).head? ≠ some '~' := by
    cases name with
    | nil => simp [quoted_nil]
    | cons c w =>
      rw [quoted_cons]
      by_cases hs : Emacs.special ifs c = true
      · simp [hs]
      · simpa [hs] using htl
  have hadd : addGlob (inserted ifs name) = inserted ifs name ++ ['*'] := by
    rw [addGlob, hsaw]
    simp [hhead]
  obtain ⟨k, hk, ha⟩ := advW_quoted (rest := ['*']) ht hu 0 [] (by decide)
  obtain ⟨m, hm⟩ := ha.trans (advW_char (u := u) (c := '*') (r := []) hk (by decide) (by decide) (by decide))
  refine ⟨m + 1, syms ifs name ++ [.chr '*'], fun n hn => ?_, ?_⟩
  · rw [oneWord, hadd, show n = (n - m - 1 + 1) + m by omega, hm, loopW]
    simp [ignoring, get_end]
  · intro nm com arith E f W hf
    have hch : Chars (syms ifs name ++ [Sym.chr '*']) :=
      chars_append (chars_syms ifs name) (by intro s hs; exact .inl ⟨'*', by simpa using hs⟩)
    obtain ⟨s', h1, h2, h3, h4, h5⟩ := run_chars nm com arith E hch (Subst.init f W) rfl rfl
    have hw : s'.word = .word := h5 (.inl (by simp))
    obtain ⟨P, g1, g2, g3, g4⟩ := name_pattern f (.star .eps) (by simp [Pat.Ok]) (by simp [Pat.ScanOk]) ht h0
    have hst : stored f (syms ifs name ++ [Sym.chr '*']) = P.enc := by
      rw [stored_append f (chars_syms ifs name), g3]
      have : Subst.code f false '*'.toNat = [7, 42] := by
        simp [Subst.code, hf, show '*'.toNat = 42 from rfl]
      rw [show stored f [Sym.chr '*'] = Subst.code f false '*'.toNat ++ [] from rfl, this]
      rfl
    have hden : ∀ s, P.Den s ↔ name.map Char.toNat <+: s := by
      intro s
      rw [g4 s]
      constructor
      · rintro ⟨t, rfl, -⟩; exact ⟨t, rfl⟩
      · rintro ⟨t, rfl⟩; exact ⟨t, rfl, t, [], by simp, rfl⟩
    refine ⟨P.enc, ?_, fun s hs isfile => ?_⟩
    · rw [Subst.expand, h1, Subst.finish, h2, h3, h4, if_pos (.inl hw)]
      simp only [Subst.init, hst, List.nil_append]
    · cases isfile with
      | true =>
        obtain ⟨M, hM⟩ := Glob.match_iff_language g1 hs
        exact ⟨M, fun n hn => by obtain ⟨b, hb, hb'⟩ := hM n hn; exact ⟨b, hb, hb'.trans (hden s)⟩⟩
      | false =>
        obtain ⟨M, hM⟩ := Glob.checked_match_iff_language_partial g1 g2 hs
        exact ⟨M, fun n hn => by obtain ⟨b, hb, hb'⟩ := hM n hn; exact ⟨b, hb, hb'.trans (hden s)⟩⟩

/-! ## Where it fails -/

def blanks : List Char := [' ', '\t', '\n']

/-- A newline in a name is lost: the backslash before it continues the line. -/
theorem newline_lost : lexWord 20 (inserted blanks ['a', '\n', 'b']) = .word [.chr 'a', .chr 'b'] [] := by decide +kernel

/-- With `IFS=:` a blank is not quoted and ends the word. -/
theorem blank_ends_word : lexWord 20 (inserted [':'] ['a', ' ', 'b']) = .word [.chr 'a'] [' ', 'b'] := by decide +kernel

/-- A tilde at the beginning is not quoted. -/
theorem tilde_unquoted : lexWord 20 (inserted blanks ['~', 'a']) = .word [.chr '~', .chr 'a'] [] := by decide +kernel

/-- In a command the backslashes stay in the pattern, unlike in an argument. -/
theorem command_keeps_backslash :
    oneWord false 20 (addGlob (inserted blanks ['a', ' ', 'b'])) = .word [.chr 'a', .chr '\\', .chr ' ', .chr 'b', .chr '*'] [] ∧
    oneWord true 20 (addGlob (inserted blanks ['a', ' ', 'b'])) = .word [.chr 'a', .qchr ' ', .chr 'b', .chr '*'] [] := by
  decide +kernel

/-- So a command with a blank in its name is not found again by the beginning completion inserted. -/
theorem command_not_found_again : gmatch 40 ("a b".toList.map Char.toNat) [97, 92, 32, 98, 7, 42] false = some false ∧
    gmatch 40 ("a b".toList.map Char.toNat) [97, 32, 98, 7, 42] false = some true := by decide +kernel

example : inserted blanks ['a', ' ', '*', '-'] = ['a', '\\', ' ', '\\', '*', '-'] ∧
    lexWord 20 (inserted blanks ['a', ' ', '*', '-'] ++ [' ']) = .word [.chr 'a', .qchr ' ', .qchr '*', .chr '-'] [' '] ∧
    Typable blanks ['a', ' ', '*', '-'] := by
  refine ⟨by decide +kernel, by decide +kernel, ?_⟩
  simp [Typable, blanks]

end Ksh.Compl
