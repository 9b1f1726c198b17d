import Verif.Glob.Scan
/-!
# Properties C14-C17

The matcher is a function of a fuel bound; "with enough fuel" (`∃ N, ∀ n ≥ N`) says that
the C function terminates with that answer.
-/

namespace Ksh.Glob

/-! ## C14 -/

/-- `do_gmatch` (the matcher used on file names, `isfile`): a string matches the text of
a well-formed pattern exactly when it belongs to the language of the pattern. -/
theorem match_iff_language {p : Pat} (h : p.Ok) {s : List B} (hs : CStr s) :
    ∃ N, ∀ n ≥ N, ∃ b, gmatch n s p.enc true = some b ∧ (b = true ↔ p.Den s) := by
  obtain ⟨N, hN⟩ := (corr_pat p h).1 s [] hs (by rintro c d Z ⟨⟩)
  rw [List.append_nil] at hN
  exact ⟨N, fun n hn => by simpa [gmatch] using hN n hn⟩

/-- `gmatch(s, p, false)` (`case`, `[[ ]]`, trimming), which first asks `has_globbing`.
Restriction: no unquoted `[` inside a bracket expression behind a `[:class:]`
(`Pat.ScanOk`); see `class_then_bracket`. -/
theorem checked_match_iff_language_partial {p : Pat} (h : p.Ok) (hsc : p.ScanOk) {s : List B} (hs : CStr s) :
    ∃ N, ∀ n ≥ N, ∃ b, gmatch n s p.enc false = some b ∧ (b = true ↔ p.Den s) := by
  have hg := scan_enc h hsc
  cases hp : p.plain with
  | true =>
    refine ⟨0, fun n _ => ⟨debunk p.enc == s, ?_, ?_⟩⟩
    · simp [gmatch, hg, hp]
    · rw [(plain_literal p h hp).debunk, plain_den p hp, beq_iff_eq]
      exact eq_comm
  | false =>
    obtain ⟨N, hN⟩ := (corr_pat p h).1 s [] hs (by rintro c d Z ⟨⟩)
    rw [List.append_nil] at hN
    exact ⟨N, fun n hn => by simpa [gmatch, hg, hp] using hN n hn⟩

/-- a bracket character without a mark -/
def ch (c : Char) : BChar := ⟨false, c.toNat⟩

/-- `[[:alpha:][]`: a letter or a `[`. -/
def classThenBracket : Pat := .brk ⟨false, [.cls (bytes "alpha"), .one ⟨true, 91⟩]⟩ .eps

/-- `case a in [[:alpha:][]) ...` does not match although the bracket lists every letter:
`has_globbing` believes the bracket is not closed. -/
theorem class_then_bracket :
    classThenBracket.Ok ∧ classThenBracket.Den (bytes "a") ∧
    ∀ n, gmatch n (bytes "a") classThenBracket.enc false = some false := by
  refine ⟨?_, ?_, fun n => ?_⟩
  · simp [classThenBracket, Pat.Ok, Brk.Ok, HeadOk, TailOk, Item.Ok, BChar.Ok, NameOk, Item.headOpen, hyphen, rbrack,
      itemsEnc, startsColon]
    decide +kernel
  · refine ⟨97, [], rfl, ⟨?_, ?_⟩, rfl⟩
    · intro i hi
      simp at hi
      rcases hi with rfl | rfl
      · exact ⟨"alpha", by simp [classNames], rfl⟩
      · trivial
    · simp
      exact Or.inl ⟨"alpha", by simp [classNames], rfl, by simp [ClassMem]⟩
  · have h1 : hasGlobbing classThenBracket.enc = false := by decide +kernel
    have h2 : (debunk classThenBracket.enc == bytes "a") = false := by decide +kernel
    simp [gmatch, h1, h2]

/-- A sample: `*(a|b?)!(c)` -/
def sample : Pat :=
  .ext .many (.or (.lit 97 .eps) (.one (.lit 98 (.any .eps)))) (.ext .not (.one (.lit 99 .eps)) .eps)

example : sample.Ok ∧ sample.ScanOk := by simp [sample, Pat.Ok, Alts.Ok, Pat.ScanOk, Alts.ScanOk]
example : sample.enc = [7, 170, 97, 7, 124, 98, 7, 63, 7, 41, 7, 161, 99, 7, 41] := by decide
example : sample.Den (bytes "abxa") :=
  ⟨bytes "abxa", [], rfl,
    Or.inr (.more (u := [97]) (Or.inl ⟨[], rfl, rfl⟩)
      (.more (u := [98, 120]) (v := [97]) (Or.inr ⟨_, rfl, _, _, rfl, rfl⟩) (.one (Or.inl ⟨[], rfl, rfl⟩)))),
    [], [], rfl, (by rintro ⟨t, h, _⟩; cases h), rfl⟩
example : gmatch 20 (bytes "abxa") sample.enc false = some true := by decide +kernel
/-- nothing but `c` itself fails: `+(a)` does not match the empty string, `*(a)` does -/
example : gmatch 20 [] (Pat.ext .plus (.one (.lit 97 .eps)) .eps).enc false = some false ∧
    gmatch 20 [] (Pat.ext .many (.one (.lit 97 .eps)) .eps).enc false = some true ∧
    gmatch 20 (bytes "aab") (Pat.ext .plus (.one (.lit 97 .eps)) (.lit 98 .eps)).enc false = some true ∧
    gmatch 20 (bytes "c") (Pat.ext .not (.one (.lit 99 .eps)) .eps).enc false = some false := by decide +kernel

/-! ## C15 -/

/-- A bracket expression matches a character exactly when the set it denotes contains
it, whatever text follows. -/
theorem bracket_selects_partial {b : Brk} (h : b.Ok) (c : B) (X : List B) :
    (b.Mem c → cclass ((b.enc ++ X).drop 2) c = some X) ∧
    (¬ b.Mem c → cclass ((b.enc ++ X).drop 2) c = none) := by
  classical
  rw [cclass_enc h, R_mem]
  exact ⟨fun hm => if_pos hm, fun hm => if_neg hm⟩

/-- `[!a-cx[:digit:]]` -/
def sampleBrk : Brk := ⟨true, [.range (ch 'a') (ch 'c'), .one (ch 'x'), .cls (bytes "digit")]⟩

example : sampleBrk.Ok := by
  simp [sampleBrk, Brk.Ok, HeadOk, TailOk, Item.Ok, BChar.Ok, NameOk, Item.headOpen, hyphen, rbrack,
    itemsEnc, startsColon, ch]
  decide +kernel
example : cclass (sampleBrk.enc.drop 2) 98 = none ∧ cclass (sampleBrk.enc.drop 2) 53 = none ∧
    cclass (sampleBrk.enc.drop 2) 100 = some [] := by decide +kernel

/-- `]` first in the list and `-` last stand for themselves. -/
example : Brk.Ok ⟨false, [rbrack, .one (ch 'a'), hyphen]⟩ := by
  simp [Brk.Ok, HeadOk, TailOk, Item.Ok, BChar.Ok, Item.headOpen, hyphen, rbrack, ch]
example : Brk.enc ⟨false, [rbrack, .one (ch 'a'), hyphen]⟩ = [7, 91, 7, 93, 97, 7, 45, 7, 93] := by decide

/-- An unterminated bracket: the characters behind `[` are unmarked, so the text ends
without `MAGIC ]`. -/
theorem unterminated_is_literal : ∀ {l : List B} {sub : B}, (∀ c ∈ l, c ≠ 0 ∧ c ≠ 7 ∧ c ≠ 58) →
    cclass l sub = if sub = 91 then some l else none := by
  intro l sub hl
  have key : ∀ (f : Nat) (q : List B) (found : Bool), (∀ c ∈ q, c ≠ 0 ∧ c ≠ 7 ∧ c ≠ 58) → q.length < f →
      cclassLoop l sub false f q found = if sub = 91 then some l else none := by
    intro f
    induction f with
    | zero => intro q _ _ h; omega
    | succ f ih =>
      intro q found hq hf
      have hc : atClass q = false := by
        cases q with
        | nil => simp [atClass]
        | cons c q =>
          have h1 := (hq c (by simp)).2.1
          cases q with
          | nil => simp [atClass]
          | cons d q => simp [atClass, h1, (hq d (by simp)).2.2]
      rw [cclassLoop]
      simp only [hc, Bool.false_eq_true, if_false]
      cases q with
      | nil => simp [cclassOne, cclassChar]
      | cons c q =>
        have h1 := hq c (by simp)
        have hq' : ∀ d ∈ q, d ≠ 0 ∧ d ≠ 7 ∧ d ≠ 58 := fun d hd => hq d (by simp [hd])
        have h0 : at' q 0 ≠ 7 := by
          cases q with
          | nil => simp
          | cons d q => exact (hq' d (by simp)).2.1
        have hr : atRange q = false := by simp [atRange, h0]
        have he : atEnd q = false := by simp [atEnd, h0]
        have hch : cclassChar (c :: q) = (c, q) := by simp [cclassChar, h1.2.1]
        simp only [cclassOne, hch, if_neg h1.1, hr, Bool.false_eq_true, false_and, if_false, he]
        exact ih q _ hq' (by simp at hf; omega)
  have h0 : at' l 0 ≠ 7 := by
    cases l with
    | nil => simp
    | cons d q => exact (hl d (by simp)).2.1
  rw [cclass]
  simp only [if_neg h0]
  exact key _ l false hl (by omega)

/-- `[abc` matches exactly the text `[abc`, also when it is matched as a pattern. -/
theorem unterminated_bracket_partial {l : List B} (hl : ∀ c ∈ l, c ≠ 0 ∧ c ≠ 7 ∧ c ≠ 58) {s : List B} (hs : CStr s)
    (isfile : Bool) :
    ∃ N, ∀ n ≥ N, ∃ b, gmatch n s (7 :: 91 :: l) isfile = some b ∧ (b = true ↔ s = 91 :: l) := by
  have hlit : ∀ l : List B, (∀ c ∈ l, c ≠ 0 ∧ c ≠ 7 ∧ c ≠ 58) → Literal l l := by
    intro l
    induction l with
    | nil => intro _; exact .nil
    | cons c l ih => intro h; exact .char (h c (by simp)).2.1 (h c (by simp)).1 (ih fun d hd => h d (by simp [hd]))
  have hL := hlit l hl
  cases isfile with
  | false =>
    have hH : ∀ (q : List B), (∀ c ∈ q, c ≠ 0 ∧ c ≠ 7 ∧ c ≠ 58) → H q 0 0 true true = false := by
      intro q
      induction q with
      | nil => intro _; rfl
      | cons c q ih => intro h; rw [H_plain (h c (by simp)).2.1]; exact ih fun d hd => h d (by simp [hd])
    have hos : openSkip l = l := by
      have h0 : at' l 0 ≠ 7 := by
        cases l with
        | nil => simp
        | cons d q => exact (hl d (by simp)).2.1
      simp [openSkip, h0]
    have hg : hasGlobbing (7 :: 91 :: l) = false := by
      rw [hasGlobbing_eq, H_lbrk_out, hos]; exact hH l hl
    have hd : debunk (7 :: 91 :: l) = 91 :: l := by
      simp [debunk, show isExt 91 = false by decide, hL.debunk]
    exact ⟨0, fun n _ => ⟨debunk (7 :: 91 :: l) == s, by simp only [gmatch, hg, and_self, if_true], by rw [hd, beq_iff_eq]; exact eq_comm⟩⟩
  | true =>
    have hlen : ((7 :: 91 :: l).length : Int) = l.length + 2 := by simp [Int.add_assoc]
    have hg : ∀ n, gmatch (n + 1) s (7 :: 91 :: l) true =
        if at' s 0 = 0 then some false
        else if at' s 0 = 91 then gm n (s.drop 1) l l.length else some false := by
      intro n
      have : gmatch (n + 1) s (7 :: 91 :: l) true = gm (n + 1) s (7 :: 91 :: l) (7 :: 91 :: l).length := by simp [gmatch]
      rw [this, hlen, gm_brk (by omega), unterminated_is_literal hl]
      congr 1
      by_cases h : at' s 0 = 91
      · simp [h]
      · simp [h]
    cases s with
    | nil =>
      exact Ev.succ (f := fun n => gmatch n [] (7 :: 91 :: l) true) (g := fun _ => some false) (Ev.false (by simp))
        fun n => by rw [hg]; simp
    | cons a s =>
      have ha : a ≠ 0 := hs a (by simp)
      by_cases h : a = 91
      · subst h
        exact Ev.succ (f := fun n => gmatch n (91 :: s) (7 :: 91 :: l) true) (g := fun n => gm n s l l.length)
          ((hL.gm s (cstr_drop hs (u := [91]) rfl).2).congr (by simp)) fun n => by rw [hg]; simp
      · exact Ev.succ (f := fun n => gmatch n (a :: s) (7 :: 91 :: l) true) (g := fun _ => some false)
          (Ev.false (by simp [h])) fun n => by rw [hg]; simp [ha, h]

example : gmatch 20 (bytes "[ab") [7, 91, 97, 98] false = some true ∧
    gmatch 20 (bytes "[ab") [7, 91, 97, 98] true = some true ∧
    gmatch 20 (bytes "aab") [7, 91, 97, 98] true = some false := by decide +kernel

/-- misc.c:756: the mark of the first character is lost, so a quoted `^G` first in a
bracket is taken for the mark of the next character: `["^G"x]` does not match `^G`. -/
theorem bell_first_in_bracket :
    cclass (Brk.enc ⟨false, [.one ⟨true, 7⟩, .one (ch 'x')]⟩ |>.drop 2) 7 = none ∧
    cclass (Brk.enc ⟨false, [.one ⟨true, 7⟩, .one (ch 'x')]⟩ |>.drop 2) 120 = some [] := by decide +kernel

/-- charclass.h:20: `[[:blank:]]` is not a known class and matches nothing, not even a
blank. -/
theorem blank_class_missing (c : B) :
    cclass (Brk.enc ⟨false, [.cls (bytes "blank")]⟩ |>.drop 2) c = none := by
  have hok : Brk.Ok ⟨false, [.cls (bytes "blank")]⟩ := by
    simp [Brk.Ok, HeadOk, TailOk, Item.Ok, NameOk, Item.headOpen]
    decide +kernel
  have := (bracket_selects_partial hok c []).2 (by
    rintro ⟨h, _⟩
    obtain ⟨s, hs, hb⟩ := h (.cls (bytes "blank")) (by simp)
    have : ∀ s ∈ classNames, bytes s ≠ bytes "blank" := by decide +kernel
    exact this s hs hb)
  simpa using this

/-! ## C16 -/

/-- A word in which no pattern operator is unquoted is not taken for a pattern, and
matching it, with or without that check, is string equality. -/
theorem literal_word {w t : List B} (h : Literal w t) :
    hasGlobbing w = false ∧
    (∀ n s, gmatch n s w false = some (t == s)) ∧
    (∀ s, CStr s → ∃ N, ∀ n ≥ N, ∃ b, gmatch n s w true = some b ∧ (b = true ↔ s = t)) := by
  have hg : hasGlobbing w = false := by rw [hasGlobbing_eq]; exact h.H 0
  refine ⟨hg, fun n s => by simp [gmatch, hg, h.debunk], fun s hs => ?_⟩
  obtain ⟨N, hN⟩ := h.gm s hs
  exact ⟨N, fun n hn => by simpa [gmatch] using hN n hn⟩

/-- Every text has such a word: the fully quoted one. -/
def quoteAll : List B → List B
  | [] => []
  | c :: t => if c = 7 then 7 :: 7 :: quoteAll t else c :: quoteAll t

theorem quoted_text_is_literal : ∀ {t : List B}, CStr t → Literal (quoteAll t) t
  | [], _ => .nil
  | c :: t, h => by
    have ih := quoted_text_is_literal (t := t) fun d hd => h d (by simp [hd])
    by_cases h7 : c = 7
    · subst h7
      simp only [quoteAll, if_true]
      exact .mark (by omega) (by omega) (by omega) (by omega) (by decide) ih
    · simp only [quoteAll, if_neg h7]
      exact .char h7 (h c (by simp)) ih

example : quoteAll (bytes "*[a") = bytes "*[a" ∧ quoteAll [97, 7] = [97, 7, 7] := by decide +kernel

/-- For the text of a well-formed pattern the decision is right: not a pattern means
that its language is the one string.  (`Pat.ScanOk` as in C14.) -/
theorem non_pattern_is_one_string_partial {p : Pat} (h : p.Ok) (hsc : p.ScanOk) :
    (hasGlobbing p.enc = false → ∀ s, p.Den s ↔ s = debunk p.enc) ∧
    (hasGlobbing p.enc = true ↔ p.plain = false) := by
  have hg := scan_enc h hsc
  refine ⟨fun h0 s => ?_, by rw [hg]; simp⟩
  have hp : p.plain = true := by simpa [hg] using h0
  rw [(plain_literal p h hp).debunk]
  exact plain_den p hp s

/-- Where the check fails because of a syntax error, the two scanners disagree:
`*(a` is "not a pattern", equal to itself as a string, but the matcher rejects it. -/
theorem malformed_group_disagrees :
    hasGlobbing [7, 170, 97] = false ∧ gmatch 9 (bytes "*(a") [7, 170, 97] false = some true ∧
    gmatch 9 (bytes "*(a") [7, 170, 97] true = some false := by decide +kernel

/-! ## C17 -/

/-- `v` is what `#`/`##` must leave of `str`: the prefix `u` removed is accepted and no
accepted prefix is shorter/longer; or none is accepted and all of `str` stays. -/
def PrefixTrim (M : Lang) (better : Nat → Nat → Prop) (str v : List B) : Prop :=
  (∃ u, str = u ++ v ∧ M u ∧ ∀ u' v', str = u' ++ v' → M u' → better u.length u'.length) ∨
  ((∀ u' v', str = u' ++ v' → ¬ M u') ∧ v = str)

def SuffixTrim (M : Lang) (better : Nat → Nat → Prop) (str v : List B) : Prop :=
  (∃ u, str = v ++ u ∧ M u ∧ ∀ u' v', str = v' ++ u' → M u' → better u.length u'.length) ∨
  ((∀ u' v', str = v' ++ u' → ¬ M u') ∧ v = str)

def TrimSpec (M : Lang) (str : List B) : Trim → List B → Prop
  | .prefixShort => PrefixTrim M (· ≤ ·) str
  | .prefixLong => PrefixTrim M (· ≥ ·) str
  | .suffixShort => SuffixTrim M (· ≤ ·) str
  | .suffixLong => SuffixTrim M (· ≥ ·) str

theorem find_first {P : Nat → Bool} {m i : Nat} (h : (List.range m).find? P = some i) :
    i < m ∧ P i = true ∧ ∀ j < i, P j = false := by
  have h1 := List.find?_some h
  have h2 := List.mem_range.1 (List.mem_of_find?_eq_some h)
  refine ⟨h2, h1, fun j hj => ?_⟩
  rw [List.find?_eq_some_iff_getElem] at h
  obtain ⟨_, k, hk, hki, hall⟩ := h
  simp at hki
  subst hki
  have := hall j hj
  simpa using this

theorem find_last {P : Nat → Bool} {m i : Nat} (h : (List.range m).reverse.find? P = some i) :
    i < m ∧ P i = true ∧ ∀ j, i < j → j < m → P j = false := by
  have h1 := List.find?_some h
  have h2 : i < m := by simpa using List.mem_of_find?_eq_some h
  refine ⟨h2, h1, fun j hj hjm => ?_⟩
  rw [List.find?_eq_some_iff_getElem] at h
  obtain ⟨_, k, hk, hki, hall⟩ := h
  simp at hki hk
  have := hall (m - 1 - j) (by omega)
  simp at this
  rw [show m - 1 - (m - 1 - j) = j by omega] at this
  simpa using this

theorem find_none {P : Nat → Bool} {m : Nat} (h : (List.range m).find? P = none) : ∀ j < m, P j = false := by
  intro j hj
  rw [List.find?_eq_none] at h
  simpa using h j (by simp [hj])

theorem find_none' {P : Nat → Bool} {m : Nat} (h : (List.range m).reverse.find? P = none) : ∀ j < m, P j = false := by
  intro j hj
  rw [List.find?_eq_none] at h
  simpa using h j (by simp [hj])

/-- `trimsub` is extremal whatever the matcher accepts on the pieces of the value. -/
theorem trim_extremal {mt : List B → Bool} {M : Lang} {str : List B}
    (hM : ∀ u v w, str = u ++ v ++ w → (mt v = true ↔ M v)) (how : Trim) :
    TrimSpec M str how (trimsub mt str how) := by
  have hT : ∀ i, (mt (str.take i) = true ↔ M (str.take i)) := fun i =>
    hM [] _ (str.drop i) (by simp)
  have hD : ∀ i, (mt (str.drop i) = true ↔ M (str.drop i)) := fun i =>
    hM (str.take i) _ [] (by simp)
  have tk : ∀ u v : List B, str = u ++ v → str.take u.length = u ∧ u.length < str.length + 1 := by
    rintro u v rfl; simp; omega
  have dk : ∀ u v : List B, str = v ++ u → str.drop v.length = u ∧ v.length < str.length + 1 ∧
      u.length + v.length = str.length := by
    rintro u v rfl; simp; omega
  have fT : ∀ {i}, mt (str.take i) = false → ¬ M (str.take i) := fun h hm => by rw [(hT _).2 hm] at h; cases h
  have fD : ∀ {i}, mt (str.drop i) = false → ¬ M (str.drop i) := fun h hm => by rw [(hD _).2 hm] at h; cases h
  cases how with
  | prefixShort =>
    simp only [trimsub, TrimSpec]
    cases hf : (List.range (str.length + 1)).find? (fun i => mt (str.take i)) with
    | some i =>
      obtain ⟨h1, h2, h3⟩ := find_first hf
      refine Or.inl ⟨str.take i, by simp, (hT i).1 h2, fun u v hs hm => ?_⟩
      obtain ⟨a, b⟩ := tk u v hs
      have : ¬ u.length < i := fun hl => fT (h3 _ hl) (by rw [a]; exact hm)
      simp only [List.length_take]; omega
    | none =>
      refine Or.inr ⟨fun u v hs hm => ?_, rfl⟩
      obtain ⟨a, b⟩ := tk u v hs
      exact fT (find_none hf _ b) (by rw [a]; exact hm)
  | prefixLong =>
    simp only [trimsub, TrimSpec]
    cases hf : (List.range (str.length + 1)).reverse.find? (fun i => mt (str.take i)) with
    | some i =>
      obtain ⟨h1, h2, h3⟩ := find_last hf
      refine Or.inl ⟨str.take i, by simp, (hT i).1 h2, fun u v hs hm => ?_⟩
      obtain ⟨a, b⟩ := tk u v hs
      have : ¬ i < u.length := fun hl => fT (h3 _ hl b) (by rw [a]; exact hm)
      simp only [List.length_take]; omega
    | none =>
      refine Or.inr ⟨fun u v hs hm => ?_, rfl⟩
      obtain ⟨a, b⟩ := tk u v hs
      exact fT (find_none' hf _ b) (by rw [a]; exact hm)
  | suffixShort =>
    simp only [trimsub, TrimSpec]
    cases hf : (List.range (str.length + 1)).reverse.find? (fun i => mt (str.drop i)) with
    | some i =>
      obtain ⟨h1, h2, h3⟩ := find_last hf
      refine Or.inl ⟨str.drop i, by simp, (hD i).1 h2, fun u v hs hm => ?_⟩
      obtain ⟨a, b, c⟩ := dk u v hs
      have : ¬ i < v.length := fun hl => fD (h3 _ hl b) (by rw [a]; exact hm)
      simp only [List.length_drop]; omega
    | none =>
      refine Or.inr ⟨fun u v hs hm => ?_, rfl⟩
      obtain ⟨a, b, c⟩ := dk u v hs
      exact fD (find_none' hf _ b) (by rw [a]; exact hm)
  | suffixLong =>
    simp only [trimsub, TrimSpec]
    cases hf : (List.range (str.length + 1)).find? (fun i => mt (str.drop i)) with
    | some i =>
      obtain ⟨h1, h2, h3⟩ := find_first hf
      refine Or.inl ⟨str.drop i, by simp, (hD i).1 h2, fun u v hs hm => ?_⟩
      obtain ⟨a, b, c⟩ := dk u v hs
      have : ¬ v.length < i := fun hl => fD (h3 _ hl) (by rw [a]; exact hm)
      simp only [List.length_drop]; omega
    | none =>
      refine Or.inr ⟨fun u v hs hm => ?_, rfl⟩
      obtain ⟨a, b, c⟩ := dk u v hs
      exact fD (find_none hf _ b) (by rw [a]; exact hm)

/-- finitely many questions have a common fuel bound -/
theorem Ev.all {α : Type} {f : Nat → α → Option Bool} {P : α → Prop} : ∀ {l : List α},
    (∀ a ∈ l, Ev (fun n => f n a) (P a)) → ∃ N, ∀ n ≥ N, ∀ a ∈ l, ∃ b, f n a = some b ∧ (b = Bool.true ↔ P a)
  | [], _ => ⟨0, fun _ _ a ha => by simp at ha⟩
  | a :: l, h => by
    obtain ⟨N, h1⟩ := h a (by simp)
    obtain ⟨M, h2⟩ := Ev.all (l := l) fun b hb => h b (by simp [hb])
    refine ⟨max N M, fun n hn x hx => ?_⟩
    rcases List.mem_cons.1 hx with rfl | hx
    · exact h1 n (by omega)
    · exact h2 n (by omega) x hx

/-- `${v#p}`, `${v##p}`, `${v%p}`, `${v%%p}`: with the shell's own matcher, the result is
the extremal one with respect to the language of `p`. -/
theorem trim_removes_extremal_partial {p : Pat} (h : p.Ok) (hsc : p.ScanOk) {str : List B} (hs : CStr str)
    (how : Trim) :
    ∃ N, ∀ n ≥ N, TrimSpec p.Den str how (trimsub (fun s => gmatch n s p.enc false == some true) str how) := by
  let pieces := (splits str).flatMap fun x => (splits x.2).map (·.1)
  have hmem : ∀ u v w, str = u ++ v ++ w → v ∈ pieces := by
    intro u v w he
    refine List.mem_flatMap.2 ⟨(u, v ++ w), mem_splits.2 (by simp [he]), ?_⟩
    exact List.mem_map.2 ⟨(v, w), mem_splits.2 rfl, rfl⟩
  have hc : ∀ v ∈ pieces, CStr v := by
    intro v hv
    obtain ⟨⟨u, t⟩, h1, h2⟩ := List.mem_flatMap.1 hv
    obtain ⟨⟨a, b⟩, h3, rfl⟩ := List.mem_map.1 h2
    exact (cstr_drop (cstr_drop hs (mem_splits.1 h1)).2 (mem_splits.1 h3)).1
  obtain ⟨N, hN⟩ := Ev.all (f := fun n v => gmatch n v p.enc false) (P := p.Den) (l := pieces)
    fun v hv => checked_match_iff_language_partial h hsc (hc v hv)
  refine ⟨N, fun n hn => trim_extremal (fun u v w he => ?_) how⟩
  obtain ⟨b, hb, hbp⟩ := hN n hn v (hmem u v w he)
  rw [hb, ← hbp]
  simp

example : let p : Pat := .star (.lit 47 .eps)
    let t := fun how => trimsub (fun s => gmatch 30 s p.enc false == some true) (bytes "a/b/c") how
    t .prefixShort = bytes "b/c" ∧ t .prefixLong = bytes "c" := by decide +kernel
example : let p : Pat := .lit 47 (.star .eps)
    let t := fun how => trimsub (fun s => gmatch 30 s p.enc false == some true) (bytes "a/b/c") how
    t .suffixShort = bytes "a/b" ∧ t .suffixLong = bytes "a" := by decide +kernel

end Ksh.Glob
