import Verif.Here.Model
import Verif.Lex.Lemmas
/-!
# C78: here documents
-/

namespace Ksh.Here

open Ksh.Lex

/-! ## Specification -/

/-- The text with lines that end in a backslash joined to the next one. -/
def join : List Char → List Char
  | [] => []
  | [c] => [c]
  | c :: d :: l => if c = '\\' then (if d = '\n' then join l else c :: d :: join l) else c :: join (d :: l)

/-- `<<-`: without tabs at the beginning. -/
def strip (skip : Bool) (l : List Char) : List Char := if skip = true then l.dropWhile (· == '\t') else l

/-- The text of lines. -/
def unlines (ls : List (List Char)) : List Char := ls.flatMap fun l => l ++ ['\n']

/-- `doc` are the lines of `u` before the first that is the delimiter; `rest` comes after that line. -/
def Doc (skip : Bool) (eof u doc rest : List Char) : Prop :=
  ∃ ls last, (∀ l ∈ ls, '\n' ∉ l ∧ strip skip l ≠ eof) ∧ '\n' ∉ last ∧ strip skip last = eof ∧
    (u = unlines ls ++ last ++ '\n' :: rest ∨ (u = unlines ls ++ last ∧ rest = [])) ∧ doc = unlines (ls.map (strip skip))

/-- What an expanded document stands for: a backslash quotes `\`, `$` and a backquote; `$name` and the like are
parameters; all else stands for itself.  `none`: `${`, `$(`, backquotes, which are not described here. -/
def means (env : List Char → List Char) : List Char → Option (List Char)
  | [] => some []
  | c :: l =>
    if c = '`' then none
    else if c = '\\' then
      match l with
      | [] => some []
      | d :: r => (means env r).map (fun t => if d = '\\' ∨ d = '$' ∨ d = '`' then d :: t else c :: d :: t)
    else if c = '$' then
      match l with
      | [] => some [c]
      | d :: r =>
        if d = '(' ∨ d = '{' then none
        else if alpha d then (means env (r.dropWhile letnum)).map (fun t => env (d :: r.takeWhile letnum) ++ t)
        else if var1 d || digit d then (means env r).map (fun t => env [d] ++ t)
        else (means env (d :: r)).map (fun t => c :: t)
    else (means env l).map (fun t => c :: t)
termination_by l => l.length
decreasing_by
  all_goals simp_wf
  all_goals first
    | omega
    | exact Nat.lt_succ_of_le (Nat.le_succ_of_le (List.dropWhile_sublist letnum).length_le)

/-! ## The input as the parser sees it -/

/-- The characters that `getsc` will yield. -/
def view (ign : Bool) (sk : Nat) (i : List Char) : List Char :=
  if ign then i
  else if sk = 1 then (match i with | [] => [] | c :: r => c :: join r)
  else join i

theorem join_cons {c : Char} {l : List Char} (h : c ≠ '\\') : join (c :: l) = c :: join l := by
  cases l with
  | nil => rfl
  | cons d l => rw [join, if_neg h]

theorem bn_view : ∀ (i : List Char), match bn i with
    | (none, i', _) => join i = [] ∧ i' = []
    | (some c, i', sk') => join i = c :: view false sk' i' ∧ view false (sk' - 1) (c :: i') = join i ∧ i'.length < i.length
  | [] => by simp [bn, join]
  | [c] => by
    rw [bn]
    by_cases h : c = '\\'
    · simp [h, join, view]
    · simp [h, join, view]
  | c :: d :: l => by
    rw [bn]
    by_cases h : c = '\\'
    · simp only [h, if_true]
      by_cases hd : d = '\n'
      · simp only [hd, if_true]
        have ih := bn_view l
        rw [show join ('\\' :: '\n' :: l) = join l by simp [join]]
        revert ih
        rcases bn l with ⟨c', i', sk'⟩
        cases c' with
        | none => exact id
        | some c' =>
          rintro ⟨h1, h2, h3⟩
          exact ⟨h1, h2, by simp only [List.length_cons]; omega⟩
      · simp [hd, join, view]
    · simp [h, join, view]

/-- `getsc` takes the next of these characters, and `ungetsc` puts it back. -/
theorem getsc_view (ign : Bool) (sk : Nat) (i : List Char) : match getsc ign sk i with
    | (none, i', _) => view ign sk i = [] ∧ i' = []
    | (some c, i', sk') => view ign sk i = c :: view ign sk' i' ∧ view ign (sk' - 1) (c :: i') = view ign sk i ∧ i'.length < i.length := by
  unfold getsc
  cases ign with
  | true =>
    cases i with
    | nil => simp [view]
    | cons c r => simp [view]
  | false =>
    by_cases h : sk = 1
    · subst h
      cases i with
      | nil => simp [view]
      | cons c r => simp [view]
    · simp only [Bool.false_eq_true, if_false, h]
      have := bn_view i
      rw [show view false sk i = join i by simp [view, h]]
      exact this

theorem view_nil (ign : Bool) (sk : Nat) : view ign sk [] = [] := by
  unfold view
  split
  · rfl
  · split <;> rfl

theorem get_nil {ign : Bool} {sk : Nat} {i : List Char} (h : view ign sk i = []) : ∃ sk', getsc ign sk i = (none, [], sk') := by
  have := getsc_view ign sk i
  revert this
  rcases getsc ign sk i with ⟨c, i', sk'⟩
  cases c with
  | none => rintro ⟨-, rfl⟩; exact ⟨sk', rfl⟩
  | some c => rintro ⟨h1, -⟩; rw [h] at h1; cases h1

theorem get_cons {ign : Bool} {sk : Nat} {i : List Char} {c : Char} {u : List Char} (h : view ign sk i = c :: u) :
    ∃ i' sk', getsc ign sk i = (some c, i', sk') ∧ view ign sk' i' = u ∧ view ign (sk' - 1) (c :: i') = c :: u ∧ i'.length < i.length := by
  have := getsc_view ign sk i
  revert this
  rcases getsc ign sk i with ⟨c', i', sk'⟩
  cases c' with
  | none => rintro ⟨h1, -⟩; rw [h] at h1; cases h1
  | some c' =>
    rintro ⟨h1, h2, h3⟩
    rw [h] at h1
    cases h1
    exact ⟨i', sk', rfl, rfl, by rw [h2, h], h3⟩

theorem view_length (ign : Bool) (sk : Nat) (i : List Char) : (view ign sk i).length ≤ i.length := by
  have hj : ∀ (n : Nat) (l : List Char), l.length ≤ n → (join l).length ≤ l.length := by
    intro n
    induction n with
    | zero => intro l h; have : l = [] := List.length_eq_zero_iff.1 (by omega); subst this; simp [join]
    | succ n ih =>
      intro l h
      match l with
      | [] => simp [join]
      | [c] => simp [join]
      | c :: d :: l =>
        simp only [List.length_cons] at h
        rw [join]
        have h1 := ih l (by omega)
        have h2 := ih (d :: l) (by simp only [List.length_cons]; omega)
        split
        · split <;> simp only [List.length_cons] at * <;> omega
        · simp only [List.length_cons] at *; omega
  unfold view
  split
  · exact Nat.le_refl _
  · split
    · cases i with
      | nil => simp
      | cons c r => have := hj r.length r (Nat.le_refl _); simp only [List.length_cons]; omega
    · exact hj i.length i (Nat.le_refl _)

/-! ## One line -/

/-- The rest of a line. -/
theorem rest_line {ign : Bool} : ∀ (n : Nat) (i : List Char) (sk : Nat) (out l u : List Char), view ign sk i = l ++ '\n' :: u → '\n' ∉ l → l.length < n →
    ∃ i' sk', restLine ign n i sk out = some (i', sk', out ++ l ++ ['\n']) ∧ view ign sk' i' = u := by
  intro n
  induction n with
  | zero => intro i sk out l u _ _ h; omega
  | succ n ih =>
    intro i sk out l u hv hl hn
    cases l with
    | nil =>
      obtain ⟨i', sk', h1, h2, -⟩ := get_cons hv
      refine ⟨i', sk', ?_, h2⟩
      simp only [restLine, h1, if_true]
      simp
    | cons c l =>
      obtain ⟨i', sk', h1, h2, -⟩ := get_cons hv
      simp only [List.mem_cons, not_or] at hl
      obtain ⟨i2, sk2, h3, h4⟩ := ih i' sk' (out ++ [c]) l u h2 hl.2 (by simp only [List.length_cons] at hn; omega)
      refine ⟨i2, sk2, ?_, h4⟩
      simp only [restLine, h1, Ne.symm hl.1, if_false, h3]
      simp

theorem rest_end {ign : Bool} : ∀ (n : Nat) (i : List Char) (sk : Nat) (out : List Char), '\n' ∉ view ign sk i → restLine ign n i sk out = none := by
  intro n
  induction n with
  | zero => intro i sk out _; rfl
  | succ n ih =>
    intro i sk out hv
    cases hu : view ign sk i with
    | nil =>
      obtain ⟨sk', h1⟩ := get_nil hu
      simp only [restLine, h1]
    | cons c u =>
      obtain ⟨i', sk', h1, h2, -⟩ := get_cons hu
      rw [hu] at hv
      simp only [List.mem_cons, not_or] at hv
      simp only [restLine, h1, Ne.symm hv.1, if_false]
      exact ih _ _ _ (by rw [h2]; exact hv.2)

/-- What the comparison does with a line `l` (`e` is `none` at the end of the input): it stops where the line and the
delimiter differ. -/
theorem match_line {ign : Bool} : ∀ (n : Nat) (tabs : Bool) (eofp : List Char) (i : List Char) (sk : Nat) (out l u : List Char), '\n' ∉ eofp → '\n' ∉ l →
    (view ign sk i = l ++ '\n' :: u ∨ (view ign sk i = l ∧ u = [])) → l.length < n →
    ∃ c eofp' i' sk' out', matchLine ign n tabs eofp i sk out = some (c, eofp', i', sk', out') ∧
      (strip tabs l = eofp → eofp' = [] ∧ (c = none ∨ c = some '\n') ∧ view ign sk' i' = u) ∧
      (strip tabs l ≠ eofp → ¬ (eofp' = [] ∧ (c = none ∨ c = some '\n')) ∧ ∃ l1 l2, strip tabs l = l1 ++ l2 ∧ out' = out ++ l1 ∧
        (view ign sk i = l ++ '\n' :: u → view ign (ungetsc c i' sk').2 (ungetsc c i' sk').1 = l2 ++ '\n' :: u) ∧
        (view ign sk i = l → view ign (ungetsc c i' sk').2 (ungetsc c i' sk').1 = l2)) := by
  intro n
  induction n with
  | zero => intro tabs eofp i sk out l u _ _ _ h; omega
  | succ n ih =>
    intro tabs eofp i sk out l u he hl hv hn
    cases l with
    | nil =>
      have hst : strip tabs [] = [] := by unfold strip; split <;> rfl
      rw [hst]
      rcases hv with hv | ⟨hv, rfl⟩
      · obtain ⟨i', sk', h1, h2, h3, -⟩ := get_cons hv
        have hne : ¬ (eofp.head? = some '\n') := by
          intro h
          exact he (List.mem_of_mem_head? (by simpa using h))
        refine ⟨some '\n', eofp, i', sk', out, ?_, ?_, ?_⟩
        · simp only [matchLine, h1, hne, if_false]
          simp
        · rintro rfl; exact ⟨rfl, Or.inr rfl, h2⟩
        · intro h
          refine ⟨fun ⟨h', _⟩ => h h'.symm, [], [], rfl, by simp, fun _ => ?_, fun h' => ?_⟩
          · exact h3
          · rw [hv] at h'; cases h'
      · obtain ⟨sk', h1⟩ := get_nil hv
        refine ⟨none, eofp, [], sk', out, by simp only [matchLine, h1], ?_, ?_⟩
        · rintro rfl; exact ⟨rfl, Or.inl rfl, view_nil _ _⟩
        · intro h
          refine ⟨fun ⟨h', _⟩ => h h'.symm, [], [], rfl, by simp, fun h' => ?_, fun _ => view_nil _ _⟩
          rw [hv] at h'; cases h'
    | cons c l =>
      simp only [List.mem_cons, not_or] at hl
      have hv' : view ign sk i = c :: (view ign sk i).tail := by rcases hv with hv | ⟨hv, -⟩ <;> rw [hv] <;> rfl
      obtain ⟨i', sk', h1, h2, h3, -⟩ := get_cons hv'
      have hvt : view ign sk' i' = l ++ '\n' :: u ∨ (view ign sk' i' = l ∧ u = []) := by
        rw [h2]
        rcases hv with hv | ⟨hv, hu⟩
        · left; rw [hv]; rfl
        · right; rw [hv]; exact ⟨rfl, hu⟩
      have ht1 : view ign sk i = (c :: l) ++ '\n' :: u → view ign sk' i' = l ++ '\n' :: u := by intro h; rw [h2, h]; rfl
      have ht2 : view ign sk i = c :: l → view ign sk' i' = l := by intro h; rw [h2, h]; rfl
      have hn' : l.length < n := by simp only [List.length_cons] at hn; omega
      by_cases htab : tabs = true ∧ c = '\t'
      · obtain ⟨rfl, rfl⟩ := htab
        obtain ⟨c', eofp', i2, sk2, out2, h4, h5, h6⟩ := ih true eofp i' sk' out l u he hl.2 hvt hn'
        have hs : strip true ('\t' :: l) = strip true l := by simp [strip]
        rw [hs]
        refine ⟨c', eofp', i2, sk2, out2, ?_, h5, ?_⟩
        · simp only [matchLine, h1]; simp [h4]
        · intro h
          obtain ⟨h7, l1, l2, h8, h9, h10, h11⟩ := h6 h
          exact ⟨h7, l1, l2, h8, h9, fun hx => h10 (ht1 hx), fun hx => h11 (ht2 hx)⟩
      · have hs : strip tabs (c :: l) = c :: l := by
          unfold strip
          by_cases ht : tabs = true
          · have hc : c ≠ '\t' := fun h => htab ⟨ht, h⟩
            rw [if_pos ht, List.dropWhile_cons, if_neg (by simpa using hc)]
          · rw [if_neg ht]
        rw [hs]
        by_cases hh : eofp.head? = some c
        · cases eofp with
          | nil => simp at hh
          | cons d eofp =>
            simp only [List.head?_cons, Option.some.injEq] at hh
            subst hh
            simp only [List.mem_cons, not_or] at he
            obtain ⟨c', eofp', i2, sk2, out2, h4, h5, h6⟩ := ih false eofp i' sk' (out ++ [d]) l u he.2 hl.2 hvt hn'
            have hsf : strip false l = l := by simp [strip]
            rw [hsf] at h5 h6
            refine ⟨c', eofp', i2, sk2, out2, ?_, fun h => h5 (List.cons.inj h).2, fun h => ?_⟩
            · simp only [matchLine, h1, htab, if_false, List.head?_cons, if_true, List.tail_cons, h4]
            · obtain ⟨h7, l1, l2, h8, h9, h10, h11⟩ := h6 (fun e => h (by rw [e]))
              exact ⟨h7, d :: l1, l2, by rw [h8]; rfl, by rw [h9]; simp, fun hx => h10 (ht1 hx), fun hx => h11 (ht2 hx)⟩
        · refine ⟨some c, eofp, i', sk', out, ?_, fun h => ?_, fun h => ?_⟩
          · simp only [matchLine, h1, htab, hh, if_false]
          · rw [← h] at hh; simp at hh
          · refine ⟨fun ⟨_, h'⟩ => ?_, [], c :: l, rfl, by simp, fun hx => ?_, fun hx => ?_⟩
            · rcases h' with h' | h'
              · cases h'
              · exact hl.1 (Option.some.inj h').symm
            · show view ign (sk' - 1) (c :: i') = _
              rw [h3, ← hv', hx]
            · show view ign (sk' - 1) (c :: i') = _
              rw [h3, ← hv', hx]

/-! ## The document -/

/-- Every text is a first line and what follows. -/
theorem first_line (u : List Char) : ∃ l, '\n' ∉ l ∧ ((∃ v, u = l ++ '\n' :: v) ∨ u = l) := by
  induction u with
  | nil => exact ⟨[], by simp, Or.inr rfl⟩
  | cons c u ih =>
    by_cases h : c = '\n'
    · exact ⟨[], by simp, Or.inl ⟨u, by rw [h]; rfl⟩⟩
    · obtain ⟨l, h1, h2⟩ := ih
      refine ⟨c :: l, by simp [Ne.symm h, h1], ?_⟩
      rcases h2 with ⟨v, h2⟩ | h2
      · exact Or.inl ⟨v, by rw [h2]; rfl⟩
      · exact Or.inr (by rw [h2])

theorem line_unique {l m u v : List Char} (hl : '\n' ∉ l) (hm : '\n' ∉ m) (h : l ++ '\n' :: u = m ++ '\n' :: v) : l = m ∧ u = v := by
  induction l generalizing m with
  | nil =>
    cases m with
    | nil => simpa using h
    | cons d m => simp only [List.nil_append, List.cons_append, List.cons.injEq] at h; exact absurd (by rw [h.1]; simp) hm
  | cons c l ih =>
    simp only [List.mem_cons, not_or] at hl
    cases m with
    | nil => simp only [List.nil_append, List.cons_append, List.cons.injEq] at h; exact absurd h.1.symm hl.1
    | cons d m =>
      simp only [List.mem_cons, not_or] at hm
      simp only [List.cons_append, List.cons.injEq] at h
      obtain ⟨h1, h2⟩ := ih hl.2 hm.2 h.2
      exact ⟨by rw [h.1, h1], h2⟩

theorem doc_eof {skip : Bool} {eof u doc rest l v : List Char} (hl : '\n' ∉ l) (hs : strip skip l = eof) (hu : u = l ++ '\n' :: v) (h : Doc skip eof u doc rest) : doc = [] ∧ rest = v := by
  obtain ⟨ls, last, h1, h2, h3, h4, h5⟩ := h
  cases ls with
  | nil =>
    refine ⟨by simpa [unlines] using h5, ?_⟩
    rcases h4 with h4 | ⟨h4, h6⟩
    · rw [hu] at h4
      exact (line_unique hl h2 (by simpa [unlines] using h4)).2.symm
    · rw [hu] at h4
      simp only [unlines, List.flatMap_nil, List.nil_append] at h4
      exact absurd (by rw [← h4]; simp) h2
  | cons m ls =>
    have hm := h1 m (by simp)
    have : l = m := by
      rcases h4 with h4 | ⟨h4, -⟩
      · rw [hu] at h4
        refine (line_unique hl hm.1 (u := v) (v := unlines ls ++ last ++ '\n' :: rest) ?_).1
        simpa [unlines] using h4
      · rw [hu] at h4
        refine (line_unique hl hm.1 (u := v) (v := unlines ls ++ last) ?_).1
        simpa [unlines] using h4
    exact absurd (this ▸ hs) hm.2

theorem doc_line {skip : Bool} {eof u doc rest l v : List Char} (hl : '\n' ∉ l) (hs : strip skip l ≠ eof) (hu : u = l ++ '\n' :: v) :
    Doc skip eof u doc rest ↔ ∃ doc', Doc skip eof v doc' rest ∧ doc = strip skip l ++ '\n' :: doc' := by
  constructor
  · rintro ⟨ls, last, h1, h2, h3, h4, h5⟩
    cases ls with
    | nil =>
      rcases h4 with h4 | ⟨h4, -⟩
      · rw [hu] at h4
        have := (line_unique hl h2 (by simpa [unlines] using h4)).1
        exact absurd (this ▸ h3) hs
      · rw [hu] at h4
        simp only [unlines, List.flatMap_nil, List.nil_append] at h4
        exact absurd (by rw [← h4]; simp) h2
    | cons m ls =>
      have hm := h1 m (by simp)
      have key : ∀ w, u = unlines (m :: ls) ++ w → l = m ∧ v = unlines ls ++ w := by
        intro w hw
        rw [hu] at hw
        exact line_unique hl hm.1 (by simpa [unlines] using hw)
      have hlm : l = m := by
        rcases h4 with h4 | ⟨h4, -⟩
        · exact (key (last ++ '\n' :: rest) (by rw [h4]; simp)).1
        · exact (key last h4).1
      refine ⟨unlines (ls.map (strip skip)), ⟨ls, last, fun x hx => h1 x (by simp [hx]), h2, h3, ?_, rfl⟩, ?_⟩
      · rcases h4 with h4 | ⟨h4, h6⟩
        · left; rw [(key (last ++ '\n' :: rest) (by rw [h4]; simp)).2]; simp
        · exact Or.inr ⟨(key last h4).2, h6⟩
      · rw [h5, hlm]; simp [unlines]
  · rintro ⟨doc', ⟨ls, last, h1, h2, h3, h4, h5⟩, h6⟩
    refine ⟨l :: ls, last, ?_, h2, h3, ?_, ?_⟩
    · intro x hx
      rcases List.mem_cons.1 hx with rfl | hx
      · exact ⟨hl, hs⟩
      · exact h1 x hx
    · rcases h4 with h4 | ⟨h4, h7⟩
      · left; rw [hu, h4]; simp [unlines]
      · right; exact ⟨by rw [hu, h4]; simp [unlines], h7⟩
    · rw [h6, h5]; simp [unlines]

/-- **C78** `readhere` yields the lines before the first that is the delimiter and goes on after it; it fails if
there is none. -/
theorem readhere_spec {ign skip : Bool} {eof : List Char} (he : '\n' ∉ eof) : ∀ (n : Nat) (i : List Char) (sk : Nat) (out : List Char), (view ign sk i).length < n →
    (∃ doc i' sk', readhere ign skip eof n i sk out = some (out ++ doc, i', sk') ∧ Doc skip eof (view ign sk i) doc (view ign sk' i')) ∨
    (readhere ign skip eof n i sk out = none ∧ ∀ doc rest, ¬ Doc skip eof (view ign sk i) doc rest) := by
  intro n
  induction n with
  | zero => intro i sk out h; omega
  | succ n ih =>
    intro i sk out hn
    obtain ⟨l, hl, hu⟩ := first_line (view ign sk i)
    have hlen : l.length < i.length + 1 := by
      have := view_length ign sk i
      rcases hu with ⟨v, hu⟩ | hu
      · rw [hu] at this; simp only [List.length_append, List.length_cons] at this; omega
      · rw [hu] at this; omega
    rcases hu with ⟨v, hu⟩ | hu
    · obtain ⟨c, eofp', i', sk', out', h1, h2, h3⟩ := match_line (i.length + 1) skip eof i sk out l v he hl (Or.inl hu) hlen
      by_cases hs : strip skip l = eof
      · obtain ⟨h4, h5, h6⟩ := h2 hs
        left
        refine ⟨[], i', sk', ?_, ?_⟩
        · simp only [readhere, h1]
          rw [if_pos ⟨h4, h5⟩, List.append_nil]
        · rw [h6]
          exact ⟨[], l, by simp, hl, hs, Or.inl (by rw [hu]; simp [unlines]), by simp [unlines]⟩
      · obtain ⟨h4, l1, l2, h5, h6, h7, -⟩ := h3 hs
        have hl2 : '\n' ∉ l2 := by
          intro h
          have : '\n' ∈ strip skip l := by rw [h5]; simp [h]
          unfold strip at this
          split at this
          · exact hl ((List.dropWhile_sublist _).subset this)
          · exact hl this
        have hv2 := h7 hu
        obtain ⟨i3, sk3, h8, h9⟩ := rest_line ((ungetsc c i' sk').1.length + 1) _ _ out' l2 v hv2 hl2
          (by have := view_length ign (ungetsc c i' sk').2 (ungetsc c i' sk').1; rw [hv2] at this; simp only [List.length_append, List.length_cons] at this; omega)
        have e : readhere ign skip eof (n + 1) i sk out = readhere ign skip eof n i3 sk3 (out ++ (strip skip l ++ ['\n'])) := by
          simp only [readhere, h1]
          rw [if_neg h4, h8]
          simp only
          rw [h6, h5]
          simp
        rw [e]
        rcases ih i3 sk3 (out ++ (strip skip l ++ ['\n'])) (by rw [h9]; rw [hu] at hn; simp only [List.length_append, List.length_cons] at hn; omega) with
          ⟨doc, i4, sk4, h10, h11⟩ | ⟨h10, h11⟩
        · left
          refine ⟨strip skip l ++ '\n' :: doc, i4, sk4, by rw [h10]; simp, ?_⟩
          rw [doc_line hl hs hu]
          rw [h9] at h11
          exact ⟨doc, h11, rfl⟩
        · right
          refine ⟨h10, fun doc rest hd => ?_⟩
          rw [doc_line hl hs hu] at hd
          obtain ⟨doc', hd, -⟩ := hd
          rw [h9] at h11
          exact h11 _ _ hd
    · obtain ⟨c, eofp', i', sk', out', h1, h2, h3⟩ := match_line (i.length + 1) skip eof i sk out l [] he hl (Or.inr ⟨hu, rfl⟩) hlen
      by_cases hs : strip skip l = eof
      · obtain ⟨h4, h5, h6⟩ := h2 hs
        left
        refine ⟨[], i', sk', ?_, ?_⟩
        · simp only [readhere, h1]
          rw [if_pos ⟨h4, h5⟩, List.append_nil]
        · rw [h6]
          exact ⟨[], l, by simp, hl, hs, Or.inr ⟨by rw [hu]; simp [unlines], rfl⟩, by simp [unlines]⟩
      · obtain ⟨h4, l1, l2, h5, h6, -, h7⟩ := h3 hs
        right
        have hv2 := h7 hu
        have hl2 : '\n' ∉ l2 := by
          intro h
          have : '\n' ∈ strip skip l := by rw [h5]; simp [h]
          unfold strip at this
          split at this
          · exact hl ((List.dropWhile_sublist _).subset this)
          · exact hl this
        refine ⟨?_, ?_⟩
        · simp only [readhere, h1]
          rw [if_neg h4, rest_end _ _ _ _ (by rw [hv2]; exact hl2)]
        · rintro doc rest ⟨ls, last, g1, g2, g3, g4, g5⟩
          rw [hu] at g4
          cases ls with
          | nil =>
            rcases g4 with g4 | ⟨g4, -⟩
            · exact hl (by rw [g4]; simp)
            · simp only [unlines, List.flatMap_nil, List.nil_append] at g4
              exact hs (g4 ▸ g3)
          | cons m ls =>
            apply hl
            rcases g4 with g4 | ⟨g4, -⟩ <;> rw [g4] <;> simp [unlines]

/-- The specification leaves no choice. -/
theorem doc_unique {skip : Bool} {eof : List Char} : ∀ {n : Nat} {u doc rest doc' rest' : List Char}, u.length ≤ n → Doc skip eof u doc rest → Doc skip eof u doc' rest' → doc = doc' ∧ rest = rest' := by
  intro n
  induction n with
  | zero =>
    intro u doc rest doc' rest' hn h h'
    have hu : u = [] := List.length_eq_zero_iff.1 (by omega)
    subst hu
    have key : ∀ {d r}, Doc skip eof [] d r → d = [] ∧ r = [] := by
      rintro d r ⟨ls, last, g1, g2, g3, g4, g5⟩
      cases ls with
      | nil =>
        refine ⟨by simpa [unlines] using g5, ?_⟩
        rcases g4 with g4 | g4
        · simp at g4
        · exact g4.2
      | cons m ls => rcases g4 with g4 | ⟨g4, -⟩ <;> simp [unlines] at g4
    exact ⟨(key h).1.trans (key h').1.symm, (key h).2.trans (key h').2.symm⟩
  | succ n ih =>
    intro u doc rest doc' rest' hn h h'
    obtain ⟨l, hl, hu⟩ := first_line u
    rcases hu with ⟨v, hu⟩ | hu
    · by_cases hs : strip skip l = eof
      · have h1 := doc_eof hl hs hu h
        have h2 := doc_eof hl hs hu h'
        exact ⟨h1.1.trans h2.1.symm, h1.2.trans h2.2.symm⟩
      · rw [doc_line hl hs hu] at h h'
        obtain ⟨d, h1, h2⟩ := h
        obtain ⟨d', h3, h4⟩ := h'
        have := ih (u := v) (by rw [hu] at hn; simp only [List.length_append, List.length_cons] at hn; omega) h1 h3
        exact ⟨by rw [h2, h4, this.1], this.2⟩
    · have key : ∀ {d r}, Doc skip eof u d r → d = [] ∧ r = [] := by
        rintro d r ⟨ls, last, g1, g2, g3, g4, g5⟩
        rw [hu] at g4
        cases ls with
        | nil =>
          refine ⟨by simpa [unlines] using g5, ?_⟩
          rcases g4 with g4 | g4
          · exact absurd (by rw [g4]; simp) hl
          · exact g4.2
        | cons m ls => exact absurd (by rcases g4 with g4 | ⟨g4, -⟩ <;> rw [g4] <;> simp [unlines]) hl
      exact ⟨(key h).1.trans (key h').1.symm, (key h).2.trans (key h').2.symm⟩

/-! ## Several documents -/

/-- The character after a backslash that has been read is not a newline. -/
def Inv (ign : Bool) (sk : Nat) (i : List Char) : Prop := if ign then (sk = 0 ∨ i = []) else (sk = 1 → i.head? ≠ some '\n')

theorem bn_inv : ∀ (i : List Char), match bn i with
    | (none, _, _) => True
    | (some c, i', sk') => Inv false sk' i' ∧ sk' ≤ 1 ∧ (c = '\n' → sk' = 0) ∧ (c :: i') <:+ i
  | [] => by simp [bn]
  | [c] => by
    rw [bn]
    by_cases h : c = '\\'
    · subst h; simp [Inv]
    · simp [h, Inv]
  | c :: d :: l => by
    rw [bn]
    by_cases h : c = '\\'
    · simp only [h, if_true]
      by_cases hd : d = '\n'
      · simp only [hd, if_true]
        have ih := bn_inv l
        revert ih
        rcases bn l with ⟨c', i', sk'⟩
        cases c' with
        | none => exact id
        | some c' =>
          rintro ⟨h1, h2, h3, h4⟩
          exact ⟨h1, h2, h3, h4.trans ⟨['\\', '\n'], rfl⟩⟩
      · simp [hd, Inv]
    · simp [h, Inv]

theorem getsc_inv {ign : Bool} {sk : Nat} {i i' : List Char} {c : Char} {sk' : Nat} (hi : Inv ign sk i) (h : getsc ign sk i = (some c, i', sk')) :
    Inv ign sk' i' ∧ Inv ign (sk' - 1) (c :: i') ∧ (c = '\n' → sk' = 0) ∧ (c :: i') <:+ i := by
  unfold getsc at h
  cases ign with
  | true =>
    cases i with
    | nil => simp at h
    | cons d r =>
      have hs : sk = 0 := by simpa [Inv] using hi
      simp only [if_true, Prod.mk.injEq, Option.some.injEq] at h
      obtain ⟨rfl, rfl, rfl⟩ := h
      subst hs
      exact ⟨Or.inl rfl, Or.inl rfl, fun _ => rfl, List.suffix_refl _⟩
  | false =>
    by_cases hs : sk = 1
    · subst hs
      cases i with
      | nil => simp at h
      | cons d r =>
        simp only [Bool.false_eq_true, if_false, if_true, Prod.mk.injEq, Option.some.injEq] at h
        obtain ⟨rfl, rfl, rfl⟩ := h
        have hd : d ≠ '\n' := by simpa [Inv] using hi
        exact ⟨by simp [Inv], by simp [Inv, hd], fun h => absurd h hd, List.suffix_refl _⟩
    · simp only [Bool.false_eq_true, if_false, hs] at h
      have := bn_inv i
      rw [h] at this
      obtain ⟨h1, h2, h3, h4⟩ := this
      refine ⟨h1, ?_, h3, h4⟩
      have : sk' - 1 ≠ 1 := by omega
      simp [Inv, this]

theorem getsc_none {ign : Bool} {sk : Nat} {i i' : List Char} {sk' : Nat} (h : getsc ign sk i = (none, i', sk')) : i' = [] := by
  have := getsc_view ign sk i
  rw [h] at this
  exact this.2

theorem inv_nil (ign : Bool) (sk : Nat) : Inv ign sk [] := by cases ign <;> simp [Inv]

theorem match_inv {ign : Bool} : ∀ (n : Nat) {tabs : Bool} {eofp i : List Char} {sk : Nat} {out : List Char} {c eofp' i' sk' out'}, Inv ign sk i →
    matchLine ign n tabs eofp i sk out = some (c, eofp', i', sk', out') →
    Inv ign (ungetsc c i' sk').2 (ungetsc c i' sk').1 ∧ (ungetsc c i' sk').1 <:+ i ∧ i' <:+ i ∧ ((c = none ∧ i' = []) ∨ (c = some '\n' ∧ sk' = 0 ∧ ('\n' :: i') <:+ i) ∨ (∃ d, c = some d ∧ d ≠ '\n')) := by
  intro n
  induction n with
  | zero => intro tabs eofp i sk out c eofp' i' sk' out' _ h; simp [matchLine] at h
  | succ n ih =>
    intro tabs eofp i sk out c eofp' i' sk' out' hi h
    rw [matchLine] at h
    rcases hg : getsc ign sk i with ⟨d, i1, sk1⟩
    rw [hg] at h
    cases d with
    | none =>
      simp only [Option.some.injEq, Prod.mk.injEq] at h
      obtain ⟨rfl, rfl, rfl, rfl, rfl⟩ := h
      have hn := getsc_none hg
      subst hn
      exact ⟨inv_nil _ _, List.nil_suffix, List.nil_suffix, Or.inl ⟨rfl, rfl⟩⟩
    | some d =>
      obtain ⟨h1, h2, h3, h4⟩ := getsc_inv hi hg
      have hsuf : i1 <:+ i := (List.suffix_cons _ _).trans h4
      simp only at h
      split at h
      · obtain ⟨g1, g2, g3, g4⟩ := ih h1 h
        exact ⟨g1, g2.trans hsuf, g3.trans hsuf, g4.imp id (Or.imp (fun ⟨a, b, c⟩ => ⟨a, b, c.trans hsuf⟩) id)⟩
      · split at h
        · obtain ⟨g1, g2, g3, g4⟩ := ih h1 h
          exact ⟨g1, g2.trans hsuf, g3.trans hsuf, g4.imp id (Or.imp (fun ⟨a, b, c⟩ => ⟨a, b, c.trans hsuf⟩) id)⟩
        · simp only [Option.some.injEq, Prod.mk.injEq] at h
          obtain ⟨rfl, rfl, rfl, rfl, rfl⟩ := h
          refine ⟨h2, h4, hsuf, Or.inr ?_⟩
          by_cases hd : d = '\n'
          · subst hd; exact Or.inl ⟨rfl, h3 rfl, h4⟩
          · exact Or.inr ⟨d, rfl, hd⟩

theorem rest_inv {ign : Bool} : ∀ (n : Nat) {i : List Char} {sk : Nat} {out : List Char} {i' sk' out'}, Inv ign sk i →
    restLine ign n i sk out = some (i', sk', out') → sk' = 0 ∧ i' <:+ i := by
  intro n
  induction n with
  | zero => intro i sk out i' sk' out' _ h; simp [restLine] at h
  | succ n ih =>
    intro i sk out i' sk' out' hi h
    rw [restLine] at h
    rcases hg : getsc ign sk i with ⟨d, i1, sk1⟩
    rw [hg] at h
    cases d with
    | none => simp at h
    | some d =>
      obtain ⟨h1, -, h3, h4⟩ := getsc_inv hi hg
      have hsuf : i1 <:+ i := (List.suffix_cons _ _).trans h4
      simp only at h
      split at h
      · rename_i hd
        simp only [Option.some.injEq, Prod.mk.injEq] at h
        obtain ⟨rfl, rfl, rfl⟩ := h
        exact ⟨h3 hd, hsuf⟩
      · obtain ⟨g1, g2⟩ := ih h1 h
        exact ⟨g1, g2.trans hsuf⟩

theorem inv_start {sk : Nat} {i : List Char} (h : sk = 0 ∨ i = []) (ign : Bool) : Inv ign sk i := by
  cases ign with
  | true => exact h
  | false => rcases h with rfl | rfl <;> simp [Inv]

theorem readhere_inv {ign skip : Bool} {eof : List Char} : ∀ (n : Nat) {i : List Char} {sk : Nat} {out : List Char} {doc i' sk'}, (sk = 0 ∨ i = []) →
    readhere ign skip eof n i sk out = some (doc, i', sk') → (i' = [] ∨ ('\n' :: i') <:+ i) ∧ (sk' = 0 ∨ i' = []) := by
  intro n
  induction n with
  | zero => intro i sk out doc i' sk' _ h; simp [readhere] at h
  | succ n ih =>
    intro i sk out doc i' sk' hs h
    rw [readhere] at h
    cases hm : matchLine ign (i.length + 1) skip eof i sk out with
    | none => rw [hm] at h; simp at h
    | some x =>
      obtain ⟨c, eofp', i1, sk1, out1⟩ := x
      rw [hm] at h
      obtain ⟨g1, g2, g3, g4⟩ := match_inv _ (inv_start hs ign) hm
      simp only at h
      split at h
      · rename_i hc
        simp only [Option.some.injEq, Prod.mk.injEq] at h
        obtain ⟨rfl, rfl, rfl⟩ := h
        rcases g4 with ⟨-, g⟩ | ⟨-, g, g'⟩ | ⟨d, g, gd⟩
        · exact ⟨Or.inl g, Or.inr g⟩
        · exact ⟨Or.inr g', Or.inl g⟩
        · rcases hc.2 with e | e
          · rw [g] at e; cases e
          · rw [g] at e; cases e; exact absurd rfl gd
      · cases hr : restLine ign ((ungetsc c i1 sk1).1.length + 1) (ungetsc c i1 sk1).1 (ungetsc c i1 sk1).2 out1 with
        | none => rw [hr] at h; simp at h
        | some y =>
          obtain ⟨i2, sk2, out2⟩ := y
          rw [hr] at h
          obtain ⟨k1, k2⟩ := rest_inv _ g1 hr
          simp only at h
          subst k1
          obtain ⟨j1, j2⟩ := ih (Or.inl rfl) h
          exact ⟨j1.imp id (fun h => h.trans (k2.trans g2)), j2⟩

/-- What the documents of a line are; for each its text as the parser sees it. -/
def Docs : List (Bool × Bool × List Char) → List Char → List (List Char) → List Char → Prop
  | [], i, docs, i' => docs = [] ∧ i' = i
  | (eval, skip, eof) :: ps, i, docs, i' =>
    ∃ doc docs' i1, docs = doc :: docs' ∧ (i1 = [] ∨ ('\n' :: i1) <:+ i) ∧
      (if eval then Doc skip eof (join i) doc (join i1) else Doc skip eof i doc i1) ∧ Docs ps i1 docs' i'

theorem view_start {sk : Nat} {i : List Char} (h : sk = 0 ∨ i = []) (ign : Bool) : view ign sk i = if ign then i else join i := by
  rcases h with rfl | rfl
  · simp [view]
  · rw [view_nil]; cases ign <;> rfl

/-- **C78** The documents of a line follow each other in order. -/
theorem gethere_spec : ∀ (ps : List Iop), (∀ p ∈ ps, '\n' ∉ delimText p.delim) → ∀ {i : List Char} {sk : Nat} {docs : List (List Char)} {i' : List Char} {sk' : Nat},
    (sk = 0 ∨ i = []) → gethere ps i sk = some (docs, i', sk') →
    Docs (ps.map fun p => (ioeval p.delim, p.skip, delimText p.delim)) i docs i' := by
  intro ps
  induction ps with
  | nil => intro _ i sk docs i' sk' _ h; simp only [gethere, Option.some.injEq, Prod.mk.injEq] at h; exact ⟨h.1.symm, h.2.1.symm⟩
  | cons p ps ih =>
    intro hp i sk docs i' sk' hs h
    rw [gethere] at h
    cases hr : readhere (!ioeval p.delim) p.skip (delimText p.delim) (i.length + 1) i sk [] with
    | none => rw [hr] at h; simp at h
    | some x =>
      obtain ⟨doc, i1, sk1⟩ := x
      rw [hr] at h
      simp only at h
      cases hg : gethere ps i1 sk1 with
      | none => rw [hg] at h; simp at h
      | some y =>
        obtain ⟨docs', i2, sk2⟩ := y
        rw [hg] at h
        simp only [Option.some.injEq, Prod.mk.injEq] at h
        obtain ⟨rfl, rfl, rfl⟩ := h
        obtain ⟨h1, h2⟩ := readhere_inv _ hs hr
        have h3 := ih (fun q hq => hp q (by simp [hq])) h2 hg
        refine ⟨doc, docs', i1, rfl, h1, ?_, h3⟩
        rcases readhere_spec (ign := !ioeval p.delim) (skip := p.skip) (hp p (by simp)) (i.length + 1) i sk [] (by have := view_length (!ioeval p.delim) sk i; omega) with
          ⟨d, j, k, h4, h5⟩ | ⟨h4, -⟩
        · rw [hr] at h4
          simp only [List.nil_append, Option.some.injEq, Prod.mk.injEq] at h4
          obtain ⟨rfl, rfl, rfl⟩ := h4
          rw [view_start hs, view_start h2] at h5
          cases hio : ioeval p.delim <;> simpa [hio] using h5
        · rw [hr] at h4; cases h4

/-- **C78** Reading fails only where a document is not closed. -/
theorem gethere_none : ∀ (ps : List Iop), (∀ p ∈ ps, '\n' ∉ delimText p.delim) → ∀ {i : List Char} {sk : Nat}, (sk = 0 ∨ i = []) → gethere ps i sk = none →
    ∃ ps1 p ps2 docs i1, ps = ps1 ++ p :: ps2 ∧ Docs (ps1.map fun p => (ioeval p.delim, p.skip, delimText p.delim)) i docs i1 ∧
      ∀ doc rest, ¬ Doc p.skip (delimText p.delim) (if ioeval p.delim then join i1 else i1) doc rest := by
  intro ps
  induction ps with
  | nil => intro _ i sk _ h; simp [gethere] at h
  | cons p ps ih =>
    intro hp i sk hs h
    have hspec := readhere_spec (ign := !ioeval p.delim) (skip := p.skip) (hp p (by simp)) (i.length + 1) i sk [] (by have := view_length (!ioeval p.delim) sk i; omega)
    have hswap : ∀ i, (if ioeval p.delim then join i else i) = (if (!ioeval p.delim) then i else join i) := by intro i; cases ioeval p.delim <;> rfl
    rw [gethere] at h
    cases hr : readhere (!ioeval p.delim) p.skip (delimText p.delim) (i.length + 1) i sk [] with
    | none =>
      refine ⟨[], p, ps, [], i, rfl, ⟨rfl, rfl⟩, ?_⟩
      rcases hspec with ⟨d, j, k, h4, h5⟩ | ⟨-, h5⟩
      · rw [hr] at h4; cases h4
      · rw [hswap, ← view_start hs]; exact h5
    | some x =>
      obtain ⟨doc, i1, sk1⟩ := x
      rw [hr] at h
      simp only at h
      cases hg : gethere ps i1 sk1 with
      | some y => rw [hg] at h; simp at h
      | none =>
        obtain ⟨h1, h2⟩ := readhere_inv _ hs hr
        obtain ⟨ps1, q, ps2, docs, i2, h6, h7, h8⟩ := ih (fun q hq => hp q (by simp [hq])) h2 hg
        refine ⟨p :: ps1, q, ps2, doc :: docs, i2, by rw [h6]; rfl, ⟨doc, docs, i1, rfl, h1, ?_, h7⟩, h8⟩
        rcases hspec with ⟨d, j, k, h4, h5⟩ | ⟨h4, -⟩
        · rw [hr] at h4
          simp only [List.nil_append, Option.some.injEq, Prod.mk.injEq] at h4
          obtain ⟨rfl, rfl, rfl⟩ := h4
          rw [view_start hs, view_start h2] at h5
          cases hio : ioeval p.delim <;> simpa [hio] using h5
        · rw [hr] at h4; cases h4

/-! ## What the command reads -/

theorem name_run : ∀ (n : Nat) (i : List Char) (sk : Nat) (acc : List Char), (view false sk i).length < n →
    ∃ i' sk', nameRun n i sk acc = (acc ++ (view false sk i).takeWhile letnum, i', sk') ∧ view false sk' i' = (view false sk i).dropWhile letnum := by
  intro n
  induction n with
  | zero => intro i sk acc h; omega
  | succ n ih =>
    intro i sk acc hn
    cases hv : view false sk i with
    | nil =>
      obtain ⟨k, h1⟩ := get_nil hv
      exact ⟨[], k - 1, by simp [nameRun, h1, ungetsc], view_nil _ _⟩
    | cons c u =>
      obtain ⟨i', sk', h1, h2, h3, -⟩ := get_cons hv
      rw [hv] at hn
      simp only [List.length_cons] at hn
      by_cases hc : letnum c = true
      · obtain ⟨i2, sk2, h4, h5⟩ := ih i' sk' (acc ++ [c]) (by rw [h2]; omega)
        refine ⟨i2, sk2, ?_, ?_⟩
        · simp only [nameRun, h1, hc, if_true, h4, h2, List.takeWhile_cons]
          simp
        · rw [h5, h2, List.dropWhile_cons, if_pos hc]
      · refine ⟨c :: i', sk' - 1, ?_, ?_⟩
        · simp only [nameRun, h1, hc, ungetsc, List.takeWhile_cons]
          simp
        · rw [h3, List.dropWhile_cons, if_neg hc]

theorem here_lex (env : List Char → List Char) : ∀ (n : Nat) (i : List Char) (sk : Nat) (out : List Sym), (view false sk i).length < n →
    (hereLex n i sk out).map (evalHere env) = (means env (view false sk i)).map (evalHere env out ++ ·) := by
  intro n
  induction n with
  | zero => intro i sk out h; omega
  | succ n ih =>
    intro i sk out hn
    have hev : ∀ l : List Sym, evalHere env (out ++ l) = evalHere env out ++ evalHere env l := by intro l; simp [evalHere]
    cases hv : view false sk i with
    | nil =>
      obtain ⟨k, h1⟩ := get_nil hv
      simp [hereLex, h1, means]
    | cons c u =>
      obtain ⟨i', sk', h1, h2, h3, -⟩ := get_cons hv
      rw [hv] at hn
      simp only [List.length_cons] at hn
      simp only [hereLex, h1]
      rw [means.eq_def]
      simp only
      by_cases hq : c = '`'
      · subst hq
        simp [hereStep]
      · simp only [hq, if_false]
        by_cases hb : c = '\\'
        · subst hb
          simp only [if_true, hereStep]
          cases u with
          | nil =>
            obtain ⟨k, h4⟩ := get_nil h2
            simp only [h4]
            rw [ih [] k (out ++ []) (by rw [view_nil]; simp; omega), view_nil]
            simp [means]
          | cons d r =>
            obtain ⟨i2, sk2, h4, h5, -⟩ := get_cons h2
            simp only [List.length_cons] at hn
            simp only [h4]
            by_cases hd : d = '\\' ∨ d = '$' ∨ d = '`'
            · simp only [hd, if_true]
              rw [ih i2 sk2 _ (by rw [h5]; omega), h5, hev]
              cases means env r <;> simp [evalHere]
            · simp only [hd, if_false]
              rw [ih i2 sk2 _ (by rw [h5]; omega), h5, hev]
              cases means env r <;> simp [evalHere]
        · simp only [hb, if_false]
          by_cases hd : c = '$'
          · subst hd
            simp only [if_true, hereStep, show ¬ ('$' = '\\') by decide, if_false]
            cases u with
            | nil =>
              obtain ⟨k, h4⟩ := get_nil h2
              simp only [h4, ungetsc]
              rw [ih [] (k - 1) _ (by rw [view_nil]; simp; omega), view_nil, hev]
              simp [means, evalHere]
            | cons d r =>
              obtain ⟨i2, sk2, h4, h5, h6, -⟩ := get_cons h2
              simp only [List.length_cons] at hn
              simp only [h4]
              by_cases hp : d = '(' ∨ d = '{'
              · simp [hp]
              · simp only [hp, if_false]
                by_cases ha : alpha d = true
                · obtain ⟨i3, sk3, h7, h8⟩ := name_run (i2.length + 1) i2 sk2 [d] (by have := view_length false sk2 i2; omega)
                  simp only [ha, if_true, h7]
                  have hlen : (r.dropWhile letnum).length ≤ r.length := (List.dropWhile_sublist _).length_le
                  rw [ih i3 sk3 _ (by rw [h8, h5]; omega), h8, h5, hev]
                  cases means env (r.dropWhile letnum) <;> simp [evalHere]
                · simp only [ha]
                  by_cases hs : (var1 d || digit d) = true
                  · simp only [hs, if_true]
                    simp only [Bool.false_eq_true, if_false]
                    rw [ih i2 sk2 _ (by rw [h5]; omega), h5, hev]
                    cases means env r <;> simp [evalHere]
                  · simp only [hs, Bool.false_eq_true, if_false, ungetsc]
                    rw [ih (d :: i2) (sk2 - 1) _ (by rw [h6]; simp only [List.length_cons]; omega), h6, hev]
                    cases means env (d :: r) <;> simp [evalHere]
          · simp only [hd, if_false]
            have e : hereStep c i' sk' = some (i', sk', [.chr c]) := by simp [hereStep, hb, hd, hq]
            rw [e]
            simp only
            rw [ih i' sk' _ (by rw [h2]; omega), h2, hev]
            cases means env u <;> simp [evalHere]

/-! ## A document that was read has no joined lines left -/

theorem join_idem : ∀ (n : Nat) (i : List Char), i.length ≤ n → join (join i) = join i := by
  intro n
  induction n with
  | zero => intro i h; have : i = [] := List.length_eq_zero_iff.1 (by omega); subst this; rfl
  | succ n ih =>
    intro i h
    match i with
    | [] => rfl
    | [c] => rfl
    | c :: d :: l =>
      simp only [List.length_cons] at h
      rw [join]
      by_cases hc : c = '\\'
      · rw [if_pos hc]
        by_cases hd : d = '\n'
        · rw [if_pos hd]; exact ih l (by omega)
        · rw [if_neg hd, join, if_pos hc, if_neg hd, ih l (by omega)]
      · rw [if_neg hc, join_cons hc, ih (d :: l) (by simp only [List.length_cons]; omega)]

/-- Every backslash has a character after it. -/
def Paired : List Char → Prop
  | [] => True
  | [c] => c ≠ '\\'
  | c :: d :: l => if c = '\\' then Paired l else Paired (d :: l)

theorem paired_line : ∀ (l v : List Char), '\n' ∉ l → join (l ++ '\n' :: v) = l ++ '\n' :: v → Paired l ∧ join v = v
  | [], v, _, h => by
    rw [List.nil_append, join_cons (by decide)] at h
    exact ⟨trivial, (List.cons.inj h).2⟩
  | [c], v, _, h => by
    by_cases hc : c = '\\'
    · subst hc
      have e : join (['\\'] ++ '\n' :: v) = join v := by simp [join]
      rw [e] at h
      have := view_length false 0 v
      simp only [view, Bool.false_eq_true, if_false, show ¬ (0 : Nat) = 1 by decide] at this
      rw [h] at this
      simp only [List.length_append, List.length_cons, List.length_nil] at this
      omega
    · have : join ([c] ++ '\n' :: v) = c :: '\n' :: join v := by
        show join (c :: '\n' :: v) = _
        rw [join_cons hc, join_cons (by decide)]
      rw [this] at h
      simp only [List.cons_append, List.nil_append, List.cons.injEq, true_and] at h
      exact ⟨hc, h⟩
  | c :: d :: l, v, hl, h => by
    simp only [List.mem_cons, not_or] at hl
    simp only [List.cons_append] at h
    rw [join] at h
    unfold Paired
    by_cases hc : c = '\\'
    · rw [if_pos hc, if_neg (Ne.symm hl.2.1)] at h
      simp only [List.cons.injEq, true_and] at h
      rw [if_pos hc]
      exact paired_line l v hl.2.2 h
    · rw [if_neg hc] at h
      simp only [List.cons.injEq, true_and] at h
      rw [if_neg hc]
      exact paired_line (d :: l) v (by simp only [List.mem_cons, not_or]; exact hl.2) h

theorem join_paired : ∀ (l v : List Char), '\n' ∉ l → Paired l → join (l ++ v) = l ++ join v
  | [], v, _, _ => rfl
  | [c], v, _, h => by
    have hc : c ≠ '\\' := h
    exact join_cons hc
  | c :: d :: l, v, hl, h => by
    simp only [List.mem_cons, not_or] at hl
    simp only [List.cons_append]
    rw [join]
    unfold Paired at h
    by_cases hc : c = '\\'
    · rw [if_pos hc] at h
      rw [if_pos hc, if_neg (Ne.symm hl.2.1), join_paired l v hl.2.2 h]
    · rw [if_neg hc] at h
      have := join_paired (d :: l) v (by simp only [List.mem_cons, not_or]; exact hl.2) h
      rw [if_neg hc]
      simp only [List.cons_append] at this
      rw [this]

theorem paired_strip (skip : Bool) : ∀ (l : List Char), Paired l → Paired (strip skip l) := by
  intro l h
  unfold strip
  split
  · induction l with
    | nil => exact h
    | cons c l ih =>
      rw [List.dropWhile_cons]
      split
      · rename_i hc
        have hc' : c = '\t' := by simpa using hc
        subst hc'
        apply ih
        cases l with
        | nil => trivial
        | cons d l => simpa [Paired] using h
      · exact h
  · exact h

theorem strip_newline {skip : Bool} {l : List Char} (h : '\n' ∉ l) : '\n' ∉ strip skip l := by
  unfold strip
  split
  · exact fun h' => h ((List.dropWhile_sublist _).subset h')
  · exact h

theorem joined_lines (skip : Bool) : ∀ (ls : List (List Char)) (w : List Char), (∀ l ∈ ls, '\n' ∉ l) → join (unlines ls ++ w) = unlines ls ++ w → join (unlines (ls.map (strip skip))) = unlines (ls.map (strip skip))
  | [], _, _, _ => rfl
  | l :: ls, w, hl, h => by
    have h1 := hl l (by simp)
    have h2 := paired_line l (unlines ls ++ w) h1 (by simpa [unlines] using h)
    have ih := joined_lines skip ls w (fun x hx => hl x (by simp [hx])) h2.2
    have e : unlines ((l :: ls).map (strip skip)) = strip skip l ++ '\n' :: unlines (ls.map (strip skip)) := by simp [unlines]
    rw [e, join_paired _ _ (strip_newline h1) (paired_strip skip l h2.1), join_cons (by decide), ih]

theorem doc_joined {skip : Bool} {eof i doc rest : List Char} (h : Doc skip eof (join i) doc rest) : join doc = doc := by
  obtain ⟨ls, last, h1, h2, h3, h4, h5⟩ := h
  have hid := join_idem _ i (Nat.le_refl _)
  rw [h5]
  rcases h4 with h4 | ⟨h4, -⟩
  · exact joined_lines skip ls (last ++ '\n' :: rest) (fun l hl => (h1 l hl).1) (by rw [← List.append_assoc, ← h4]; exact hid)
  · exact joined_lines skip ls last (fun l hl => (h1 l hl).1) (by rw [← h4]; exact hid)

/-- **C78** What a command reads from a document: after a quoted delimiter the document itself, otherwise what
it stands for. -/
theorem herein_spec (env : List Char → List Char) (doc : List Char) : herein env false doc = some doc ∧ herein env true doc = means env (join doc) := by
  refine ⟨rfl, ?_⟩
  have := here_lex env (doc.length + 1) doc 0 [] (by have := view_length false 0 doc; omega)
  simp only [herein, if_true]
  rw [this]
  simp only [view, Bool.false_eq_true, if_false, show ¬ (0 : Nat) = 1 by decide]
  cases means env (join doc) <;> simp [evalHere]

/-- **C78** Characters other than backslash, `$` and backquote are left alone in every document. -/
theorem means_plain (env : List Char → List Char) : ∀ (doc : List Char), (∀ c ∈ doc, c ≠ '\\' ∧ c ≠ '$' ∧ c ≠ '`') → means env doc = some doc
  | [], _ => by simp [means]
  | c :: l, h => by
    have hc := h c (by simp)
    rw [means.eq_def]
    simp only [hc.1, hc.2.1, hc.2.2, if_false]
    rw [means_plain env l (fun d hd => h d (by simp [hd]))]
    rfl

/-! ## The delimiter -/

/-- A piece of a delimiter as it is written: a character, one after a backslash, text in single quotes, text in
double quotes (where a character may be after a backslash). -/
inductive Item where
  | plain (c : Char)
  | esc (c : Char)
  | sq (l : List Char)
  | dq (l : List (Bool × Char))

def dtext : Bool × Char → List Char
  | (true, c) => ['\\', c]
  | (false, c) => [c]

/-- As it is written. -/
def Item.text : Item → List Char
  | .plain c => [c]
  | .esc c => ['\\', c]
  | .sq l => '\'' :: (l ++ ['\''])
  | .dq l => '"' :: (l.flatMap dtext ++ ['"'])

/-- Inside double quotes a backslash is removed before `\`, `"`, `$` and a backquote. -/
def dvalue : Bool × Char → List Char
  | (true, c) => if c ∈ ['\\', '"', '$', '`'] then [c] else ['\\', c]
  | (false, c) => [c]

/-- What it stands for. -/
def Item.value : Item → List Char
  | .plain c => [c]
  | .esc c => [c]
  | .sq l => l
  | .dq l => l.flatMap dvalue

def Item.Ok : Item → Prop
  | .plain c => lex1 c = false ∧ c ≠ '\\' ∧ c ≠ '\'' ∧ c ≠ '"'
  | .esc c => c ≠ '\n'
  | .sq l => '\'' ∉ l
  | .dq l => ∀ x ∈ l, if x.1 = true then x.2 ≠ '\n' else x.2 ≠ '\\' ∧ x.2 ≠ '"'

def Item.isPlain : Item → Bool
  | .plain _ => true
  | _ => false

def dsyms (x : Bool × Char) : List Sym := (dvalue x).map .chr

def Item.syms : Item → List Sym
  | .plain c => [.chr c]
  | .esc c => [.qchr c]
  | .sq l => .oq :: (l.map .qchr ++ [.cq])
  | .dq l => .oq :: (l.flatMap dsyms ++ [.cq])

theorem loop_mono : ∀ (n : Nat) {st i sk out r}, delimLoop n st i sk out = some r → delimLoop (n + 1) st i sk out = some r := by
  intro n
  induction n with
  | zero => intro st i sk out r h; simp [delimLoop] at h
  | succ n ih =>
    intro st i sk out r h
    cases st with
    | plain =>
      rw [delimLoop] at h ⊢
      rcases hg : getsc false sk i with ⟨c, i', sk'⟩
      rw [hg] at h
      cases c with
      | none => exact h
      | some c =>
        simp only at h ⊢
        by_cases h1 : lex1 c = true
        · rw [if_pos h1] at h ⊢; exact h
        · rw [if_neg h1] at h ⊢
          by_cases h2 : c = '\\'
          · rw [if_pos h2] at h ⊢
            rcases hg2 : getsc false sk' i' with ⟨d, i2, sk2⟩
            rw [hg2] at h
            cases d with
            | none => exact ih h
            | some d => exact ih h
          · rw [if_neg h2] at h ⊢
            by_cases h3 : c = '\''
            · rw [if_pos h3] at h ⊢; exact ih h
            · rw [if_neg h3] at h ⊢
              by_cases h4 : c = '"'
              · rw [if_pos h4] at h ⊢; exact ih h
              · rw [if_neg h4] at h ⊢; exact ih h
    | single =>
      rw [delimLoop] at h ⊢
      rcases hg : getsc true sk i with ⟨c, i', sk'⟩
      rw [hg] at h
      cases c with
      | none => exact h
      | some c =>
        simp only at h ⊢
        by_cases h1 : c = '\''
        · rw [if_pos h1] at h ⊢; exact ih h
        · rw [if_neg h1] at h ⊢; exact ih h
    | double =>
      rw [delimLoop] at h ⊢
      rcases hg : getsc false sk i with ⟨c, i', sk'⟩
      rw [hg] at h
      cases c with
      | none => exact h
      | some c =>
        simp only at h ⊢
        by_cases h1 : c = '"'
        · rw [if_pos h1] at h ⊢; exact ih h
        · rw [if_neg h1] at h ⊢
          by_cases h2 : c = '\\'
          · rw [if_pos h2] at h ⊢
            rcases hg2 : getsc false sk' i' with ⟨d, i2, sk2⟩
            rw [hg2] at h
            cases d with
            | none => exact ih h
            | some d =>
              simp only at h ⊢
              by_cases h3 : dqEsc d = true
              · rw [if_pos h3] at h ⊢; exact ih h
              · rw [if_neg h3] at h ⊢; exact ih h
          · rw [if_neg h2] at h ⊢; exact ih h

theorem loop_le {n m : Nat} (hnm : n ≤ m) {st i sk out r} (h : delimLoop n st i sk out = some r) : delimLoop m st i sk out = some r := by
  induction hnm with
  | refl => exact h
  | step _ ih => exact loop_mono _ ih

theorem loop_single : ∀ (l : List Char) (n : Nat) (i : List Char) (sk : Nat) (out : List Sym) (r : List Sym × List Char), '\'' ∉ l →
    delimLoop n .plain i sk (out ++ l.map .qchr ++ [.cq]) = some r → delimLoop (n + l.length + 1) .single (l ++ '\'' :: i) sk out = some r := by
  intro l
  induction l with
  | nil =>
    intro n i sk out r _ h
    simp only [List.length_nil, Nat.add_zero, delimLoop, List.nil_append, get_ign, if_true]
    simpa using h
  | cons c l ih =>
    intro n i sk out r hl h
    simp only [List.mem_cons, not_or] at hl
    have hc : c ≠ '\'' := Ne.symm hl.1
    rw [show n + (c :: l).length + 1 = (n + l.length + 1) + 1 by simp only [List.length_cons]; omega]
    simp only [List.cons_append, delimLoop, get_ign, hc, if_false]
    exact ih n i sk _ r hl.2 (by simpa using h)

theorem loop_double : ∀ (l : List (Bool × Char)) (n : Nat) (i : List Char) (sk : Nat) (out : List Sym) (r : List Sym × List Char), sk ≠ 1 → (Item.dq l).Ok →
    (∀ sk, sk ≠ 1 → delimLoop n .plain i sk (out ++ l.flatMap dsyms ++ [.cq]) = some r) → delimLoop (n + l.length + 1) .double (l.flatMap dtext ++ '"' :: i) sk out = some r := by
  intro l
  induction l with
  | nil =>
    intro n i sk out r hs _ h
    simp only [List.length_nil, Nat.add_zero, delimLoop, List.flatMap_nil, List.nil_append, get_plain hs (show '"' ≠ '\\' by decide), if_true]
    simpa using h 0 (by decide)
  | cons x l ih =>
    obtain ⟨e, c⟩ := x
    intro n i sk out r hs hok h
    have hx := hok (e, c) (by simp)
    have hok' : (Item.dq l).Ok := fun y hy => hok y (by simp [hy])
    rw [show n + ((e, c) :: l).length + 1 = (n + l.length + 1) + 1 by simp only [List.length_cons]; omega]
    cases e with
    | true =>
      have hc : c ≠ '\n' := by simpa using hx
      simp only [List.flatMap_cons, dtext, List.cons_append, List.nil_append, delimLoop, get_bs hs hc, show ¬ ('\\' = '"') by decide, if_false, if_true, get_raw]
      have hd : dqEsc c = true ↔ c ∈ ['\\', '"', '$', '`'] := by simp [dqEsc, or_assoc]
      by_cases hq : dqEsc c = true
      · rw [if_pos hq]
        refine ih n i 2 _ r (by decide) hok' (fun k hk => ?_)
        have := h k hk
        simp only [List.flatMap_cons, dsyms, dvalue, if_pos (hd.1 hq)] at this
        simpa using this
      · rw [if_neg hq]
        refine ih n i 2 _ r (by decide) hok' (fun k hk => ?_)
        have := h k hk
        simp only [List.flatMap_cons, dsyms, dvalue, if_neg (fun h => hq (hd.2 h))] at this
        simpa using this
    | false =>
      have hc : c ≠ '\\' ∧ c ≠ '"' := by simpa using hx
      simp only [List.flatMap_cons, dtext, List.cons_append, List.nil_append, delimLoop, get_plain hs hc.1, hc.1, hc.2, if_false]
      refine ih n i 0 _ r (by decide) hok' (fun k hk => ?_)
      simpa [dsyms, dvalue] using h k hk

/-- **C78** A delimiter is read as its pieces are written. -/
theorem delim_word : ∀ (its : List Item), (∀ it ∈ its, it.Ok) → ∀ (t : Char) (rest : List Char), lex1 t = true → ∀ (sk : Nat) (out : List Sym), sk ≠ 1 →
    ∃ n, delimLoop n .plain (its.flatMap Item.text ++ t :: rest) sk out = some (out ++ its.flatMap Item.syms, t :: rest) := by
  intro its
  induction its with
  | nil =>
    intro _ t rest ht sk out hs
    refine ⟨1, ?_⟩
    have htb : t ≠ '\\' := by rintro rfl; simp [lex1] at ht
    simp only [List.flatMap_nil, List.nil_append, delimLoop, get_plain hs htb, ht, if_true, ungetsc, List.append_nil]
  | cons it its ih =>
    intro hok t rest ht sk out hs
    have h0 := hok it (by simp)
    have ih' := fun out sk (hs : sk ≠ 1) => ih (fun x hx => hok x (by simp [hx])) t rest ht sk out hs
    cases it with
    | plain c =>
      obtain ⟨h1, h2, h3, h4⟩ := h0
      obtain ⟨n, hn⟩ := ih' (out ++ [.chr c]) 0 (by decide)
      refine ⟨n + 1, ?_⟩
      simp only [List.flatMap_cons, Item.text, List.cons_append, List.nil_append, delimLoop, get_plain hs h2, h1, h2, h3, h4, if_false, Bool.false_eq_true]
      rw [hn]
      simp [Item.syms]
    | esc c =>
      have hc : c ≠ '\n' := h0
      obtain ⟨n, hn⟩ := ih' (out ++ [.qchr c]) 2 (by decide)
      refine ⟨n + 1, ?_⟩
      simp only [List.flatMap_cons, Item.text, List.cons_append, List.nil_append, delimLoop, get_bs hs hc, show lex1 '\\' = false by decide, if_false, Bool.false_eq_true, if_true, get_raw]
      rw [hn]
      simp [Item.syms]
    | sq l =>
      have hl : '\'' ∉ l := h0
      obtain ⟨n, hn⟩ := ih' (out ++ [.oq] ++ l.map .qchr ++ [.cq]) 0 (by decide)
      have := loop_single l n _ 0 (out ++ [.oq]) _ hl hn
      generalize n + l.length + 1 = m at this
      refine ⟨m + 1, ?_⟩
      simp only [List.flatMap_cons, Item.text, List.cons_append, List.append_assoc, List.nil_append, delimLoop, get_plain hs (show '\'' ≠ '\\' by decide), show lex1 '\'' = false by decide, if_false, Bool.false_eq_true, if_true, show ¬ ('\'' = '\\') by decide]
      rw [this]
      simp [Item.syms]
    | dq l =>
      have hl : (Item.dq l).Ok := h0
      -- enough for every flag
      have hex : ∃ n, ∀ k, k ≠ 1 → delimLoop n .plain (its.flatMap Item.text ++ t :: rest) k (out ++ [.oq] ++ l.flatMap dsyms ++ [.cq]) =
          some (out ++ [.oq] ++ l.flatMap dsyms ++ [.cq] ++ its.flatMap Item.syms, t :: rest) := by
        obtain ⟨n, hn⟩ := ih' (out ++ [.oq] ++ l.flatMap dsyms ++ [.cq]) 0 (by decide)
        refine ⟨n, fun k hk => ?_⟩
        rw [← hn]
        cases n with
        | zero => simp [delimLoop] at hn
        | succ n =>
          have hg : ∀ i, getsc false k i = getsc false 0 i := by intro i; simp [getsc, hk]
          simp only [delimLoop, hg]
      obtain ⟨n, hn⟩ := hex
      have := loop_double l n _ 0 (out ++ [.oq]) _ (by decide) hl hn
      generalize n + l.length + 1 = m at this
      refine ⟨m + 1, ?_⟩
      simp only [List.flatMap_cons, Item.text, List.cons_append, List.append_assoc, List.nil_append, delimLoop, get_plain hs (show '"' ≠ '\\' by decide), show lex1 '"' = false by decide, if_false, Bool.false_eq_true, if_true, show ¬ ('"' = '\\') by decide, show ¬ ('"' = '\'') by decide]
      rw [this]
      simp [Item.syms]

theorem delim_text (its : List Item) : delimText (its.flatMap Item.syms) = its.flatMap Item.value := by
  have hd : ∀ l : List (Bool × Char), delimText (l.flatMap dsyms) = l.flatMap dvalue := by
    intro l
    induction l with
    | nil => rfl
    | cons x l ih =>
      have : ∀ m : List Char, delimText (m.map .chr) = m := by
        intro m; induction m with
        | nil => rfl
        | cons c m ih => simp only [delimText, List.map_cons, List.flatMap_cons] at ih ⊢; rw [ih]; rfl
      simp only [List.flatMap_cons]
      rw [← ih]
      simp only [delimText, List.flatMap_append] at this ⊢
      rw [dsyms, this]
  have hq : ∀ m : List Char, delimText (m.map .qchr) = m := by
    intro m; induction m with
    | nil => rfl
    | cons c m ih => simp only [delimText, List.map_cons, List.flatMap_cons] at ih ⊢; rw [ih]; rfl
  have ha : ∀ a b, delimText (a ++ b) = delimText a ++ delimText b := by intro a b; simp [delimText]
  induction its with
  | nil => rfl
  | cons it its ih =>
    rw [List.flatMap_cons, List.flatMap_cons, ha, ih]
    congr 1
    cases it with
    | plain c => rfl
    | esc c => rfl
    | sq l =>
      show delimText ([.oq] ++ (l.map .qchr ++ [.cq])) = l
      rw [ha, ha, hq]; simp [delimText]
    | dq l =>
      show delimText ([.oq] ++ (l.flatMap dsyms ++ [.cq])) = l.flatMap dvalue
      rw [ha, ha, hd]; simp [delimText]

theorem ident_plain : ∀ (n : Nat) (its : List Item) (acc : List Char), (∀ it ∈ its, it.isPlain = true) → its.length < n → identLoop n (its.flatMap Item.syms) acc = acc ++ its.flatMap Item.value := by
  intro n
  induction n with
  | zero => intro its acc _ h; omega
  | succ n ih =>
    intro its acc hp hn
    cases its with
    | nil => simp [identLoop]
    | cons it its =>
      have h0 := hp it (by simp)
      cases it with
      | plain c =>
        simp only [List.length_cons] at hn
        simp only [List.flatMap_cons, Item.syms, List.cons_append, List.nil_append, identLoop]
        rw [ih its _ (fun x hx => hp x (by simp [hx])) (by omega)]
        simp [Item.value]
      | esc c => simp [Item.isPlain] at h0
      | sq l => simp [Item.isPlain] at h0
      | dq l => simp [Item.isPlain] at h0

theorem ident_quoted : ∀ (n : Nat) (its : List Item) (acc : List Char), (∃ it ∈ its, it.isPlain = false) → identLoop n (its.flatMap Item.syms) acc = [] := by
  intro n
  induction n with
  | zero => intro its acc _; rfl
  | succ n ih =>
    intro its acc ⟨it, hi, hp⟩
    cases its with
    | nil => simp at hi
    | cons it' its =>
      cases it' with
      | plain c =>
        simp only [List.flatMap_cons, Item.syms, List.cons_append, List.nil_append, identLoop]
        apply ih
        rcases List.mem_cons.1 hi with rfl | hi
        · simp [Item.isPlain] at hp
        · exact ⟨it, hi, hp⟩
      | esc c => simp [Item.syms, identLoop]
      | sq l => simp [Item.syms, identLoop]
      | dq l => simp [Item.syms, identLoop]

/-- **C78** A document is expanded if and only if no piece of its delimiter is quoted. -/
theorem ioeval_partial (its : List Item) (hne : its ≠ []) (hlen : its.length < 64) : ioeval (its.flatMap Item.syms) = true ↔ ∀ it ∈ its, it.isPlain = true := by
  unfold ioeval
  simp only [decide_eq_true_eq]
  by_cases h : ∀ it ∈ its, it.isPlain = true
  · refine ⟨fun _ => h, fun _ => ?_⟩
    rw [ident_plain IDENT its [] h hlen]
    cases its with
    | nil => exact absurd rfl hne
    | cons it its =>
      have h0 := h it (by simp)
      cases it with
      | plain c => simp [Item.value]
      | esc c => simp [Item.isPlain] at h0
      | sq l => simp [Item.isPlain] at h0
      | dq l => simp [Item.isPlain] at h0
  · have : ∃ it ∈ its, it.isPlain = false := by
      refine Classical.byContradiction fun hn => h fun it hi => ?_
      cases hp : it.isPlain with
      | true => rfl
      | false => exact absurd ⟨it, hi, hp⟩ hn
    rw [ident_quoted IDENT its [] this]
    exact ⟨fun h' => absurd rfl h', fun h' => absurd h' h⟩

/-- **C78, violated** A delimiter of 64 characters or more counts as quoted. -/
theorem long_delim (its : List Item) (hlen : 64 ≤ its.length) : ioeval (its.flatMap Item.syms) = false := by
  have key : ∀ (n : Nat) (its : List Item) (acc : List Char), n ≤ its.length → identLoop n (its.flatMap Item.syms) acc = [] := by
    intro n
    induction n with
    | zero => intro its acc _; rfl
    | succ n ih =>
      intro its acc h
      cases its with
      | nil => simp at h
      | cons it its =>
        simp only [List.length_cons] at h
        cases it with
        | plain c =>
          simp only [List.flatMap_cons, Item.syms, List.cons_append, List.nil_append, identLoop]
          exact ih its _ (by omega)
        | esc c => simp [Item.syms, identLoop]
        | sq l => simp [Item.syms, identLoop]
        | dq l => simp [Item.syms, identLoop]
  unfold ioeval
  rw [key IDENT its [] hlen]
  rfl

/-- **C78, violated** A delimiter with a newline in it is missed after a line that begins like it. -/
theorem delim_newline : readhere true false ['a', '\n', 'b'] 10 ['a', '\n', 'a', '\n', 'b', '\n'] 0 [] = none ∧
    readhere true false ['a', '\n', 'b'] 10 ['a', '\n', 'b', '\n'] 0 [] = some ([], [], 0) := by
  decide +kernel

/-- **C78** From the delimiter to what the command reads. -/
theorem heredoc_partial (env : List Char → List Char) (its : List Item) (hne : its ≠ []) (hlen : its.length < 64) (hnl : '\n' ∉ its.flatMap Item.value)
    (skip : Bool) {i : List Char} {docs : List (List Char)} {i' : List Char} {sk' : Nat} (h : gethere [⟨skip, its.flatMap Item.syms⟩] i 0 = some (docs, i', sk')) :
    ∃ doc, docs = [doc] ∧
      ((∃ it ∈ its, it.isPlain = false) → Doc skip (its.flatMap Item.value) i doc i' ∧ herein env (ioeval (its.flatMap Item.syms)) doc = some doc) ∧
      ((∀ it ∈ its, it.isPlain = true) → Doc skip (its.flatMap Item.value) (join i) doc (join i') ∧ herein env (ioeval (its.flatMap Item.syms)) doc = means env doc) := by
  have hs := gethere_spec [⟨skip, its.flatMap Item.syms⟩] (by simpa [delim_text] using hnl) (Or.inl rfl) h
  simp only [List.map_cons, List.map_nil, Docs, delim_text] at hs
  obtain ⟨doc, docs', i1, h1, h2, h3, rfl, rfl⟩ := hs
  have hiff := ioeval_partial its hne hlen
  refine ⟨doc, h1, fun hq => ?_, fun hp => ?_⟩
  · have he : ioeval (its.flatMap Item.syms) = false := by
      cases hc : ioeval (its.flatMap Item.syms) with
      | false => rfl
      | true =>
        obtain ⟨it, hi, hp⟩ := hq
        rw [hiff.1 hc it hi] at hp; cases hp
    rw [he] at h3 ⊢
    exact ⟨by simpa using h3, rfl⟩
  · have he := hiff.2 hp
    rw [he] at h3 ⊢
    simp only [if_true] at h3
    exact ⟨h3, by rw [(herein_spec env doc).2, doc_joined h3]⟩

/-! ## Examples -/

/-- `<<-EOF` with tabs, a joined line and a parameter -/
example : gethere [⟨true, ['E', 'O', 'F'].map .chr⟩] ['\t', 'a', ' ', '$', 'x', '\\', '\n', 'y', '\n', '\t', 'E', 'O', 'F', '\n', 'z'] 0 =
    some ([['a', ' ', '$', 'x', 'y', '\n']], ['z'], 0) := by decide +kernel

/-- with a quoted delimiter nothing is joined -/
example : gethere [⟨false, ['E', 'O', 'F'].map .qchr⟩] ['$', 'x', '\\', '\n', 'E', 'O', 'F', '\n', 'z'] 0 =
    some ([['$', 'x', '\\', '\n']], ['z'], 0) := by decide +kernel

/-- two documents -/
example : gethere [⟨false, [.chr 'A']⟩, ⟨false, [.chr 'B']⟩] ['1', '\n', 'A', '\n', '2', '\n', 'B', '\n', 'z'] 0 =
    some ([['1', '\n'], ['2', '\n']], ['z'], 0) := by decide +kernel

example : herein (fun n => if n = ['x'] then ['v'] else []) true ['$', 'x', ' ', '\\', '$', 'x', ' ', '\\', 'n', '"', '\n'] =
    some ['v', ' ', '$', 'x', ' ', '\\', 'n', '"', '\n'] := by decide +kernel

/-- `'E'\O"F"` -/
example : ∃ n, delimLoop n .plain ['\'', 'E', '\'', '\\', 'O', '"', 'F', '"', '\n'] 0 [] =
    some ([.oq, .qchr 'E', .cq, .qchr 'O', .oq, .chr 'F', .cq], ['\n']) :=
  delim_word [.sq ['E'], .esc 'O', .dq [(false, 'F')]] (by
    intro it h
    simp only [List.mem_cons, List.not_mem_nil, or_false] at h
    rcases h with rfl | rfl | rfl <;> simp [Item.Ok]) '\n' [] (by decide) 0 [] (by decide)

end Ksh.Here
