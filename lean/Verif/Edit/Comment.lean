import Verif.Edit.Model
/-!
# C51: the editor's comment command

The specification works on lines: `commented` puts `#` in front of every line,
`uncommented` takes one `#` off every line that has one.
-/

namespace Ksh.Edit

/-! ## Specification -/

/-- The lines of a text; a text without newline is one line. -/
def lines : List Char → List (List Char)
  | [] => [[]]
  | c :: l =>
    if c = '\n' then [] :: lines l
    else
      match lines l with
      | [] => [[c]]
      | x :: xs => (c :: x) :: xs

/-- Join lines with newlines. -/
def unlines : List (List Char) → List Char
  | [] => []
  | [x] => x
  | x :: y :: xs => x ++ '\n' :: unlines (y :: xs)

def commented (t : List Char) : List Char := unlines ((lines t).map ('#' :: ·))

/-- one leading `#` off -/
def dropHash : List Char → List Char
  | '#' :: l => l
  | l => l

def uncommented (t : List Char) : List Char := unlines ((lines t).map dropHash)

/-! ## Facts about the specification -/

theorem lines_ne (t : List Char) : lines t ≠ [] := by
  cases t with
  | nil => simp [lines]
  | cons c l =>
    simp only [lines]
    split
    · simp
    · split <;> simp

theorem unlines_lines (t : List Char) : unlines (lines t) = t := by
  induction t with
  | nil => rfl
  | cons c l ih =>
    simp only [lines]
    have hne := lines_ne l
    generalize lines l = ls at ih hne
    cases ls with
    | nil => exact absurd rfl hne
    | cons x xs =>
      split
      · next h => simp [unlines, ih, h]
      · cases xs with
        | nil => simp only [unlines] at ih ⊢; rw [ih]
        | cons y ys => simp only [unlines, List.cons_append] at ih ⊢; rw [ih]

theorem lines_append_nl (x t : List Char) (hx : '\n' ∉ x) : lines (x ++ '\n' :: t) = x :: lines t := by
  induction x with
  | nil => simp [lines]
  | cons c x ih =>
    simp only [List.mem_cons, not_or] at hx
    simp only [List.cons_append, lines]
    rw [if_neg (Ne.symm hx.1), ih hx.2]

theorem lines_plain (x : List Char) (hx : '\n' ∉ x) : lines x = [x] := by
  induction x with
  | nil => rfl
  | cons c x ih =>
    simp only [List.mem_cons, not_or] at hx
    simp only [lines]
    rw [if_neg (Ne.symm hx.1), ih hx.2]

theorem lines_unlines : ∀ (ls : List (List Char)), ls ≠ [] → (∀ x ∈ ls, '\n' ∉ x) →
    lines (unlines ls) = ls
  | [], h, _ => absurd rfl h
  | [x], _, h => lines_plain x (h x List.mem_cons_self)
  | x :: y :: xs, _, h => by
    simp only [unlines]
    rw [lines_append_nl _ _ (h x List.mem_cons_self),
      lines_unlines (y :: xs) (by simp) (fun z hz => h z (List.mem_cons_of_mem _ hz))]

theorem lines_no_nl (t : List Char) : ∀ x ∈ lines t, '\n' ∉ x := by
  induction t with
  | nil => simp [lines]
  | cons c l ih =>
    simp only [lines]
    split
    · intro x hx
      simp only [List.mem_cons] at hx
      rcases hx with rfl | hx
      · simp
      · exact ih x hx
    · next hc =>
      split
      · simp [Ne.symm hc]
      · next y ys hy =>
        rw [hy] at ih
        intro x hx
        simp only [List.mem_cons] at hx
        rcases hx with rfl | hx
        · simp only [List.mem_cons, not_or]
          exact ⟨Ne.symm hc, ih y List.mem_cons_self⟩
        · exact ih x (List.mem_cons_of_mem _ hx)

/-- The specifications undo each other, in this order. -/
theorem uncommented_commented (t : List Char) : uncommented (commented t) = t := by
  simp only [uncommented, commented]
  rw [lines_unlines]
  · rw [List.map_map]
    have : (dropHash ∘ fun x => '#' :: x) = id := rfl
    rw [this, List.map_id, unlines_lines]
  · simp [lines_ne]
  · intro x hx
    simp only [List.mem_map] at hx
    obtain ⟨y, hy, rfl⟩ := hx
    simp only [List.mem_cons, not_or]
    exact ⟨by decide, lines_no_nl t y hy⟩

/-- `commented` one character at a time. -/
def mark (t : List Char) : List Char := t.flatMap (fun c => if c = '\n' then ['\n', '#'] else [c])

theorem commented_eq (t : List Char) : commented t = '#' :: mark t := by
  simp only [commented]
  induction t with
  | nil => rfl
  | cons c l ih =>
    simp only [lines, mark, List.flatMap_cons]
    have hne := lines_ne l
    generalize lines l = ls at ih hne
    cases ls with
    | nil => exact absurd rfl hne
    | cons x xs =>
      split
      · next h =>
        simp only [List.map_cons, unlines] at ih ⊢
        rw [ih]; rfl
      · cases xs with
        | nil =>
          simp only [List.map_cons, List.map_nil, unlines, List.cons.injEq, true_and] at ih ⊢
          rw [ih]; rfl
        | cons y ys =>
          simp only [List.map_cons, unlines, List.cons_append, List.cons.injEq, true_and] at ih ⊢
          rw [ih]; rfl

/-- `uncommented` one character at a time. -/
def strip : Bool → List Char → List Char
  | _, [] => []
  | saw, c :: l => if !saw || c != '#' then c :: strip (c == '\n') l else strip (c == '\n') l

theorem dropHash_ne {c : Char} (x : List Char) (h : c ≠ '#') : dropHash (c :: x) = c :: x := by
  unfold dropHash
  split
  · next h' => injection h' with h' _; exact absurd h' h
  · rfl

theorem strip_eq (l : List Char) :
    strip true l = unlines ((lines l).map dropHash) ∧
    ∀ x xs, lines l = x :: xs → strip false l = unlines (x :: xs.map dropHash) := by
  induction l with
  | nil =>
    refine ⟨rfl, ?_⟩
    intro x xs h
    simp only [lines, List.cons.injEq] at h
    obtain ⟨rfl, rfl⟩ := h; rfl
  | cons c l ih =>
    obtain ⟨ih1, ih2⟩ := ih
    obtain ⟨y, ys, hy⟩ : ∃ y ys, lines l = y :: ys := by
      cases hl : lines l with
      | nil => exact absurd hl (lines_ne l)
      | cons y ys => exact ⟨y, ys, rfl⟩
    have ih2 := ih2 y ys hy
    by_cases hc : c = '\n'
    · subst hc
      have hs : ∀ saw, strip saw ('\n' :: l) = '\n' :: strip true l := by
        intro saw; cases saw <;> rfl
      have hl : lines ('\n' :: l) = [] :: lines l := by simp [lines]
      constructor
      · rw [hs, hl, ih1, hy]; rfl
      · intro x xs h
        rw [hl] at h
        injection h with h1 h2
        subst h1; subst h2
        rw [hs, ih1, hy]; rfl
    · have hl : lines (c :: l) = (c :: y) :: ys := by
        simp only [lines]; rw [if_neg hc, hy]
      have hcb : (c == '\n') = false := by simp [hc]
      have hcons : ∀ z : List (List Char), unlines ((c :: y) :: z) = c :: unlines (y :: z) := by
        intro z; cases z <;> simp [unlines]
      have hf : strip false (c :: l) = c :: strip false l := by
        simp [strip, hcb]
      constructor
      · rw [hl]
        by_cases hh : c = '#'
        · subst hh
          have : strip true ('#' :: l) = strip false l := rfl
          rw [this, ih2]; rfl
        · have : strip true (c :: l) = c :: strip false l := by
            simp [strip, hh, hcb]
          rw [this, ih2, List.map_cons, dropHash_ne _ hh, hcons]
      · intro x xs h
        rw [hl] at h
        injection h with h1 h2
        subst h1; subst h2
        rw [hf, ih2, hcons]

theorem strip_uncommented (l : List Char) : strip false l = uncommented ('#' :: l) := by
  obtain ⟨y, ys, hy⟩ : ∃ y ys, lines l = y :: ys := by
    cases hl : lines l with
    | nil => exact absurd hl (lines_ne l)
    | cons y ys => exact ⟨y, ys, rfl⟩
  have hl : lines ('#' :: l) = ('#' :: y) :: ys := by
    simp only [lines]; rw [if_neg (by decide), hy]
  rw [(strip_eq l).2 y ys hy]
  simp only [uncommented, hl]; rfl

/-! ## The loops -/

theorem rd_lt {buf : List Char} {i : Nat} (h : i < buf.length) : ∃ c, rd buf i = some c ∧ buf[i] = c :=
  ⟨buf[i], by simp [rd, h], rfl⟩

theorem countNl_spec (buf : List Char) : ∀ n, n ≤ buf.length → countNl buf n = some ((buf.take n).count '\n') := by
  intro n
  induction n with
  | zero => intro _; simp [countNl]
  | succ n ih =>
    intro h
    obtain ⟨c, hc, hc'⟩ := rd_lt (buf := buf) (i := n) (by omega)
    simp only [countNl, ih (by omega), hc]
    rw [List.take_succ_eq_append_getElem (by omega), List.count_append, hc']
    by_cases h : c = '\n'
    · simp [h]
    · have : (c == '\n') = false := by simp [h]
      simp [this, h]

theorem mark_snoc (l : List Char) (c : Char) :
    mark (l ++ [c]) = mark l ++ (if c = '\n' then ['\n', '#'] else [c]) := by
  simp [mark, List.flatMap_append]

theorem mark_length (l : List Char) : (mark l).length = l.length + l.count '\n' := by
  induction l with
  | nil => rfl
  | cons c l ih =>
    simp only [mark, List.flatMap_cons, List.length_append, List.length_cons, List.count_cons] at ih ⊢
    rw [ih]
    by_cases h : c = '\n'
    · simp [h]; omega
    · simp [h]; omega

theorem drop_set_self (l : List Char) (n : Nat) (c : Char) (h : n < l.length) :
    (l.set n c).drop n = c :: l.drop (n+1) := by
  rw [List.drop_set]
  simp only [Nat.lt_irrefl, if_false, Nat.sub_self]
  rw [List.drop_eq_getElem_cons h]; rfl

theorem comment_spec_loop (bsize : Nat) : ∀ (i : Nat) (buf : List Char) (j : Nat),
    j = i + (buf.take i).count '\n' + 1 → j ≤ bsize → bsize ≤ buf.length →
    ∃ buf', comment bsize i buf j = some buf' ∧ buf'.length = buf.length ∧
      buf'.drop 1 = mark (buf.take i) ++ buf.drop j := by
  intro i
  induction i with
  | zero =>
    intro buf j hj _ _
    simp only [List.take_zero, List.count_nil] at hj
    subst hj
    exact ⟨buf, rfl, rfl, by simp [mark]⟩
  | succ i ih =>
    intro buf j hj hb hl
    have hcl := List.count_le_length (a := '\n') (l := buf.take (i+1))
    have hi : i < buf.length := by omega
    obtain ⟨c, hc, hc'⟩ := rd_lt hi
    have ht : buf.take (i+1) = buf.take i ++ [c] := by
      rw [List.take_succ_eq_append_getElem hi, hc']
    rw [ht, List.count_append] at hj
    simp only [comment, hc]
    by_cases hn : c = '\n'
    · subst hn
      simp only [List.count_singleton_self] at hj
      simp only [beq_self_eq_true, if_true]
      have hj2 : j - 2 + 1 + 1 = j := by omega
      rw [if_neg (by omega)]
      have hw1 : wr bsize buf (j-1) '#' = some (buf.set (j-1) '#') := by
        rw [wr, if_pos (by omega)]
      simp only [hw1]
      have hr : rd (buf.set (j-1) '#') i = some '\n' := by
        simp only [rd] at hc ⊢
        rw [List.getElem?_set_ne (by omega), hc]
      simp only [hr]
      have hw2 : wr bsize (buf.set (j-1) '#') (j-2) '\n' = some ((buf.set (j-1) '#').set (j-2) '\n') := by
        rw [wr, if_pos (by simp; omega)]
      simp only [hw2]
      have htk : ((buf.set (j-1) '#').set (j-2) '\n').take i = buf.take i := by
        rw [List.take_set_of_le (by omega), List.take_set_of_le (by omega)]
      obtain ⟨buf', h1, h2, h3⟩ := ih ((buf.set (j-1) '#').set (j-2) '\n') (j-2)
        (by rw [htk]; omega) (by omega) (by simpa using hl)
      refine ⟨buf', h1, by simpa using h2, ?_⟩
      rw [h3, htk, ht, mark_snoc, drop_set_self _ _ _ (by simp; omega)]
      have : j - 2 + 1 = j - 1 := by omega
      rw [this, drop_set_self _ _ _ (by omega)]
      have : j - 1 + 1 = j := by omega
      rw [this]; simp
    · have hnb : (c == '\n') = false := by simp [hn]
      have hcnt : [c].count '\n' = 0 := by simp [hn]
      rw [hcnt] at hj
      simp only [hnb, Bool.false_eq_true, if_false]
      rw [if_neg (by omega)]
      have hw1 : wr bsize buf (j-1) c = some (buf.set (j-1) c) := by
        rw [wr, if_pos (by omega)]
      simp only [hw1]
      have htk : (buf.set (j-1) c).take i = buf.take i := by
        rw [List.take_set_of_le (by omega)]
      obtain ⟨buf', h1, h2, h3⟩ := ih (buf.set (j-1) c) (j-1)
        (by rw [htk]; omega) (by omega) (by simpa using hl)
      refine ⟨buf', h1, by simpa using h2, ?_⟩
      rw [h3, htk, ht, mark_snoc, drop_set_self _ _ _ (by omega)]
      have : j - 1 + 1 = j := by omega
      rw [this, if_neg hn]; simp

theorem uncomment_spec_loop (bsize len : Nat) : ∀ (k : Nat) (buf : List Char) (j : Nat) (saw : Bool),
    k < len → j < len - k → len ≤ bsize → bsize ≤ buf.length →
    ∃ buf' j', uncomment bsize len k buf j saw = some (buf', j') ∧ buf'.length = buf.length ∧
      j' ≤ len - 1 ∧ buf'.take j' = buf.take j ++ strip saw ((buf.take len).drop (len - k)) ∧
      buf'.drop len = buf.drop len := by
  intro k
  induction k with
  | zero =>
    intro buf j saw _ hj _ _
    refine ⟨buf, j, rfl, rfl, by omega, ?_, rfl⟩
    have : (buf.take len).drop (len - 0) = [] := by simp
    rw [this]; simp [strip]
  | succ k ih =>
    intro buf j saw hk hj hl hb
    obtain ⟨c, hc, hc'⟩ := rd_lt (buf := buf) (i := len - (k+1)) (by omega)
    have hseg : (buf.take len).drop (len - (k+1)) = c :: (buf.take len).drop (len - k) := by
      rw [List.drop_eq_getElem_cons (by simp; omega)]
      have : len - (k+1) + 1 = len - k := by omega
      rw [this]
      simp [hc']
    rw [hseg]
    simp only [uncomment, hc, strip]
    by_cases hcond : (!saw || c != '#') = true
    · simp only [hcond, if_true]
      have hw : wr bsize buf j c = some (buf.set j c) := by rw [wr, if_pos (by omega)]
      simp only [hw]
      have hr : rd (buf.set j c) (len - (k+1)) = some c := by
        simp only [rd] at hc ⊢
        rw [List.getElem?_set_ne (by omega), hc]
      simp only [hr]
      obtain ⟨buf', j', h1, h2, h3, h4, h5⟩ := ih (buf.set j c) (j+1) (c == '\n')
        (by omega) (by omega) hl (by simpa using hb)
      refine ⟨buf', j', h1, by simpa using h2, h3, ?_, ?_⟩
      · rw [h4]
        have ht : (buf.set j c).take (j+1) = buf.take j ++ [c] := by
          rw [List.take_succ_eq_append_getElem (by simp; omega), List.take_set_of_le (by omega)]
          simp
        have hd : ((buf.set j c).take len).drop (len - k) = (buf.take len).drop (len - k) := by
          rw [List.drop_take, List.drop_take, List.drop_set, if_pos (by omega)]
        rw [ht, hd]; simp
      · rw [h5, List.drop_set, if_pos (by omega)]
    · simp only [hcond]
      obtain ⟨buf', j', h1, h2, h3, h4, h5⟩ := ih buf j (c == '\n')
        (by omega) (by omega) hl hb
      exact ⟨buf', j', h1, h2, h3, h4, h5⟩

/-! ## The command -/

/-- Number of lines of the text, the number of `#`s to add. -/
def nlines (t : List Char) : Nat := t.count '\n' + 1

/-- A line that does not begin with `#` and fits: every line of it gets a `#`; the buffer
beyond the new text is not touched. -/
theorem comments (buf : List Char) (bsize len : Nat) (hb : bsize ≤ buf.length) (hl : len ≤ bsize)
    (hne : 0 < len) (hh : buf[0]? ≠ some '#') (hroom : len + nlines (buf.take len) < bsize) :
    ∃ buf' len', doComment buf bsize len = some (1, buf', len') ∧
      buf'.take len' = commented (buf.take len) ∧ buf'.drop len' = buf.drop len' ∧
      buf'.length = buf.length ∧ len' = len + nlines (buf.take len) := by
  obtain ⟨c, hc, hc'⟩ := rd_lt (buf := buf) (i := 0) (by omega)
  have hcn : (c == '#') = false := by
    simp only [rd] at hc
    rw [hc] at hh
    simpa using hh
  simp only [doComment]
  rw [if_neg (by omega)]
  simp only [hc, hcn, Bool.false_eq_true, if_false, countNl_spec buf len (by omega)]
  simp only [nlines] at hroom ⊢
  rw [if_neg (by omega)]
  obtain ⟨b1, h1, h2, h3⟩ := comment_spec_loop bsize len buf (len + ((buf.take len).count '\n' + 1))
    (by omega) (by omega) hb
  simp only [h1]
  have hw : wr bsize b1 0 '#' = some (b1.set 0 '#') := by rw [wr, if_pos (by omega)]
  simp only [hw]
  have hset : b1.set 0 '#' = commented (buf.take len) ++ buf.drop (len + ((buf.take len).count '\n' + 1)) := by
    cases b1 with
    | nil => simp at h2; omega
    | cons x b1 => simp only [List.drop_one, List.tail_cons] at h3; simp [h3, commented_eq]
  have hlen : (commented (buf.take len)).length = len + ((buf.take len).count '\n' + 1) := by
    rw [commented_eq, List.length_cons, mark_length, List.length_take]; omega
  refine ⟨_, _, rfl, ?_, ?_, by simp [h2], rfl⟩
  · rw [hset, ← hlen]; simp
  · rw [hset, ← hlen]; simp

/-- No room: nothing happens. -/
theorem no_room (buf : List Char) (bsize len : Nat) (hb : bsize ≤ buf.length) (hl : len ≤ bsize)
    (hne : 0 < len) (hh : buf[0]? ≠ some '#') (hroom : bsize ≤ len + nlines (buf.take len)) :
    doComment buf bsize len = some (-1, buf, len) := by
  obtain ⟨c, hc, hc'⟩ := rd_lt (buf := buf) (i := 0) (by omega)
  have hcn : (c == '#') = false := by
    simp only [rd] at hc
    rw [hc] at hh
    simpa using hh
  simp only [doComment]
  rw [if_neg (by omega)]
  simp only [hc, hcn, Bool.false_eq_true, if_false, countNl_spec buf len (by omega)]
  simp only [nlines] at hroom
  rw [if_pos (by omega)]

/-- A line that begins with `#`: one `#` is taken off every line that has one. -/
theorem uncomments (buf : List Char) (bsize len : Nat) (hb : bsize ≤ buf.length) (hl : len ≤ bsize)
    (hne : 0 < len) (hh : buf[0]? = some '#') :
    ∃ buf' len', doComment buf bsize len = some (0, buf', len') ∧
      buf'.take len' = uncommented (buf.take len) ∧ buf'.drop len = buf.drop len ∧
      buf'.length = buf.length ∧ len' < len := by
  simp only [doComment]
  rw [if_neg (by omega)]
  simp only [rd, hh, beq_self_eq_true, if_true]
  obtain ⟨b1, j1, h1, h2, h3, h4, h5⟩ := uncomment_spec_loop bsize len (len - 1) buf 0 false
    (by omega) (by omega) hl hb
  simp only [h1]
  refine ⟨_, _, rfl, ?_, h5, h2, by omega⟩
  have hcons : buf.take len = '#' :: (buf.take len).drop (len - (len - 1)) := by
    have : len - (len - 1) = 1 := by omega
    rw [this]
    cases buf with
    | nil => simp at hh
    | cons x b =>
      simp only [List.getElem?_cons_zero, Option.some.injEq] at hh
      subst hh
      obtain ⟨m, rfl⟩ : ∃ m, len = m + 1 := ⟨len - 1, by omega⟩
      simp
  rw [h4, strip_uncommented]
  simp only [List.take_zero, List.nil_append]
  rw [← hcons]

/-- The command never reads or writes outside the buffer, and never makes the line longer
than the buffer. -/
theorem doComment_safe (buf : List Char) (bsize len : Nat) (hb : bsize ≤ buf.length) (hl : len ≤ bsize) :
    ∃ ret buf' len', doComment buf bsize len = some (ret, buf', len') ∧ buf'.length = buf.length ∧
      len' ≤ bsize ∧ buf'.drop bsize = buf.drop bsize := by
  by_cases h0 : len = 0
  · exact ⟨1, buf, len, by simp [doComment, h0], rfl, hl, rfl⟩
  · by_cases hh : buf[0]? = some '#'
    · obtain ⟨b, l, h1, _, h3, h4, h5⟩ := uncomments buf bsize len hb hl (by omega) hh
      refine ⟨0, b, l, h1, h4, by omega, ?_⟩
      have := congrArg (List.drop (bsize - len)) h3
      rwa [List.drop_drop, List.drop_drop, Nat.add_sub_cancel' hl] at this
    · by_cases hr : len + nlines (buf.take len) < bsize
      · obtain ⟨b, l, h1, _, h3, h4, h5⟩ := comments buf bsize len hb hl (by omega) hh hr
        refine ⟨1, b, l, h1, h4, by omega, ?_⟩
        have := congrArg (List.drop (bsize - l)) h3
        rwa [List.drop_drop, List.drop_drop, Nat.add_sub_cancel' (by omega)] at this
      · exact ⟨-1, buf, len, no_room buf bsize len hb hl (by omega) hh (by omega), rfl, hl, rfl⟩

theorem commented_head (t : List Char) : ∃ r, commented t = '#' :: r := ⟨mark t, commented_eq t⟩

/-- C51 (partial): commenting twice gives back the line, when the line does not begin with
`#` (and has room for the `#`s).  Missing: lines that begin with `#` (`comment_not_undone`,
`comment_twice_off`). -/
theorem comment_twice_partial (buf : List Char) (bsize len : Nat) (hb : bsize ≤ buf.length)
    (hl : len ≤ bsize) (hne : 0 < len) (hh : buf[0]? ≠ some '#')
    (hroom : len + nlines (buf.take len) < bsize) :
    ∃ b1 l1 b2 l2, doComment buf bsize len = some (1, b1, l1) ∧
      doComment b1 bsize l1 = some (0, b2, l2) ∧ b2.take l2 = buf.take len ∧ l2 = len := by
  obtain ⟨b1, l1, h1, h2, h3, h4, h5⟩ := comments buf bsize len hb hl hne hh hroom
  obtain ⟨r, hr⟩ := commented_head (buf.take len)
  have hhead : b1[0]? = some '#' := by
    have : (b1.take l1)[0]? = some '#' := by rw [h2, hr]; rfl
    rw [List.getElem?_take] at this
    split at this
    · exact this
    · cases this
  obtain ⟨b2, l2, g1, g2, g3, g4, g5⟩ := uncomments b1 bsize l1 (by omega) (by omega) (by omega) hhead
  have ht : b2.take l2 = buf.take len := by rw [g2, h2, uncommented_commented]
  refine ⟨b1, l1, b2, l2, h1, g1, ht, ?_⟩
  have := congrArg List.length ht
  simp only [List.length_take] at this
  omega

/-- The line `#a` newline `b`: uncommented it is `a` newline `b`, commented again
`#a` newline `#b`. -/
theorem comment_not_undone :
    doComment ['#', 'a', '\n', 'b', 'x', 'x', 'x', 'x'] 8 4 =
      some (0, ['a', '\n', 'b', 'b', 'x', 'x', 'x', 'x'], 3) ∧
    doComment ['a', '\n', 'b', 'b', 'x', 'x', 'x', 'x'] 8 3 =
      some (1, ['#', 'a', '\n', '#', 'b', 'x', 'x', 'x'], 5) := by
  decide

/-- The line `##a` is uncommented twice. -/
theorem comment_twice_off :
    doComment ['#', '#', 'a', 'x', 'x', 'x'] 6 3 = some (0, ['#', 'a', 'a', 'x', 'x', 'x'], 2) ∧
    doComment ['#', 'a', 'a', 'x', 'x', 'x'] 6 2 = some (0, ['a', 'a', 'a', 'x', 'x', 'x'], 1) := by
  decide

/-- A buffer with three lines, the last one empty. -/
example : doComment "ls\npwd\n_________".toList 16 7 = some (1, "#ls\n#pwd\n#______".toList, 10) ∧
    doComment "#ls\n#pwd\n#______".toList 16 10 = some (0, "ls\npwd\nd\n#______".toList, 7) ∧
    commented "ls\npwd\n".toList = "#ls\n#pwd\n#".toList := by
  decide

example : doComment "ls\npwd\n___".toList 10 7 = some (-1, "ls\npwd\n___".toList, 7) := by decide

end Ksh.Edit
