import Verif.Menu.Model
import Mathlib.Data.List.Nodup
/-!
# Lists in columns and the select command: the properties (C96, C97)
-/

namespace Ksh.Menu

/-! ## The grid -/

/-- There is room for everything, and no column is needed only for the room. -/
theorem grid_room (x n mw : Nat) (prefcol : Bool) : n ≤ (grid x n mw prefcol).1 * (grid x n mw prefcol).2 ∧
    0 < (grid x n mw prefcol).2 ∧ ((grid x n mw prefcol).2 = 1 ∨ (grid x n mw prefcol).2 * (mw + 1) ≤ x) := by
  simp only [grid]
  generalize hcols : (if x / (mw + 1) = 0 then 1 else x / (mw + 1)) = cols
  have hpos : 0 < cols := by
    rw [← hcols]
    split
    · omega
    · next h => exact Nat.pos_of_ne_zero h
  have hfit : cols = 1 ∨ cols * (mw + 1) ≤ x := by
    rw [← hcols]
    split
    · exact .inl rfl
    · exact .inr (Nat.div_mul_le_self _ _)
  generalize hrows : (n + cols - 1) / cols = rows
  have hroom : n ≤ rows * cols := by
    have h := Nat.div_add_mod (n + cols - 1) cols
    have h' := Nat.mod_lt (n + cols - 1) hpos
    rw [hrows] at h
    rw [Nat.mul_comm]
    omega
  split
  · next h =>
    simp only [Bool.and_eq_true, bne_iff_ne, ne_eq, decide_eq_true_eq] at h
    have hrp : 0 < rows := by
      rcases Nat.eq_zero_or_pos rows with h0 | h0
      · rw [h0] at hroom; simp at hroom; omega
      · exact h0
    refine ⟨?_, hrp, ?_⟩
    · split
      · exact Nat.le_mul_of_pos_right n hrp
      · rw [Nat.mul_comm]; exact hroom
    · rcases hfit with h1 | h1
      · omega
      · exact .inr (Nat.le_trans (Nat.mul_le_mul_right _ (by omega)) h1)
  · exact ⟨hroom, hpos, hfit⟩

theorem gap_pos (x mw cols : Nat) : 0 < gap x mw cols := by
  unfold gap
  split
  · omega
  · next h => exact Nat.pos_of_ne_zero h

/-- The columns with their gaps fit on the screen. -/
theorem gap_fits {x mw cols : Nat} (hc : 0 < cols) (h : cols * (mw + 1) ≤ x) : cols * (mw + gap x mw cols) ≤ x := by
  have h1 : cols * mw + cols ≤ x := by rw [Nat.mul_add, Nat.mul_one] at h; exact h
  have h2 : mw * cols = cols * mw := Nat.mul_comm _ _
  have hq : 0 < (x - mw * cols) / cols := Nat.div_pos (by omega) hc
  rw [gap, if_neg (by omega), Nat.mul_add]
  have := Nat.mul_div_le (x - mw * cols) cols
  omega

theorem length_ljust {w : Nat} {s : List Char} (h : s.length ≤ w) : (ljust w s).length = w := by
  simp [ljust, spaces]; omega

theorem length_flatMap_const {α : Type} {f : α → List Char} {k : Nat} : ∀ (l : List α), (∀ a ∈ l, (f a).length = k) →
    (l.flatMap f).length = l.length * k
  | [], _ => by simp
  | a :: l, h => by
    rw [List.flatMap_cons, List.length_append, h a (by simp), length_flatMap_const l (fun a ha => h a (by simp [ha])),
      List.length_cons, Nat.add_mul]
    omega

theorem length_flatMap_le {α : Type} {f : α → List Char} {k : Nat} : ∀ (l : List α), (∀ a ∈ l, (f a).length ≤ k) →
    (l.flatMap f).length ≤ l.length * k
  | [], _ => by simp
  | a :: l, h => by
    have h1 := h a (by simp)
    have h2 := length_flatMap_le l (fun a ha => h a (by simp [ha]))
    rw [List.flatMap_cons, List.length_append, List.length_cons, Nat.add_mul]
    omega

theorem range_split {a b : Nat} (h : a < b) :
    List.range b = List.range a ++ a :: (List.range (b - a - 1)).map (a + 1 + ·) := by
  have : b = a + ((b - a - 1) + 1) := by omega
  conv => lhs; rw [this, List.range_add, List.range_succ_eq_map]
  simp only [List.map_cons, Nat.add_zero, List.map_map]
  congr 2
  apply List.map_congr_left
  intro k _
  simp [Function.comp]; omega

/-- A row has its cells where the table wants them. -/
theorem row_cell {n rows cols cw sp : Nat} {ent : Nat → List Char} {i : Nat} (hi : i < n) (hr : 0 < rows) (hn : n ≤ rows * cols)
    (hw : ∀ j, j < n → (ent j).length ≤ cw) :
    ∃ a b, row n rows cols cw sp ent (i % rows) = a ++ ent i ++ b ∧ a.length = i / rows * (cw + sp) := by
  have hdm : i / rows * rows + i % rows = i := by rw [Nat.mul_comm]; exact Nat.div_add_mod i rows
  have hc : i / rows < cols := by
    rw [Nat.div_lt_iff_lt_mul hr, Nat.mul_comm]; omega
  unfold row
  rw [range_split hc, List.flatMap_append, List.flatMap_cons]
  rw [hdm, if_pos hi, ljust]
  simp only [List.append_assoc]
  refine ⟨_, _, rfl, ?_⟩
  rw [length_flatMap_const (k := cw + sp)]
  · simp
  · intro c hc'
    simp only [List.mem_range] at hc'
    have : (c + 1) * rows ≤ i / rows * rows := Nat.mul_le_mul_right _ hc'
    rw [Nat.add_mul] at this
    have hlt : c * rows + i % rows < n := by omega
    rw [if_pos hlt, if_pos (by omega), List.length_append, length_ljust (hw _ hlt)]
    simp [spaces]

theorem row_width {n rows cols mw sp : Nat} {ent : Nat → List Char} {r : Nat} (hc : 1 < cols)
    (hw : ∀ j, j < n → (ent j).length ≤ mw) :
    (row n rows cols mw sp ent r).length + sp ≤ cols * (mw + sp) := by
  obtain ⟨k, rfl⟩ : ∃ k, cols = k + 1 := ⟨cols - 1, by omega⟩
  unfold row
  rw [List.range_succ, List.flatMap_append, List.length_append]
  have h1 : ((List.range k).flatMap fun c => if c * rows + r < n then
      ljust mw (ent (c * rows + r)) ++ (if c + 1 < k + 1 then spaces sp else []) else []).length ≤
      (List.range k).length * (mw + sp) := by
    apply length_flatMap_le
    intro c hc'
    split
    · next h =>
      rw [List.length_append, length_ljust (hw _ h)]
      split <;> simp [spaces]
    · simp
  rw [List.length_range] at h1
  have h2 : (List.flatMap (fun c => if c * rows + r < n then
      ljust mw (ent (c * rows + r)) ++ (if c + 1 < k + 1 then spaces sp else []) else []) [k]).length ≤ mw := by
    simp only [List.flatMap_cons, List.flatMap_nil, List.append_nil]
    split
    · next h =>
      rw [if_neg (by omega), List.append_nil, length_ljust (hw _ h)]
      exact Nat.le_refl _
    · simp
  rw [Nat.add_mul]
  omega

/-! ## Everything once -/

/-- The order in which the loops come to the elements. -/
def order (n rows cols : Nat) : List Nat :=
  (List.range rows).flatMap fun r => ((List.range cols).map fun c => c * rows + r).filter (· < n)

theorem order_perm {n rows cols : Nat} (h : n ≤ rows * cols) : (order n rows cols).Perm (List.range n) := by
  apply (List.perm_ext_iff_of_nodup ?_ List.nodup_range).mpr
  · intro i
    simp only [order, List.mem_flatMap, List.mem_range, List.mem_filter, List.mem_map, decide_eq_true_eq]
    constructor
    · rintro ⟨r, hr, ⟨c, hc, rfl⟩, hi⟩
      exact hi
    · intro hi
      have hr : 0 < rows := by
        rcases Nat.eq_zero_or_pos rows with h0 | h0
        · rw [h0] at h; simp at h; omega
        · exact h0
      refine ⟨i % rows, Nat.mod_lt _ hr, ⟨i / rows, ?_, ?_⟩, hi⟩
      · rw [Nat.div_lt_iff_lt_mul hr, Nat.mul_comm]; omega
      · rw [Nat.mul_comm]; exact Nat.div_add_mod i rows
  · rw [order, List.nodup_flatMap]
    refine ⟨fun r hr => ?_, ?_⟩
    · simp only [List.mem_range] at hr
      apply List.Nodup.filter
      refine List.Nodup.map ?_ List.nodup_range
      intro a b hab
      have : a * rows = b * rows := by simpa using hab
      exact Nat.eq_of_mul_eq_mul_right (by omega) this
    · apply List.Pairwise.imp_of_mem (R := (· < ·))
      · intro a b ha hb hab
        simp only [List.mem_range] at ha hb
        intro i hi1 hi2
        simp only [List.mem_filter, List.mem_map, List.mem_range] at hi1 hi2
        obtain ⟨⟨c, _, rfl⟩, _⟩ := hi1
        obtain ⟨⟨d, _, hd⟩, _⟩ := hi2
        have e1 : (c * rows + a) % rows = a := by
          rw [Nat.add_comm, Nat.add_mul_mod_self_right, Nat.mod_eq_of_lt ha]
        have e2 : (d * rows + b) % rows = b := by
          rw [Nat.add_comm, Nat.add_mul_mod_self_right, Nat.mod_eq_of_lt hb]
        rw [hd, e1] at e2
        omega
      · exact List.pairwise_lt_range

theorem sum_perm {a b : List Nat} (h : a.Perm b) : a.sum = b.sum := by
  induction h with
  | nil => rfl
  | cons _ _ ih => simp [ih]
  | swap => simp; omega
  | trans _ _ h1 h2 => exact h1.trans h2

theorem count_flatMap_range {ch : Char} {f : Nat → List Char} : ∀ l : List Nat,
    (l.flatMap f).count ch = (l.map fun a => (f a).count ch).sum
  | [] => by simp
  | a :: l => by rw [List.flatMap_cons, List.count_append, count_flatMap_range l]; simp

theorem count_row {n rows cols cw sp : Nat} {ent : Nat → List Char} {r : Nat} {ch : Char} (hch : ch ≠ ' ') :
    (row n rows cols cw sp ent r).count ch =
      ((((List.range cols).map fun c => c * rows + r).filter (· < n)).map fun i => (ent i).count ch).sum := by
  have hs : ∀ k, (spaces k).count ch = 0 := by
    intro k
    rw [spaces, List.count_replicate, if_neg (by simpa using Ne.symm hch)]
  unfold row
  rw [count_flatMap_range]
  induction List.range cols with
  | nil => rfl
  | cons c l ih =>
    simp only [List.map_cons, List.sum_cons, ih, List.filter_cons]
    split
    · next h =>
      rw [if_pos (show decide (c * rows + r < n) = true by simpa using h)]
      simp only [List.map_cons, List.sum_cons, List.count_append, ljust, hs]
      have : (if c + 1 < cols then spaces sp else []).count ch = 0 := by split <;> simp [hs]
      omega
    · next h => rw [if_neg (by simpa using h)]; simp

/-- What a list in columns is: the elements stand whole in the table, every element once, going down the columns, and a list of
more than one column is narrower than the screen. -/
structure Shown (x n : Nat) (text : Nat → List Char) (mw : Nat) (out : List Char) : Prop where
  /-- the lines, and the place of each element in them -/
  table : ∃ (lines : List (List Char)) (cols width : Nat), out = lines.flatMap (· ++ ['\n']) ∧
    (∀ i < n, ∃ a b, lines[i % lines.length]? = some (a ++ text i ++ b) ∧ a.length = i / lines.length * width) ∧
    n ≤ lines.length * cols ∧ (cols ≠ 1 → mw < width ∧ ∀ l ∈ lines, l.length < x)
  /-- nothing else is written -/
  once : ∀ ch, ch ≠ ' ' → ch ≠ '\n' → out.count ch = ((List.range n).map fun i => (text i).count ch).sum

theorem printColumns_shown (x n : Nat) (func : Nat → Nat → List Char) (text : Nat → List Char) (mw : Nat) (prefcol : Bool)
    (ht : ∀ i < n, func i (mw + 1) = text i) (hw : ∀ i < n, (text i).length ≤ mw) :
    Shown x n text mw (printColumns x n func mw prefcol) := by
  obtain ⟨hroom, hpos, hfit⟩ := grid_room x n mw prefcol
  simp only [printColumns]
  generalize (grid x n mw prefcol).1 = rows at *
  generalize (grid x n mw prefcol).2 = cols at *
  have hw' : ∀ j, j < n → (func j (mw + 1)).length ≤ mw := fun j hj => by rw [ht j hj]; exact hw j hj
  refine ⟨⟨(List.range rows).map (row n rows cols (colWidth mw cols) (gap x mw cols) (fun i => func i (mw + 1))), cols,
    colWidth mw cols + gap x mw cols, ?_, ?_, by simpa using hroom, ?_⟩, ?_⟩
  · rw [List.flatMap_map]
  · intro i hi
    have hr : 0 < rows := by
      rcases Nat.eq_zero_or_pos rows with h0 | h0
      · rw [h0] at hroom; simp at hroom; omega
      · exact h0
    simp only [List.length_map, List.length_range]
    rw [List.getElem?_map, List.getElem?_range (Nat.mod_lt _ hr), Option.map_some]
    by_cases h1 : cols = 1
    · subst h1
      have hilt : i < rows := by omega
      rw [Nat.mod_eq_of_lt hilt, Nat.div_eq_of_lt hilt]
      refine ⟨[], spaces (colWidth mw 1 - (text i).length), ?_, by simp⟩
      simp only [row, List.range_one, List.flatMap_cons, List.flatMap_nil, List.append_nil, Nat.zero_mul, Nat.zero_add,
        if_pos hi, ljust, ht i hi, Nat.lt_irrefl, if_false, List.nil_append]
    · obtain ⟨a, b, h1', h2'⟩ := row_cell (sp := gap x mw cols) (ent := fun i => func i (mw + 1)) hi hr hroom
        (cw := colWidth mw cols) (by rw [colWidth, if_neg h1]; exact hw')
      exact ⟨a, b, by rw [h1', ← ht i hi], h2'⟩
  · intro h1
    have hcw : colWidth mw cols = mw := by rw [colWidth, if_neg h1]
    rw [hcw]
    have hg := gap_pos x mw cols
    refine ⟨by omega, fun l hl => ?_⟩
    rw [List.mem_map] at hl
    obtain ⟨r, _, rfl⟩ := hl
    have hrw := row_width (rows := rows) (sp := gap x mw cols) (ent := fun i => func i (mw + 1)) (r := r) (mw := mw) (n := n)
      (cols := cols) (by omega) hw'
    rcases hfit with hf | hf
    · exact absurd hf h1
    · have := gap_fits hpos hf
      omega
  · intro ch h1 h2
    have hnl : ∀ r, (row n rows cols (colWidth mw cols) (gap x mw cols) (fun i => func i (mw + 1)) r ++ ['\n']).count ch =
        ((((List.range cols).map fun c => c * rows + r).filter (· < n)).map fun i => (func i (mw + 1)).count ch).sum := by
      intro r
      rw [List.count_append, count_row h1]
      have : List.count ch ['\n'] = 0 := by
        rw [List.count_singleton, if_neg (by simpa using Ne.symm h2)]
      omega
    rw [count_flatMap_range]
    have hsum : ∀ l : List Nat, (l.map fun r =>
        (row n rows cols (colWidth mw cols) (gap x mw cols) (fun i => func i (mw + 1)) r ++ ['\n']).count ch).sum =
        ((l.flatMap fun r => ((List.range cols).map fun c => c * rows + r).filter (· < n)).map
          fun i => (func i (mw + 1)).count ch).sum := by
      intro l
      induction l with
      | nil => rfl
      | cons r l ih => rw [List.map_cons, List.sum_cons, ih, hnl, List.flatMap_cons, List.map_append, List.sum_append]
    rw [hsum, ← order, sum_perm ((order_perm hroom).map _)]
    congr 1
    apply List.map_congr_left
    intro i hi
    rw [ht i (by simpa using hi)]

/-! ## Widths -/

theorem widest_ge (l : List Nat) : ∀ a ∈ l, a ≤ widest l := by
  have : ∀ (l : List Nat) (m : Nat), m ≤ l.foldl (fun m i => if m < i then i else m) m ∧
      ∀ a ∈ l, a ≤ l.foldl (fun m i => if m < i then i else m) m := by
    intro l
    induction l with
    | nil => intro m; simp
    | cons b l ih =>
      intro m
      obtain ⟨h1, h2⟩ := ih (if m < b then b else m)
      rw [List.foldl_cons]
      have hm : m ≤ (if m < b then b else m) ∧ b ≤ (if m < b then b else m) := by split <;> omega
      refine ⟨Nat.le_trans hm.1 h1, ?_⟩
      · intro a ha
        rcases List.mem_cons.mp ha with rfl | ha
        · exact Nat.le_trans hm.2 h1
        · exact h2 a ha
  exact (this l 0).2

theorem length_decF : ∀ (f n : Nat), n ≤ f → (decF f n).length = digitsF f n
  | 0, n, _ => rfl
  | f + 1, n, h => by
    simp only [decF, digitsF]
    split
    · rfl
    · rw [List.length_append, length_decF f (n / 10) (by omega)]; rfl

theorem digitsF_fuel : ∀ (f g n : Nat), n ≤ f → n ≤ g → digitsF f n = digitsF g n
  | 0, 0, n, _, _ => rfl
  | 0, g + 1, n, h, _ => by simp only [digitsF]; rw [if_pos (by omega)]
  | f + 1, 0, n, _, h => by simp only [digitsF]; rw [if_pos (by omega)]
  | f + 1, g + 1, n, h1, h2 => by
    simp only [digitsF]
    split
    · rfl
    · rw [digitsF_fuel f g (n / 10) (by omega) (by omega)]

theorem digitsF_mono : ∀ (f n m : Nat), n ≤ m → m ≤ f → digitsF f n ≤ digitsF f m
  | 0, n, m, _, _ => Nat.le_refl _
  | f + 1, n, m, h1, h2 => by
    simp only [digitsF]
    split
    · split <;> omega
    · rw [if_neg (by omega)]
      have := digitsF_mono f (n / 10) (m / 10) (Nat.div_le_div_right h1) (by omega)
      omega

/-- The number of an element fits in the digits that the number of elements has. -/
theorem dec_width {n m : Nat} (h : n ≤ m) : (dec n).length ≤ digits m := by
  rw [dec, length_decF n n (Nat.le_refl _), digitsF_fuel n m n (Nat.le_refl _) h, digits]
  exact digitsF_mono m n m h (Nat.le_refl _)

theorem length_rjust {w : Nat} {s : List Char} (h : s.length ≤ w) : (rjust w s).length = w := by
  simp [rjust, spaces]; omega

/-! ## The four lists -/

/-- **C96**, the menu of select: each word with its number, whole. -/
theorem menu_shown (x : Nat) (ap : List (List Char)) :
    Shown x ap.length (fun i => rjust (digits ap.length) (dec (i + 1)) ++ [')', ' '] ++ ap.getD i [])
      (digits ap.length + widest (ap.map List.length) + 2) (prMenu x ap) := by
  have hlen : ∀ i < ap.length, (rjust (digits ap.length) (dec (i + 1)) ++ [')', ' '] ++ ap.getD i []).length ≤
      digits ap.length + widest (ap.map List.length) + 2 := by
    intro i hi
    have h1 : (ap.getD i []).length ≤ widest (ap.map List.length) := by
      apply widest_ge
      rw [show ap.getD i [] = ap[i] by simp [List.getD, hi]]
      exact List.mem_map_of_mem (List.getElem_mem hi)
    rw [List.length_append, List.length_append, length_rjust (dec_width (by omega))]
    simp only [List.length_cons, List.length_nil]
    omega
  refine printColumns_shown x _ _ _ _ _ (fun i hi => ?_) hlen
  simp only [selectEntry, snprintf]
  exact List.take_of_length_le (hlen i hi)

/-- A word as the editors list it: control characters with a caret. -/
def caret (s : List Char) : List Char := s.flatMap fun c => if cntrl c then ['^', unctrl c] else [c]

theorem length_caret : ∀ s, (caret s).length = strlenEsc s
  | [] => rfl
  | c :: s => by
    rw [caret, List.flatMap_cons, List.length_append, ← caret, length_caret s, strlenEsc]
    split <;> simp

theorem plainFmt_caret : ∀ (s : List Char) (size : Nat), strlenEsc s < size → plainFmt s size = caret s
  | [], _, _ => rfl
  | c :: s, size, h => by
    rw [strlenEsc] at h
    rw [plainFmt, caret, List.flatMap_cons, ← caret]
    split
    · next hc =>
      rw [if_pos hc] at h
      rw [if_neg (by omega), plainFmt_caret s _ (by omega)]
      rfl
    · next hc =>
      rw [if_neg hc] at h
      rw [if_neg (by omega), plainFmt_caret s _ (by omega)]
      rfl

/-- **C96**, the possible completions of a word. -/
theorem list_shown (x : Nat) (ap : List (List Char)) :
    Shown x ap.length (fun i => caret (ap.getD i [])) (widest (ap.map strlenEsc) + 1) (prList x ap) := by
  have hlen : ∀ i < ap.length, strlenEsc (ap.getD i []) ≤ widest (ap.map strlenEsc) := by
    intro i hi
    apply widest_ge
    rw [show ap.getD i [] = ap[i] by simp [List.getD, hi]]
    exact List.mem_map_of_mem (List.getElem_mem hi)
  refine printColumns_shown x _ _ _ _ _ (fun i hi => ?_) (fun i hi => ?_)
  · exact plainFmt_caret _ _ (by have := hlen i hi; omega)
  · rw [length_caret]; have := hlen i hi; omega

/-- A signal of kill -l. -/
def sigText (sigs : List Sig) (w1 w2 i : Nat) : List Char :=
  ((sigs[i + 1]?).map fun s => rjust w1 (dec (i + 1)) ++ [' '] ++ rjust w2 s.shown ++ [' '] ++ s.mess).getD []

/-- The width of the names. -/
def nameWidth (sigs : List Sig) : Nat :=
  widest (sigs.map fun s => match s.name with | some n => n.length | none => digits sigs.length)

/-- **C96**, the signals of kill -l: if the numbers of signals without a name are below the number of signals. -/
theorem signals_shown (x : Nat) (sigs : List Sig) (h : ∀ s ∈ sigs, s.signal ≤ sigs.length) :
    ∃ w1 w2 mw, Shown x (sigs.length - 1) (sigText sigs w1 w2) mw (killList x sigs) := by
  refine ⟨digits sigs.length, nameWidth sigs,
    digits sigs.length + nameWidth sigs + widest (sigs.map fun s => s.mess.length) + 3,
    printColumns_shown x _ (killEntry sigs (digits sigs.length) (nameWidth sigs)) _ _ true (fun i hi => ?_) (fun i hi => ?_)⟩
  all_goals
    have hi' : i + 1 < sigs.length := by omega
    have hm : sigs[i + 1] ∈ sigs := List.getElem_mem hi'
    have h2 : (sigs[i + 1]).mess.length ≤ widest (sigs.map fun s => s.mess.length) :=
      widest_ge _ _ (List.mem_map_of_mem (f := fun s : Sig => s.mess.length) hm)
    have h1 : (sigs[i + 1]).shown.length ≤ nameWidth sigs := by
      have := widest_ge _ _ (List.mem_map_of_mem
        (f := fun s : Sig => match s.name with | some n => n.length | none => digits sigs.length) hm)
      refine Nat.le_trans ?_ this
      simp only [Sig.shown]
      cases hn : (sigs[i + 1]).name with
      | some n => exact Nat.le_refl _
      | none => exact dec_width (h _ hm)
    have h3 := dec_width (show i + 1 ≤ sigs.length by omega)
    have hlen : (rjust (digits sigs.length) (dec (i + 1)) ++ [' '] ++
        rjust (nameWidth sigs)
          (sigs[i + 1]).shown ++ [' '] ++ (sigs[i + 1]).mess).length ≤
        digits sigs.length + nameWidth sigs +
          widest (sigs.map fun s => s.mess.length) + 3 := by
      simp only [List.length_append, length_rjust h3, length_rjust h1, List.length_cons, List.length_nil]
      omega
  · simp only [killEntry, sigText, List.getElem?_eq_getElem hi', Option.map_some, Option.getD_some, snprintf]
    exact List.take_of_length_le hlen
  · simp only [sigText, List.getElem?_eq_getElem hi', Option.map_some, Option.getD_some]
    exact hlen

/-- An option and its setting. -/
def optText (opts : List (List Char × Bool)) (w i : Nat) : List Char :=
  ((opts[i]?).map fun o => ljust w o.1 ++ [' '] ++ (if o.2 then ['o', 'n'] else ['o', 'f', 'f'])).getD []

/-- **C96**, the options of set -o. -/
theorem options_shown (x : Nat) (opts : List (List Char × Bool)) :
    ∃ w mw, Shown x opts.length (optText opts w) mw (printOpts x opts) := by
  refine ⟨widest (opts.map fun o => o.1.length), widest (opts.map fun o => o.1.length) + 5, ?_⟩
  unfold printOpts
  apply printColumns_shown <;> intro i hi
  all_goals
    have hm : opts[i] ∈ opts := List.getElem_mem hi
    have h1 : (opts[i]).1.length ≤ widest (opts.map fun o => o.1.length) :=
      widest_ge _ _ (List.mem_map_of_mem (f := fun o : List Char × Bool => o.1.length) hm)
    have hlen : (ljust (widest (opts.map fun o => o.1.length)) (opts[i]).1 ++ [' '] ++
        (if (opts[i]).2 then ['o', 'n'] else ['o', 'f', 'f'])).length ≤ widest (opts.map fun o => o.1.length) + 5 := by
      simp only [List.length_append, length_ljust h1]
      split <;> simp
  · simp only [optEntry, optText, List.getElem?_eq_getElem hi, Option.map_some, Option.getD_some, snprintf]
    exact List.take_of_length_le hlen
  · simp only [optText, List.getElem?_eq_getElem hi, Option.map_some, Option.getD_some]
    exact hlen

example : prMenu 20 [['a'], ['b', 'b'], ['c']] = "1) a\n2) bb\n3) c\n".toList := by decide +kernel
example : prList 10 [['a'], ['b', '\x01'], ['c'], ['d'], ['e']] = "a    d   \nb^A  e   \nc    \n".toList := by decide +kernel

/-! ## Answers -/

/-- What a number is: digits, possibly after white space and a plus sign. -/
def IsNumber (s : List Char) (k : Nat) : Prop :=
  ∃ w d, (s = w ++ d ∨ s = w ++ '+' :: d) ∧ (∀ c ∈ w, space c = true) ∧ d ≠ [] ∧ (∀ c ∈ d, isDigit c = true) ∧ value d = k

theorem digit_not_space {c : Char} (h : isDigit c = true) : space c = false ∧ c ≠ '+' ∧ c ≠ '-' := by
  have h : 48 ≤ c.toNat ∧ c.toNat ≤ 57 := by
    simpa [isDigit, Char.le_def, UInt32.le_iff_toNat_le] using h
  have h1 : c ≠ ' ' := by rintro rfl; revert h; decide
  refine ⟨?_, by rintro rfl; revert h; decide, by rintro rfl; revert h; decide⟩
  simp only [space, Bool.or_eq_false_iff, beq_eq_false_iff_ne, Bool.and_eq_false_iff, decide_eq_false_iff_not]
  exact ⟨h1, by omega⟩

theorem takeWhile_dropWhile_spec (s : List Char) : ∃ w t, s = w ++ t ∧ (∀ c ∈ w, space c = true) ∧ s.dropWhile space = t := by
  refine ⟨s.takeWhile space, s.dropWhile space, (List.takeWhile_append_dropWhile).symm, fun c hc => ?_, rfl⟩
  exact List.all_eq_true.mp (List.all_takeWhile) c hc

/-- **C97**: an answer is taken for the number of a word exactly if it is such a number. -/
theorem strtonum_iff {s : List Char} {max k : Nat} (hm : max < 2 ^ 31) :
    strtonum s max = some k ↔ IsNumber s k ∧ 1 ≤ k ∧ k ≤ max := by
  constructor
  · intro h
    obtain ⟨w, t, hs, hw, ht⟩ := takeWhile_dropWhile_spec s
    simp only [strtonum, ht] at h
    generalize hu : (if (t.head? == some '-' || t.head? == some '+') = true then t.drop 1 else t) = u at h
    split at h
    · cases h
    · next h1 =>
      split at h
      · cases h
      · next hneg =>
        split at h
        · cases h
        · split at h
          · cases h
          · next h2 =>
            simp only [Option.some.injEq] at h
            simp only [Bool.not_eq_true] at hneg
            simp only [hneg, Bool.false_or] at hu
            simp only [Bool.or_eq_true, decide_eq_true_eq, not_or, Bool.not_eq_true', Bool.not_eq_false, List.all_eq_true] at h1 h2
            refine ⟨⟨w, u, ?_, hw, h1.1, h1.2, h⟩, by omega, by omega⟩
            cases t with
            | nil => left; rw [← hu]; simpa using hs
            | cons c r =>
              by_cases hc : c = '+'
              · right; subst hc; rw [← hu]; simpa using hs
              · left; rw [← hu]; simpa [hc] using hs
  · rintro ⟨⟨w, d, hs, hw, hd, hdig, hv⟩, h1, h2⟩
    obtain ⟨c, r, rfl⟩ := List.exists_cons_of_ne_nil hd
    have hc := digit_not_space (hdig c (by simp))
    have hu : ∃ t, s.dropWhile space = t ∧ (t.head? == some '-') = false ∧
        (if t.head? == some '+' then t.drop 1 else t) = c :: r := by
      rcases hs with rfl | rfl
      · refine ⟨c :: r, ?_, by simpa using hc.2.2, by simp [hc.2.1]⟩
        rw [List.dropWhile_append_of_pos hw, List.dropWhile_cons_of_neg (by simp [hc.1])]
      · refine ⟨'+' :: c :: r, ?_, by simp, by simp⟩
        rw [List.dropWhile_append_of_pos hw, List.dropWhile_cons_of_neg (by simp [space])]
    obtain ⟨t, ht, hneg, hif⟩ := hu
    simp only [strtonum, ht, hneg, Bool.false_or, hif]
    rw [if_neg, if_neg (by simp), if_neg (by omega), if_neg, hv]
    · simp; omega
    · simp only [Bool.or_eq_true, decide_eq_true_eq, not_or, Bool.not_eq_true', Bool.not_eq_false, List.all_eq_true]
      exact ⟨by simp, hdig⟩

theorem decF_spec : ∀ (f n : Nat), n ≤ f → decF f n ≠ [] ∧ (∀ c ∈ decF f n, isDigit c = true) ∧ value (decF f n) = n := by
  have hd : ∀ n : Nat, n < 10 → isDigit (Char.ofNat (48 + n)) = true ∧ (Char.ofNat (48 + n)).toNat - 48 = n := by
    intro n hn
    have : n = 0 ∨ n = 1 ∨ n = 2 ∨ n = 3 ∨ n = 4 ∨ n = 5 ∨ n = 6 ∨ n = 7 ∨ n = 8 ∨ n = 9 := by omega
    rcases this with rfl | rfl | rfl | rfl | rfl | rfl | rfl | rfl | rfl | rfl <;> decide
  intro f
  induction f with
  | zero =>
    intro n hn
    obtain rfl : n = 0 := by omega
    decide
  | succ f ih =>
    intro n hn
    simp only [decF]
    split
    · next h =>
      refine ⟨by simp, fun c hc => ?_, ?_⟩
      · rw [List.mem_singleton] at hc; rw [hc]; exact (hd n h).1
      · simp [value, (hd n h).2]
    · obtain ⟨h1, h2, h3⟩ := ih (n / 10) (by omega)
      refine ⟨by simp, fun c hc => ?_, ?_⟩
      · rcases List.mem_append.mp hc with hc | hc
        · exact h2 c hc
        · rw [List.mem_singleton] at hc; rw [hc]; exact (hd _ (Nat.mod_lt _ (by omega))).1
      · rw [value] at h3
        rw [value, List.foldl_append, h3, List.foldl_cons, List.foldl_nil, (hd _ (Nat.mod_lt _ (by omega))).2]
        omega

/-- **C97**: typing the number that the menu shows before a word chooses this word. -/
theorem choose_shown {ap : List (List Char)} (hm : ap.length < 2 ^ 31) {i : Nat} (hi : i < ap.length) :
    choose ap (dec (i + 1)) = ap[i] := by
  obtain ⟨h1, h2, h3⟩ := decF_spec (i + 1) (i + 1) (Nat.le_refl _)
  have : strtonum (dec (i + 1)) ap.length = some (i + 1) :=
    (strtonum_iff hm).mpr ⟨⟨[], _, .inl rfl, by simp, h1, h2, h3⟩, by omega, by omega⟩
  rw [choose, this]
  simp [hi]

/-- **C97**: any other answer gives the empty word. -/
theorem choose_other {ap : List (List Char)} (hm : ap.length < 2 ^ 31) {s : List Char}
    (h : ∀ k, IsNumber s k → k < 1 ∨ ap.length < k) : choose ap s = [] := by
  cases hs : strtonum s ap.length with
  | none => rw [choose, hs]
  | some k =>
    obtain ⟨h1, h2, h3⟩ := (strtonum_iff hm).mp hs
    have := h k h1
    omega

example : choose [['a'], ['b']] ['2'] = ['b'] ∧ choose [['a'], ['b']] ['3'] = [] ∧ choose [['a'], ['b']] ['2', 'x'] = [] := by
  decide +kernel

/-! ## The loop -/

/-- The answers and words the commands were run with. -/
def runs : List Ev → List (List Char × List Char)
  | [] => []
  | .run s w :: l => (s, w) :: runs l
  | _ :: l => runs l

theorem runs_append : ∀ a b, runs (a ++ b) = runs a ++ runs b
  | [], b => rfl
  | .menu :: a, b => runs_append a b
  | .ask :: a, b => runs_append a b
  | .run s w :: a, b => by simp [runs, runs_append a b]

/-- The answers that make the loop run its commands: those that are not empty, up to the first for which they break. -/
def answered (ap : List (List Char)) (body : List Char → List Char → Option (List Char)) :
    List (List Char) → List (List Char × List Char) × Nat
  | [] => ([], 1)
  | s :: l =>
    if s = [] then answered ap body l
    else if body s (choose ap s) = none then ([(s, choose ap s)], 0)
    else ((s, choose ap s) :: (answered ap body l).1, (answered ap body l).2)

theorem selectArgs_spec (ap : List (List Char)) (body : List Char → List Char → Option (List Char)) :
    ∀ (input : List (List Char)) (first : Bool) (reply : List Char),
    runs (selectArgs ap first reply input).1 = [] ∧
    ((selectArgs ap first reply input).2 = none → answered ap body input = ([], 1)) ∧
    ∀ s w rest, (selectArgs ap first reply input).2 = some (s, w, rest) →
      s ≠ [] ∧ w = choose ap s ∧ rest.length < input.length ∧ answered ap body input = answered ap body (s :: rest)
  | [], first, reply => by
    rw [selectArgs]
    refine ⟨by split <;> rfl, fun _ => rfl, fun _ _ _ h => (nomatch h)⟩
  | a :: input, first, reply => by
    rw [selectArgs]
    split
    · next ha =>
      refine ⟨by split <;> rfl, fun h => (nomatch h), fun s w rest h => ?_⟩
      simp only [Option.some.injEq, Prod.mk.injEq] at h
      obtain ⟨rfl, rfl, rfl⟩ := h
      exact ⟨ha, rfl, by simp, rfl⟩
    · next ha =>
      have ha : a = [] := by simpa using ha
      obtain ⟨h1, h2, h3⟩ := selectArgs_spec ap body input true a
      refine ⟨by simp only [runs_append, h1]; split <;> rfl, fun h => ?_, fun s w rest h => ?_⟩
      · rw [answered, if_pos ha]; exact h2 h
      · obtain ⟨k1, k2, k3, k4⟩ := h3 s w rest h
        refine ⟨k1, k2, by simp; omega, ?_⟩
        rw [answered, if_pos ha, k4]

theorem loop_spec (ap : List (List Char)) (body : List Char → List Char → Option (List Char)) :
    ∀ (f : Nat) (first : Bool) (reply : List Char) (input : List (List Char)), input.length < f →
    runs (loop ap body f first reply input).1 = (answered ap body input).1 ∧
      (loop ap body f first reply input).2 = some (answered ap body input).2
  | 0, _, _, _, h => absurd h (by omega)
  | f + 1, first, reply, input, h => by
    obtain ⟨h1, h2, h3⟩ := selectArgs_spec ap body input first reply
    rw [loop]
    rcases hs : selectArgs ap first reply input with ⟨evs, _ | ⟨s, w, rest⟩⟩
    · rw [hs] at h1 h2
      rw [h2 rfl]
      exact ⟨h1, rfl⟩
    · rw [hs] at h1 h3
      obtain ⟨k1, rfl, k3, k4⟩ := h3 s w rest rfl
      rw [k4, answered, if_neg k1]
      simp only at h1 ⊢
      cases hb : body s (choose ap s) with
      | none =>
        simp only
        rw [if_pos trivial, runs_append, h1]
        exact ⟨rfl, rfl⟩
      | some r =>
        simp only
        rw [if_neg (by simp), runs_append, runs_append, h1]
        obtain ⟨e1, e2⟩ := loop_spec ap body f false r rest (by omega)
        exact ⟨by rw [e1]; rfl, e2⟩

/-- **C97**: the commands are run once for every answer that is not empty, with this answer in REPLY and the word that was
chosen in the parameter, until they break; the status is 0 then and 1 at the end of the input. -/
theorem select_runs (ap : List (List Char)) (body : List Char → List Char → Option (List Char)) (reply : List Char)
    (input : List (List Char)) : runs (select ap body reply input).1 = (answered ap body input).1 ∧
      (select ap body reply input).2 = some (answered ap body input).2 :=
  loop_spec ap body _ _ _ _ (by omega)

/-- A question, with the menu if it is due. -/
def question (due : Bool) : List Ev := if due then [.menu, .ask] else [.ask]

/-- `Menus body due evs`: the questions in `evs` are preceded by the menu exactly when due.  `due` is for the first question;
after an empty answer the menu is due, after commands it is due if they emptied REPLY. -/
inductive Menus (body : List Char → List Char → Option (List Char)) : Bool → List Ev → Prop where
  | done (due : Bool) : Menus body due []
  | again {due : Bool} {l : List Ev} : Menus body true l → Menus body due (question due ++ l)
  | run {due : Bool} {s w : List Char} {l : List Ev} : Menus body (body s w == some []) l →
    Menus body due (question due ++ .run s w :: l)

theorem question_eq (b : Bool) : (if b then [Ev.menu] else []) ++ [.ask] = question b := by cases b <;> rfl

theorem menus_selectArgs (ap : List (List Char)) (body : List Char → List Char → Option (List Char)) :
    ∀ (input : List (List Char)) (first : Bool) (reply : List Char),
    ((selectArgs ap first reply input).2 = none → Menus body (first || reply == []) (selectArgs ap first reply input).1) ∧
    (∀ s w rest l, (selectArgs ap first reply input).2 = some (s, w, rest) → Menus body (body s w == some []) l →
      Menus body (first || reply == []) ((selectArgs ap first reply input).1 ++ .run s w :: l))
  | [], first, reply => by
    rw [selectArgs]
    refine ⟨fun _ => ?_, fun _ _ _ _ h => (nomatch h)⟩
    simp only [question_eq]
    have := Menus.again (body := body) (due := (first || reply == [])) (.done true)
    simpa using this
  | a :: input, first, reply => by
    rw [selectArgs]
    simp only [question_eq]
    split
    · refine ⟨fun h => (nomatch h), fun s w rest l h hl => ?_⟩
      simp only [Option.some.injEq, Prod.mk.injEq] at h
      obtain ⟨rfl, rfl, rfl⟩ := h
      exact .run hl
    · obtain ⟨h1, h2⟩ := menus_selectArgs ap body input true a
      simp only [Bool.true_or] at h1 h2
      refine ⟨fun h => .again (h1 h), fun s w rest l h hl => ?_⟩
      simp only [List.append_assoc]
      exact .again (h2 s w rest l h hl)

theorem menus_loop (ap : List (List Char)) (body : List Char → List Char → Option (List Char)) :
    ∀ (f : Nat) (first : Bool) (reply : List Char) (input : List (List Char)), input.length < f →
    Menus body (first || reply == []) (loop ap body f first reply input).1
  | 0, _, _, _, h => absurd h (by omega)
  | f + 1, first, reply, input, h => by
    obtain ⟨_, _, h3⟩ := selectArgs_spec ap body input first reply
    obtain ⟨m1, m2⟩ := menus_selectArgs ap body input first reply
    rw [loop]
    rcases hs : selectArgs ap first reply input with ⟨evs, _ | ⟨s, w, rest⟩⟩
    · rw [hs] at m1; exact m1 rfl
    · rw [hs] at m2 h3
      obtain ⟨_, _, k3, _⟩ := h3 s w rest rfl
      simp only
      cases hb : body s w with
      | none => exact m2 s w rest [] rfl (.done _)
      | some r =>
        simp only [List.append_assoc, List.singleton_append]
        refine m2 s w rest _ rfl ?_
        rw [hb]
        have := menus_loop ap body f false r rest (by omega)
        simpa using this

/-- **C97**: the menu is shown before the first question, after an empty answer, and after commands that empty REPLY, and at no
other time. -/
theorem select_menus (ap : List (List Char)) (body : List Char → List Char → Option (List Char)) (reply : List Char)
    (input : List (List Char)) : Menus body true (select ap body reply input).1 :=
  menus_loop ap body _ true _ _ (by omega)

example : select [['a'], ['b']] (fun s _ => some s) [] [['2'], [], ['x']] =
    ([.menu, .ask, .run ['2'] ['b'], .ask, .menu, .ask, .run ['x'] [], .ask], some 1) := by decide +kernel

end Ksh.Menu
