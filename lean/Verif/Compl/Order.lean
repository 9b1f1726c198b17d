import Verif.Compl.Model
import Verif.Edit.Complete
/-! # The order of the commands completion offers -/

namespace Ksh.Compl

/-! ## Specification -/

/-- Strings in the order of their bytes. -/
inductive Le : List Char → List Char → Prop
  | nil {t} : Le [] t
  | lt {a b s t} : a.toNat < b.toNat → Le (a :: s) (b :: t)
  | eq {a s t} : Le s t → Le (a :: s) (a :: t)

/-- The last component of a path, with the slashes behind it. -/
def last (w : List Char) : List Char := w.drop (Edit.basename w)

/-! ## Lemmas -/

theorem strle_iff : ∀ s t, strle s t = true ↔ Le s t
  | [], t => ⟨fun _ => .nil, fun _ => by simp [strle]⟩
  | a :: s, [] => ⟨fun h => absurd h (by simp [strle]), fun h => (nomatch h)⟩
  | a :: s, b :: t => by
    have ih := strle_iff s t
    rw [strle]
    by_cases h1 : a.toNat < b.toNat
    · rw [if_pos h1]; exact ⟨fun _ => .lt h1, fun _ => rfl⟩
    · rw [if_neg h1]
      by_cases h2 : b.toNat < a.toNat
      · rw [if_pos h2]
        refine ⟨fun h => absurd h (by simp), fun h => ?_⟩
        cases h with
        | lt h => omega
        | eq h => omega
      · rw [if_neg h2, ih]
        have e : a = b := Char.toNat_inj.mp (by omega)
        subst e
        refine ⟨.eq, fun h => ?_⟩
        cases h with
        | lt h => omega
        | eq h => exact h

theorem Le.antisymm {s t} (h : Le s t) : Le t s → s = t := by
  induction h with
  | nil => intro h; cases h; rfl
  | lt h1 => intro h; cases h <;> omega
  | eq _ ih =>
    intro h
    cases h with
    | lt h => omega
    | eq h => rw [ih h]

/-- What is assumed of qsort(3). -/
structure Sorts {α} (le : α → α → Bool) (sort : List α → List α) : Prop where
  perm : ∀ l, (sort l).Perm l
  sorted : ∀ l, (sort l).Pairwise (fun a b => le a b = true)

theorem uniq_mem : ∀ (l : List (List Char)) (x), x ∈ uniq l ↔ x ∈ l
  | [], _ => by simp [uniq]
  | [a], _ => by simp [uniq]
  | a :: b :: l, x => by
    have ih := uniq_mem (b :: l) x
    rw [uniq]
    by_cases h : a = b
    · rw [if_pos h, ih, h]; simp
    · rw [if_neg h, List.mem_cons, ih]; simp

theorem uniq_sorted : ∀ (l : List (List Char)), l.Pairwise Le → (uniq l).Pairwise (fun a b => Le a b ∧ a ≠ b)
  | [], _ => by simp [uniq]
  | [a], _ => by simp [uniq]
  | a :: b :: l, h => by
    obtain ⟨h1, h2⟩ := List.pairwise_cons.mp h
    have ih := uniq_sorted (b :: l) h2
    rw [uniq]
    by_cases hab : a = b
    · rw [if_pos hab]; exact ih
    · rw [if_neg hab, List.pairwise_cons]
      refine ⟨fun x hx => ?_, ih⟩
      rw [uniq_mem] at hx
      refine ⟨h1 x hx, ?_⟩
      rintro rfl
      rcases List.mem_cons.mp hx with e | hx
      · exact hab e
      · exact hab ((h1 b (by simp)).antisymm ((List.pairwise_cons.mp h2).1 a hx))

/-- **C114** The commands offered for a name: all that were found, each once, in ascending order. -/
theorem commands_sorted {sort isort} (hs : Sorts strle sort) (w : List (List Char)) :
    (∀ x, x ∈ arrange sort isort false w ↔ x ∈ w) ∧ (arrange sort isort false w).Pairwise (fun a b => Le a b ∧ a ≠ b) := by
  unfold arrange
  by_cases h : w = []
  · subst h; simp
  · rw [if_neg h]
    simp only [Bool.false_eq_true, if_false]
    refine ⟨fun x => by rw [uniq_mem]; exact (hs.perm w).mem_iff, uniq_sorted _ ?_⟩
    exact (hs.sorted w).imp fun h => (strle_iff _ _).mp h

/-! ## With directories -/

/-- The orders given from one entry on. -/
theorem infos_spec : ∀ (w : List (List Char)) (lst : Option (Nat × List Char)) (k : Nat),
    (infos lst k w).map (·.word) = w ∧ (∀ i ∈ infos lst k w, i.base = Edit.basename i.word ∧ k ≤ i.order) ∧
    (infos lst k w).Pairwise (fun a b => a.order ≤ b.order) ∧
    (∀ i ∈ infos lst k w, i.order = k → ∀ lb lw, lst = some (lb, lw) → i.base = lb ∧ i.word.take lb = lw.take lb) ∧
    (∀ i ∈ infos lst k w, lst = none → k < i.order) ∧
    (infos lst k w).Pairwise (fun a b => a.order = b.order → a.base = b.base ∧ a.word.take a.base = b.word.take b.base)
  | [], _, _ => by simp [infos]
  | w :: ws, lst, k => by
    rw [infos]
    generalize hnew : newDir lst w = new
    cases new with
    | true =>
      obtain ⟨h1, h2, h3, h4, -, h6⟩ := infos_spec ws (some (Edit.basename w, w)) (k + 1)
      simp only [if_true]
      refine ⟨by simp [h1], ?_, ?_, ?_, ?_, ?_⟩
      · intro i hi
        rcases List.mem_cons.mp hi with rfl | hi
        · exact ⟨rfl, by simp⟩
        · obtain ⟨a, b⟩ := h2 i hi; exact ⟨a, by omega⟩
      · exact List.pairwise_cons.mpr ⟨fun i hi => (h2 i hi).2, h3⟩
      · intro i hi hk
        rcases List.mem_cons.mp hi with rfl | hi
        · simp at hk
        · have := (h2 i hi).2; omega
      · intro i hi _
        rcases List.mem_cons.mp hi with rfl | hi
        · simp
        · have := (h2 i hi).2; omega
      · refine List.pairwise_cons.mpr ⟨fun i hi ho => ?_, h6⟩
        obtain ⟨e1, e2⟩ := h4 i hi ho.symm _ _ rfl
        refine ⟨e1.symm, ?_⟩
        rw [e1, e2]
    | false =>
      obtain ⟨h1, h2, h3, h4, -, h6⟩ := infos_spec ws lst k
      cases lst with
      | none => simp [newDir] at hnew
      | some x =>
        obtain ⟨lb, lw⟩ := x
        simp only [newDir, Bool.or_eq_false_iff, decide_eq_false_iff_not, Decidable.not_not, ne_eq] at hnew
        obtain ⟨n1, n2⟩ := hnew
        simp only [Bool.false_eq_true, if_false]
        refine ⟨by simp [h1], ?_, ?_, ?_, ?_, ?_⟩
        · intro i hi
          rcases List.mem_cons.mp hi with rfl | hi
          · exact ⟨rfl, Nat.le_refl _⟩
          · exact h2 i hi
        · exact List.pairwise_cons.mpr ⟨fun i hi => (h2 i hi).2, h3⟩
        · intro i hi hk lb' lw' e
          cases e
          rcases List.mem_cons.mp hi with rfl | hi
          · exact ⟨n1, by rw [← n1]; exact n2⟩
          · exact h4 i hi hk _ _ rfl
        · intro i hi e; cases e
        · refine List.pairwise_cons.mpr ⟨fun i hi ho => ?_, h6⟩
          obtain ⟨e1, e2⟩ := h4 i hi ho.symm _ _ rfl
          refine ⟨by rw [e1]; exact n1, ?_⟩
          rw [e1, e2]
          simp only [n1] at n2 ⊢
          exact n2

theorem infole_iff {a b : Info} (ha : a.base = Edit.basename a.word) (hb : b.base = Edit.basename b.word) :
    infole a b = true ↔ Le (last a.word) (last b.word) ∧ (last a.word = last b.word → a.order ≤ b.order) := by
  unfold infole last
  rw [ha, hb]
  simp only
  have refl : ∀ s : List Char, Le s s := by
    intro s; induction s with
    | nil => exact .nil
    | cons c s ih => exact .eq ih
  by_cases h : a.word.drop (Edit.basename a.word) = b.word.drop (Edit.basename b.word)
  · rw [if_pos h]; simp [h, refl]
  · rw [if_neg h, strle_iff]; simp [h]

theorem all_pairs {α} {R : α → α → Prop} (hs : ∀ a b, R a b → R b a) (hr : ∀ a, R a a) :
    ∀ l : List α, l.Pairwise R → ∀ a ∈ l, ∀ b ∈ l, R a b
  | [], _, a, ha, _, _ => by simp at ha
  | x :: l, h, a, ha, b, hb => by
    obtain ⟨h1, h2⟩ := List.pairwise_cons.mp h
    rcases List.mem_cons.mp ha with e | ha' <;> rcases List.mem_cons.mp hb with e' | hb'
    · rw [e, e']; exact hr _
    · rw [e]; exact h1 b hb'
    · rw [e']; exact hs _ _ (h1 a ha')
    · exact all_pairs hs hr l h2 a ha' b hb'

/-- **C114** With full paths: all that were found, in the order of their last components; of those with the same last
component, in the order in which they were found, that is of the search path. -/
theorem paths_in_order {sort isort} (hs : Sorts infole isort) (w : List (List Char)) :
    (arrange sort isort true w).Perm w ∧ (arrange sort isort true w).Pairwise (fun a b => Le (last a) (last b)) ∧
    ∀ x, (arrange sort isort true w).filter (fun a => last a = x) = w.filter (fun a => last a = x) := by
  unfold arrange
  by_cases h : w = []
  · subst h; simp
  rw [if_neg h]
  simp only [if_true]
  obtain ⟨h1, h2, h3, -, -, h6⟩ := infos_spec w none 0
  generalize infos none 0 w = l at h1 h2 h3 h6
  have hp := hs.perm l
  have hb : ∀ i ∈ isort l, i.base = Edit.basename i.word := fun i hi => (h2 i (hp.mem_iff.mp hi)).1
  have hso := hs.sorted l
  have hso' : (isort l).Pairwise (fun a b => Le (last a.word) (last b.word) ∧ (last a.word = last b.word → a.order ≤ b.order)) :=
    hso.imp_of_mem fun ha hb' hab => (infole_iff (hb _ ha) (hb _ hb')).mp hab
  refine ⟨by rw [← h1]; exact hp.map _, ?_, fun x => ?_⟩
  · rw [List.pairwise_map]
    exact hso'.imp fun h => h.1
  · rw [← h1, List.filter_map, List.filter_map]
    have hpf : ((isort l).filter ((fun a => decide (last a = x)) ∘ (·.word))).Perm (l.filter ((fun a => decide (last a = x)) ∘ (·.word))) := hp.filter _
    congr 1
    -- both are sorted by the order, and entries of the same order are equal
    refine List.Perm.eq_of_pairwise (le := fun a b => a.order ≤ b.order) ?_ ?_ ?_ hpf
    · intro a b ha hb' hab hba
      obtain ⟨ha1, ha2⟩ := List.mem_filter.mp ha
      obtain ⟨hb1, hb2⟩ := List.mem_filter.mp hb'
      simp only [Function.comp_apply, decide_eq_true_eq] at ha2 hb2
      have hal := hp.mem_iff.mp ha1
      have ho : a.order = b.order := by omega
      have hbase : a.base = b.base ∧ a.word.take a.base = b.word.take b.base := by
        exact all_pairs (R := fun a b : Info => a.order = b.order → a.base = b.base ∧ a.word.take a.base = b.word.take b.base)
          (fun a b h e => ⟨(h e.symm).1.symm, (h e.symm).2.symm⟩) (fun a _ => ⟨rfl, rfl⟩) l h6 a hal b hb1 ho
      have e1 := (h2 a hal).1
      have e2 := (h2 b hb1).1
      have hw : a.word = b.word := by
        rw [← List.take_append_drop a.base a.word, ← List.take_append_drop b.base b.word, hbase.2]
        congr 1
        rw [e1, e2]
        exact ha2.trans hb2.symm
      cases a; cases b
      simp_all
    · exact ((hso'.filter _).imp_of_mem fun ha hb' hab => hab.2 (by
        have h1 := (List.mem_filter.mp ha).2
        have h2 := (List.mem_filter.mp hb').2
        simp only [Function.comp_apply, decide_eq_true_eq] at h1 h2
        rw [h1, h2]))
    · exact h3.filter _

/-- Insertion, for the examples. -/
def ins {α} (le : α → α → Bool) (a : α) : List α → List α
  | [] => [a]
  | b :: l => if le a b then a :: b :: l else b :: ins le a l

example : arrange (fun l => l.foldr (ins strle) []) (fun l => l.foldr (ins infole) []) true
    [['/', 'b', '/', 'x'], ['/', 'b', '/', 'a'], ['/', 'a', '/', 'x'], ['/', 'c', '/', 'b']] =
    [['/', 'b', '/', 'a'], ['/', 'c', '/', 'b'], ['/', 'b', '/', 'x'], ['/', 'a', '/', 'x']] := by decide +kernel
example : arrange (fun l => l.foldr (ins strle) []) (fun l => l.foldr (ins infole) []) false
    [['l', 's'], ['c', 'd'], ['l', 's'], ['c']] = [['c'], ['c', 'd'], ['l', 's']] := by decide +kernel

end Ksh.Compl
