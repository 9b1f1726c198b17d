import Verif.Arr.Model

/-!
# Arrays: proofs

The specification of an array is a partial function from indices to values, `view`.
-/
namespace Ksh.Arr

variable {A V : Type} (T : Attrs A V) (sp : Bool)

/-! ## Specification -/

/-- The element with an index. -/
def elem (l : List (Cell A V)) (i : Nat) : Option (Cell A V) := l.find? (fun c => c.idx == i)

/-- The value of an element. -/
def view (a : Arr A V) (i : Nat) : Option V := (elem (a.base :: a.rest) i).bind (·.val)

/-- The attributes an assignment to an element obeys: its own when it has a value, else those of
element 0. -/
def attrAt (a : Arr A V) (i : Nat) : A :=
  match elem (a.base :: a.rest) i with
  | some c => if c.val.isSome then c.attr else a.base.attr
  | none => a.base.attr

/-- The indices rise from that of element 0, and elements hang only off an array. -/
structure Ok (a : Arr A V) : Prop where
  zero : a.base.idx = 0
  sorted : (a.base :: a.rest).Pairwise (fun c d => c.idx < d.idx)
  owned : a.rest ≠ [] → a.defd = true ∧ a.isArr = true

/-! ## The list -/

theorem elem_cons (c : Cell A V) (l : List (Cell A V)) (i : Nat) :
    elem (c :: l) i = if c.idx = i then some c else elem l i := by
  simp only [elem, List.find?_cons]
  by_cases h : c.idx = i
  · simp [h]
  · have : (c.idx == i) = false := by simp [h]
    simp [h, this]

theorem elem_none {l : List (Cell A V)} {i : Nat} (h : ∀ c ∈ l, i < c.idx) : elem l i = none := by
  simp only [elem, List.find?_eq_none]
  intro c hc
  have := h c hc
  simp
  omega

theorem cellList_eq (i : Nat) : ∀ l : List (Cell A V), cellList i l = elem l i
  | [] => rfl
  | c :: l => by rw [cellList, elem_cons, cellList_eq i l]

theorem place_above (b : Cell A V) (i k : Nat) (hk : k < i) : ∀ l : List (Cell A V),
    (∀ c ∈ l, k < c.idx) → ∀ c ∈ place b i l, k < c.idx
  | [], _, c, hc => by
    simp only [place, List.mem_singleton] at hc
    subst hc
    exact hk
  | d :: l, h, c, hc => by
    have hl : ∀ c ∈ l, k < c.idx := fun c hc => h c (List.mem_cons_of_mem _ hc)
    simp only [place] at hc
    split at hc
    · rcases List.mem_cons.1 hc with rfl | hc
      · exact h _ List.mem_cons_self
      · exact place_above b i k hk l hl c hc
    · split at hc
      · split at hc
        · exact h c hc
        · rcases List.mem_cons.1 hc with rfl | hc
          · exact hk
          · exact hl c hc
      · rcases List.mem_cons.1 hc with rfl | hc
        · exact hk
        · exact h c hc

theorem place_sorted (b : Cell A V) (i : Nat) : ∀ l : List (Cell A V),
    l.Pairwise (fun c d => c.idx < d.idx) → (place b i l).Pairwise (fun c d => c.idx < d.idx)
  | [], _ => by simp [place]
  | c :: l, h => by
    obtain ⟨h1, h2⟩ := List.pairwise_cons.1 h
    simp only [place]
    split
    · next hlt =>
      exact List.pairwise_cons.2 ⟨place_above b i c.idx hlt l h1, place_sorted b i l h2⟩
    · next hlt =>
      split
      · next he =>
        split
        · exact h
        · exact List.pairwise_cons.2 ⟨fun d hd => by
            have := h1 d hd
            simp only [fresh]
            omega, h2⟩
      · next he =>
        refine List.pairwise_cons.2 ⟨fun d hd => ?_, h⟩
        simp only [fresh]
        rcases List.mem_cons.1 hd with rfl | hd
        · omega
        · have := h1 d hd
          omega

/-- What `place` leaves at each index. -/
theorem elem_place (b : Cell A V) (i : Nat) : ∀ l : List (Cell A V),
    l.Pairwise (fun c d => c.idx < d.idx) → ∀ j, elem (place b i l) j =
      if j = i then
        (match elem l i with
         | some c => if c.val.isSome then some c else some (fresh b i)
         | none => some (fresh b i))
      else elem l j
  | [], _, j => by
    simp only [place, elem_cons, fresh]
    by_cases h : i = j
    · simp [h, elem]
    · have h' : ¬ j = i := fun e => h e.symm
      simp [h, h']
  | c :: l, h, j => by
    obtain ⟨h1, h2⟩ := List.pairwise_cons.1 h
    simp only [place]
    split
    · next hlt =>
      rw [elem_cons, elem_place b i l h2 j]
      by_cases hj : j = i
      · have hc : ¬ c.idx = j := by omega
        have hc' : ¬ c.idx = i := by omega
        simp [hj, elem_cons, hc']
      · simp [hj, elem_cons]
    · next hlt =>
      split
      · next he =>
        split
        · next hv =>
          by_cases hj : j = i
          · subst hj
            simp [elem_cons, he, hv]
          · simp [hj]
        · next hv =>
          by_cases hj : j = i
          · subst hj
            simp [elem_cons, he, hv, fresh]
          · have h3 : ¬ i = j := fun e => hj e.symm
            have h4 : ¬ c.idx = j := by omega
            simp [hj, elem_cons, fresh, h3, h4]
      · next he =>
        by_cases hj : j = i
        · subst hj
          have hn : elem (c :: l) j = none := elem_none (fun d hd => by
            rcases List.mem_cons.1 hd with rfl | hd
            · omega
            · have := h1 d hd
              omega)
          rw [elem_cons, hn]
          simp [fresh]
        · have h3 : ¬ i = j := fun e => hj e.symm
          rw [elem_cons]
          simp [hj, fresh, h3]

theorem updList_idx (i : Nat) (f : Cell A V → Cell A V) (hf : ∀ c, (f c).idx = c.idx) :
    ∀ l : List (Cell A V), (updList i f l).map (·.idx) = l.map (·.idx)
  | [] => rfl
  | c :: l => by
    simp only [updList]
    split
    · simp [hf]
    · simp [updList_idx i f hf l]

theorem elem_updList (i : Nat) (f : Cell A V → Cell A V) (hf : ∀ c, (f c).idx = c.idx) :
    ∀ (l : List (Cell A V)) (j : Nat),
    elem (updList i f l) j = if j = i then (elem l i).map f else elem l j
  | [], j => by simp [updList, elem]
  | c :: l, j => by
    simp only [updList]
    split
    · next h =>
      simp only [elem_cons, hf, h, if_true]
      by_cases hj : j = i
      · simp [hj]
      · have : ¬ i = j := fun e => hj e.symm
        simp [hj, this]
    · next h =>
      rw [elem_cons, elem_updList i f hf l j]
      by_cases hj : j = i
      · subst hj
        simp [h, elem_cons]
      · simp [hj, elem_cons]

/-! ## The invariant -/

theorem pairwise_idx {l l' : List (Cell A V)} (h : l'.map (·.idx) = l.map (·.idx))
    (hs : l.Pairwise (fun c d => c.idx < d.idx)) : l'.Pairwise (fun c d => c.idx < d.idx) := by
  have h1 : (l.map (·.idx)).Pairwise (· < ·) := List.pairwise_map.2 hs
  rw [← h] at h1
  exact List.pairwise_map.1 h1

theorem Ok.search {a : Arr A V} (h : Ok a) (i : Nat) : Ok (search a i) := by
  obtain ⟨hb, hr⟩ := List.pairwise_cons.1 h.sorted
  have e : ({ a.base with idx := 0 } : Cell A V) = a.base := by
    have := h.zero
    cases hc : a.base
    simp_all
  simp only [Arr.search, e]
  split
  · exact ⟨h.zero, h.sorted, fun _ => ⟨rfl, rfl⟩⟩
  · refine ⟨h.zero, List.pairwise_cons.2 ⟨?_, place_sorted _ _ _ hr⟩, fun _ => ⟨rfl, rfl⟩⟩
    have hz := h.zero
    exact place_above a.base i a.base.idx (by omega) _ hb

theorem upd_keeps (i : Nat) (f : Cell A V → Cell A V) (a : Arr A V) :
    (upd i f a).defd = a.defd ∧ (upd i f a).isArr = a.isArr := by
  simp only [upd]
  split <;> exact ⟨rfl, rfl⟩

theorem Ok.upd {a : Arr A V} (h : Ok a) (i : Nat) (f : Cell A V → Cell A V)
    (hf : ∀ c, (f c).idx = c.idx) : Ok (upd i f a) := by
  simp only [Arr.upd]
  split
  · refine ⟨(hf _).trans h.zero, pairwise_idx ?_ h.sorted, h.owned⟩
    simp [hf]
  · refine ⟨h.zero, pairwise_idx ?_ h.sorted, fun hn => h.owned ?_⟩
    · simp [updList_idx i f hf]
    · intro h0
      rw [h0] at hn
      exact hn rfl

theorem Ok.log {a : Arr A V} (h : Ok a) (l : List Nat) : Ok { a with log := l } :=
  ⟨h.zero, h.sorted, h.owned⟩

theorem Ok.store {a : Arr A V} (h : Ok a) (i : Nat) (x : V) : Ok (store T a i x) := by
  simp only [Arr.store]
  split
  · exact h
  · split
    · exact (h.upd i (setVal _) (fun _ => rfl)).log _
    · exact h.upd i (setVal _) (fun _ => rfl)

theorem Ok.glob {a : Arr A V} (h : Ok a) (i : Option Nat) : Ok (glob sp a i) := by
  simp only [Arr.glob]
  split
  · exact h
  · exact h.search _
  · refine ⟨h.zero, pairwise_idx ?_ h.sorted, fun hn => ?_⟩
    · simp
    · exact ⟨rfl, (h.owned hn).2⟩
  · exact (h.search _).upd _ _ (fun _ => rfl)

theorem Ok.unsetAll {a : Arr A V} (h : Ok a) : Ok (unsetAll T a) ∧ (Arr.unsetAll T a).rest = [] := by
  have e : (Arr.unsetAll T a).rest = [] := by
    simp only [Arr.unsetAll]
    split
    · rfl
    · next hi =>
      cases hr : a.rest with
      | nil => rfl
      | cons c l => exact absurd (h.owned (by simp [hr])).2 hi
  refine ⟨⟨h.zero, ?_, fun hn => absurd e hn⟩, e⟩
  rw [e]
  simp

theorem Ok.fill : ∀ (xs : List V) (i : Nat) {a : Arr A V}, Ok a → Ok (fill T i xs a)
  | [], _, _, h => h
  | x :: xs, i, _, h => Ok.fill xs (i + 1) ((h.search i).store T i x)

theorem Ok.step {a : Arr A V} (h : Ok a) (o : Op A V) : Ok (step T sp a o) := by
  cases o with
  | read i => exact h.glob sp i
  | assign i x => exact (h.glob sp i).store T _ x
  | unset i =>
    cases i with
    | none =>
      simp only [Arr.step]
      split
      · exact h.glob sp none
      · exact ((h.glob sp none).unsetAll T).1
    | some i =>
      simp only [Arr.step]
      split
      · exact h.glob sp (some i)
      · exact (h.glob sp (some i)).upd i _ (fun _ => rfl)
  | setA reset xs =>
    simp only [Arr.step]
    split
    · exact h.glob sp none
    · split
      · exact Ok.fill T xs 0 ((h.glob sp none).unsetAll T).1
      · exact Ok.fill T xs 0 (h.glob sp none)
  | typeset f =>
    have hg := h.glob sp none
    refine ⟨hg.zero, pairwise_idx ?_ hg.sorted, fun hn => hg.owned ?_⟩
    · simp [Arr.step, retype]
    · intro h0
      apply hn
      simp only [Arr.step, h0]
      rfl

/-- The list is always in order, without doubles, and is never left behind. -/
theorem in_order (l : List (Op A V)) : Ok (run T sp (Arr.init T) l) := by
  have : ∀ (l : List (Op A V)) (a : Arr A V), Ok a → Ok (run T sp a l) := by
    intro l
    induction l with
    | nil => exact fun _ h => h
    | cons o l ih => exact fun a h => ih _ (h.step T sp o)
  exact this l _ ⟨rfl, by simp [Arr.init], fun h => absurd rfl h⟩

/-! ## What each operation does to the values -/

theorem base_eta {a : Arr A V} (h : Ok a) : ({ a.base with idx := 0 } : Cell A V) = a.base := by
  have := h.zero
  cases hc : a.base
  simp_all

/-- `arraysearch` changes no value and no attribute, and the element is there afterwards. -/
theorem search_spec {a : Arr A V} (h : Ok a) (i : Nat) :
    (∀ j, view (search a i) j = view a j) ∧ (∀ j, attrAt (search a i) j = attrAt a j) ∧
    (∃ c, elem ((search a i).base :: (search a i).rest) i = some c ∧ c.attr = attrAt a i) ∧
    (search a i).base = a.base := by
  obtain ⟨hb, hr⟩ := List.pairwise_cons.1 h.sorted
  have hz := h.zero
  by_cases hi : i = 0
  · have e : search a i = { a with defd := true, isArr := true } := by
      simp [search, hi, base_eta h]
    rw [e]
    refine ⟨fun _ => rfl, fun _ => rfl, ⟨a.base, ?_, ?_⟩, rfl⟩
    · rw [elem_cons]
      simp [hz, hi]
    · simp [attrAt, elem_cons, hz, hi]
  · have e : search a i = ⟨true, true, a.base, place a.base i a.rest, a.log⟩ := by
      simp [search, hi, base_eta h]
    rw [e]
    have key : ∀ j, elem (a.base :: place a.base i a.rest) j = if j = i then
        (match elem (a.base :: a.rest) i with
         | some c => if c.val.isSome then some c else some (fresh a.base i)
         | none => some (fresh a.base i)) else elem (a.base :: a.rest) j := by
      intro j
      have hbi : ¬ a.base.idx = i := by omega
      rw [elem_cons, elem_place _ _ _ hr, elem_cons, elem_cons]
      by_cases hj : j = i
      · subst hj
        simp [hbi]
      · simp [hj]
    refine ⟨fun j => ?_, fun j => ?_, ?_, rfl⟩
    · simp only [view, key]
      by_cases hj : j = i
      · subst hj
        simp only [if_true]
        cases hc : elem (a.base :: a.rest) j with
        | none => rfl
        | some c =>
          cases hv : c.val with
          | none => simp [hv, fresh]
          | some v => simp [hv]
      · simp [hj]
    · simp only [attrAt, key]
      by_cases hj : j = i
      · subst hj
        simp only [if_true]
        cases hc : elem (a.base :: a.rest) j with
        | none => rfl
        | some c =>
          cases hv : c.val with
          | none => simp [hv, fresh]
          | some v => simp [hv]
      · simp [hj]
    · simp only [attrAt, key, if_true]
      cases hc : elem (a.base :: a.rest) i with
      | none => exact ⟨_, rfl, rfl⟩
      | some c =>
        cases hv : c.val with
        | none => exact ⟨fresh a.base i, by simp [hv], by simp [fresh, hv]⟩
        | some v => exact ⟨c, by simp [hv], by simp [hv]⟩

theorem elem_upd {a : Arr A V} (h : Ok a) (i : Nat) (f : Cell A V → Cell A V)
    (hf : ∀ c, (f c).idx = c.idx) (j : Nat) :
    elem ((upd i f a).base :: (upd i f a).rest) j =
      if j = i then (elem (a.base :: a.rest) i).map f else elem (a.base :: a.rest) j := by
  have hz := h.zero
  by_cases hi : i = 0
  · simp only [upd, hi, if_true, elem_cons, hf, hz]
    by_cases hj : j = 0
    · simp [hj]
    · have : ¬ 0 = j := fun e => hj e.symm
      simp [hj, this]
  · have hi' : ¬ 0 = i := fun e => hi e.symm
    simp only [upd, hi, if_false, elem_cons, elem_updList i f hf, hz, hi']
    by_cases hj : j = i
    · subst hj
      simp [hi']
    · simp [hj]

theorem cell_elem {a : Arr A V} (h : Ok a) {i : Nat} {c : Cell A V}
    (hc : elem (a.base :: a.rest) i = some c) : cell a i = c := by
  have hz := h.zero
  rw [elem_cons, hz] at hc
  simp only [cell, cellList_eq]
  by_cases hi : i = 0
  · subst hi
    simpa using hc
  · have : ¬ 0 = i := fun e => hi e.symm
    simp only [this, if_false] at hc
    simp [hi, hc]

/-- `setstr` on an element that is there. -/
theorem store_spec {a : Arr A V} (h : Ok a) {i : Nat} {c : Cell A V}
    (hc : elem (a.base :: a.rest) i = some c) (x : V) (j : Nat) :
    view (store T a i x) j = (if j = i then (T.conv c.attr x).or (view a i) else view a j) ∧
    (store T a i x).base.attr = a.base.attr := by
  have hv : view a i = c.val := by simp [view, hc]
  have hl : ∀ (b : Arr A V) (l : List Nat) (j : Nat), view { b with log := l } j = view b j :=
    fun _ _ _ => rfl
  simp only [store, cell_elem h hc]
  cases hx : T.conv c.attr x with
  | none =>
    refine ⟨?_, rfl⟩
    by_cases hj : j = i
    · simp [hj]
    · simp [hj]
  | some v =>
    have h1 : view (upd i (setVal v) a) j =
        if j = i then some v else view a j := by
      simp only [view]
      rw [elem_upd h i (setVal v) (fun _ => rfl) j]
      by_cases hj : j = i
      · simp [hj, hc, setVal]
      · simp [hj]
    have h2 : (upd i (setVal v) a).base.attr = a.base.attr := by
      simp only [upd]
      split <;> rfl
    simp only [Option.some_or]
    split
    · exact ⟨(hl _ _ _).trans h1, h2⟩
    · exact ⟨h1, h2⟩

/-- Storing changes no attributes. -/
theorem store_attr {a : Arr A V} (h : Ok a) {i : Nat} {c : Cell A V}
    (hc : elem (a.base :: a.rest) i = some c) (hca : c.attr = attrAt a i) (x : V) (j : Nat) :
    attrAt (store T a i x) j = attrAt a j := by
  simp only [store, cell_elem h hc]
  cases hx : T.conv c.attr x with
  | none => rfl
  | some v =>
    have h2 : (upd i (setVal v) a).base.attr = a.base.attr := by
      simp only [upd]
      split <;> rfl
    have h1 : attrAt (upd i (setVal v) a) j = attrAt a j := by
      simp only [attrAt, h2]
      rw [elem_upd h i (setVal v) (fun _ => rfl) j]
      by_cases hj : j = i
      · subst hj
        simp only [if_true, hc, Option.map_some, setVal, Option.isSome_some]
        have := hca
        simp only [attrAt, hc] at this
        exact this
      · simp [hj]
    simp only []
    split
    · exact h1
    · exact h1

/-- `global` changes no value and no attribute. -/
theorem glob_spec {a : Arr A V} (h : Ok a) (i : Option Nat) :
    (∀ j, view (glob sp a i) j = view a j) ∧ (∀ j, attrAt (glob sp a i) j = attrAt a j) ∧
    (∃ c, elem ((glob sp a i).base :: (glob sp a i).rest) (i.getD 0) = some c ∧
      c.attr = attrAt a (i.getD 0)) ∧ (glob sp a i).base.attr = a.base.attr := by
  have hz := h.zero
  simp only [glob]
  split
  · refine ⟨fun _ => rfl, fun _ => rfl, ⟨a.base, ?_, ?_⟩, rfl⟩
    · simp [elem_cons, hz]
    · simp [attrAt, elem_cons, hz]
  · next i hd =>
    obtain ⟨h1, h2, h3, h4⟩ := search_spec h i
    exact ⟨h1, h2, h3, by rw [h4]⟩
  · have e : ∀ j, (elem ({ a.base with spec := a.base.spec || sp } :: a.rest) j).map
        (fun c => (c.val, c.attr)) = (elem (a.base :: a.rest) j).map (fun c => (c.val, c.attr)) := by
      intro j
      rw [elem_cons, elem_cons]
      by_cases hj : a.base.idx = j <;> simp [hj]
    refine ⟨fun j => ?_, fun j => ?_, ⟨{ a.base with spec := a.base.spec || sp }, ?_, ?_⟩, rfl⟩
    · have ej := e j
      simp only [view]
      revert ej
      generalize elem ({ a.base with spec := a.base.spec || sp } :: a.rest) j = o1
      generalize elem (a.base :: a.rest) j = o2
      cases o1 <;> cases o2 <;> simp
      exact fun h _ => h
    · have ej := e j
      simp only [attrAt]
      revert ej
      generalize elem ({ a.base with spec := a.base.spec || sp } :: a.rest) j = o1
      generalize elem (a.base :: a.rest) j = o2
      cases o1 <;> cases o2 <;> simp
      intro h1 h2
      rw [h1, h2]
    · simp [elem_cons, hz]
    · simp [attrAt, elem_cons, hz]
  · next i hd =>
    obtain ⟨h1, h2, ⟨c, h3, h3'⟩, h4⟩ := search_spec h i
    have ho := h.search i
    have eu := elem_upd ho i (fun c => { c with spec := c.spec || sp }) (fun _ => rfl)
    have hbase : (upd i (fun c => { c with spec := c.spec || sp }) (search a i)).base.attr =
        a.base.attr := by
      rw [← h4]
      simp only [upd]
      split <;> rfl
    refine ⟨fun j => ?_, fun j => ?_, ⟨{ c with spec := c.spec || sp }, ?_, h3'⟩, hbase⟩
    · rw [← h1 j]
      simp only [view, eu]
      by_cases hj : j = i
      · subst hj
        simp [h3]
      · simp [hj]
    · rw [← h2 j]
      simp only [attrAt, eu, hbase]
      rw [show (search a i).base.attr = a.base.attr by rw [h4]]
      by_cases hj : j = i
      · subst hj
        simp [h3]
      · simp [hj]
    · simp only [Option.getD_some, eu, h3]
      simp

/-! ## Properties -/

/-- Looking at an array, or at an element that is not there, changes nothing in it. -/
theorem read_pure {a : Arr A V} (h : Ok a) (i : Option Nat) (j : Nat) :
    view (step T sp a (.read i)) j = view a j := (glob_spec sp h i).1 j

/-- An assignment changes one element, to what the attributes make of the string; when they
refuse it the element keeps its value. -/
theorem assign_one {a : Arr A V} (h : Ok a) (i : Option Nat) (x : V) (j : Nat) :
    view (step T sp a (.assign i x)) j =
      if j = i.getD 0 then (T.conv (attrAt a j) x).or (view a j) else view a j := by
  obtain ⟨h1, h2, ⟨c, h3, h4⟩, _⟩ := glob_spec sp h i
  have := (store_spec T (h.glob sp i) h3 x j).1
  simp only [step]
  rw [this]
  by_cases hj : j = i.getD 0
  · subst hj
    simp [h1, h4]
  · simp [hj, h1]

/-- `unset a[i]` removes that element only. -/
theorem unset_one {a : Arr A V} (h : Ok a) (i : Nat) (hr : T.ro (attrAt a i) = false) (j : Nat) :
    view (step T sp a (.unset (some i))) j = if j = i then none else view a j := by
  obtain ⟨h1, h2, ⟨c, h3, h4⟩, _⟩ := glob_spec sp h (some i)
  have ho := h.glob sp (some i)
  have hc := cell_elem ho h3
  simp only [Option.getD_some] at hc h3 h4
  simp only [step, hc, h4, hr]
  rw [if_neg (by simp)]
  by_cases hj : j = i
  · subst hj
    simp only [view]
    rw [elem_upd ho j (wipe T) (fun _ => rfl) j]
    simp [h3, wipe]
  · rw [← h1 j]
    simp only [view]
    rw [elem_upd ho i (wipe T) (fun _ => rfl) j]
    simp [hj]

theorem wiped_view {a : Arr A V} (he : (unsetAll T a).rest = []) (j : Nat) :
    view (unsetAll T a) j = none := by
  simp only [view, he, elem_cons]
  have hv : (unsetAll T a).base.val = none := rfl
  by_cases hi : (unsetAll T a).base.idx = j
  · simp only [hi, if_true, Option.bind_some, hv]
  · simp [hi, elem]

/-- `unset a` removes all of them. -/
theorem unset_all {a : Arr A V} (h : Ok a) (hr : T.ro a.base.attr = false) (j : Nat) :
    view (step T sp a (.unset none)) j = none ∧ (step T sp a (.unset none)).rest = [] := by
  obtain ⟨_, _, _, h4⟩ := glob_spec sp h none
  obtain ⟨_, he⟩ := (h.glob sp none).unsetAll T
  simp only [step, h4, hr]
  rw [if_neg (by simp)]
  refine ⟨?_, he⟩
  exact wiped_view T he j

/-- Read-only elements are not removed, nor is the array when element 0 is read-only. -/
theorem unset_ro {a : Arr A V} (h : Ok a) (i : Option Nat) (hr : T.ro (attrAt a (i.getD 0)) = true)
    (j : Nat) : view (step T sp a (.unset i)) j = view a j := by
  obtain ⟨h1, h2, ⟨c, h3, h4⟩, h5⟩ := glob_spec sp h i
  cases i with
  | none =>
    have hb : attrAt a 0 = a.base.attr := by simp [attrAt, elem_cons, h.zero]
    simp only [Option.getD_none, hb] at hr
    simp only [step, h5, hr, if_true]
    exact h1 j
  | some i =>
    have hc := cell_elem (h.glob sp (some i)) h3
    simp only [Option.getD_some] at hc h4 hr
    simp only [step, hc, h4, hr, if_true]
    exact h1 j

theorem fill_spec : ∀ (xs : List V) (i : Nat) {a : Arr A V}, Ok a → ∀ j, view (fill T i xs a) j =
    match (if i ≤ j then xs[j - i]? else none) with
    | some x => (T.conv (attrAt a j) x).or (view a j)
    | none => view a j
  | [], i, a, _, j => by
    simp only [fill]
    split <;> simp_all
  | x :: xs, i, a, h, j => by
    obtain ⟨h1, h2, ⟨c, h3, h4⟩, _⟩ := search_spec h i
    have ho := h.search i
    have hs := (store_spec T ho h3 x j).1
    have ha : attrAt (store T (search a i) i x) j = attrAt a j := by
      rw [store_attr T ho h3 (h4.trans (h2 i).symm) x j, h2]
    rw [fill, fill_spec xs (i + 1) (ho.store T i x) j, ha, hs, h1, h1]
    by_cases hj : j = i
    · subst hj
      have : ¬ j + 1 ≤ j := by omega
      simp [this, h4]
    · by_cases hlt : i ≤ j
      · have h5 : i + 1 ≤ j := by omega
        have h6 : j - i = (j - (i + 1)) + 1 := by omega
        simp [hj, hlt, h5, h6]
      · have h5 : ¬ i + 1 ≤ j := by omega
        simp [hj, hlt, h5]

/-- `set -A a x ...` makes an array of exactly these values, whatever it was before. -/
theorem set_exact {a : Arr A V} (h : Ok a) (hr : T.ro a.base.attr = false)
    (hp : ∀ x, T.conv T.plain x = some x) (xs : List V) (j : Nat) :
    view (step T sp a (.setA true xs)) j = xs[j]? := by
  obtain ⟨_, _, _, h4⟩ := glob_spec sp h none
  obtain ⟨ho, he⟩ := (h.glob sp none).unsetAll T
  simp only [step, h4, hr]
  simp only [Bool.false_eq_true, if_false, if_true]
  rw [fill_spec T xs 0 ho j]
  have hv : view (unsetAll T (glob sp a none)) j = none := by
    exact wiped_view T he j
  have hat : attrAt (unsetAll T (glob sp a none)) j = T.plain := by
    simp only [attrAt, he, elem_cons]
    have hv : (unsetAll T (glob sp a none)).base.attr = T.plain := rfl
    by_cases hi : (unsetAll T (glob sp a none)).base.idx = j
    · simp only [hi, if_true, hv, ite_self]
    · simp only [hi, if_false, elem, List.find?_nil, hv]
  simp only [Nat.zero_le, if_true, Nat.sub_zero]
  cases hx : xs[j]? with
  | none => simpa using hv
  | some x => simp [hat, hp]

/-- `set +A a x ...` changes the first elements and no others. -/
theorem set_overlay {a : Arr A V} (h : Ok a) (hr : T.ro a.base.attr = false) (xs : List V)
    (j : Nat) : view (step T sp a (.setA false xs)) j =
      match xs[j]? with
      | some x => (T.conv (attrAt a j) x).or (view a j)
      | none => view a j := by
  obtain ⟨h1, h2, _, h4⟩ := glob_spec sp h none
  simp only [step, h4, hr]
  simp only [Bool.false_eq_true, if_false]
  rw [fill_spec T xs 0 (h.glob sp none) j, h1, h2]
  simp

/-- `typeset` treats every element that has a value alike. -/
theorem typeset_all {a : Arr A V} (h : Ok a) (f : A → Option V → A × Option V)
    (hf : ∀ b, (f b none).2 = none) (j : Nat) :
    view (step T sp a (.typeset f)) j =
      (view a j).bind (fun v => (f (attrAt a j) (some v)).2) := by
  obtain ⟨h1, h2, _, _⟩ := glob_spec sp h none
  rw [← h1, ← h2]
  simp only [step, view, attrAt]
  generalize glob sp a none = b
  have key : ∀ l : List (Cell A V), elem (l.map (retype f)) j = (elem l j).map (retype f) := by
    intro l
    induction l with
    | nil => rfl
    | cons c l ih =>
      rw [List.map_cons, elem_cons, elem_cons, ih]
      by_cases hc : c.idx = j
      · simp [retype, hc]
      · simp [retype, hc]
  have := key (b.base :: b.rest)
  simp only [List.map_cons] at this
  rw [this]
  cases hc : elem (b.base :: b.rest) j with
  | none => rfl
  | some c =>
    cases hv : c.val with
    | none => simp [retype, hv, hf]
    | some v => simp [retype, hv]

/-- `${a[*]}` is the values in the order of their indices, each once, and `${#a[*]}` their
number. -/
theorem words_all {a : Arr A V} (h : Ok a) : ∃ is : List Nat, is.Pairwise (· < ·) ∧
    (∀ i, i ∈ is ↔ (view a i).isSome = true) ∧ (words a).map some = is.map (view a) ∧
    count a = is.length := by
  have key : ∀ l : List (Cell A V), l.Pairwise (fun c d => c.idx < d.idx) →
      ((l.filter (·.val.isSome)).map (·.idx)).Pairwise (· < ·) ∧
      (∀ i, i ∈ (l.filter (·.val.isSome)).map (·.idx) ↔
        ((elem l i).bind (·.val)).isSome = true) ∧
      (l.filterMap (·.val)).map some =
        ((l.filter (·.val.isSome)).map (·.idx)).map (fun i => (elem l i).bind (·.val)) := by
    intro l
    induction l with
    | nil => intro _; simp [elem]
    | cons c l ih =>
      intro hp
      obtain ⟨h1, h2⟩ := List.pairwise_cons.1 hp
      obtain ⟨a1, a2, a3⟩ := ih h2
      have hne : ∀ i ∈ (l.filter (·.val.isSome)).map (·.idx), c.idx < i := by
        intro i hi
        obtain ⟨d, hd, rfl⟩ := List.mem_map.1 hi
        exact h1 d (List.mem_filter.1 hd).1
      have hnc : elem l c.idx = none := elem_none h1
      have hmap : ((l.filter (·.val.isSome)).map (·.idx)).map
          (fun i => (elem (c :: l) i).bind (·.val)) =
          ((l.filter (·.val.isSome)).map (·.idx)).map (fun i => (elem l i).bind (·.val)) := by
        apply List.map_congr_left
        intro i hi
        have := hne i hi
        have hci : ¬ c.idx = i := by omega
        simp [elem_cons, hci]
      cases hv : c.val with
      | none =>
        have e : (c :: l).filter (·.val.isSome) = l.filter (·.val.isSome) := by simp [hv]
        rw [e, hmap]
        refine ⟨a1, fun i => ?_, ?_⟩
        · rw [a2 i, elem_cons]
          by_cases hi : c.idx = i
          · subst hi
            simp [hnc, hv]
          · simp [hi]
        · simpa [hv] using a3
      | some v =>
        have e : (c :: l).filter (·.val.isSome) = c :: l.filter (·.val.isSome) := by simp [hv]
        rw [e, List.map_cons, List.map_cons, hmap]
        refine ⟨List.pairwise_cons.2 ⟨hne, a1⟩, fun i => ?_, ?_⟩
        · rw [List.mem_cons, a2 i, elem_cons]
          by_cases hi : c.idx = i
          · subst hi
            simp [hv]
          · have hi' : ¬ i = c.idx := fun e => hi e.symm
            simp [hi, hi']
        · simp [elem_cons, hv, a3]
  obtain ⟨a1, a2, a3⟩ := key _ h.sorted
  exact ⟨_, a1, a2, a3, by simp [count]⟩

/-! ## Special variables -/

/-- The variable stays defined. -/
def keeps : Op A V → Bool
  | .unset none => false
  | .setA true [] => false
  | _ => true

/-- Element 0 has the special meaning of the name, no other has. -/
structure Sp (a : Arr A V) : Prop where
  defd : a.defd = true
  base : a.base.spec = sp
  rest : ∀ c ∈ a.rest, c.spec = false
  log : ∀ i ∈ a.log, i = 0

theorem place_spec (b : Cell A V) (i : Nat) : ∀ l : List (Cell A V), (∀ c ∈ l, c.spec = false) →
    ∀ c ∈ place b i l, c.spec = false
  | [], _, c, hc => by
    simp only [place, List.mem_singleton] at hc
    subst hc
    rfl
  | d :: l, h, c, hc => by
    have hl : ∀ c ∈ l, c.spec = false := fun c hc => h c (List.mem_cons_of_mem _ hc)
    simp only [place] at hc
    split at hc
    · rcases List.mem_cons.1 hc with rfl | hc
      · exact h _ List.mem_cons_self
      · exact place_spec b i l hl c hc
    · split at hc
      · split at hc
        · exact h c hc
        · rcases List.mem_cons.1 hc with rfl | hc
          · rfl
          · exact hl c hc
      · rcases List.mem_cons.1 hc with rfl | hc
        · rfl
        · exact h c hc

theorem updList_spec (i : Nat) (f : Cell A V → Cell A V) (hf : ∀ c, (f c).spec = c.spec) :
    ∀ l : List (Cell A V), (∀ c ∈ l, c.spec = false) → ∀ c ∈ updList i f l, c.spec = false
  | [], _, _, hc => by simp [updList] at hc
  | d :: l, h, c, hc => by
    have hl : ∀ c ∈ l, c.spec = false := fun c hc => h c (List.mem_cons_of_mem _ hc)
    simp only [updList] at hc
    split at hc
    · rcases List.mem_cons.1 hc with rfl | hc
      · rw [hf]
        exact h _ List.mem_cons_self
      · exact hl c hc
    · rcases List.mem_cons.1 hc with rfl | hc
      · exact h _ List.mem_cons_self
      · exact updList_spec i f hf l hl c hc

theorem cell_spec {a : Arr A V} (h : ∀ c ∈ a.rest, c.spec = false) (i : Nat) (hi : i ≠ 0)
    (hm : ∃ c, cellList i a.rest = some c) : (cell a i).spec = false := by
  obtain ⟨c, hc⟩ := hm
  simp only [cell, hi, if_false, hc, Option.getD_some]
  rw [cellList_eq] at hc
  exact h c (List.mem_of_find?_eq_some hc)

theorem Sp.search {a : Arr A V} (h : Sp sp a) (i : Nat) : Sp sp (search a i) := by
  simp only [Arr.search]
  split
  · exact ⟨rfl, h.base, h.rest, h.log⟩
  · exact ⟨rfl, h.base, place_spec _ _ _ h.rest, h.log⟩

theorem Sp.upd {a : Arr A V} (h : Sp sp a) (i : Nat) (f : Cell A V → Cell A V)
    (hf : ∀ c, (f c).spec = c.spec) : Sp sp (upd i f a) := by
  simp only [Arr.upd]
  split
  · exact ⟨h.defd, (hf _).trans h.base, h.rest, h.log⟩
  · exact ⟨h.defd, h.base, updList_spec i f hf _ h.rest, h.log⟩

theorem Sp.store {a : Arr A V} (h : Sp sp a) (i : Nat) (x : V)
    (hm : i = 0 ∨ ∃ c, cellList i a.rest = some c) : Sp sp (store T a i x) := by
  simp only [Arr.store]
  split
  · exact h
  · next v hv =>
    have hu := h.upd sp i (setVal v) (fun _ => rfl)
    split
    · next hs =>
      refine ⟨hu.defd, hu.base, hu.rest, fun j hj => ?_⟩
      simp only [List.mem_append, List.mem_singleton] at hj
      rcases hj with hj | rfl
      · exact hu.log j hj
      · rcases hm with hm | hm
        · exact hm
        · by_cases h0 : j = 0
          · exact h0
          · rw [cell_spec h.rest j h0 hm] at hs
            cases hs
    · exact hu

theorem place_has (b : Cell A V) (i : Nat) : ∀ l : List (Cell A V),
    ∃ c, cellList i (place b i l) = some c
  | [] => ⟨fresh b i, by simp [place, cellList, fresh]⟩
  | c :: l => by
    simp only [place]
    split
    · next h =>
      obtain ⟨d, hd⟩ := place_has b i l
      refine ⟨d, ?_⟩
      have : ¬ c.idx = i := by omega
      simp [cellList, this, hd]
    · split
      · next h =>
        split
        · exact ⟨c, by simp [cellList, h]⟩
        · exact ⟨fresh b i, by simp [cellList, fresh]⟩
      · exact ⟨fresh b i, by simp [cellList, fresh]⟩

theorem search_has (a : Arr A V) (i : Nat) : i = 0 ∨ ∃ c, cellList i (search a i).rest = some c := by
  by_cases h : i = 0
  · exact Or.inl h
  · right
    simp only [search, h, if_false]
    exact place_has _ _ _

theorem Sp.fill : ∀ (xs : List V) (i : Nat) {a : Arr A V}, Sp sp a → Sp sp (fill T i xs a)
  | [], _, _, h => h
  | x :: xs, i, _, h => Sp.fill xs (i + 1) ((h.search sp i).store T sp i x (search_has _ i))

theorem glob_defd {a : Arr A V} (h : Sp sp a) : glob sp a none = a := by
  simp [glob, h.defd]

theorem Sp.step {a : Arr A V} (h : Sp sp a) (o : Op A V) (ho : keeps o = true) :
    Sp sp (step T sp a o) := by
  have hg : ∀ i, Sp sp (glob sp a i) ∧ (i.getD 0 = 0 ∨ ∃ c, cellList (i.getD 0) (glob sp a i).rest = some c) := by
    intro i
    cases i with
    | none => rw [glob_defd sp h]; exact ⟨h, Or.inl rfl⟩
    | some i =>
      have : glob sp a (some i) = Arr.search a i := by simp [glob, h.defd]
      rw [this]
      exact ⟨h.search sp i, search_has a i⟩
  cases o with
  | read i => exact (hg i).1
  | assign i x => exact (hg i).1.store T sp _ x (hg i).2
  | unset i =>
    cases i with
    | none => cases ho
    | some i =>
      simp only [Arr.step]
      split
      · exact (hg (some i)).1
      · exact (hg (some i)).1.upd sp i _ (fun _ => rfl)
  | setA reset xs =>
    simp only [Arr.step, glob_defd sp h]
    split
    · exact h
    · split
      · next hr =>
        cases xs with
        | nil => simp [keeps, hr] at ho
        | cons x xs =>
          refine Sp.fill T sp xs 1 (Sp.store T sp ?_ 0 x (Or.inl rfl))
          have hrest : ∀ c ∈ (Arr.unsetAll T a).rest, c.spec = false := by
            intro c hc
            simp only [Arr.unsetAll] at hc
            split at hc
            · cases hc
            · exact h.rest c hc
          exact ⟨by simp [Arr.search], by simpa [Arr.search, Arr.unsetAll, wipe] using h.base,
            by simpa [Arr.search] using hrest, by simpa [Arr.search, Arr.unsetAll] using h.log⟩
      · exact Sp.fill T sp xs 0 h
  | typeset f =>
    simp only [Arr.step, glob_defd sp h]
    refine ⟨h.defd, h.base, fun c hc => ?_, h.log⟩
    obtain ⟨d, hd, rfl⟩ := List.mem_map.1 hc
    exact h.rest d hd

/-- Once a special variable is there without a subscript, only assignments to element 0 have the
special effect, as long as the variable is not unset as a whole. -/
theorem special_partial {a : Arr A V} (l : List (Op A V)) (hl : ∀ o ∈ l, keeps o = true)
    (h : Sp sp a) : Sp sp (run T sp a l) := by
  induction l generalizing a with
  | nil => exact h
  | cons o l ih =>
    exact ih (fun x hx => hl x (List.mem_cons_of_mem _ hx))
      (h.step T sp o (hl o List.mem_cons_self))

/-- An assignment to it that is accepted has the effect. -/
theorem special_acts {a : Arr A V} (h : Sp true a) (x v : V)
    (hc : T.conv a.base.attr x = some v) :
    (step T true a (.assign none x)).log = a.log ++ [0] := by
  simp [step, glob_defd true h, store, cell, hc, h.base, upd]

/-! ## Cases, and where the code falls short -/

/-- Strings without attributes or read-only. -/
def two : Attrs Bool Nat := ⟨false, id, fun r x => if r then none else some x⟩

-- a[5]=50; a[2]=20; a=1; unset a[2]; ${a[*]}
example : words (run two false (Arr.init two) [.assign (some 5) 50, .assign (some 2) 20,
    .assign none 1, .assign (some 9) 90, .read (some 7), .unset (some 2)]) = [1, 50, 90] := by decide
-- set -A over it
example : words (run two false (Arr.init two) [.assign (some 5) 50, .setA true [7, 8]]) = [7, 8] ∧
    words (run two false (Arr.init two) [.assign (some 5) 50, .setA false [7, 8]]) = [7, 8, 50] := by
  decide
-- readonly
example : words (run two false (Arr.init two) [.setA true [7, 8], .typeset (fun _ v => (true, v)),
    .assign (some 1) 3, .assign (some 4) 3, .unset none, .setA true [1]]) = [7, 8] := by decide
example : Sp true (run two true (Arr.init two) [.assign none 5]) :=
  ⟨rfl, rfl, by decide, by decide⟩

/-- `unset a[0]` takes the attributes from the elements made later, but not from those there are:
the array is half read-only, half not (here with an attribute that is not read-only). -/
theorem attributes_split : ∃ T : Attrs Bool Nat, (∀ x, T.conv T.plain x = some x) ∧
    ∃ l : List (Op Bool Nat), (∃ f, .typeset f ∈ l) ∧
      attrAt (run T false (Arr.init T) l) 1 = true ∧ attrAt (run T false (Arr.init T) l) 2 = false := by
  refine ⟨⟨false, fun _ => false, fun i x => some (if i then x + 1 else x)⟩, fun _ => rfl,
    [.setA true [1, 2], .typeset (fun _ v => (true, v)), .unset (some 0)],
    ⟨fun _ v => (true, v), by simp⟩, ?_, ?_⟩ <;>
    decide

/-- When the first mention of a special variable has a subscript, even to look at it, an
assignment to the variable has no special effect: `: ${TMOUT[1]}; TMOUT=10`. -/
theorem special_lost : (run two true (Arr.init two) [.read (some 1), .assign none 10]).log = [] ∧
    (run two true (Arr.init two) [.assign none 10]).log = [0] := by decide

/-- And the element has it instead: `TMOUT[1]=10`, or `unset PATH; PATH[1]=/x`. -/
theorem special_element : (run two true (Arr.init two) [.assign (some 1) 10]).log = [1] ∧
    (run two true (Arr.init two) [.assign none 1, .unset none, .assign (some 1) 10]).log = [0, 1] := by
  decide

end Ksh.Arr
