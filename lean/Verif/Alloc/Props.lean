import Verif.Alloc.Model
/-!
# C03: regions

The specification keeps, for each region, the list of its blocks.  A client may free or
resize only a block it holds in that region; `malloc` returns an address that is not in
use.  Under these two rules no operation is undefined and the regions develop as
specified.
-/

namespace Ksh.Alloc

/-! ## Specification -/

/-- What the client asks, with the answer of `malloc`/`realloc`. -/
inductive Cmd
  | alloc (ap size r : Nat)
  | resize (ap p size r : Nat)
  | array (ap p n size r : Nat)
  | free (ap p : Nat)
  | release (ap : Nat)
  deriving Repr

/-- regions and their blocks: address and usable bytes -/
abbrev Regions := Nat → List (Nat × Nat)

def Regions.upd (A : Regions) (ap : Nat) (l : List (Nat × Nat)) : Regions := fun x => if x = ap then l else A x

def Regions.holds (A : Regions) (ap p : Nat) : Prop := p ∈ (A ap).map (·.1)

/-- `r` is not in use by any region; a `realloc` may return its own argument. -/
def Regions.unused (A : Regions) (r : Nat) : Prop := ∀ ap, ¬ A.holds ap r

/-- the client holds what it passes, and the system allocator is right -/
def Legal (A : Regions) : Cmd → Prop
  | .alloc _ _ r => A.unused r
  | .resize ap p _ r => (p = 0 ∨ A.holds ap p) ∧ (A.unused r ∨ (r = p ∧ p ≠ 0))
  | .array ap p n s r => (p = 0 ∨ A.holds ap p) ∧ (A.unused r ∨ (r = p ∧ p ≠ 0)) ∧ n ≤ SIZE_MAX ∧ s ≤ SIZE_MAX
  | .free ap p => p = 0 ∨ A.holds ap p
  | .release _ => True

/-- put `(r, n)` in the place of block `p` -/
def replace (p r n : Nat) (l : List (Nat × Nat)) : List (Nat × Nat) :=
  l.map fun x => if x.1 = p then (r, n) else x

def remove (p : Nat) (l : List (Nat × Nat)) : List (Nat × Nat) := l.filter fun x => x.1 ≠ p

/-- The regions after a request; a request for more bytes than a `size_t` holds together
with the link, or one the system cannot serve (`r = 0`), is refused. -/
def specResize (A : Regions) (ap p size r : Nat) : Option Regions :=
  if size + LINK > SIZE_MAX ∨ r = 0 then none
  else if p = 0 then some (A.upd ap ((r, size) :: A ap))
  else some (A.upd ap (replace p r size (A ap)))

def spec (A : Regions) : Cmd → Option Regions
  | .alloc ap size r => specResize A ap 0 size r
  | .resize ap p size r => specResize A ap p size r
  | .array ap p n s r => specResize A ap p (n * s) r
  | .free ap p => some (if p = 0 then A else A.upd ap (remove p (A ap)))
  | .release ap => some (A.upd ap [])

/-! ## What the code does -/

def exec (n : Nat) (st : St) : Cmd → Option Out
  | .alloc ap size r => some (Alloc.alloc r size ap st)
  | .resize ap p size r => some (aresize r p size ap st)
  | .array ap p m size r => some (areallocarray r p m size ap st)
  | .free ap p => some (afree p ap st)
  | .release ap => afreeall n ap st

/-! ## Invariant -/

/-- `l` is the doubly linked list from `x` (whose predecessor is `p`) up to `y`, the last
node being `q`. -/
def Seg (h : Nat → Option Blk) : Nat → Nat → List (Nat × Nat) → Nat → Nat → Prop
  | p, x, [], y, q => x = y ∧ p = q
  | p, x, a :: l, y, q => x = a.1 ∧ a.1 ≠ 0 ∧ ∃ b, h a.1 = some b ∧ b.prev = p ∧ b.size = LINK + a.2 ∧
      Seg h a.1 b.next l y q

def addrs (l : List (Nat × Nat)) : List Nat := l.map (·.1)

structure Inv (st : St) (A : Regions) : Prop where
  seg : ∀ ap, ∃ q, Seg st.heap 0 (st.head ap) (A ap) 0 q
  nodup : ∀ ap, (addrs (A ap)).Nodup
  disj : ∀ ap aq x, A.holds ap x → A.holds aq x → ap = aq
  only : ∀ x b, st.heap x = some b → ∃ ap, A.holds ap x

theorem Seg.congr {h h' : Nat → Option Blk} : ∀ {l : List (Nat × Nat)} {p x y q},
    (∀ a ∈ addrs l, h' a = h a) → Seg h p x l y q → Seg h' p x l y q
  | [], _, _, _, _, _, hs => hs
  | a :: l, p, x, y, q, hh, ⟨h1, h2, b, h3, h4, h5, h6⟩ =>
    ⟨h1, h2, b, by rw [hh _ (by simp [addrs])]; exact h3, h4, h5,
      Seg.congr (fun c hc => hh c (by simp only [addrs, List.map_cons, List.mem_cons]; exact Or.inr hc)) h6⟩

theorem Seg.append {h : Nat → Option Blk} : ∀ {l m : List (Nat × Nat)} {p x y q},
    Seg h p x (l ++ m) y q ↔ ∃ z r, Seg h p x l z r ∧ Seg h r z m y q
  | [], m, p, x, y, q => by
    constructor
    · intro hs; exact ⟨x, p, ⟨rfl, rfl⟩, hs⟩
    · rintro ⟨z, r, ⟨rfl, rfl⟩, hs⟩; exact hs
  | a :: l, m, p, x, y, q => by
    simp only [List.cons_append, Seg]
    constructor
    · rintro ⟨h1, h2, b, h3, h4, h5, h6⟩
      obtain ⟨z, r, h7, h8⟩ := Seg.append.1 h6
      exact ⟨z, r, ⟨h1, h2, b, h3, h4, h5, h7⟩, h8⟩
    · rintro ⟨z, r, ⟨h1, h2, b, h3, h4, h5, h7⟩, h8⟩
      exact ⟨h1, h2, b, h3, h4, h5, Seg.append.2 ⟨z, r, h7, h8⟩⟩

/-- the last node is in the list, or there is none -/
theorem Seg.last {h : Nat → Option Blk} : ∀ {l : List (Nat × Nat)} {p x y q}, Seg h p x l y q →
    (l = [] ∧ q = p) ∨ (q ∈ addrs l ∧ q ≠ 0)
  | [], _, _, _, _, ⟨_, h⟩ => Or.inl ⟨rfl, h.symm⟩
  | a :: l, p, x, y, q, ⟨_, h0, b, _, _, _, h⟩ => by
    right
    rcases h.last with ⟨rfl, rfl⟩ | ⟨h1, h2⟩
    · exact ⟨by simp [addrs], h0⟩
    · exact ⟨by simp only [addrs, List.map_cons, List.mem_cons]; exact Or.inr h1, h2⟩

/-- the first node -/
theorem Seg.first {h : Nat → Option Blk} {l : List (Nat × Nat)} {p x y q} (hs : Seg h p x l y q) :
    (l = [] ∧ x = y) ∨ (∃ n l', l = (x, n) :: l' ∧ x ≠ 0) := by
  cases l with
  | nil => exact Or.inl ⟨rfl, hs.1⟩
  | cons a l =>
    obtain ⟨h1, h2, _⟩ := hs
    exact Or.inr ⟨a.2, l, by rw [h1], by rw [h1]; exact h2⟩

theorem Seg.ne_zero {h : Nat → Option Blk} : ∀ {l : List (Nat × Nat)} {p x y q}, Seg h p x l y q →
    ∀ a ∈ addrs l, a ≠ 0 ∧ ∃ b, h a = some b
  | [], _, _, _, _, _, a, ha => by simp [addrs] at ha
  | c :: l, _, _, _, _, ⟨_, h0, b, hb, _, _, h⟩, a, ha => by
    simp only [addrs, List.map_cons, List.mem_cons] at ha
    rcases ha with rfl | ha
    · exact ⟨h0, b, hb⟩
    · exact h.ne_zero a ha

/-- overwrite the `next` of the last node -/
theorem Seg.retarget {h h' : Nat → Option Blk} {z : Nat} : ∀ {l : List (Nat × Nat)} {p x y q}, Seg h p x l y q →
    (addrs l).Nodup → l ≠ [] → (∀ a ∈ addrs l, a ≠ q → h' a = h a) →
    (∀ b, h q = some b → h' q = some { b with next := z }) → Seg h' p x l z q
  | [], _, _, _, _, _, _, hne, _, _ => absurd rfl hne
  | [a], p, x, y, q, ⟨h1, h2, b, h3, h4, h5, _, h7⟩, _, _, _, hq => by
    rw [← h7] at hq ⊢
    exact ⟨h1, h2, _, hq b h3, h4, h5, rfl, rfl⟩
  | a :: c :: l, p, x, y, q, ⟨h1, h2, b, h3, h4, h5, h6⟩, hnd, _, hh, hq => by
    have hnd' : a.1 ∉ addrs (c :: l) ∧ (addrs (c :: l)).Nodup := by
      simpa only [addrs, List.map_cons, List.nodup_cons] using hnd
    have hqm : q ∈ addrs (c :: l) := by
      rcases h6.last with ⟨h, _⟩ | ⟨h, _⟩
      · cases h
      · exact h
    refine ⟨h1, h2, b, ?_, h4, h5, h6.retarget hnd'.2 (by simp) (fun d hd hdq => hh d ?_ hdq) hq⟩
    · rw [hh a.1 (by simp [addrs]) (fun he => hnd'.1 (he ▸ hqm))]; exact h3
    · simp only [addrs, List.map_cons, List.mem_cons] at hd ⊢; exact Or.inr hd

/-- overwrite the `prev` of the first node -/
theorem Seg.repred {h h' : Nat → Option Blk} {p' : Nat} {l : List (Nat × Nat)} {p x y q} (hs : Seg h p x l y q)
    (hnd : (addrs l).Nodup) (hne : l ≠ []) (hh : ∀ a ∈ addrs l, a ≠ x → h' a = h a)
    (hx : ∀ b, h x = some b → h' x = some { b with prev := p' }) : Seg h' p' x l y q := by
  cases l with
  | nil => exact absurd rfl hne
  | cons a l =>
    obtain ⟨h1, h2, b, h3, h4, h5, h6⟩ := hs
    have hnd' : a.1 ∉ addrs l ∧ (addrs l).Nodup := by
      simpa only [addrs, List.map_cons, List.nodup_cons] using hnd
    refine ⟨h1, h2, { b with prev := p' }, ?_, rfl, h5, ?_⟩
    · rw [← h1]; exact hx b (by rw [h1]; exact h3)
    · refine h6.congr fun c hc => hh c ?_ ?_
      · simp only [addrs, List.map_cons, List.mem_cons] at hc ⊢; exact Or.inr hc
      · rw [h1]; rintro rfl; exact hnd'.1 hc

theorem holds_split {A : Regions} {ap p} (h : A.holds ap p) : ∃ xs n ys, A ap = xs ++ (p, n) :: ys := by
  obtain ⟨a, ha, rfl⟩ := List.mem_map.1 h
  obtain ⟨xs, ys, h⟩ := List.append_of_mem ha
  exact ⟨xs, a.2, ys, h⟩

theorem addrs_append (xs ys) : addrs (xs ++ ys) = addrs xs ++ addrs ys := by simp [addrs]
theorem addrs_cons (a xs) : addrs (a :: xs) = a.1 :: addrs xs := rfl

theorem upd_same (A : Regions) (ap l) : A.upd ap l ap = l := by simp [Regions.upd]
theorem upd_other {A : Regions} {ap aq l} (h : aq ≠ ap) : A.upd ap l aq = A aq := by simp [Regions.upd, h]

/-- What a block's address being held means for the heap -/
theorem Inv.live {st A} (hi : Inv st A) {ap p} (h : A.holds ap p) : p ≠ 0 ∧ ∃ b, st.heap p = some b := by
  obtain ⟨q, hs⟩ := hi.seg ap
  exact hs.ne_zero p h

theorem Inv.dead {st A} (hi : Inv st A) {r} (h : A.unused r) : st.heap r = none := by
  cases hr : st.heap r with
  | none => rfl
  | some b => obtain ⟨ap, hap⟩ := hi.only r b hr; exact absurd hap (h ap)

/-- Build the invariant after a change confined to one region. -/
theorem Inv.change {st st' : St} {A : Regions} {ap : Nat} {l : List (Nat × Nat)} (hi : Inv st A)
    (hseg : ∃ q, Seg st'.heap 0 (st'.head ap) l 0 q)
    (hnd : (addrs l).Nodup)
    (hnew : ∀ x ∈ addrs l, A.holds ap x ∨ A.unused x)
    (hhead : ∀ aq, aq ≠ ap → st'.head aq = st.head aq)
    (hheap : ∀ x, ¬ A.holds ap x → x ∉ addrs l → st'.heap x = st.heap x)
    (hgone : ∀ x, A.holds ap x → x ∉ addrs l → st'.heap x = none) : Inv st' (A.upd ap l) where
  seg aq := by
    by_cases h : aq = ap
    · subst h; rw [upd_same]; exact hseg
    · rw [upd_other h, hhead aq h]
      obtain ⟨q, hs⟩ := hi.seg aq
      refine ⟨q, hs.congr fun a ha => hheap a (fun hap => h (hi.disj aq ap a ha hap)) fun hal => ?_⟩
      rcases hnew a hal with hh | hh
      · exact h (hi.disj aq ap a ha hh)
      · exact hh aq ha
  nodup aq := by
    by_cases h : aq = ap
    · subst h; rw [upd_same]; exact hnd
    · rw [upd_other h]; exact hi.nodup aq
  disj aq ar x h1 h2 := by
    have key : ∀ as, as ≠ ap → (A.upd ap l).holds as x → ¬ x ∈ addrs l := by
      intro as hne hh hx
      rw [Regions.holds, upd_other hne] at hh
      rcases hnew x hx with h' | h'
      · exact hne (hi.disj as ap x hh h')
      · exact h' as hh
    by_cases ha : aq = ap
    · by_cases hb : ar = ap
      · rw [ha, hb]
      · exact absurd (by subst ha; rw [Regions.holds, upd_same] at h1; exact h1) (key ar hb h2)
    · by_cases hb : ar = ap
      · exact absurd (by subst hb; rw [Regions.holds, upd_same] at h2; exact h2) (key aq ha h1)
      · rw [Regions.holds, upd_other ha] at h1
        rw [Regions.holds, upd_other hb] at h2
        exact hi.disj aq ar x h1 h2
  only x b hx := by
    by_cases hl : x ∈ addrs l
    · exact ⟨ap, by rw [Regions.holds, upd_same]; exact hl⟩
    · by_cases ha : A.holds ap x
      · rw [hgone x ha hl] at hx; cases hx
      · rw [hheap x ha hl] at hx
        obtain ⟨aq, hq⟩ := hi.only x b hx
        refine ⟨aq, ?_⟩
        by_cases h : aq = ap
        · subst h; exact absurd hq ha
        · rw [Regions.holds, upd_other h]; exact hq

/-! ## The operations -/

/-- outcome agrees with the specification -/
def Agrees (o : Out) (A' : Option Regions) : Prop :=
  match o, A' with
  | .ok st _, some A' => Inv st A'
  | .refused, none => True
  | _, _ => False

theorem alloc_agrees {st A} (hi : Inv st A) {r size ap} (hr : A.unused r) :
    Agrees (alloc r size ap st) (specResize A ap 0 size r) := by
  unfold alloc specResize
  by_cases hs : size > SIZE_MAX - LINK
  · rw [if_pos hs, if_pos (Or.inl (by simp only [SIZE_MAX, LINK] at *; omega))]; trivial
  rw [if_neg hs]
  by_cases h0 : r = 0
  · rw [if_pos h0, if_pos (Or.inr h0)]; trivial
  rw [if_neg h0, if_neg (by simp only [SIZE_MAX, LINK] at *; omega), if_pos rfl]
  obtain ⟨q, hseg⟩ := hi.seg ap
  have hrl : r ∉ addrs (A ap) := hr ap
  have hnd := hi.nodup ap
  have hnd' : (addrs ((r, size) :: A ap)).Nodup := List.nodup_cons.2 ⟨hrl, hnd⟩
  have hnew : ∀ x ∈ addrs ((r, size) :: A ap), A.holds ap x ∨ A.unused x := by
    intro x hx
    rcases List.mem_cons.1 hx with rfl | hx
    · exact Or.inr hr
    · exact Or.inl hx
  have hgone : ∀ x, A.holds ap x → x ∉ addrs ((r, size) :: A ap) → False :=
    fun x hx hn => hn (List.mem_cons.2 (Or.inr hx))
  rcases hseg.first with ⟨hl, hh⟩ | ⟨n, l', hl, hh⟩
  · -- the region was empty
    simp only [guarded, hh, ne_eq, not_true_eq_false, if_false, Option.map_some, finish, Agrees]
    refine hi.change ⟨r, ?_⟩ hnd' hnew ?_ ?_ (fun x hx hn => (hgone x hx hn).elim)
    · rw [hl]
      exact ⟨by simp [St.setHead], h0, ⟨0, 0, LINK + size⟩, by simp [St.setHead, St.set], rfl, rfl, rfl, rfl⟩
    · intro aq h; simp [St.setHead, St.set, h]
    · intro x hx hn
      have : x ≠ r := fun he => hn (by simp [addrs, he])
      simp [St.setHead, St.set, this]
  · have hne : st.head ap ≠ r := fun he => hrl (by rw [hl, ← he]; simp [addrs])
    have hb : ∃ b, st.heap (st.head ap) = some b := (hi.live (ap := ap) (by rw [Regions.holds, hl]; simp)).2
    obtain ⟨b, hb⟩ := hb
    simp only [guarded, hh, ne_eq, not_false_eq_true, if_true, setPrev, St.set, hne, if_false, hb, Option.map_some,
      finish, Agrees]
    refine hi.change ⟨q, ?_⟩ hnd' hnew ?_ ?_ (fun x hx hn => (hgone x hx hn).elim)
    · refine ⟨by simp [St.setHead], h0, ⟨0, st.head ap, LINK + size⟩, ?_, rfl, rfl, ?_⟩
      · simp [St.setHead, Ne.symm hne]
      · refine hseg.repred hnd (by rw [hl]; simp) ?_ ?_
        · intro a ha hax
          have : a ≠ r := fun he => hrl (he ▸ ha)
          simp [St.setHead, hax, this]
        · intro b' hb'
          rw [hb] at hb'; cases hb'
          simp [St.setHead]
    · intro aq h; simp [St.setHead, h]
    · intro x hx hn
      have h1 : x ≠ r := fun he => hn (by simp [addrs, he])
      have h2 : x ≠ st.head ap := by
        rintro rfl; exact hx (by rw [Regions.holds, hl]; simp)
      simp [St.setHead, h1, h2]

theorem split_nodup {xs ys : List (Nat × Nat)} {p n} (h : (addrs (xs ++ (p, n) :: ys)).Nodup) :
    (addrs xs).Nodup ∧ (addrs ys).Nodup ∧ p ∉ addrs xs ∧ p ∉ addrs ys ∧ (∀ a ∈ addrs xs, a ∉ addrs ys) := by
  rw [addrs_append, addrs_cons, List.nodup_append] at h
  obtain ⟨h1, h2, h3⟩ := h
  have h2 := List.nodup_cons.1 h2
  refine ⟨h1, h2.2, fun hp => h3 p hp p (by simp) rfl, h2.1, fun a ha hy => h3 a ha a (by simp [hy]) rfl⟩

theorem remove_split {xs ys : List (Nat × Nat)} {p n} (h : p ∉ addrs xs ∧ p ∉ addrs ys) :
    remove p (xs ++ (p, n) :: ys) = xs ++ ys := by
  have key : ∀ l : List (Nat × Nat), p ∉ addrs l → remove p l = l := by
    intro l hl
    refine List.filter_eq_self.2 fun a ha => ?_
    simp only [ne_eq, decide_eq_true_eq]
    rintro rfl; exact hl (List.mem_map_of_mem ha)
  have h1 := key xs h.1
  have h2 := key ys h.2
  simp only [remove, List.filter_append, List.filter_cons] at h1 h2 ⊢
  rw [h1, h2]
  simp

theorem replace_split {xs ys : List (Nat × Nat)} {p n r m} (h : p ∉ addrs xs ∧ p ∉ addrs ys) :
    replace p r m (xs ++ (p, n) :: ys) = xs ++ (r, m) :: ys := by
  have key : ∀ l : List (Nat × Nat), p ∉ addrs l → replace p r m l = l := by
    intro l hl
    refine (List.map_congr_left fun a ha => ?_).trans (List.map_id l)
    rw [if_neg]; · rfl
    rintro rfl; exact hl (List.mem_map_of_mem ha)
  have h1 := key xs h.1
  have h2 := key ys h.2
  simp only [replace, List.map_append, List.map_cons, if_true] at h1 h2 ⊢
  rw [h1, h2]

/-- Common part of `afree` and `aresize`: the neighbours of block `p` are made to point to
`z` (forwards) and `w` (backwards). -/
theorem relink {st : St} {xs ys : List (Nat × Nat)} {p n head q : Nat} {b : Blk}
    (hseg : Seg st.heap 0 head (xs ++ (p, n) :: ys) 0 q) (hnd : (addrs (xs ++ (p, n) :: ys)).Nodup)
    (hb : st.heap p = some b) :
    Seg st.heap 0 head xs p b.prev ∧ Seg st.heap p b.next ys 0 q ∧ p ≠ 0 ∧ b.size = LINK + n := by
  obtain ⟨z, r, h1, h2, h3, b', h4, h5, h6, h7⟩ := Seg.append.1 hseg
  rw [hb] at h4
  cases h4
  subst h5
  rw [h2] at h1
  exact ⟨h1, h7, h3, h6⟩

theorem afree_agrees {st A} (hi : Inv st A) {p ap} (hp : p = 0 ∨ A.holds ap p) :
    Agrees (afree p ap st) (some (if p = 0 then A else A.upd ap (remove p (A ap)))) := by
  unfold afree
  by_cases h0 : p = 0
  · rw [if_pos h0, if_pos h0]; exact hi
  rw [if_neg h0, if_neg h0]
  have hp := hp.resolve_left h0
  obtain ⟨xs, n, ys, hl⟩ := holds_split hp
  obtain ⟨-, b, hb⟩ := hi.live hp
  obtain ⟨q, hseg⟩ := hi.seg ap
  have hnd := hi.nodup ap
  rw [hl] at hseg hnd
  obtain ⟨h1, h2, -, -⟩ := relink hseg hnd hb
  obtain ⟨n1, n2, n3, n4, n5⟩ := split_nodup hnd
  rw [hl, remove_split ⟨n3, n4⟩]
  simp only [hb]
  have hndr : (addrs (xs ++ ys)).Nodup := by
    rw [addrs_append, List.nodup_append]
    exact ⟨n1, n2, fun a ha c hc he => n5 a ha (he ▸ hc)⟩
  have holdsEq : ∀ x, A.holds ap x ↔ (x ∈ addrs xs ∨ x = p ∨ x ∈ addrs ys) := by
    intro x
    rw [Regions.holds, hl]
    simp [addrs]
  have hnew : ∀ x ∈ addrs (xs ++ ys), A.holds ap x ∨ A.unused x := by
    intro x hx
    rw [addrs_append, List.mem_append] at hx
    exact Or.inl ((holdsEq x).2 (hx.imp id Or.inr))
  have hxsEmpty := h1.last
  have hys := h2.first
  -- the state after unlinking the successor of the predecessor
  have step1 : ∃ st1, (if b.prev ≠ 0 then setNext st b.prev b.next else some (st.setHead ap b.next)) = some st1 ∧
      (∃ q', Seg st1.heap 0 (st1.head ap) xs b.next q' ∧ q' = b.prev) ∧
      (∀ aq, aq ≠ ap → st1.head aq = st.head aq) ∧ (∀ x, x ∉ addrs xs → st1.heap x = st.heap x) ∧
      (∀ x, (st1.heap x).isSome = (st.heap x).isSome) := by
    rcases hxsEmpty with ⟨hx, hz⟩ | ⟨hm, hz⟩
    · subst hx
      refine ⟨st.setHead ap b.next, by simp [hz], ⟨0, ?_, hz.symm⟩, ?_, ?_, ?_⟩
      · exact ⟨by simp [St.setHead], rfl⟩
      · intro aq h; simp [St.setHead, h]
      · intro x _; rfl
      · intro x; rfl
    · obtain ⟨c, hc⟩ := (h1.ne_zero _ hm).2
      refine ⟨st.set b.prev (some { c with next := b.next }), by simp [hz, setNext, hc], ⟨b.prev, ?_, rfl⟩, ?_, ?_, ?_⟩
      · refine h1.retarget n1 (by rintro rfl; simp [addrs] at hm) ?_ ?_
        · intro a _ ha; simp [St.set, ha]
        · intro c' hc'; rw [hc] at hc'; cases hc'; simp [St.set]
      · intro aq _; rfl
      · intro x hx
        have : x ≠ b.prev := fun he => hx (he ▸ hm)
        simp [St.set, this]
      · intro x
        by_cases hxp : x = b.prev
        · subst hxp; simp [St.set, hc]
        · simp [St.set, hxp]
  obtain ⟨st1, e1, ⟨q', s1, rfl⟩, hd1, hp1, hs1⟩ := step1
  have h2' : Seg st1.heap p b.next ys 0 q := h2.congr fun a ha => hp1 a fun hx => n5 a hx ha
  -- the predecessor of the successor
  have step2 : ∃ st2, guarded b.next st1 (setPrev st1 b.next b.prev) = some st2 ∧
      (∃ q', Seg st2.heap 0 (st2.head ap) (xs ++ ys) 0 q') ∧
      (∀ aq, st2.head aq = st1.head aq) ∧ (∀ x, x ∉ addrs ys → st2.heap x = st1.heap x) := by
    rcases hys with ⟨hy, hz⟩ | ⟨m, l', hy, hz⟩
    · subst hy
      refine ⟨st1, by simp [guarded, hz], ⟨b.prev, ?_⟩, fun _ => rfl, fun _ _ => rfl⟩
      rw [List.append_nil]; rw [hz] at s1; exact s1
    · obtain ⟨c, hc⟩ := (h2'.ne_zero b.next (by rw [hy]; simp [addrs])).2
      refine ⟨st1.set b.next (some { c with prev := b.prev }), by simp [guarded, hz, setPrev, hc], ⟨q, ?_⟩,
        fun _ => rfl, ?_⟩
      · refine Seg.append.2 ⟨b.next, b.prev, ?_, ?_⟩
        · refine Seg.congr (h := st1.heap) (fun a ha => ?_) s1
          have : a ≠ b.next := fun he => n5 a ha (by rw [hy, he]; simp [addrs])
          simp [St.set, this]
        · refine h2'.repred n2 (by rw [hy]; simp) ?_ ?_
          · intro a _ ha; simp [St.set, ha]
          · intro c' hc'; rw [hc] at hc'; cases hc'; simp [St.set]
      · intro x hx
        have : x ≠ b.next := fun he => hx (by rw [hy, he]; simp [addrs])
        simp [St.set, this]
  obtain ⟨st2, e2, ⟨q2, s2⟩, hd2, hp2⟩ := step2
  rw [e1]
  simp only [Option.bind_some, e2, Option.map_some, finish, Agrees]
  refine hi.change ⟨q2, ?_⟩ hndr hnew ?_ ?_ ?_
  · refine Seg.congr (h := st2.heap) (fun a ha => ?_) s2
    have : a ≠ p := by
      rintro rfl
      rw [addrs_append, List.mem_append] at ha
      exact ha.elim n3 n4
    simp [St.set, this]
  · intro aq h; show st2.head aq = _; rw [hd2, hd1 aq h]
  · intro x hx _
    rw [holdsEq] at hx
    have hxp : x ≠ p := fun h => hx (Or.inr (Or.inl h))
    have : (st2.set p none).heap x = st2.heap x := by simp [St.set, hxp]
    rw [this, hp2 x fun h => hx (Or.inr (Or.inr h)), hp1 x fun h => hx (Or.inl h)]
  · intro x hx hn
    rw [holdsEq] at hx
    rw [addrs_append, List.mem_append] at hn
    have : x = p := by
      rcases hx with h | h | h
      · exact absurd (Or.inl h) hn
      · exact h
      · exact absurd (Or.inr h) hn
    simp [St.set, this]

theorem aresize_agrees {st A} (hi : Inv st A) {r p size ap} (hp : p = 0 ∨ A.holds ap p)
    (hr : A.unused r ∨ (r = p ∧ p ≠ 0)) :
    Agrees (aresize r p size ap st) (specResize A ap p size r) := by
  unfold aresize
  by_cases h0 : p = 0
  · rw [if_pos h0]
    subst h0
    exact alloc_agrees hi (hr.resolve_right (by simp))
  rw [if_neg h0]
  have hp := hp.resolve_left h0
  unfold specResize
  by_cases hs : size > SIZE_MAX - LINK
  · rw [if_pos hs, if_pos (Or.inl (by simp only [SIZE_MAX, LINK] at *; omega))]; trivial
  rw [if_neg hs]
  obtain ⟨xs, n, ys, hl⟩ := holds_split hp
  obtain ⟨-, b, hb⟩ := hi.live hp
  simp only [hb]
  by_cases hr0 : r = 0
  · rw [if_pos hr0, if_pos (Or.inr hr0)]; trivial
  have hfit : ¬ (size + LINK > SIZE_MAX ∨ r = 0) := by simp only [SIZE_MAX, LINK] at *; omega
  rw [if_neg hr0, if_neg hfit, if_neg h0]
  obtain ⟨q, hseg⟩ := hi.seg ap
  have hnd := hi.nodup ap
  rw [hl] at hseg hnd
  obtain ⟨h1, h2, -, -⟩ := relink hseg hnd hb
  obtain ⟨n1, n2, n3, n4, n5⟩ := split_nodup hnd
  rw [hl, replace_split ⟨n3, n4⟩]
  have holdsEq : ∀ x, A.holds ap x ↔ (x ∈ addrs xs ∨ x = p ∨ x ∈ addrs ys) := by
    intro x
    rw [Regions.holds, hl]
    simp [addrs]
  have hrx : r ∉ addrs xs ∧ r ∉ addrs ys := by
    rcases hr with hr | ⟨rfl, _⟩
    · exact ⟨fun h => hr ap ((holdsEq r).2 (Or.inl h)), fun h => hr ap ((holdsEq r).2 (Or.inr (Or.inr h)))⟩
    · exact ⟨n3, n4⟩
  have hndr : (addrs (xs ++ (r, size) :: ys)).Nodup := by
    rw [addrs_append, addrs_cons, List.nodup_append, List.nodup_cons]
    refine ⟨n1, ⟨hrx.2, n2⟩, fun a ha c hc he => ?_⟩
    rcases List.mem_cons.1 hc with rfl | hc
    · exact hrx.1 (he ▸ ha)
    · exact n5 a ha (he ▸ hc)
  have hnew : ∀ x ∈ addrs (xs ++ (r, size) :: ys), A.holds ap x ∨ A.unused x := by
    intro x hx
    rw [addrs_append, addrs_cons, List.mem_append, List.mem_cons] at hx
    rcases hx with h | h | h
    · exact Or.inl ((holdsEq x).2 (Or.inl h))
    · simp only at h
      rw [h]
      rcases hr with hr | ⟨hr, _⟩
      · exact Or.inr hr
      · exact Or.inl (hr ▸ hp)
    · exact Or.inl ((holdsEq x).2 (Or.inr (Or.inr h)))
  -- the state after realloc
  generalize hst0 : (st.set p none).set r (some { b with size := LINK + size }) = st0
  have hh0 : ∀ x, x ≠ r → x ≠ p → st0.heap x = st.heap x := by
    intro x h1 h2; rw [← hst0]; simp [St.set, h1, h2]
  have hr1 : st0.heap r = some { b with size := LINK + size } := by rw [← hst0]; simp [St.set]
  have hpn : r ≠ p → st0.heap p = none := by
    intro h; rw [← hst0]; simp [St.set, Ne.symm h]
  have hd0 : ∀ aq, st0.head aq = st.head aq := by intro aq; rw [← hst0]; rfl
  have a1 : Seg st0.heap 0 (st0.head ap) xs p b.prev := by
    rw [hd0]
    exact h1.congr fun a ha => hh0 a (fun h => hrx.1 (h ▸ ha)) (fun h => n3 (h ▸ ha))
  have a2 : Seg st0.heap p b.next ys 0 q :=
    h2.congr fun a ha => hh0 a (fun h => hrx.2 (h ▸ ha)) (fun h => n4 (h ▸ ha))
  have step1 : ∃ st1, (if b.prev ≠ 0 then setNext st0 b.prev r else some (st0.setHead ap r)) = some st1 ∧
      Seg st1.heap 0 (st1.head ap) xs r b.prev ∧
      (∀ aq, aq ≠ ap → st1.head aq = st0.head aq) ∧ (∀ x, x ∉ addrs xs → st1.heap x = st0.heap x) := by
    rcases h1.last with ⟨hx, hz⟩ | ⟨hm, hz⟩
    · subst hx
      refine ⟨st0.setHead ap r, by simp [hz], ?_, ?_, fun _ _ => rfl⟩
      · exact ⟨by simp [St.setHead], hz.symm⟩
      · intro aq h; simp [St.setHead, h]
    · obtain ⟨c, hc⟩ := (a1.ne_zero _ hm).2
      refine ⟨st0.set b.prev (some { c with next := r }), by simp [hz, setNext, hc], ?_, fun _ _ => rfl, ?_⟩
      · refine a1.retarget n1 (by rintro rfl; simp [addrs] at hm) ?_ ?_
        · intro a _ ha; simp [St.set, ha]
        · intro c' hc'; rw [hc] at hc'; cases hc'; simp [St.set]
      · intro x hx
        have : x ≠ b.prev := fun he => hx (he ▸ hm)
        simp [St.set, this]
  obtain ⟨st1, e1, s1, hd1, hp1⟩ := step1
  have a2' : Seg st1.heap p b.next ys 0 q := a2.congr fun a ha => hp1 a fun hx => n5 a hx ha
  have step2 : ∃ st2, guarded b.next st1 (setPrev st1 b.next r) = some st2 ∧
      (∃ q', Seg st2.heap r b.next ys 0 q') ∧
      (∀ aq, st2.head aq = st1.head aq) ∧ (∀ x, x ∉ addrs ys → st2.heap x = st1.heap x) := by
    rcases h2.first with ⟨hy, hz⟩ | ⟨m, l', hy, hz⟩
    · subst hy
      exact ⟨st1, by simp [guarded, hz], ⟨r, hz, rfl⟩, fun _ => rfl, fun _ _ => rfl⟩
    · obtain ⟨c, hc⟩ := (a2'.ne_zero b.next (by rw [hy]; simp [addrs])).2
      refine ⟨st1.set b.next (some { c with prev := r }), by simp [guarded, hz, setPrev, hc], ⟨q, ?_⟩,
        fun _ => rfl, ?_⟩
      · refine a2'.repred n2 (by rw [hy]; simp) ?_ ?_
        · intro a _ ha; simp [St.set, ha]
        · intro c' hc'; rw [hc] at hc'; cases hc'; simp [St.set]
      · intro x hx
        have : x ≠ b.next := fun he => hx (by rw [hy, he]; simp [addrs])
        simp [St.set, this]
  obtain ⟨st2, e2, ⟨q2, s2⟩, hd2, hp2⟩ := step2
  rw [e1]
  simp only [Option.bind_some, e2, finish, Agrees]
  refine hi.change ⟨q2, ?_⟩ hndr hnew ?_ ?_ ?_
  · refine Seg.append.2 ⟨r, b.prev, ?_, rfl, hr0, { b with size := LINK + size }, ?_, rfl, rfl, s2⟩
    · rw [hd2]; exact s1.congr fun a ha => hp2 a (n5 a ha)
    · show st2.heap r = _
      rw [hp2 r hrx.2, hp1 r hrx.1, hr1]
  · intro aq h; rw [hd2, hd1 aq h, hd0]
  · intro x hx hn
    rw [holdsEq] at hx
    rw [addrs_append, addrs_cons, List.mem_append, List.mem_cons] at hn
    rw [hp2 x fun h => hx (Or.inr (Or.inr h)), hp1 x fun h => hx (Or.inl h),
      hh0 x (fun h => hn (Or.inr (Or.inl h))) (fun h => hx (Or.inr (Or.inl h)))]
  · intro x hx hn
    rw [holdsEq] at hx
    rw [addrs_append, addrs_cons, List.mem_append, List.mem_cons] at hn
    have hxp : x = p := by
      rcases hx with h | h | h
      · exact absurd (Or.inl h) hn
      · exact h
      · exact absurd (Or.inr (Or.inr h)) hn
    subst hxp
    rw [hp2 x n4, hp1 x n3, hpn (fun h => hn (Or.inr (Or.inl h.symm)))]

theorem freeLoop_frees {q : Nat} : ∀ (l : List (Nat × Nat)) (n p x : Nat) (st : St), Seg st.heap p x l 0 q → (addrs l).Nodup →
    l.length < n → ∃ st', freeLoop n x st = some (.ok st' 0) ∧ st'.head = st.head ∧
      (∀ y, st'.heap y = if y ∈ addrs l then none else st.heap y)
  | [], n + 1, p, x, st, hs, _, _ => ⟨st, by simp [freeLoop, hs.1], rfl, by simp [addrs]⟩
  | a :: l, n + 1, p, x, st, ⟨h1, h2, b, h3, h4, h5, h6⟩, hnd, hn => by
    have hnd' : a.1 ∉ addrs l ∧ (addrs l).Nodup := List.nodup_cons.1 hnd
    have h6' : Seg (st.set a.1 none).heap a.1 b.next l 0 q := h6.congr fun c hc => by
      have : c ≠ a.1 := by rintro rfl; exact hnd'.1 hc
      simp [St.set, this]
    obtain ⟨st', e, hd, hh⟩ := freeLoop_frees l n a.1 b.next (st.set a.1 none) h6' hnd'.2 (by simp at hn; omega)
    refine ⟨st', by simp [freeLoop, h1, h2, h3, e], hd, fun y => ?_⟩
    rw [hh y, addrs_cons]
    by_cases hy : y = a.1
    · subst hy; simp [St.set]
    · simp [St.set, hy]
  | _, 0, _, _, _, _, _, hn => by omega

theorem afreeall_agrees {st A} (hi : Inv st A) (ap : Nat) :
    ∃ N, ∀ n ≥ N, ∃ st', afreeall n ap st = some (.ok st' 0) ∧ Inv st' (A.upd ap []) ∧
      (∀ y, st'.heap y = if y ∈ addrs (A ap) then none else st.heap y) := by
  obtain ⟨q, hs⟩ := hi.seg ap
  refine ⟨(A ap).length + 1, fun n hn => ?_⟩
  obtain ⟨st', e, hd, hh⟩ := freeLoop_frees (A ap) n 0 _ st hs (hi.nodup ap) (by omega)
  refine ⟨st'.setHead ap 0, by simp [afreeall, e], ?_, hh⟩
  refine hi.change ⟨0, by simp [St.setHead, Seg]⟩ (by simp [addrs]) (by simp [addrs]) ?_ ?_ ?_
  · intro aq h; simp [St.setHead, h, hd]
  · intro x hx _
    show st'.heap x = _
    rw [hh x, if_neg]; exact hx
  · intro x hx _
    show st'.heap x = _
    rw [hh x, if_pos]; exact hx

/-! ## C03 -/

/-- Each operation on its own: no undefined behaviour, refused exactly when specified,
the regions change as specified. -/
theorem step_agrees {st A} (hi : Inv st A) {c : Cmd} (hc : Legal A c) :
    ∃ N, ∀ n ≥ N, ∃ o, exec n st c = some o ∧ Agrees o (spec A c) := by
  cases c with
  | alloc ap size r => exact ⟨0, fun n _ => ⟨_, rfl, alloc_agrees hi hc⟩⟩
  | resize ap p size r => exact ⟨0, fun n _ => ⟨_, rfl, aresize_agrees hi hc.1 hc.2⟩⟩
  | free ap p => exact ⟨0, fun n _ => ⟨_, rfl, afree_agrees hi hc⟩⟩
  | release ap =>
    obtain ⟨N, h⟩ := afreeall_agrees hi ap
    exact ⟨N, fun n hn => by obtain ⟨st', e, h', _⟩ := h n hn; exact ⟨_, e, h'⟩⟩
  | array ap p n size r =>
    obtain ⟨h1, h2, h3, h4⟩ := hc
    refine ⟨0, fun m _ => ⟨_, rfl, ?_⟩⟩
    simp only [areallocarray, spec]
    by_cases hov : n * size ≤ SIZE_MAX
    · rw [if_neg]
      · rw [Nat.mod_eq_of_lt (by omega)]
        exact aresize_agrees hi h1 h2
      · rintro ⟨-, hn, hlt⟩
        rw [Nat.div_lt_iff_lt_mul hn] at hlt
        rw [Nat.mul_comm] at hlt; omega
    · have hn : n > 0 := by
        rcases Nat.eq_zero_or_pos n with h | h
        · subst h; simp at hov
        · exact h
      have hcond : (n ≥ MUL_NO_OVERFLOW ∨ size ≥ MUL_NO_OVERFLOW) := by
        by_cases h : n ≥ MUL_NO_OVERFLOW
        · exact Or.inl h
        · refine Or.inr ?_
          by_cases h' : size ≥ MUL_NO_OVERFLOW
          · exact h'
          · have : n * size ≤ (2 ^ 32 - 1) * (2 ^ 32 - 1) :=
              Nat.mul_le_mul (by simp only [MUL_NO_OVERFLOW] at h; omega) (by simp only [MUL_NO_OVERFLOW] at h'; omega)
            simp only [SIZE_MAX] at hov
            omega
      rw [if_pos ⟨hcond, hn, by rw [Nat.div_lt_iff_lt_mul hn, Nat.mul_comm]; omega⟩]
      simp only [specResize]
      rw [if_pos (Or.inl (by omega))]
      trivial

/-- an execution: every request is legal when it is made; `none` when one is refused -/
def LegalRun : Regions → List Cmd → Prop
  | _, [] => True
  | A, c :: cs => Legal A c ∧ (match spec A c with
    | none => True
    | some A' => LegalRun A' cs)

def specRun : Regions → List Cmd → Option Regions
  | A, [] => some A
  | A, c :: cs => (spec A c).bind fun A' => specRun A' cs

def run (n : Nat) : St → List Cmd → Option Out
  | st, [] => some (.ok st 0)
  | st, c :: cs =>
    match exec n st c with
    | some (.ok st' _) => run n st' cs
    | o => o

theorem inv_start : Inv start fun _ => [] where
  seg _ := ⟨0, rfl, rfl⟩
  nodup _ := by simp [addrs]
  disj _ _ _ h := by simp [Regions.holds] at h
  only _ _ h := by simp [start] at h

theorem run_from {cs : List Cmd} : ∀ {st A}, Inv st A → LegalRun A cs →
    ∃ N, ∀ n ≥ N, ∃ o, run n st cs = some o ∧ Agrees o (specRun A cs) := by
  induction cs with
  | nil => intro st A hi _; exact ⟨0, fun n _ => ⟨_, rfl, hi⟩⟩
  | cons c cs ih =>
    intro st A hi hl
    obtain ⟨N, h⟩ := step_agrees hi hl.1
    cases hs : spec A c with
    | none =>
      refine ⟨N, fun n hn => ?_⟩
      obtain ⟨o, e, ha⟩ := h n hn
      rw [hs] at ha
      cases o with
      | ok st p => exact absurd ha id
      | ub => exact absurd ha id
      | refused => exact ⟨.refused, by simp [run, e], by simp [specRun, hs, Agrees]⟩
    | some A' =>
      have hl' : LegalRun A' cs := by have := hl.2; rw [hs] at this; exact this
      -- the resulting state may depend on the fuel only through the release loop, whose
      -- answer is the same for all large fuels
      have hdet : ∃ M st', ∀ n ≥ M, (∃ p, exec n st c = some (.ok st' p)) ∧ Inv st' A' := by
        cases c with
        | release ap =>
          obtain ⟨q, hsg⟩ := hi.seg ap
          have hmono : ∀ (l : List (Nat × Nat)) (p x : Nat) (st : St), Seg st.heap p x l 0 q →
              (addrs l).Nodup → ∃ st', ∀ n ≥ l.length + 1, freeLoop n x st = some (.ok st' 0) := by
            intro l
            induction l with
            | nil =>
              intro p x st hs _
              refine ⟨st, fun n hn => ?_⟩
              cases n with
              | zero => omega
              | succ n => simp [freeLoop, hs.1]
            | cons a l ihl =>
              rintro p x st ⟨h1, h2, b, h3, h4, h5, h6⟩ hnd
              have hnd' : a.1 ∉ addrs l ∧ (addrs l).Nodup := List.nodup_cons.1 hnd
              have h6' : Seg (st.set a.1 none).heap a.1 b.next l 0 q := h6.congr fun c hc => by
                have : c ≠ a.1 := by rintro rfl; exact hnd'.1 hc
                simp [St.set, this]
              obtain ⟨st', hst'⟩ := ihl a.1 b.next (st.set a.1 none) h6' hnd'.2
              refine ⟨st', fun n hn => ?_⟩
              cases n with
              | zero => omega
              | succ n => simp at hn; simp [freeLoop, h1, h2, h3]; exact hst' n (by omega)
          obtain ⟨st', hst'⟩ := hmono (A ap) 0 _ st hsg (hi.nodup ap)
          refine ⟨max N ((A ap).length + 1), st'.setHead ap 0, fun n hn => ?_⟩
          have e : exec n st (.release ap) = some (.ok (st'.setHead ap 0) 0) := by
            simp [exec, afreeall, hst' n (by omega)]
          obtain ⟨o, e', ha⟩ := h n (by omega)
          rw [e] at e'; cases e'
          rw [hs] at ha
          exact ⟨⟨0, e⟩, ha⟩
        | alloc ap size r =>
          obtain ⟨o, e, ha⟩ := h N (Nat.le_refl _)
          rw [hs] at ha
          cases o with
          | refused => exact absurd ha id
          | ub => exact absurd ha id
          | ok st' p => exact ⟨N, st', fun n _ => ⟨⟨p, e⟩, ha⟩⟩
        | resize ap q size r =>
          obtain ⟨o, e, ha⟩ := h N (Nat.le_refl _)
          rw [hs] at ha
          cases o with
          | refused => exact absurd ha id
          | ub => exact absurd ha id
          | ok st' p => exact ⟨N, st', fun n _ => ⟨⟨p, e⟩, ha⟩⟩
        | array ap q m size r =>
          obtain ⟨o, e, ha⟩ := h N (Nat.le_refl _)
          rw [hs] at ha
          cases o with
          | refused => exact absurd ha id
          | ub => exact absurd ha id
          | ok st' p => exact ⟨N, st', fun n _ => ⟨⟨p, e⟩, ha⟩⟩
        | free ap q =>
          obtain ⟨o, e, ha⟩ := h N (Nat.le_refl _)
          rw [hs] at ha
          cases o with
          | refused => exact absurd ha id
          | ub => exact absurd ha id
          | ok st' p => exact ⟨N, st', fun n _ => ⟨⟨p, e⟩, ha⟩⟩
      obtain ⟨M, st', hM⟩ := hdet
      obtain ⟨K, hK⟩ := ih (hM M (Nat.le_refl _)).2 hl'
      refine ⟨max M K, fun n hn => ?_⟩
      obtain ⟨⟨p, e⟩, _⟩ := hM n (by omega)
      obtain ⟨o, e', ha⟩ := hK n (by omega)
      exact ⟨o, by simp [run, e, e'], by simp only [specRun, hs, Option.bind_some]; exact ha⟩

/-- Every interleaving of requests over any number of regions: the code never touches
or frees a dead block and tracks the specified regions, sizes included. -/
theorem any_history {cs : List Cmd} (h : LegalRun (fun _ => []) cs) :
    ∃ N, ∀ n ≥ N, ∃ o, run n start cs = some o ∧ Agrees o (specRun (fun _ => []) cs) :=
  run_from inv_start h

/-- Releasing a region frees exactly the blocks the region holds: they are dead
afterwards and every other block is untouched, links and size included. -/
theorem release_frees_exactly {st A} (hi : Inv st A) (ap : Nat) :
    ∃ N, ∀ n ≥ N, ∃ st', afreeall n ap st = some (.ok st' 0) ∧
      (∀ p, A.holds ap p → (st.heap p).isSome = true ∧ st'.heap p = none) ∧
      (∀ p, ¬ A.holds ap p → st'.heap p = st.heap p) ∧ Inv st' (A.upd ap []) := by
  obtain ⟨N, h⟩ := afreeall_agrees hi ap
  refine ⟨N, fun n hn => ?_⟩
  obtain ⟨st', e, h1, h2⟩ := h n hn
  refine ⟨st', e, fun p hp => ⟨?_, ?_⟩, fun p hp => ?_, h1⟩
  · obtain ⟨b, hb⟩ := (hi.live hp).2; simp [hb]
  · rw [h2, if_pos]; exact hp
  · rw [h2, if_neg]; exact hp

/-- A request for `n` elements of `size` bytes is served only if the product together
with the link fits a `size_t`; the block then has that many bytes. -/
theorem no_short_block {st A} (hi : Inv st A) {r p n size ap st' q} (hl : Legal A (.array ap p n size r))
    (h : areallocarray r p n size ap st = .ok st' q) :
    n * size + LINK ≤ SIZE_MAX ∧ ∃ A', spec A (.array ap p n size r) = some A' ∧ Inv st' A' ∧ (r, n * size) ∈ A' ap := by
  obtain ⟨N, hN⟩ := step_agrees hi hl
  obtain ⟨o, e, ha⟩ := hN N (Nat.le_refl _)
  simp only [exec, h] at e
  cases e
  have hsp : spec A (.array ap p n size r) = specResize A ap p (n * size) r := rfl
  cases hs : spec A (.array ap p n size r) with
  | none => rw [hs] at ha; exact absurd ha id
  | some A' =>
    rw [hs] at ha
    rw [hsp, specResize] at hs
    split at hs
    · cases hs
    · rename_i hc
      refine ⟨by omega, A', rfl, ha, ?_⟩
      split at hs
      · cases hs; rw [upd_same]; simp
      · rename_i hp
        cases hs
        rw [upd_same]
        obtain ⟨x, hx, hxp⟩ := List.mem_map.1 (hl.1.resolve_left hp)
        exact List.mem_map.2 ⟨x, hx, by simp [hxp]⟩

/-- Two regions, a resize in the middle of a list, a free at its head, a release. -/
def sampleRun : List Cmd :=
  [.alloc 0 10 100, .alloc 1 20 200, .alloc 0 30 101, .resize 0 100 40 102, .array 1 0 3 8 201, .free 0 101, .release 1]

example : LegalRun (fun _ => []) sampleRun := by
  simp [sampleRun, LegalRun, Legal, spec, specResize, Regions.unused, Regions.holds, Regions.upd, LINK, SIZE_MAX,
    replace, remove]
  refine ⟨?_, ?_, ?_⟩ <;> (intro ap; by_cases h0 : ap = 0 <;> by_cases h1 : ap = 1 <;> simp [h0, h1])
example : (specRun (fun _ => []) sampleRun).map (fun A => (A 0, A 1)) = some ([(102, 40)], []) := by decide
/-- counts that would wrap to a small number are refused -/
example : (areallocarray 5 0 (2 ^ 61) 9 0 start matches .refused) = true := by decide

end Ksh.Alloc
