import Verif.Path.Spec

namespace Ksh.Path

/-- effect of one component on the stack of kept components (top first) -/
def push (rooted : Bool) (stack : List (List Char)) (c : List Char) : List (List Char) :=
  if c = [] ∨ c = dot then stack
  else if c = dotdot then
    match stack with
    | [] => if rooted then [] else [dotdot]
    | top :: rest => if top = dotdot then dotdot :: stack else rest
  else c :: stack

/-- reversed rendering of a stack (top first) -/
def rr : List (List Char) → List Char
  | [] => []
  | [a] => a.reverse
  | a :: b :: rest => a.reverse ++ '/' :: rr (b :: rest)

theorem rr_cons {a : List Char} {s : List (List Char)} (h : s ≠ []) :
    rr (a :: s) = a.reverse ++ '/' :: rr s := by
  cases s with
  | nil => exact absurd rfl h
  | cons b s => rfl

theorem rr_length_pos {s : List (List Char)} (hs : s ≠ []) (h : ∀ c ∈ s, c ≠ []) : 0 < (rr s).length := by
  cases s with
  | nil => exact absurd rfl hs
  | cons a s =>
    have : a ≠ [] := h a (by simp)
    have := List.length_pos_iff.2 this
    cases s with
    | nil => simp [rr]; omega
    | cons b s => simp [rr]; omega

theorem comps_ne_nil (t : List Char) : comps t ≠ [] := by
  cases t with
  | nil => simp [comps]
  | cons c r =>
    simp only [comps]
    split
    · simp
    · split <;> simp

theorem foldl_push_comps (b : Bool) : ∀ (t : List Char) (s : List (List Char)),
    (comps t).foldl (push b) s =
      (comps (t.dropWhile (· ≠ '/'))).foldl (push b) (push b s (t.takeWhile (· ≠ '/'))) := by
  -- stronger: comps t = takeWhile :: tail of comps (dropWhile)
  have key : ∀ t : List Char, comps t = t.takeWhile (· ≠ '/') ::
      (match t.dropWhile (· ≠ '/') with | [] => [] | _ :: r => comps r) := by
    intro t
    induction t with
    | nil => simp [comps]
    | cons c r ih =>
      by_cases hc : c = '/'
      · simp [comps, hc]
      · simp only [comps, hc, if_false]
        rw [ih]
        simp [hc]
  intro t s
  rw [key t, List.foldl_cons]
  have hd := List.head?_dropWhile_not (· ≠ '/') t
  cases h : t.dropWhile (· ≠ '/') with
  | nil => simp [comps, push]
  | cons c r =>
    rw [h] at hd
    simp at hd
    subst hd
    simp [comps, push]

theorem foldl_push_slash (b : Bool) (s : List (List Char)) (t : List Char) :
    (comps (t.dropWhile (· == '/'))).foldl (push b) s = (comps t).foldl (push b) s := by
  induction t with
  | nil => rfl
  | cons c r ih =>
    by_cases hc : c = '/'
    · subst hc
      simp only [List.dropWhile_cons, beq_self_eq_true, if_true, ih]
      simp [comps, push]
    · simp [hc]

/-- the stack shape kept by the loop -/
structure Shape (rooted : Bool) (names : List (List Char)) (ups : Nat) : Prop where
  plain : ∀ c ∈ names, Plain c
  rooted0 : rooted = true → ups = 0

theorem popTo_chars (start : Nat) (a X : List Char) (ha : '/' ∉ a) (hne : a ≠ [])
    (hX : start ≤ X.length) :
    popTo start (a.reverse ++ X) = if start < X.length then popTo start X else X := by
  have : ∀ (l X : List Char), '/' ∉ l → l ≠ [] → start ≤ X.length →
      popTo start (l ++ X) = if start < X.length then popTo start X else X := by
    intro l
    induction l with
    | nil => intro X _ h; exact absurd rfl h
    | cons c l ih =>
      intro X hl _ hX
      have hc : c ≠ '/' := fun h => hl (by simp [h])
      simp only [List.cons_append, popTo]
      by_cases hl0 : l = []
      · subst hl0
        simp [hc]
      · have hlen := List.length_pos_iff.2 hl0
        have : (l ++ X).length > start ∧ c ≠ '/' := by
          refine ⟨by simp; omega, hc⟩
        rw [if_pos this]
        exact ih X (fun h => hl (by simp [h])) hl0 hX
  exact this a.reverse X (by simpa using ha) (by simpa using hne) hX

theorem popTo_rr {start : Nat} {a : List Char} {s : List (List Char)} {pre : List Char}
    (ha : '/' ∉ a) (hne : a ≠ [])
    (hst : start ≤ (rr s ++ pre).length) (h0 : s = [] → start = pre.length) :
    popTo start (rr (a :: s) ++ pre) = rr s ++ pre := by
  by_cases hs : s = []
  · subst hs
    simp only [rr, List.nil_append] at *
    rw [popTo_chars start a pre ha hne hst]
    simp [h0]
  · rw [rr_cons hs, List.append_assoc, popTo_chars start a _ ha hne (by simp at *; omega)]
    have : start < ('/' :: rr s ++ pre).length := by simp at *; omega
    rw [if_pos this]
    simp [popTo]

theorem rr_names_ups_len (pre : List Char) (ups : Nat) : ∀ names : List (List Char),
    (rr (List.replicate ups dotdot) ++ pre).length ≤
      (rr (names ++ List.replicate ups dotdot) ++ pre).length := by
  intro names
  induction names with
  | nil => simp
  | cons a names ih =>
    by_cases h : names ++ List.replicate ups dotdot = []
    · simp only [List.append_eq_nil_iff, List.replicate_eq_nil_iff] at h
      simp [h.2, rr]
    · rw [List.cons_append, rr_cons h]
      simp at *
      omega

theorem push_plain {b : Bool} {s : List (List Char)} {c : List Char} (h : Plain c) :
    push b s c = c :: s := by
  simp [push, h.1, h.2.1, h.2.2.1]

theorem takeWhile_noslash (t : List Char) : '/' ∉ t.takeWhile (· ≠ '/') := by
  induction t with
  | nil => simp
  | cons c r ih =>
    by_cases hc : c = '/'
    · simp [hc]
    · have hc' : '/' ≠ c := fun h => hc h.symm
      simp only [ne_eq, hc, not_false_eq_true, decide_true, List.takeWhile_cons_of_pos,
        List.mem_cons, hc', false_or]
      simpa using ih

theorem atEnd_takeWhile {r : List Char} : atEnd r = true ↔ r.takeWhile (· ≠ '/') = [] := by
  cases r with
  | nil => simp [atEnd]
  | cons c r => simp [atEnd, List.takeWhile_cons]

theorem atEnd_dropWhile (r : List Char) : atEnd (r.dropWhile (· ≠ '/')) = true := by
  have hd := List.head?_dropWhile_not (· ≠ '/') r
  cases h : r.dropWhile (· ≠ '/') with
  | nil => rfl
  | cons c t => rw [h] at hd; simp at hd; simp [atEnd, hd]

theorem atEnd_eq {r : List Char} (h : atEnd r = true) : r.dropWhile (· ≠ '/') = r := by
  cases r with
  | nil => rfl
  | cons c r => simp [atEnd] at h; simp [h]

/-- rendering of the final stack -/
def finish (pre : List Char) (s : List (List Char)) : List Char :=
  if (rr s ++ pre).length = 0 then ['.'] else (rr s ++ pre).reverse

theorem loop_spec (rooted : Bool) (pre : List Char) :
    ∀ (fuel : Nat) (names : List (List Char)) (ups pos : Nat) (t : List Char),
    t.length < fuel → Shape rooted names ups →
    (rr (names ++ List.replicate ups dotdot) ++ pre).length ≤ pos →
    (names ++ List.replicate ups dotdot ≠ [] → atEnd t = true) →
    loop rooted pre.length fuel (rr (names ++ List.replicate ups dotdot) ++ pre)
      (rr (List.replicate ups dotdot) ++ pre).length pos t =
      .ok (finish pre ((comps t).foldl (push rooted) (names ++ List.replicate ups dotdot))) := by
  intro fuel
  induction fuel with
  | zero => intro _ _ _ t h; omega
  | succ fuel ih =>
    intro names ups pos t hf hsh hpos hend
    have hsne : ∀ c ∈ names ++ List.replicate ups dotdot, c ≠ [] := by
      intro c hc
      rcases List.mem_append.1 hc with h | h
      · exact (hsh.plain c h).1
      · rw [(List.mem_replicate.1 h).2]; simp
    have hlen0 : ∀ s : List (List Char), (∀ c ∈ s, c ≠ []) →
        ((rr s ++ pre).length ≠ pre.length ↔ s ≠ []) := by
      intro s hs
      constructor
      · intro h hs0; subst hs0; simp [rr] at h
      · intro h
        have := rr_length_pos h hs
        rw [List.length_append]; omega
    rw [← foldl_push_slash]
    simp only [loop]
    have hdl := (List.dropWhile_suffix (· == '/') (l := t)).length_le
    have hstrict : names ++ List.replicate ups dotdot ≠ [] → t.dropWhile (· == '/') ≠ [] →
        0 < t.length - (t.dropWhile (· == '/')).length := by
      intro h1 h2
      have := hend h1
      cases t with
      | nil => simp at h2
      | cons c r =>
        simp [atEnd] at this
        subst this
        have := (List.dropWhile_suffix (· == '/') (l := r)).length_le
        simp at this ⊢
        omega
    generalize hpos1 : pos + (t.length - (t.dropWhile (· == '/')).length) = pos1
    have hd := List.head?_dropWhile_not (· == '/') t
    have hstrict' : names ++ List.replicate ups dotdot ≠ [] → t.dropWhile (· == '/') ≠ [] →
        (rr (names ++ List.replicate ups dotdot) ++ pre).length < pos1 := by
      intro h1 h2; have := hstrict h1 h2; omega
    cases ht : t.dropWhile (· == '/') with
    | nil =>
      have : ¬ (rr (names ++ List.replicate ups dotdot) ++ pre).length > pos1 := by omega
      simp only [this, if_false, comps, List.foldl_cons, List.foldl_nil, push, finish]
      simp only [true_or, if_true]
      split <;> rfl
    | cons c r =>
      rw [ht] at hd hdl hstrict'
      simp only [List.head?_cons] at hd
      simp only [ne_eq, reduceCtorEq, not_false_eq_true, forall_const] at hstrict'
      have hc : c ≠ '/' := by simpa using hd
      have hrl : r.length + 1 ≤ t.length := by simpa using hdl
      simp only
      by_cases h1 : c = '.' ∧ atEnd r = true
      · rw [if_pos h1]
        rw [ih names ups (pos1 + 1) r (by omega) hsh (by omega) (fun _ => h1.2)]
        rw [foldl_push_comps rooted (c :: r)]
        have : (c :: r).takeWhile (· ≠ '/') = dot := by
          simp only [List.takeWhile_cons, ne_eq, hc, not_false_eq_true, decide_true, if_true]
          rw [atEnd_takeWhile.1 h1.2, h1.1]
        rw [this]
        have : (c :: r).dropWhile (· ≠ '/') = r := by
          simp only [List.dropWhile_cons, ne_eq, hc, not_false_eq_true, decide_true, if_true]
          exact atEnd_eq h1.2
        rw [this]
        simp [push]
      · rw [if_neg h1]
        by_cases h2 : c = '.' ∧ r.head? = some '.' ∧ atEnd r.tail = true
        · rw [if_pos h2]
          obtain ⟨hcd, hrd, hre⟩ := h2
          cases r with
          | nil => simp at hrd
          | cons d r' =>
            simp only [List.head?_cons, Option.some.injEq] at hrd
            subst hrd hcd
            simp only [List.tail_cons] at hre ⊢
            simp only [List.length_cons] at hrl
            rw [foldl_push_comps rooted ('.' :: '.' :: r')]
            have e1 : ('.' :: '.' :: r').takeWhile (· ≠ '/') = dotdot := by
              simp only [List.takeWhile_cons, ne_eq, hc, not_false_eq_true, decide_true, if_true]
              rw [atEnd_takeWhile.1 hre]
            have e2 : ('.' :: '.' :: r').dropWhile (· ≠ '/') = r' := by
              simp only [List.dropWhile_cons, ne_eq, hc, not_false_eq_true, decide_true, if_true]
              exact atEnd_eq hre
            rw [e1, e2]
            cases hn : names with
            | nil =>
              simp only [List.nil_append]
              rw [hn] at hsh hpos hstrict' hsne
              simp only [List.nil_append] at hpos hstrict' hsne
              cases hr : rooted with
              | true =>
                have hu := hsh.rooted0 hr
                subst hu
                rw [hr] at ih
                have := ih [] 0 (pos1 + 2) r' (by omega) (by rw [← hr]; exact hsh) (by simp at hpos ⊢; omega)
                  (by simp)
                simpa [push] using this
              | false =>
                simp only [Bool.not_false, true_and, if_true]
                have hcond : ((rr (List.replicate ups dotdot) ++ pre).length ≠ pre.length) =
                    (ups ≠ 0) := by
                  rw [hlen0 _ hsne]; simp
                have hnew : ('.' :: '.' :: (if (rr (List.replicate ups dotdot) ++ pre).length ≠ pre.length
                    then '/' :: (rr (List.replicate ups dotdot) ++ pre)
                    else rr (List.replicate ups dotdot) ++ pre)) =
                    rr (List.replicate (ups + 1) dotdot) ++ pre := by
                  simp only [hcond]
                  cases ups with
                  | zero => simp [rr]
                  | succ u => simp [List.replicate_succ, rr]
                rw [hnew]
                have hlen : (rr (List.replicate (ups + 1) dotdot) ++ pre).length ≤ pos1 + 2 := by
                  rw [← hnew]
                  simp only [hcond]
                  by_cases hu : ups = 0
                  · simp [hu, rr] at hpos ⊢; omega
                  · have := hstrict' (by simp [hu])
                    simp [hu] at this ⊢; omega
                rw [if_neg (by omega)]
                have hsh' : Shape false [] (ups + 1) := ⟨by simp, by simp⟩
                rw [hr] at ih
                have := ih [] (ups + 1) (pos1 + 2) r' (by omega) hsh' hlen (fun _ => hre)
                simp only [List.nil_append] at this
                rw [this]
                congr 2
                cases ups with
                | zero => simp [push]
                | succ u => simp [push, List.replicate_succ]
            | cons a names' =>
              rw [hn] at hsh hpos hstrict' hsne
              have hap := hsh.plain a (by simp)
              have hgt : (rr (a :: names' ++ List.replicate ups dotdot) ++ pre).length ≠
                  (rr (List.replicate ups dotdot) ++ pre).length := by
                have h1 := rr_names_ups_len pre ups names'
                have h2 : (rr (names' ++ List.replicate ups dotdot) ++ pre).length <
                    (rr (a :: names' ++ List.replicate ups dotdot) ++ pre).length := by
                  have := List.length_pos_iff.2 hap.1
                  by_cases h : names' ++ List.replicate ups dotdot = []
                  · rw [List.cons_append, h]; simp [rr]; omega
                  · rw [List.cons_append, rr_cons h]; simp; omega
                omega
              rw [if_neg (by intro h; exact hgt h.2), if_pos hgt]
              rw [List.cons_append, popTo_rr hap.2.2.2 hap.1 (rr_names_ups_len pre ups names')
                (by
                  intro h
                  simp only [List.append_eq_nil_iff, List.replicate_eq_nil_iff] at h
                  simp [h.2, rr])]
              have hle : (rr (names' ++ List.replicate ups dotdot) ++ pre).length ≤
                    (rr (a :: names' ++ List.replicate ups dotdot) ++ pre).length := by
                by_cases h : names' ++ List.replicate ups dotdot = []
                · rw [List.cons_append, h]; simp [rr]
                · rw [List.cons_append, rr_cons h]; simp; omega
              rw [ih names' ups (pos1 + 2) r' (by omega)
                ⟨fun c hc => hsh.plain c (by simp [hc]), hsh.rooted0⟩ (by omega) (fun _ => hre)]
              simp [push, hap.2.2.1]
        · rw [if_neg h2]
          have hplain : Plain ((c :: r).takeWhile (· ≠ '/')) := by
            have e : (c :: r).takeWhile (· ≠ '/') = c :: r.takeWhile (· ≠ '/') := by
              simp [hc]
            refine ⟨by rw [e]; simp, ?_, ?_, takeWhile_noslash _⟩
            · rw [e]; intro h
              simp only [List.cons.injEq] at h
              exact h1 ⟨h.1, atEnd_takeWhile.2 h.2⟩
            · rw [e]; intro h
              simp only [List.cons.injEq] at h
              cases r with
              | nil => simp at h
              | cons d r' =>
                by_cases hd : d = '/'
                · simp [hd] at h
                · simp [hd] at h
                  exact h2 ⟨h.1, by simp [h.2.1], by
                    simp only [List.tail_cons]; rw [atEnd_takeWhile]; simpa using h.2.2⟩
          rw [foldl_push_comps rooted (c :: r), push_plain hplain]
          have hcond : ((rr (names ++ List.replicate ups dotdot) ++ pre).length ≠ pre.length) =
              (names ++ List.replicate ups dotdot ≠ []) := propext (hlen0 _ hsne)
          have hlen : ¬ (if (rr (names ++ List.replicate ups dotdot) ++ pre).length ≠ pre.length
              then '/' :: (rr (names ++ List.replicate ups dotdot) ++ pre)
              else rr (names ++ List.replicate ups dotdot) ++ pre).length > pos1 := by
            simp only [hcond]
            by_cases hs : names ++ List.replicate ups dotdot = []
            · rw [if_neg (by simpa using hs)]; omega
            · rw [if_pos hs]
              have := hstrict' hs
              simp only [List.length_cons]; omega
          rw [if_neg hlen]
          generalize hk : (c :: r).takeWhile (· ≠ '/') = comp at *
          have hnew : comp.reverse ++ (if (rr (names ++ List.replicate ups dotdot) ++ pre).length ≠ pre.length
              then '/' :: (rr (names ++ List.replicate ups dotdot) ++ pre)
              else rr (names ++ List.replicate ups dotdot) ++ pre) =
              rr ((comp :: names) ++ List.replicate ups dotdot) ++ pre := by
            simp only [hcond]
            by_cases hs : names ++ List.replicate ups dotdot = []
            · rw [if_neg (by simpa using hs), List.cons_append, hs]; simp [rr]
            · rw [if_pos hs, List.cons_append, rr_cons hs]; simp
          rw [hnew]
          have hlen2 : (rr ((comp :: names) ++ List.replicate ups dotdot) ++ pre).length ≤
              pos1 + comp.length := by
            rw [← hnew]; rw [List.length_append, List.length_reverse]; omega
          have hdr : ((c :: r).dropWhile (· ≠ '/')).length ≤ r.length := by
            have := (List.dropWhile_suffix (· ≠ '/') (l := r)).length_le
            simpa [hc] using this
          rw [ih (comp :: names) ups (pos1 + comp.length) _ (by omega)
            ⟨by
              intro x hx
              rcases List.mem_cons.1 hx with rfl | hx
              · exact hplain
              · exact hsh.plain x hx, hsh.rooted0⟩ hlen2 (fun _ => atEnd_dropWhile _)]
          simp

end Ksh.Path
