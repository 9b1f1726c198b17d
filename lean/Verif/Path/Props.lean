import Verif.Path.Lemmas

/-!
C04 (path simplification) and C05 (CDPATH search).
-/
namespace Ksh.Path

/-! ### Helper lemmas relating the stack and the specification -/

theorem comps_noslash {a : List Char} (h : '/' ∉ a) : comps a = [a] := by
  induction a with
  | nil => rfl
  | cons c r ih =>
    have hc : c ≠ '/' := fun e => h (by simp [e])
    simp [comps, hc, ih (fun e => h (by simp [e]))]

theorem comps_append (x a : List Char) : comps (x ++ '/' :: a) = comps x ++ comps a := by
  induction x with
  | nil => simp [comps]
  | cons c r ih =>
    simp only [List.cons_append, comps]
    split
    · simp [ih]
    · rw [ih]
      cases h : comps r with
      | nil => exact absurd h (comps_ne_nil r)
      | cons a b => simp

theorem comps_rr : ∀ (s : List (List Char)), s ≠ [] → (∀ c ∈ s, '/' ∉ c) →
    comps (rr s).reverse = s.reverse := by
  intro s
  induction s with
  | nil => intro h; exact absurd rfl h
  | cons a s ih =>
    intro _ hs
    by_cases h : s = []
    · subst h; simp [rr, comps_noslash (hs a (by simp))]
    · rw [rr_cons h]
      simp only [List.reverse_append, List.reverse_cons, List.reverse_reverse, List.append_assoc,
        List.singleton_append]
      rw [comps_append, ih h (fun c hc => hs c (by simp [hc])), comps_noslash (hs a (by simp))]

theorem push_shape {rooted : Bool} {names : List (List Char)} {ups : Nat}
    (h : Shape rooted names ups) (c : List Char) (hc : '/' ∉ c) :
    ∃ names' ups', Shape rooted names' ups' ∧
      push rooted (names ++ List.replicate ups dotdot) c = names' ++ List.replicate ups' dotdot := by
  by_cases h1 : c = [] ∨ c = dot
  · exact ⟨names, ups, h, by simp only [push, h1, if_true]⟩
  · by_cases h2 : c = dotdot
    · subst h2
      cases names with
      | nil =>
        cases ups with
        | zero =>
          cases hr : rooted with
          | true => exact ⟨[], 0, by rw [← hr]; exact h, by simp [push]⟩
          | false => exact ⟨[], 1, ⟨by simp, by simp⟩, by simp [push]⟩
        | succ u =>
          refine ⟨[], u + 2, ⟨by simp, ?_⟩, by simp [push, List.replicate_succ]⟩
          intro hr; have := h.rooted0 hr; omega
      | cons a names =>
        have ha := h.plain a (by simp)
        exact ⟨names, ups, ⟨fun x hx => h.plain x (by simp [hx]), h.rooted0⟩, by
          simp [push, ha.2.2.1]⟩
    · refine ⟨c :: names, ups, ⟨?_, h.rooted0⟩, ?_⟩
      · intro x hx
        rcases List.mem_cons.1 hx with rfl | hx
        · exact ⟨fun e => h1 (Or.inl e), fun e => h1 (Or.inr e), h2, hc⟩
        · exact h.plain x hx
      · simp only [push, h1, h2, if_false, List.cons_append]

theorem fold_shape {rooted : Bool} : ∀ (cs : List (List Char)) {names : List (List Char)} {ups : Nat},
    Shape rooted names ups → (∀ c ∈ cs, '/' ∉ c) →
    ∃ names' ups', Shape rooted names' ups' ∧
      cs.foldl (push rooted) (names ++ List.replicate ups dotdot) =
        names' ++ List.replicate ups' dotdot := by
  intro cs
  induction cs with
  | nil => intro names ups h _; exact ⟨names, ups, h, rfl⟩
  | cons c cs ih =>
    intro names ups h hc
    obtain ⟨n1, u1, h1, e1⟩ := push_shape h c (hc c (by simp))
    rw [List.foldl_cons, e1]
    exact ih h1 (fun x hx => hc x (by simp [hx]))

theorem comps_mem_noslash : ∀ (t : List Char), ∀ c ∈ comps t, '/' ∉ c := by
  intro t
  induction t with
  | nil => simp [comps]
  | cons x r ih =>
    intro c hc
    simp only [comps] at hc
    split at hc
    · rcases List.mem_cons.1 hc with rfl | hc
      · simp
      · exact ih c hc
    · next hx =>
      split at hc
      · next h => exact absurd h (comps_ne_nil r)
      · next h t' he =>
        rw [he] at ih
        rcases List.mem_cons.1 hc with rfl | hc
        · have := ih h (by simp)
          intro hm
          rcases List.mem_cons.1 hm with e | e
          · exact hx e.symm
          · exact this e
        · exact ih c (by simp [hc])

/-- the result of `simplify` in terms of the component stack -/
theorem simplify_eq (p : List Char) (hp : p ≠ []) :
    ∃ rooted names ups, Shape rooted names ups ∧ (rooted = true ↔ p.head? = some '/') ∧
      (comps p).foldl (push rooted) [] = names ++ List.replicate ups dotdot ∧
      simplify p = .ok (finish (if rooted then ['/'] else []) (names ++ List.replicate ups dotdot)) := by
  by_cases hr : p.head? = some '/'
  · cases p with
    | nil => simp at hr
    | cons c r =>
      simp at hr; subst hr
      obtain ⟨n, u, h1, h2⟩ := fold_shape (rooted := true) (comps r) (names := []) (ups := 0)
        ⟨by simp, by simp⟩ (comps_mem_noslash r)
      refine ⟨true, n, u, h1, by simp, ?_, ?_⟩
      · rw [← h2]; simp [comps, push]
      · have := loop_spec true ['/'] (r.length + 1) [] 0 1 r (by omega) ⟨by simp, by simp⟩
          (by simp [rr]) (by simp)
        simp only [List.nil_append, List.replicate_zero, rr, List.length_cons, List.length_nil,
          Nat.zero_add] at this h2
        rw [simplify, this, h2]; rfl
  · obtain ⟨n, u, h1, h2⟩ := fold_shape (rooted := false) (comps p) (names := []) (ups := 0)
        ⟨by simp, by simp⟩ (comps_mem_noslash p)
    refine ⟨false, n, u, h1, by simp [hr], ?_, ?_⟩
    · rw [← h2]; simp
    · have := loop_spec false [] (p.length + 1) [] 0 0 p (by omega) ⟨by simp, by simp⟩
          (by simp [rr]) (by simp)
      simp only [List.nil_append, List.replicate_zero, rr, List.length_nil] at this h2
      have hs : simplify p = loop false 0 (p.length + 1) [] 0 0 p := by
        cases p with
        | nil => exact absurd rfl hp
        | cons c r =>
          have : c ≠ '/' := by simpa using hr
          unfold simplify
          split
          · next h => exact absurd h (by simp)
          · next h => simp at h; exact absurd h.1 this
          · rfl
      rw [hs, this, h2]; rfl

theorem go_stack {rooted : Bool} (l : Loc) (hl : rooted = true → l = []) (s : List (List Char))
    (hs : ∀ a ∈ s, a ≠ [] ∧ a ≠ dot) (c : List Char) :
    (push rooted s c).reverse.foldl go l = go (s.reverse.foldl go l) c := by
  by_cases h1 : c = [] ∨ c = dot
  · simp only [push, h1, go, if_true]
  · by_cases h2 : c = dotdot
    · subst h2
      cases s with
      | nil =>
        cases hr : rooted with
        | true => simp [push, hl hr, go]
        | false => simp [push]
      | cons a s =>
        by_cases ha : a = dotdot
        · simp [push, ha]
        · have ha' := hs a (by simp)
          simp [push, go, ha, ha'.1, ha'.2]
    · simp [push, h1, h2]

theorem fold_go {rooted : Bool} (l : Loc) (hl : rooted = true → l = []) :
    ∀ (cs s : List (List Char)), (∀ a ∈ s, a ≠ [] ∧ a ≠ dot) →
    (cs.foldl (push rooted) s).reverse.foldl go l = cs.foldl go (s.reverse.foldl go l) := by
  intro cs
  induction cs with
  | nil => intro s _; rfl
  | cons c cs ih =>
    intro s hs
    rw [List.foldl_cons, List.foldl_cons, ih, go_stack l hl s hs]
    intro a ha
    simp only [push] at ha
    split at ha
    · exact hs a ha
    · next h1 =>
      split at ha
      · split at ha
        · split at ha
          · simp at ha
          · simp at ha; simp [ha]
        · split at ha
          · rcases List.mem_cons.1 ha with rfl | ha
            · simp
            · exact hs a ha
          · exact hs a (by simp [ha])
      · rcases List.mem_cons.1 ha with rfl | ha
        · exact ⟨fun e => h1 (Or.inl e), fun e => h1 (Or.inr e)⟩
        · exact hs a ha

theorem shape_noslash {rooted : Bool} {names : List (List Char)} {ups : Nat}
    (h : Shape rooted names ups) : ∀ c ∈ names ++ List.replicate ups dotdot, c ≠ [] ∧ '/' ∉ c := by
  intro c hc
  rcases List.mem_append.1 hc with hc | hc
  · exact ⟨(h.plain c hc).1, (h.plain c hc).2.2.2⟩
  · rw [(List.mem_replicate.1 hc).2]; simp

theorem finish_rooted (s : List (List Char)) : finish ['/'] s = '/' :: (rr s).reverse := by
  simp [finish]

theorem finish_rel {s : List (List Char)} (hs : s ≠ []) (h : ∀ c ∈ s, c ≠ []) :
    finish [] s = (rr s).reverse := by
  have := rr_length_pos hs h
  have : (rr s).length ≠ 0 := by omega
  simp only [finish, List.append_nil, this, if_false]

theorem comps_head (t : List Char) : t.head? = some '/' → ∃ r, comps t = [] :: r := by
  intro h
  cases t with
  | nil => simp at h
  | cons c r => simp at h; subst h; exact ⟨comps r, by simp [comps]⟩

theorem rr_rev_head {s : List (List Char)} (hs : s ≠ []) (h : ∀ c ∈ s, c ≠ [] ∧ '/' ∉ c) :
    (rr s).reverse.head? ≠ some '/' := by
  intro hh
  obtain ⟨r, hr⟩ := comps_head _ hh
  rw [comps_rr s hs (fun c hc => (h c hc).2)] at hr
  have : ([] : List Char) ∈ s := by rw [← List.mem_reverse, hr]; simp
  exact (h _ this).1 rfl

/-- components of the final text, up to empty and `.` components -/
theorem comps_finish_fold {rooted : Bool} {names : List (List Char)} {ups : Nat}
    (h : Shape rooted names ups) {β : Type} (f : β → List Char → β)
    (hf : ∀ b, f b [] = b ∧ f b dot = b) (b : β) :
    (comps (finish (if rooted then ['/'] else []) (names ++ List.replicate ups dotdot))).foldl f b =
      (names ++ List.replicate ups dotdot).reverse.foldl f b := by
  have hns := shape_noslash h
  generalize names ++ List.replicate ups dotdot = s at *
  cases rooted with
  | true =>
    simp only [if_true, finish_rooted, comps, List.foldl_cons, (hf b).1]
    by_cases hs : s = []
    · subst hs; simp [rr, comps, (hf b).1]
    · rw [comps_rr s hs (fun c hc => (hns c hc).2)]
  | false =>
    simp only [Bool.false_eq_true, if_false]
    by_cases hs : s = []
    · subst hs
      have : finish [] [] = dot := by simp [finish, rr]
      rw [this]
      have : comps dot = [dot] := by decide
      rw [this]; simp [(hf b).2]
    · rw [finish_rel hs (fun c hc => (hns c hc).1), comps_rr s hs (fun c hc => (hns c hc).2)]

theorem finish_head {rooted : Bool} {names : List (List Char)} {ups : Nat}
    (h : Shape rooted names ups) :
    (finish (if rooted then ['/'] else []) (names ++ List.replicate ups dotdot)).head? = some '/' ↔
      rooted = true := by
  have hns := shape_noslash h
  generalize names ++ List.replicate ups dotdot = s at *
  cases rooted with
  | true => simp [finish_rooted]
  | false =>
    simp only [Bool.false_eq_true, if_false, iff_false]
    by_cases hs : s = []
    · subst hs; simp [finish, rr]
    · rw [finish_rel hs (fun c hc => (hns c hc).1)]
      exact rr_rev_head hs hns

theorem finish_ne_nil (pre : List Char) (s : List (List Char)) : finish pre s ≠ [] := by
  unfold finish
  split
  · simp
  · next h =>
    intro hc
    apply h
    rw [← List.length_reverse, hc]; rfl

theorem replicate_push (rooted : Bool) (hr : rooted = false) : ∀ (u k : Nat),
    (List.replicate u dotdot).foldl (push rooted) (List.replicate k dotdot) =
      List.replicate (k + u) dotdot := by
  intro u
  induction u with
  | zero => intro k; rfl
  | succ u ih =>
    intro k
    rw [List.replicate_succ, List.foldl_cons]
    have : push rooted (List.replicate k dotdot) dotdot = List.replicate (k + 1) dotdot := by
      cases k <;> simp [push, hr, List.replicate_succ]
    rw [this, ih]
    congr 1; omega

theorem plain_push (rooted : Bool) : ∀ (ns s : List (List Char)), (∀ n ∈ ns, Plain n) →
    ns.foldl (push rooted) s = ns.reverse ++ s := by
  intro ns
  induction ns with
  | nil => intro s _; rfl
  | cons a ns ih =>
    intro s h
    rw [List.foldl_cons, push_plain (h a (by simp)), ih _ (fun n hn => h n (by simp [hn]))]
    simp

theorem fold_stack_self {rooted : Bool} {names : List (List Char)} {ups : Nat}
    (h : Shape rooted names ups) :
    (names ++ List.replicate ups dotdot).reverse.foldl (push rooted) [] =
      names ++ List.replicate ups dotdot := by
  rw [List.reverse_append, List.foldl_append, List.reverse_replicate]
  have : (List.replicate ups dotdot).foldl (push rooted) [] = List.replicate ups dotdot := by
    cases hr : rooted with
    | true => rw [h.rooted0 hr]; rfl
    | false =>
      have := replicate_push false rfl ups 0
      simpa using this
  rw [this, plain_push _ _ _ (by simpa using h.plain)]
  simp

theorem loop_length (rooted : Bool) (vs : Nat) : ∀ (fuel : Nat) (rout : List Char) (start pos : Nat)
    (t s : List Char), loop rooted vs fuel rout start pos t = .ok s →
    s.length ≤ max 1 (pos + t.length) := by
  intro fuel
  induction fuel with
  | zero => intro _ _ _ _ _ h; simp [loop] at h
  | succ fuel ih =>
    intro rout start pos t s h
    have hdl := (List.dropWhile_suffix (· == '/') (l := t)).length_le
    simp only [loop] at h
    generalize hpos1 : pos + (t.length - (t.dropWhile (· == '/')).length) = pos1 at h
    cases ht : t.dropWhile (· == '/') with
    | nil =>
      rw [ht] at h hpos1 hdl
      simp only at h
      split at h
      · simp at h
      · split at h
        · cases h; simp; omega
        · cases h; simp at hpos1 ⊢; omega
    | cons c r =>
      rw [ht] at h hpos1 hdl
      simp only [List.length_cons] at hpos1 hdl
      simp only at h
      have htail : r.tail.length + 1 ≤ r.length ∨ r = [] := by
        cases r with
        | nil => exact Or.inr rfl
        | cons a b => simp
      split at h
      · have := ih _ _ _ _ _ h; omega
      · split at h
        · next h2 =>
          have : r ≠ [] := by rintro rfl; simp at h2
          replace htail := htail.resolve_right this
          split at h
          · generalize hro : ('.' :: '.' :: if rout.length ≠ vs then '/' :: rout else rout) = ro at h
            split at h
            · simp at h
            · have := ih _ _ _ _ _ h; omega
          · split at h
            · have := ih _ _ _ _ _ h; omega
            · have := ih _ _ _ _ _ h; omega
        · generalize hro : (if rout.length ≠ vs then '/' :: rout else rout) = ro at h
          split at h
          · simp at h
          · have := ih _ _ _ _ _ h
            have hl : ((c :: r).takeWhile (· ≠ '/')).length + ((c :: r).dropWhile (· ≠ '/')).length =
                (c :: r).length := by
              rw [← List.length_append, List.takeWhile_append_dropWhile]
            simp only [List.length_cons] at hl
            omega

/-! ### C04 -/

/-- **C04** Simplification always succeeds: the loop ends and the in-place edit
never overwrites input it has still to read. -/
theorem simplify_total (p : List Char) : ∃ s, simplify p = .ok s := by
  by_cases hp : p = []
  · exact ⟨[], by simp [hp, simplify]⟩
  · obtain ⟨_, _, _, _, _, _, h⟩ := simplify_eq p hp
    exact ⟨_, h⟩

/-- **C04** The simplified path denotes the same place from every directory. -/
theorem simplify_same_place (p s : List Char) (h : simplify p = .ok s) (l : Loc) :
    place l s = place l p := by
  by_cases hp : p = []
  · subst hp; simp only [simplify, Res.ok.injEq] at h; rw [h]
  · obtain ⟨rooted, names, ups, hsh, hroot, hfold, heq⟩ := simplify_eq p hp
    rw [heq] at h
    cases h
    unfold place
    have hgo : ∀ b : Loc, go b [] = b ∧ go b dot = b := by intro b; simp [go]
    rw [comps_finish_fold hsh go hgo]
    have hhead := finish_head hsh
    by_cases hr : rooted = true
    · have h1 := hroot.1 hr
      rw [if_pos (hhead.2 hr), if_pos h1, ← hfold]
      exact fold_go [] (fun _ => rfl) (comps p) [] (by simp)
    · rw [if_neg (fun e => hr (hhead.1 e)), if_neg (fun e => hr (hroot.2 e)), ← hfold]
      exact fold_go l (fun e => absurd e hr) (comps p) [] (by simp)

/-- **C04** The simplified path of a nonempty path is in normal form. -/
theorem simplify_normal (p s : List Char) (hp : p ≠ []) (h : simplify p = .ok s) : Normal s := by
  obtain ⟨rooted, names, ups, hsh, hroot, hfold, heq⟩ := simplify_eq p hp
  rw [heq] at h
  cases h
  have hns := shape_noslash hsh
  by_cases hs : names ++ List.replicate ups dotdot = []
  · rw [hs]
    cases rooted
    · exact Or.inl (by simp [finish, rr])
    · exact Or.inr (Or.inl (by simp [finish, rr]))
  · refine Or.inr (Or.inr ⟨ups, names.reverse, by simpa using hsh.plain, ?_, ?_⟩)
    · intro hc
      apply hs
      simp at hc ⊢
      exact ⟨hc.2, hc.1⟩
    · have hrev : (names ++ List.replicate ups dotdot).reverse =
          List.replicate ups dotdot ++ names.reverse := by simp
      cases hr : rooted with
      | true =>
        left
        have hu := hsh.rooted0 hr
        subst hu
        refine ⟨by simp [finish_rooted], rfl, ?_⟩
        simp only [if_true, finish_rooted, comps]
        rw [comps_rr _ hs (fun c hc => (hns c hc).2)]
        simp
      | false =>
        right
        simp only [Bool.false_eq_true, if_false]
        rw [finish_rel hs (fun c hc => (hns c hc).1)]
        exact ⟨rr_rev_head hs hns, by rw [comps_rr _ hs (fun c hc => (hns c hc).2), hrev]⟩

/-- **C04** Absolute stays absolute, relative stays relative. -/
theorem simplify_rooted_iff (p s : List Char) (h : simplify p = .ok s) :
    s.head? = some '/' ↔ p.head? = some '/' := by
  by_cases hp : p = []
  · subst hp; simp only [simplify, Res.ok.injEq] at h; rw [← h]
  · obtain ⟨rooted, names, ups, hsh, hroot, hfold, heq⟩ := simplify_eq p hp
    rw [heq] at h; cases h
    rw [finish_head hsh, hroot]

/-- **C04** Simplification is idempotent. -/
theorem simplify_idempotent (p s : List Char) (h : simplify p = .ok s) : simplify s = .ok s := by
  by_cases hp : p = []
  · subst hp; simp only [simplify, Res.ok.injEq] at h; rw [← h]; rfl
  · obtain ⟨rooted, names, ups, hsh, hroot, hfold, heq⟩ := simplify_eq p hp
    rw [heq] at h
    cases h
    obtain ⟨rooted', names', ups', hsh', hroot', hfold', heq'⟩ :=
      simplify_eq (finish (if rooted then ['/'] else []) (names ++ List.replicate ups dotdot))
        (finish_ne_nil _ _)
    have hrr : rooted' = rooted := by
      rw [finish_head hsh] at hroot'
      cases rooted <;> cases rooted' <;> simp_all
    subst hrr
    rw [comps_finish_fold hsh (push rooted') (by intro b; simp [push]), fold_stack_self hsh] at hfold'
    rw [heq', ← hfold']

/-- **C04** Simplification never lengthens a path. -/
theorem simplify_length_le (p s : List Char) (h : simplify p = .ok s) : s.length ≤ p.length := by
  unfold simplify at h
  split at h
  · cases h; simp
  · have := loop_length _ _ _ _ _ _ _ _ h
    simp; omega
  · next hp _ =>
    have := loop_length _ _ _ _ _ _ _ _ h
    have : p.length ≠ 0 := by
      intro h0; exact hp (List.length_eq_zero_iff.1 h0)
    omega

/-- Non-vacuity: the comment of path.c:127-135, and a case with every rule. -/
example : simplify "foo/../../../bar".toList = .ok "../../bar".toList := by decide
example : simplify "/foo//./../..//bar/.x/..".toList = .ok "/bar".toList := by decide
example : place ["u".toList] "foo/../../../bar".toList = ["bar".toList] := by decide

/-! ### C05 -/

/-- The elements of a colon-separated list: `n` colons give `n+1` elements. -/
def elems : List Char → List (List Char)
  | [] => [[]]
  | c :: r =>
    if c = ':' then [] :: elems r
    else match elems r with
      | [] => [[c]]
      | h :: t => (c :: h) :: t

/-- `dir/` prefix: nothing for an empty name, otherwise the name and one slash
unless it already ends in one -/
def asPrefix (d : List Char) : List Char := if d = [] then [] else withSlash d

/-- The file a CDPATH element stands for: relative elements (and the empty one)
are taken from the working directory. -/
def candidate (cwd dir elem : List Char) : List Char :=
  if elem.head? = some '/' then asPrefix elem ++ dir
  else asPrefix cwd ++ asPrefix elem ++ dir

/-- operands for which CDPATH is not consulted -/
def NoSearch (dir : List Char) : Prop :=
  dir.head? = some '/' ∨ dir = ['.'] ∨ dir = ['.', '.'] ∨
  (∃ r, dir = '.' :: '/' :: r) ∨ (∃ r, dir = '.' :: '.' :: '/' :: r)

theorem dotted_iff (dir : List Char) : dotted dir = true ↔
    (dir = ['.'] ∨ dir = ['.', '.'] ∨ (∃ r, dir = '.' :: '/' :: r) ∨
      (∃ r, dir = '.' :: '.' :: '/' :: r)) := by
  unfold dotted
  split
  · next r =>
    cases r with
    | nil => simp [atEnd]
    | cons c r => simp [atEnd]
  · next r h =>
    cases r with
    | nil => simp [atEnd]
    | cons c r =>
      have : c ≠ '.' := by rintro rfl; exact h _ rfl
      simp [atEnd, this]
  · next h1 h2 =>
    simp only [Bool.false_eq_true, false_iff]
    rintro (rfl | rfl | ⟨r, rfl⟩ | ⟨r, rfl⟩)
    · exact h2 _ rfl
    · exact h1 _ rfl
    · exact h2 _ rfl
    · exact h1 _ rfl

theorem elems_eq (l : List Char) : elems l = l.takeWhile (· ≠ ':') ::
    (match l.dropWhile (· ≠ ':') with | [] => [] | _ :: r => elems r) := by
  induction l with
  | nil => simp [elems]
  | cons c r ih =>
    by_cases hc : c = ':'
    · simp [elems, hc]
    · simp only [elems, hc, if_false]
      rw [ih]; simp [hc]

/-- **C05** Without a leading `/`, `./`, `../` the directories tried are exactly
one per CDPATH element, in order. -/
theorem cdpath_candidates (cwd dir : List Char) (hn : ¬ NoSearch dir) :
    ∀ (fuel : Nat) (cdpath : List Char), cdpath.length < fuel →
    (candidates cwd dir fuel (some cdpath)).map (·.text) =
      (elems cdpath).map (candidate cwd dir) := by
  have h1 : dir.head? ≠ some '/' := fun h => hn (Or.inl h)
  have h2 : dotted dir = false := by
    cases h : dotted dir with
    | false => rfl
    | true => exact absurd (Or.inr ((dotted_iff dir).1 h)) hn
  intro fuel
  induction fuel with
  | zero => intro _ h; omega
  | succ fuel ih =>
    intro cdpath hf
    have htext : (makePath cwd dir (some cdpath)).text =
        candidate cwd dir (cdpath.takeWhile (· ≠ ':')) := by
      unfold makePath candidate asPrefix
      simp only [h1, h2, if_false, Option.isSome_some, Bool.not_false, Bool.and_self,
        Option.getD_some, if_true, Bool.true_and]
      cases he : cdpath.takeWhile (· ≠ ':') with
      | nil => cases cwd <;> simp
      | cons c r =>
        by_cases hc : c = '/'
        · subst hc; simp
        · cases cwd <;> simp [hc]
    have hnext : (makePath cwd dir (some cdpath)).cdpath =
        (match cdpath.dropWhile (· ≠ ':') with | [] => none | _ :: r => some r) := by
      unfold makePath
      simp only [h1, h2, if_false, Option.isSome_some, Bool.not_false, Bool.and_self,
        Option.getD_some, if_true, Bool.true_and]
      split <;> rfl
    rw [elems_eq, candidates]
    simp only [List.map_cons, htext, hnext]
    congr 1
    cases hd : cdpath.dropWhile (· ≠ ':') with
    | nil => rfl
    | cons c r =>
      simp only
      apply ih
      have := (List.dropWhile_suffix (· ≠ ':') (l := cdpath)).length_le
      rw [hd] at this
      simp at this
      omega

/-- **C05** With a leading `/`, `./`, `../` (or `.`/`..` alone), or without
CDPATH, exactly one directory is tried. -/
theorem cdpath_not_consulted (cwd dir : List Char) (fuel : Nat) (cdpath : Option (List Char))
    (hn : NoSearch dir ∨ cdpath = none) :
    (candidates cwd dir (fuel + 1) cdpath).map (·.text) =
      [if dir.head? = some '/' then dir else asPrefix cwd ++ dir] := by
  have key : (makePath cwd dir cdpath).text =
      (if dir.head? = some '/' then dir else asPrefix cwd ++ dir) ∧
      (makePath cwd dir cdpath).cdpath = none := by
    by_cases h1 : dir.head? = some '/'
    · simp [makePath, h1]
    · have h2 : (!dotted dir && cdpath.isSome) = false := by
        rcases hn with (h | h) | h
        · exact absurd h h1
        · rw [(dotted_iff dir).2 h]; simp
        · simp [h]
      simp only [makePath, h1, if_false, h2, Bool.false_and]
      cases cwd <;> simp [asPrefix]
  simp [candidates, key.1, key.2]

/-- **C05** `cd` enters the (simplified) first candidate whose `chdir` succeeds,
and fails exactly when all of them fail. -/
theorem cd_enters_first_success (chdir : List Char → Bool) (cwd dir : List Char) :
    ∀ (fuel : Nat) (cdpath : Option (List Char)),
    (cdLoop chdir cwd dir fuel cdpath).map (·.text) =
      ((candidates cwd dir fuel cdpath).filterMap (fun m =>
        match simplify m.text with
        | .ok s => if chdir s then some s else none
        | _ => none)).head? := by
  intro fuel
  induction fuel with
  | zero => intro _; rfl
  | succ fuel ih =>
    intro cdpath
    obtain ⟨s, hs⟩ := simplify_total (makePath cwd dir cdpath).text
    simp only [cdLoop, candidates, List.filterMap_cons, hs]
    by_cases hc : chdir s = true
    · simp [hc]
    · simp only [hc, Bool.false_eq_true, if_false]
      cases (makePath cwd dir cdpath).cdpath with
      | none => simp
      | some l => exact ih (some l)

example : (candidates "/home/u".toList "src".toList 9 (some "::/a:b/:".toList)).map (·.text) =
    ["/home/u/src", "/home/u/src", "/a/src", "/home/u/b/src", "/home/u/src"].map String.toList := by
  decide

end Ksh.Path
