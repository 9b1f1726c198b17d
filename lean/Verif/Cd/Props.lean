import Verif.Cd.Model
/-!
# The shell knows where it is

In a file system with symbolic links that does not change: the name the shell has for its directory
leads there.
-/

namespace Ksh.Cd

open Ksh.Path

/-! ## Specification: file systems and what paths mean in them -/

inductive Kind where
  | dir
  | file
  | link (t : List Char)
  deriving DecidableEq, Repr

/-- What there is at each place. -/
abbrev FS := Loc → Option Kind

/-- Where the resolution of a path starts. -/
def from_ (l : Loc) (p : List Char) : Loc := if p.head? = some '/' then [] else l

/-- Following components from a place, through symbolic links. -/
inductive Walk (fs : FS) : Loc → List (List Char) → Loc → Prop
  | nil (l : Loc) : Walk fs l [] l
  | stay {l m : Loc} {c : List Char} {r : List (List Char)} : c = [] ∨ c = dot → Walk fs l r m → Walk fs l (c :: r) m
  | up {l m : Loc} {r : List (List Char)} : Walk fs l.dropLast r m → Walk fs l (dotdot :: r) m
  | down {l m : Loc} {c : List Char} {r : List (List Char)} : Plain c → fs (l ++ [c]) = some .dir → Walk fs (l ++ [c]) r m → Walk fs l (c :: r) m
  | link {l k m : Loc} {c t : List Char} {r : List (List Char)} : Plain c → fs (l ++ [c]) = some (.link t) → Walk fs (from_ l t) (comps t) k → Walk fs k r m →
      Walk fs l (c :: r) m

/-- A place in which every name is one of a directory. -/
def Phys (fs : FS) (l : Loc) : Prop := ∀ a c b, l = a ++ c :: b → Plain c ∧ fs (a ++ [c]) = some .dir

/-- The name of a place without links. -/
def name (l : Loc) : List Char := if l = [] then ['/'] else l.flatMap ('/' :: ·)

/-- The system calls do what they should: `chdir` may fail for any reason, but if it succeeds it goes
where the path leads to. -/
structure Sound (fs : FS) (sys : Sys) : Prop where
  chdir : ∀ l p m, Phys fs l → sys.chdir l p = some m → Walk fs (from_ l p) (comps p) m
  dir : ∀ l c, Phys fs l → Plain c → fs (l ++ [c]) = some .dir → sys.readlink (name (l ++ [c])) = .notLink
  link : ∀ l c t, Phys fs l → Plain c → fs (l ++ [c]) = some (.link t) → sys.readlink (name (l ++ [c])) = .link t

/-! ## Facts about the specification -/

theorem plain_ne {c : List Char} (h : Plain c) : ¬ (c = [] ∨ c = dot) ∧ c ≠ dotdot := ⟨fun hc => hc.elim h.1 h.2.1, h.2.2.1⟩

theorem Walk.det {fs : FS} {l : Loc} {cs : List (List Char)} {a : Loc} (h : Walk fs l cs a) : ∀ {b}, Walk fs l cs b → a = b := by
  induction h with
  | nil => intro b hb; cases hb; rfl
  | stay hc _ ih =>
    intro b hb
    cases hb with
    | stay _ h => exact ih h
    | up h => simp [dot, dotdot] at hc
    | down hp _ _ => exact absurd hc (plain_ne hp).1
    | link hp _ _ _ => exact absurd hc (plain_ne hp).1
  | up _ ih =>
    intro b hb
    cases hb with
    | stay hc h => simp [dot, dotdot] at hc
    | up h => exact ih h
    | down hp _ _ => exact absurd rfl (plain_ne hp).2
    | link hp _ _ _ => exact absurd rfl (plain_ne hp).2
  | down hp hd _ ih =>
    intro b hb
    cases hb with
    | stay hc h => exact absurd hc (plain_ne hp).1
    | up h => exact absurd rfl (plain_ne hp).2
    | down _ _ h => exact ih h
    | link _ h _ _ => rw [hd] at h; cases h
  | link hp hd _ _ ih1 ih2 =>
    intro b hb
    cases hb with
    | stay hc h => exact absurd hc (plain_ne hp).1
    | up h => exact absurd rfl (plain_ne hp).2
    | down _ h _ => rw [hd] at h; cases h
    | link _ h h1 h2 =>
      rw [hd] at h; cases h
      have := ih1 h1
      subst this
      exact ih2 h2

theorem Walk.append {fs : FS} {l k : Loc} {a : List (List Char)} (h : Walk fs l a k) : ∀ {b m}, Walk fs k b m → Walk fs l (a ++ b) m := by
  induction h with
  | nil => intro b m h; exact h
  | stay hc _ ih => intro b m h; exact .stay hc (ih h)
  | up _ ih => intro b m h; exact .up (ih h)
  | down hp hd _ ih => intro b m h; exact .down hp hd (ih h)
  | link hp hd h1 _ _ ih2 => intro b m h; exact .link hp hd h1 (ih2 h)

/-- An empty last component changes nothing. -/
theorem Walk.strip {fs : FS} : ∀ {a : List (List Char)} {l m : Loc}, Walk fs l (a ++ [[]]) m → Walk fs l a m := by
  intro a l m h
  generalize hcs : a ++ [[]] = cs at h
  induction h generalizing a with
  | nil => simp at hcs
  | stay hc h ih =>
    cases a with
    | nil => simp at hcs; obtain ⟨rfl, rfl⟩ := hcs; exact h
    | cons x a => simp at hcs; obtain ⟨rfl, hcs⟩ := hcs; exact .stay hc (ih hcs)
  | up h ih =>
    cases a with
    | nil => simp [dotdot] at hcs
    | cons x a => simp at hcs; obtain ⟨rfl, hcs⟩ := hcs; exact .up (ih hcs)
  | down hp hd h ih =>
    cases a with
    | nil => simp at hcs; exact absurd hcs.1 hp.1
    | cons x a => simp at hcs; obtain ⟨rfl, hcs⟩ := hcs; exact .down hp hd (ih hcs)
  | link hp hd h1 h2 _ ih =>
    cases a with
    | nil => simp at hcs; exact absurd hcs.1 hp.1
    | cons x a => simp at hcs; obtain ⟨rfl, hcs⟩ := hcs; exact .link hp hd h1 (ih hcs)

theorem Phys.nil (fs : FS) : Phys fs [] := by
  intro a c b h; simp at h

theorem Phys.from_ {fs : FS} {l : Loc} (h : Phys fs l) (p : List Char) : Phys fs (from_ l p) := by
  unfold Cd.from_; split
  · exact Phys.nil fs
  · exact h

theorem Phys.dropLast {fs : FS} {l : Loc} (h : Phys fs l) : Phys fs l.dropLast := by
  intro a c b hl
  have : l ≠ [] := by rintro rfl; simp at hl
  refine h a c (b ++ [l.getLast this]) ?_
  have h2 := List.dropLast_concat_getLast this
  rw [hl] at h2
  simpa using h2.symm

theorem Phys.down {fs : FS} {l : Loc} {c : List Char} (h : Phys fs l) (hp : Plain c) (hd : fs (l ++ [c]) = some .dir) : Phys fs (l ++ [c]) := by
  intro a x b hl
  rcases List.eq_nil_or_concat b with rfl | ⟨b', y, rfl⟩
  · obtain ⟨rfl, hx⟩ := List.append_inj' (t₁ := [c]) (t₂ := [x]) (by simpa using hl) rfl
    cases hx
    exact ⟨hp, hd⟩
  · have hl' : l ++ [c] = (a ++ x :: b') ++ [y] := by rw [hl]; simp
    obtain ⟨rfl, -⟩ := List.append_inj' hl' rfl
    exact h a x b' rfl

theorem Walk.phys {fs : FS} {l m : Loc} {cs : List (List Char)} (h : Walk fs l cs m) : Phys fs l → Phys fs m := by
  induction h with
  | nil => exact id
  | stay _ _ ih => exact ih
  | up _ ih => exact fun hl => ih hl.dropLast
  | down hp hd _ ih => exact fun hl => ih (hl.down hp hd)
  | link hp hd _ _ ih1 ih2 =>
    intro hl
    apply ih2
    apply ih1
    unfold from_
    split
    · exact Phys.nil fs
    · exact hl

/-- A place is reached by its names. -/
theorem walk_self {fs : FS} : ∀ (b a : Loc), Phys fs (a ++ b) → Walk fs a b (a ++ b)
  | [], a, _ => by rw [List.append_nil]; exact .nil a
  | c :: b, a, h => by
    obtain ⟨h1, h2⟩ := h a c b rfl
    have : a ++ c :: b = (a ++ [c]) ++ b := by simp
    rw [this] at h ⊢
    exact .down h1 h2 (walk_self b _ h)

/-! ## Paths -/

/-- The text with these components. -/
def unc : List (List Char) → List Char
  | [] => []
  | [x] => x
  | x :: y :: r => x ++ '/' :: unc (y :: r)

theorem unc_comps (t : List Char) : unc (comps t) = t := by
  induction t with
  | nil => rfl
  | cons c r ih =>
    unfold comps
    split
    · rename_i hc
      subst hc
      cases h : comps r with
      | nil => exact absurd h (comps_ne_nil r)
      | cons a b => simp [unc, ← h, ih]
    · cases h : comps r with
      | nil => exact absurd h (comps_ne_nil r)
      | cons a b =>
        rw [h] at ih
        simp only
        cases b with
        | nil => simp only [unc] at ih ⊢; rw [ih]
        | cons x y => simp only [unc] at ih ⊢; rw [← ih]; rfl

theorem comps_inj {a b : List Char} (h : comps a = comps b) : a = b := by
  rw [← unc_comps a, h, unc_comps]

/-- The first component and what follows. -/
theorem comps_split {p c : List Char} {r : List (List Char)} (h : comps p = c :: r) :
    p.takeWhile (· ≠ '/') = c ∧ comps (p.dropWhile (· ≠ '/')) = [] :: r ∧ (p.dropWhile (· ≠ '/')).length ≤ p.length := by
  induction p generalizing c r with
  | nil => cases h; exact ⟨rfl, rfl, Nat.le_refl _⟩
  | cons a p ih =>
    unfold comps at h
    by_cases ha : a = '/'
    · subst ha
      simp only [if_true] at h
      cases h
      simp [comps]
    · simp only [ha, if_false] at h
      cases hp : comps p with
      | nil => exact absurd hp (comps_ne_nil p)
      | cons x y =>
        rw [hp] at h
        cases h
        obtain ⟨h1, h2, h3⟩ := ih hp
        simp only [List.takeWhile_cons, List.dropWhile_cons, ha, ne_eq, not_false_eq_true, decide_true, if_true]
        exact ⟨by rw [← h1], h2, Nat.le_succ_of_le h3⟩

theorem name_snoc (l : Loc) (c : List Char) : name (l ++ [c]) = l.flatMap ('/' :: ·) ++ '/' :: c := by simp [name]

theorem comps_flat : ∀ (b : Loc) (c : List Char), (∀ x ∈ c :: b, '/' ∉ x) → comps ('/' :: c ++ b.flatMap ('/' :: ·)) = [] :: c :: b
  | [], c, h => by
    simp only [List.flatMap_nil, List.append_nil, comps, if_true]
    rw [comps_noslash (h c (by simp))]
  | d :: b, c, h => by
    have ih := comps_flat b d (fun x hx => h x (List.mem_cons_of_mem _ hx))
    have : '/' :: c ++ (d :: b).flatMap ('/' :: ·) = ('/' :: c) ++ '/' :: (d ++ b.flatMap ('/' :: ·)) := by simp
    rw [this, comps_append]
    have h2 : comps ('/' :: d ++ b.flatMap ('/' :: ·)) = [] :: comps (d ++ b.flatMap ('/' :: ·)) := by
      simp only [List.cons_append, comps, if_true]
    rw [h2] at ih
    have h3 : comps ('/' :: c) = [[], c] := by
      simp only [comps, if_true]
      rw [comps_noslash (h c (by simp))]
    rw [h3]
    simp only [List.cons.injEq, true_and] at ih
    rw [ih]; rfl

theorem comps_name {l : Loc} (h : ∀ x ∈ l, '/' ∉ x) : comps (name l) = if l = [] then [[], []] else [] :: l := by
  cases l with
  | nil => rfl
  | cons c b =>
    rw [if_neg (by simp)]
    unfold name
    rw [if_neg (by simp), List.flatMap_cons]
    exact comps_flat b c h

theorem Phys.plain {fs : FS} {l : Loc} (h : Phys fs l) : ∀ x ∈ l, Plain x := by
  intro x hx
  obtain ⟨a, b, rfl⟩ := List.append_of_mem hx
  exact (h a x b rfl).1

/-- The name of a place leads there. -/
theorem walk_name {fs : FS} {l : Loc} (h : Phys fs l) : Walk fs [] (comps (name l)) l := by
  rw [comps_name (fun x hx => (h.plain x hx).2.2.2)]
  split
  · rename_i hl; subst hl
    exact .stay (Or.inl rfl) (.stay (Or.inl rfl) (.nil _))
  · exact .stay (Or.inl rfl) (walk_self l [] h)

theorem name_head (l : Loc) : (name l).head? = some '/' := by
  unfold name
  split
  · rfl
  · cases l with
    | nil => contradiction
    | cons c b => rfl

theorem place_plain : ∀ (b a : Loc), (∀ x ∈ b, Plain x) → b.foldl go a = a ++ b
  | [], a, _ => by simp
  | c :: b, a, h => by
    obtain ⟨h1, h2⟩ := plain_ne (h c (by simp))
    rw [List.foldl_cons, show go a c = a ++ [c] by simp only [go, if_neg h1, if_neg h2], place_plain b _ (fun x hx => h x (List.mem_cons_of_mem _ hx))]
    simp

/-- The name of a place is not changed by simplification. -/
theorem simp_name {l : Loc} (h : ∀ x ∈ l, Plain x) : simp (name l) = name l := by
  obtain ⟨s, hs⟩ := simplify_total (name l)
  unfold simp
  rw [hs]
  simp only
  have hne : name l ≠ [] := by
    intro hc
    have := name_head l
    rw [hc] at this; cases this
  have hrt := (simplify_rooted_iff _ _ hs).2 (name_head l)
  have hpl := simplify_same_place _ _ hs []
  have hnl : place [] (name l) = l := by
    unfold place
    rw [if_pos (name_head l), comps_name (fun x hx => (h x hx).2.2.2)]
    split
    · rename_i hl; subst hl; rfl
    · rw [List.foldl_cons, show go [] [] = [] from rfl, place_plain l [] h]; rfl
  rw [hnl] at hpl
  rcases simplify_normal _ _ hne hs with h1 | h1 | ⟨ups, names, hpn, hnn, h1 | h1⟩
  · rw [h1] at hrt; cases hrt
  · have hl : l = [] := by rw [← hpl, h1]; rfl
    rw [h1, hl]; rfl
  · obtain ⟨-, hu, hc⟩ := h1
    have : l = names := by
      rw [← hpl]
      unfold place
      rw [if_pos hrt, hc, List.foldl_cons, show go [] [] = [] from rfl, place_plain names [] hpn]; rfl
    subst this
    apply comps_inj
    rw [hc, comps_name (fun x hx => (h x hx).2.2.2), if_neg]
    rintro rfl
    subst hu
    exact hnn rfl
  · exact absurd hrt h1.1

/-! ## `get_phys_path` -/

theorem doPhys_slash (rl : List Char → Rl) (f : Nat) (rbuf r : List Char) : doPhys rl f rbuf ('/' :: r) = doPhys rl f rbuf r := by
  cases f with
  | zero => rfl
  | succ f =>
    unfold doPhys
    rw [show ('/' :: r).dropWhile (· = '/') = r.dropWhile (· = '/') by simp]

theorem pop_flat (l : Loc) (h : ∀ x ∈ l, '/' ∉ x) : pop (l.flatMap ('/' :: ·)).reverse = (l.dropLast.flatMap ('/' :: ·)).reverse := by
  rcases List.eq_nil_or_concat l with rfl | ⟨b, c, rfl⟩
  · rfl
  · have hc : '/' ∉ c := h c (by simp)
    simp only [List.concat_eq_append, List.flatMap_append, List.flatMap_cons, List.flatMap_nil, List.append_nil, List.reverse_append, List.reverse_cons, List.dropLast_concat]
    unfold pop
    rw [List.append_assoc, List.dropWhile_append_of_pos]
    · simp
    · intro x hx
      have : x ≠ '/' := by rintro rfl; exact hc (by simpa using hx)
      simp [this]

/-- `do_phys_path` follows the path like the system does, and its buffer names the place. -/
theorem doPhys_spec {fs : FS} {sys : Sys} (hs : Sound fs sys) {l m : Loc} {cs : List (List Char)} (h : Walk fs l cs m) : Phys fs l →
    ∀ p, comps p = cs ∨ comps p = [] :: cs → ∃ N, ∀ n ≥ N, doPhys sys.readlink n (l.flatMap ('/' :: ·)).reverse p = some (some (m.flatMap ('/' :: ·)).reverse) := by
  -- an empty component in front can be left out
  have lead : ∀ {l m : Loc} {c : List Char} {r : List (List Char)},
      (∀ p, comps p = c :: r → ∃ N, ∀ n ≥ N, doPhys sys.readlink n (l.flatMap ('/' :: ·)).reverse p = some (some (m.flatMap ('/' :: ·)).reverse)) →
      ∀ p, comps p = c :: r ∨ comps p = [] :: c :: r → ∃ N, ∀ n ≥ N, doPhys sys.readlink n (l.flatMap ('/' :: ·)).reverse p = some (some (m.flatMap ('/' :: ·)).reverse) := by
    intro l m c r hb p hp
    rcases hp with hp | hp
    · exact hb p hp
    · cases p with
      | nil => simp [comps] at hp
      | cons a p =>
        unfold comps at hp
        by_cases ha : a = '/'
        · subst ha
          simp only [if_true, List.cons.injEq, true_and] at hp
          obtain ⟨N, hN⟩ := hb p hp
          exact ⟨N, fun n hn => by rw [doPhys_slash]; exact hN n hn⟩
        · simp only [ha, if_false] at hp
          cases hcp : comps p with
          | nil => exact absurd hcp (comps_ne_nil p)
          | cons x y => rw [hcp] at hp; simp at hp
  -- the first step with a component that is not empty
  have first : ∀ (f : Nat) (rbuf p c : List Char) (r : List (List Char)), c ≠ [] → comps p = c :: r →
      ∃ q, comps q = [] :: r ∧ doPhys sys.readlink (f + 1) rbuf p =
        if c = ['.'] then doPhys sys.readlink f rbuf q
        else if c = ['.', '.'] then doPhys sys.readlink f (pop rbuf) q
        else
          match sys.readlink ((c.reverse ++ '/' :: rbuf).reverse) with
          | .notLink => doPhys sys.readlink f (c.reverse ++ '/' :: rbuf) q
          | .err => some none
          | .link t =>
            match doPhys sys.readlink f (if t.head? = some '/' then [] else rbuf) t with
            | none => none
            | some none => some none
            | some (some rbuf') => doPhys sys.readlink f rbuf' q := by
    intro f rbuf p c r hc hp
    obtain ⟨h1, h2, -⟩ := comps_split hp
    refine ⟨p.dropWhile (· ≠ '/'), h2, ?_⟩
    have hd : p.dropWhile (· = '/') = p := by
      cases p with
      | nil => rfl
      | cons a p =>
        have : a ≠ '/' := by
          rintro rfl; simp at h1; exact hc h1
        simp [this]
    have hne : p ≠ [] := by rintro rfl; simp at h1; exact hc h1
    conv => lhs; unfold doPhys
    simp only [hd, h1, if_neg hne]
    rfl
  induction h with
  | nil l =>
    intro _ p hp
    rcases hp with hp | hp
    · exact absurd hp (comps_ne_nil p)
    · have : p = [] := comps_inj hp
      subst this
      refine ⟨1, fun n hn => ?_⟩
      cases n with
      | zero => omega
      | succ n => simp [doPhys]
  | @stay l m c r hc _ ih =>
    intro hl
    rcases hc with rfl | rfl
    · have hb : ∀ p, comps p = [] :: r → ∃ N, ∀ n ≥ N, doPhys sys.readlink n (l.flatMap ('/' :: ·)).reverse p = some (some (m.flatMap ('/' :: ·)).reverse) :=
        fun p hp => ih hl p (Or.inr hp)
      exact lead hb
    · apply lead
      intro p hp
      obtain ⟨q, hq, -⟩ := first 0 [] p dot r (by decide) hp
      obtain ⟨N, hN⟩ := ih hl q (Or.inr hq)
      refine ⟨N + 1, fun n hn => ?_⟩
      cases n with
      | zero => omega
      | succ n =>
        obtain ⟨q', hq', he⟩ := first n (l.flatMap ('/' :: ·)).reverse p dot r (by decide) hp
        have : q' = q := comps_inj (by rw [hq, hq'])
        subst this
        rw [he, if_pos rfl]
        exact hN n (by omega)
  | @up l m r _ ih =>
    intro hl
    apply lead
    intro p hp
    obtain ⟨q, hq, -⟩ := first 0 [] p dotdot r (by decide) hp
    obtain ⟨N, hN⟩ := ih hl.dropLast q (Or.inr hq)
    refine ⟨N + 1, fun n hn => ?_⟩
    cases n with
    | zero => omega
    | succ n =>
      obtain ⟨q', hq', he⟩ := first n (l.flatMap ('/' :: ·)).reverse p dotdot r (by decide) hp
      have : q' = q := comps_inj (by rw [hq, hq'])
      subst this
      rw [he, if_neg (by decide), if_pos rfl, pop_flat l (fun x hx => (hl.plain x hx).2.2.2)]
      exact hN n (by omega)
  | @down l m c r hp hd _ ih =>
    intro hl
    apply lead
    intro p hcp
    obtain ⟨q, hq, -⟩ := first 0 [] p c r hp.1 hcp
    obtain ⟨N, hN⟩ := ih (hl.down hp hd) q (Or.inr hq)
    refine ⟨N + 1, fun n hn => ?_⟩
    cases n with
    | zero => omega
    | succ n =>
      obtain ⟨q', hq', he⟩ := first n (l.flatMap ('/' :: ·)).reverse p c r hp.1 hcp
      have : q' = q := comps_inj (by rw [hq, hq'])
      subst this
      have hbuf : (c.reverse ++ '/' :: (l.flatMap ('/' :: ·)).reverse) = ((l ++ [c]).flatMap ('/' :: ·)).reverse := by simp
      have hrl := hs.dir l c hl hp hd
      rw [name_snoc] at hrl
      rw [he, if_neg hp.2.1, if_neg hp.2.2.1, hbuf]
      rw [show (((l ++ [c]).flatMap ('/' :: ·)).reverse).reverse = l.flatMap ('/' :: ·) ++ '/' :: c by simp, hrl]
      exact hN n (by omega)
  | @link l k m c t r hp hd h1 h2 ih1 ih2 =>
    intro hl
    apply lead
    intro p hcp
    have hfl : Phys fs (from_ l t) := by
      unfold from_; split
      · exact Phys.nil fs
      · exact hl
    obtain ⟨q, hq, -⟩ := first 0 [] p c r hp.1 hcp
    obtain ⟨N1, hN1⟩ := ih1 hfl t (Or.inl rfl)
    obtain ⟨N2, hN2⟩ := ih2 (h1.phys hfl) q (Or.inr hq)
    refine ⟨max N1 N2 + 1, fun n hn => ?_⟩
    cases n with
    | zero => omega
    | succ n =>
      obtain ⟨q', hq', he⟩ := first n (l.flatMap ('/' :: ·)).reverse p c r hp.1 hcp
      have : q' = q := comps_inj (by rw [hq, hq'])
      subst this
      have hbuf : (c.reverse ++ '/' :: (l.flatMap ('/' :: ·)).reverse).reverse = l.flatMap ('/' :: ·) ++ '/' :: c := by simp
      have hrl := hs.link l c t hl hp hd
      rw [name_snoc] at hrl
      have hfr : (if t.head? = some '/' then [] else (l.flatMap ('/' :: ·)).reverse) = ((from_ l t).flatMap ('/' :: ·)).reverse := by
        unfold from_; split <;> rfl
      rw [he, if_neg hp.2.1, if_neg hp.2.2.1, hbuf, hrl]
      simp only
      rw [hfr, hN1 n (by omega)]
      exact hN2 n (by omega)

/-- **C75** `get_phys_path` of a path that leads somewhere is the name of that place. -/
theorem physPath_spec {fs : FS} {sys : Sys} (hs : Sound fs sys) {m : Loc} {p : List Char} (h : Walk fs [] (comps p) m) :
    ∃ N, ∀ n ≥ N, physPath sys.readlink n p = some (some (name m)) := by
  obtain ⟨N, hN⟩ := doPhys_spec hs h (Phys.nil fs) p (Or.inl rfl)
  refine ⟨N, fun n hn => ?_⟩
  unfold physPath
  have := hN n hn
  rw [show (([] : Loc).flatMap ('/' :: ·)).reverse = [] from rfl] at this
  rw [this]
  simp only [Option.map_some, Option.some.injEq]
  unfold name
  cases m with
  | nil => rfl
  | cons c b => simp

/-- More `fuel` does not change the answer. -/
theorem doPhys_mono (rl : List Char → Rl) : ∀ (f : Nat) (rbuf p : List Char) (r : Option (List Char)), doPhys rl f rbuf p = some r → doPhys rl (f + 1) rbuf p = some r := by
  intro f
  induction f with
  | zero => intro rbuf p r h; cases h
  | succ f ih =>
    intro rbuf p r h
    rw [doPhys] at h ⊢
    split
    · rename_i hp; rw [if_pos hp] at h; exact h
    rename_i hp; rw [if_neg hp] at h
    split
    · rename_i hc; rw [if_pos hc] at h; exact ih _ _ _ h
    rename_i hc; rw [if_neg hc] at h
    split
    · rename_i hd; rw [if_pos hd] at h; exact ih _ _ _ h
    rename_i hd; rw [if_neg hd] at h
    split
    · rename_i hr; rw [hr] at h; exact ih _ _ _ h
    · rename_i hr; rw [hr] at h; exact h
    · rename_i t hr
      rw [hr] at h
      simp only at h
      cases ht : doPhys rl f (if t.head? = some '/' then [] else rbuf) t with
      | none => rw [ht] at h; cases h
      | some x =>
        rw [ht] at h
        rw [ih _ _ _ ht]
        cases x with
        | none => exact h
        | some y => exact ih _ _ _ h

theorem physPath_any {fs : FS} {sys : Sys} (hs : Sound fs sys) {m : Loc} {p : List Char} (h : Walk fs [] (comps p) m) {n : Nat} {r : Option (List Char)}
    (hr : physPath sys.readlink n p = some r) : r = some (name m) := by
  obtain ⟨N, hN⟩ := physPath_spec hs h
  have mono : ∀ k, physPath sys.readlink (n + k) p = some r := by
    intro k
    induction k with
    | zero => exact hr
    | succ k ih =>
      unfold physPath at ih ⊢
      cases hd : doPhys sys.readlink (n + k) [] p with
      | none => rw [hd] at ih; cases ih
      | some x => rw [hd] at ih; rw [← Nat.add_assoc, doPhys_mono _ _ _ _ _ hd]; exact ih
  have h1 := mono N
  rw [hN (n + N) (by omega)] at h1
  exact (Option.some.inj h1).symm

/-! ## The candidates -/

/-- What `make_path` makes: the current directory in front if it is needed, and the part given to
`chdir` in physical mode. -/
theorem makePath_parts (wd file : List Char) (cd : Option (List Char)) :
    ∃ rest, (makePath wd file cd).text = (if (makePath wd file cd).phys = 0 then [] else withSlash wd) ++ rest ∧
      (makePath wd file cd).text.drop (makePath wd file cd).phys = rest ∧
      ((makePath wd file cd).phys ≠ 0 → wd ≠ [] ∧ rest.head? ≠ some '/') ∧
      ((makePath wd file cd).phys = 0 → wd ≠ [] → rest.head? = some '/') := by
  have hws : ∀ x : List Char, withSlash x ≠ [] := by
    intro x hx
    unfold withSlash at hx
    split at hx
    · subst hx; simp at *
    · simp at hx
  have hhd : ∀ (x y : List Char), x ≠ [] → (withSlash x ++ y).head? = x.head? := by
    intro x y hx
    cases x with
    | nil => contradiction
    | cons a x => unfold withSlash; split <;> rfl
  have key : ∀ (b : Bool) (rest : List Char), (b = true → wd ≠ [] ∧ rest.head? ≠ some '/') → (b = false → wd ≠ [] → rest.head? = some '/') →
      let pre := if b then withSlash wd else []
      ∃ rest', pre ++ rest = (if pre.length = 0 then [] else withSlash wd) ++ rest' ∧ (pre ++ rest).drop pre.length = rest' ∧
        (pre.length ≠ 0 → wd ≠ [] ∧ rest'.head? ≠ some '/') ∧ (pre.length = 0 → wd ≠ [] → rest'.head? = some '/') := by
    intro b rest h1 h2 pre
    refine ⟨rest, ?_⟩
    cases b with
    | false => simpa [pre] using h2 rfl
    | true =>
      have : (withSlash wd).length ≠ 0 := by simpa using hws wd
      simp only [pre, if_true, this, if_false, List.drop_left, true_and]
      exact ⟨fun _ => h1 rfl, fun hc => absurd hc id⟩
  unfold makePath
  split
  · rename_i hf
    exact ⟨file, by simp, by simp, by simp, fun _ _ => hf⟩
  · rename_i hf
    simp only
    generalize (!dotted file && cd.isSome) = use
    cases use with
    | false =>
      simp only [Bool.false_and, Bool.false_eq_true, if_false, Bool.not_false, Bool.true_or, Bool.true_and]
      refine key (!wd.isEmpty) file ?_ ?_
      · intro hb
        exact ⟨by simpa using hb, hf⟩
      · intro hb hw
        exact absurd (by simpa using hb) hw
    | true =>
      by_cases hne : (cd.getD []).takeWhile (· ≠ ':') = []
      · simp only [if_true, hne, List.isEmpty_nil, Bool.not_true, Bool.and_false, Bool.false_eq_true, if_false, Bool.or_true, Bool.true_or, Bool.true_and]
        refine key (!wd.isEmpty) file ?_ ?_
        · intro hb
          exact ⟨by simpa using hb, hf⟩
        · intro hb hw
          exact absurd (by simpa using hb) hw
      · have hne' : ((cd.getD []).takeWhile (· ≠ ':')).isEmpty = false := by simpa using hne
        simp only [if_true, hne', Bool.not_false, Bool.and_self, List.append_assoc, Bool.not_true, Bool.false_or]
        refine key (decide (((cd.getD []).takeWhile (· ≠ ':')).head? ≠ some '/') && !wd.isEmpty) _ ?_ ?_
        · intro hb
          rw [hhd _ _ hne]
          simp only [Bool.and_eq_true, Bool.not_eq_true', List.isEmpty_eq_false_iff, decide_eq_true_eq] at hb
          exact ⟨hb.2, hb.1⟩
        · intro hb hw
          rw [hhd _ _ hne]
          have hw' : wd.isEmpty = false := by simpa using hw
          rw [hw', Bool.not_false, Bool.and_true] at hb
          simpa using hb

theorem withSlash_walk {fs : FS} {wd rest : List Char} {k m : Loc} (hw : Walk fs [] (comps wd) k) (hr : Walk fs k (comps rest) m) :
    Walk fs [] (comps (withSlash wd ++ rest)) m := by
  unfold withSlash
  split
  · rename_i hl
    obtain ⟨w, rfl⟩ : ∃ w, wd = w ++ ['/'] := by
      rcases List.eq_nil_or_concat wd with rfl | ⟨b, c, rfl⟩
      · simp at hl
      · simp at hl; subst hl; exact ⟨b, by simp⟩
    rw [comps_append] at hw
    rw [List.append_assoc, List.singleton_append, comps_append]
    exact (Walk.strip (show Walk fs [] (comps w ++ [[]]) k from hw)).append hr
  · rw [List.append_assoc, List.singleton_append, comps_append]
    exact hw.append hr

theorem simp_ok (p : List Char) : simplify p = .ok (simp p) := by
  obtain ⟨s, hs⟩ := simplify_total p
  unfold simp; rw [hs]

theorem simp_simp (p : List Char) : simp (simp p) = simp p := by
  have := simplify_idempotent p _ (simp_ok p)
  generalize simp p = q at this
  unfold simp
  rw [this]

theorem simp_head (p : List Char) : (simp p).head? = some '/' ↔ p.head? = some '/' := simplify_rooted_iff p _ (simp_ok p)

theorem withSlash_head {x : List Char} (y : List Char) (h : x.head? = some '/') : (withSlash x ++ y).head? = some '/' := by
  cases x with
  | nil => cases h
  | cons a x => unfold withSlash; split <;> exact h

/-- The shell knows its directory: either not at all, or by an absolute simplified name that leads there. -/
structure Good (fs : FS) (s : St) : Prop where
  phys : Phys fs s.at_
  wd : s.wd = [] ∨ (s.wd.head? = some '/' ∧ simp s.wd = s.wd ∧ Walk fs [] (comps s.wd) s.at_)

theorem makePath_text {fs : FS} {s : St} (hg : Good fs s) (dir : List Char) (cdpath : Option (List Char)) :
    (s.wd ≠ [] → (makePath s.wd dir cdpath).text.head? = some '/') ∧
    ((makePath s.wd dir cdpath).text.head? = some '/' → ∀ m,
      Walk fs (from_ s.at_ ((makePath s.wd dir cdpath).text.drop (makePath s.wd dir cdpath).phys))
        (comps ((makePath s.wd dir cdpath).text.drop (makePath s.wd dir cdpath).phys)) m →
      Walk fs [] (comps (makePath s.wd dir cdpath).text) m) := by
  obtain ⟨rest, h1, h2, h3, h4⟩ := makePath_parts s.wd dir cdpath
  rw [h2]
  by_cases hp : (makePath s.wd dir cdpath).phys = 0
  · rw [if_pos hp] at h1
    rw [h1, List.nil_append]
    refine ⟨h4 hp, ?_⟩
    intro hh m hw
    unfold from_ at hw
    rw [if_pos hh] at hw
    exact hw
  · rw [if_neg hp] at h1
    obtain ⟨h5, h6⟩ := h3 hp
    rw [h1]
    rcases hg.wd with hw | ⟨hw1, -, hw2⟩
    · exact absurd hw h5
    refine ⟨fun _ => withSlash_head _ hw1, ?_⟩
    intro _ m hw
    unfold from_ at hw
    rw [if_neg h6] at hw
    exact withSlash_walk hw2 hw

/-- What the loop over `CDPATH` finds. -/
theorem tryAll_spec {fs : FS} {sys : Sys} (hs : Sound fs sys) {s : St} (hg : Good fs s) (physical : Bool) (dir : List Char) :
    ∀ (f : Nat) (cdpath : Option (List Char)) (xs : List Char) (b : Bool) (l : Loc), tryAll sys physical s.at_ s.wd dir f cdpath = some (xs, b, l) →
      Phys fs l ∧ (s.wd ≠ [] → xs.head? = some '/') ∧ (xs.head? = some '/' → Walk fs [] (comps xs) l) ∧ (physical = false → simp xs = xs) := by
  intro f
  induction f with
  | zero => intro cdpath xs b l h; cases h
  | succ f ih =>
    intro cdpath xs b l h
    unfold tryAll at h
    simp only at h
    split at h
    · rename_i l' hc
      cases h
      obtain ⟨t1, t2⟩ := makePath_text hg dir cdpath
      have hw := hs.chdir _ _ _ hg.phys hc
      have hph : Phys fs l := hw.phys (hg.phys.from_ _)
      cases physical with
      | true =>
        simp only [if_true] at hw ⊢
        exact ⟨hph, t1, fun hh => t2 hh l hw, by intro hc; cases hc⟩
      | false =>
        simp only [Bool.false_eq_true, if_false] at hw ⊢
        refine ⟨hph, fun hn => (simp_head _).2 (t1 hn), ?_, fun _ => simp_simp _⟩
        intro hh
        unfold from_ at hw
        rw [if_pos hh] at hw
        exact hw
    · split at h
      · cases h
      · exact ih _ _ _ _ h

/-- **C75** One `cd`, whatever the mode, the operands, `HOME` and `CDPATH`: if the shell knew where it
was it does afterwards, in physical mode by the name without links; `PWD` is that name and `OLDPWD`
the one before. -/
theorem cd_spec {fs : FS} {sys : Sys} (hs : Sound fs sys) {s s' : St} {n : Nat} {physical pr : Bool} {home : List Char} {cdpath : Option (List Char)}
    {args : List (List Char)} (hg : Good fs s) (h : cd sys n physical home cdpath args s = .ok s' pr) :
    Good fs s' ∧ (s.wd ≠ [] → s'.wd ≠ []) ∧ (s'.wd ≠ [] → s'.pwd = s'.wd ∧ (physical = true → s'.wd = name s'.at_)) ∧
      s'.oldpwd = if s.wd = [] then s.oldpwd else s.wd := by
  unfold cd at h
  split at h
  · cases h
  split at h
  · cases h
  rename_i xs b l ht
  obtain ⟨h1, h2, h3, h4⟩ := tryAll_spec hs hg physical _ _ _ _ _ _ ht
  simp only at h
  split at h
  · rename_i hh
    have hne : xs ≠ [] := by rintro rfl; cases hh
    cases physical with
    | true =>
      simp only [if_true] at h
      split at h
      · cases h
      · rename_i r hr
        have hr' := physPath_any hs (h3 hh) hr
        subst hr'
        cases h
        have hn : name l ≠ [] := by
          intro hc
          have := name_head l
          rw [hc] at this; cases this
        exact ⟨⟨h1, Or.inr ⟨name_head l, simp_name h1.plain, walk_name h1⟩⟩, fun _ => hn, fun _ => ⟨rfl, fun _ => rfl⟩, rfl⟩
    | false =>
      simp only [Bool.false_eq_true, if_false] at h
      cases h
      exact ⟨⟨h1, Or.inr ⟨hh, h4 rfl, h3 hh⟩⟩, fun _ => hne, fun _ => ⟨rfl, fun hc => by cases hc⟩, rfl⟩
  · rename_i hh
    cases h
    exact ⟨⟨h1, Or.inl rfl⟩, fun hn => absurd (h2 hn) hh, fun hc => absurd rfl hc, rfl⟩

/-- **C75** `cd` ends: the recursion through the links is bounded. -/
theorem cd_ends {fs : FS} {sys : Sys} (hs : Sound fs sys) {s : St} (hg : Good fs s) (physical : Bool) (home : List Char) (cdpath : Option (List Char))
    (args : List (List Char)) : ∃ N, ∀ n ≥ N, cd sys n physical home cdpath args s ≠ .stuck := by
  cases ho : operand home s.oldpwd s.wd args with
  | none => exact ⟨0, fun n _ => by simp [cd, ho]⟩
  | some dp =>
    obtain ⟨dir, print⟩ := dp
    cases ht : tryAll sys physical s.at_ s.wd dir (((cdpath.getD []).length) + 2) cdpath with
    | none => exact ⟨0, fun n _ => by simp [cd, ho, ht]⟩
    | some x =>
      obtain ⟨xs, cdnode, l⟩ := x
      obtain ⟨-, -, h3, -⟩ := tryAll_spec hs hg physical _ _ _ _ _ _ ht
      by_cases hh : xs.head? = some '/'
      · obtain ⟨N, hN⟩ := physPath_spec hs (h3 hh)
        refine ⟨N, fun n hn => ?_⟩
        cases physical with
        | true => simp [cd, ho, ht, hh, hN n hn]
        | false => simp [cd, ho, ht, hh]
      · exact ⟨0, fun n _ => by simp [cd, ho, ht, hh]⟩

/-- **C75** `cd` fails only if every candidate directory refuses. -/
theorem cd_fails {sys : Sys} {s : St} {n : Nat} {physical : Bool} {home dir : List Char} {cdpath : Option (List Char)} (hd : dir ≠ ['-'])
    (h : cd sys n physical home cdpath [dir] s = .fail) :
    ∀ m ∈ candidates s.wd dir ((cdpath.getD []).length + 2) cdpath, sys.chdir s.at_ (if physical then m.text.drop m.phys else simp m.text) = none := by
  have key : ∀ (f : Nat) (cdp : Option (List Char)), tryAll sys physical s.at_ s.wd dir f cdp = none → ∀ m ∈ candidates s.wd dir f cdp,
      sys.chdir s.at_ (if physical then m.text.drop m.phys else simp m.text) = none := by
    intro f
    induction f with
    | zero => intro cdp _ m hm; cases hm
    | succ f ih =>
      intro cdp ht m hm
      unfold tryAll at ht
      unfold candidates at hm
      simp only at ht hm
      split at ht
      · cases ht
      · rename_i hc
        have hc' : sys.chdir s.at_ (if physical then (makePath s.wd dir cdp).text.drop (makePath s.wd dir cdp).phys else simp (makePath s.wd dir cdp).text) = none := by
          cases physical <;> simpa using hc
        rcases List.mem_cons.1 hm with rfl | hm
        · exact hc'
        · cases hk : (makePath s.wd dir cdp).cdpath with
          | none => rw [hk] at hm; cases hm
          | some r => rw [hk] at hm ht; exact ih _ ht m hm
  apply key
  unfold cd operand at h
  simp only [if_neg hd] at h
  split at h
  · assumption
  · split at h
    · split at h
      · split at h <;> cases h
      · cases h
    · cases h

/-! ## Sequences of commands -/

/-- What a script does: `cd`, or assignments to the variables. -/
inductive Cmd where
  | cd (n : Nat) (physical : Bool) (home : List Char) (cdpath : Option (List Char)) (args : List (List Char))
  | vars (pwd oldpwd : List Char)

def step (sys : Sys) (s : St) : Cmd → St
  | .cd n physical home cdpath args =>
    match cd sys n physical home cdpath args s with
    | .ok s' _ => s'
    | _ => s
  | .vars p o => { s with pwd := p, oldpwd := o }

/-- **C75** Whatever a script does, the shell's name for its directory leads to the directory it is in. -/
theorem wd_right {fs : FS} {sys : Sys} (hs : Sound fs sys) (cmds : List Cmd) : ∀ (s : St), Good fs s → s.wd ≠ [] →
    (cmds.foldl (step sys) s).wd ≠ [] ∧ Walk fs [] (comps (cmds.foldl (step sys) s).wd) (cmds.foldl (step sys) s).at_ := by
  suffices H : ∀ (s : St), Good fs s → s.wd ≠ [] → Good fs (cmds.foldl (step sys) s) ∧ (cmds.foldl (step sys) s).wd ≠ [] by
    intro s hg hn
    obtain ⟨h1, h2⟩ := H s hg hn
    exact ⟨h2, (h1.wd.resolve_left h2).2.2⟩
  induction cmds with
  | nil => exact fun s hg hn => ⟨hg, hn⟩
  | cons c cmds ih =>
    intro s hg hn
    rw [List.foldl_cons]
    have hst : Good fs (step sys s c) ∧ (step sys s c).wd ≠ [] := by
      cases c with
      | vars p o => exact ⟨⟨hg.phys, hg.wd⟩, hn⟩
      | cd n physical home cdpath args =>
        unfold step
        simp only
        split
        · rename_i s' b he
          obtain ⟨h1, h2, -⟩ := cd_spec hs hg he
          exact ⟨h1, h2 hn⟩
        · exact ⟨hg, hn⟩
    exact ih _ hst.1 hst.2

/-- **C75** `cd -` goes back, in logical mode to the same name. -/
theorem cd_back {fs : FS} {sys : Sys} (hs : Sound fs sys) {s s1 s2 : St} {n m : Nat} {ph1 ph2 p1 p2 : Bool} {home home' : List Char}
    {cdpath cdpath' : Option (List Char)} {args : List (List Char)} (hg : Good fs s) (hn : s.wd ≠ [])
    (h1 : cd sys n ph1 home cdpath args s = .ok s1 p1) (h2 : cd sys m ph2 home' cdpath' [['-']] s1 = .ok s2 p2) :
    s2.at_ = s.at_ ∧ (ph2 = false → s2.wd = s.wd) ∧ p2 = true ∧ s2.oldpwd = s1.wd := by
  obtain ⟨g1, k1, -, o1⟩ := cd_spec hs hg h1
  obtain ⟨g2, k2, q2, o2⟩ := cd_spec hs g1 h2
  rw [if_neg hn] at o1
  rw [if_neg (k1 hn)] at o2
  obtain ⟨hw1, hw2, hw3⟩ := hg.wd.resolve_left hn
  have hmp : makePath s1.wd s.wd cdpath' = { text := s.wd, phys := 0, cdpath := none, rval := false } := by
    unfold makePath; rw [if_pos hw1]
  have hop : operand home' s1.oldpwd s1.wd [['-']] = some (s.wd, true) := by
    unfold operand; rw [o1]; simp [hn]
  unfold cd at h2
  rw [hop] at h2
  simp only at h2
  rw [tryAll, hmp] at h2
  simp only [hw2, ite_self, List.drop_zero] at h2
  split at h2
  · cases h2
  rename_i xs b l ht
  split at ht
  · rename_i l' hc
    cases ht
    have hwk := hs.chdir _ _ _ g1.phys hc
    unfold from_ at hwk
    rw [if_pos hw1] at hwk
    have hl := hwk.det hw3
    subst hl
    rw [if_pos hw1] at h2
    cases ph2 with
    | true =>
      simp only [if_true] at h2
      split at h2
      · cases h2
      · cases h2
        exact ⟨rfl, (by intro hc; cases hc), rfl, o2⟩
    | false =>
      simp only [Bool.false_eq_true, if_false] at h2
      cases h2
      exact ⟨rfl, fun _ => rfl, rfl, o2⟩
  · cases ht

/-- **C75** In physical mode, without `CDPATH`, the directory entered is the one the operand names. -/
theorem cd_physical {fs : FS} {sys : Sys} (hs : Sound fs sys) {s s' : St} {n : Nat} {pr : Bool} {home dir : List Char} {cdpath : Option (List Char)}
    (hg : Good fs s) (hc : cdpath = none ∨ cdpath = some []) (hd : dir ≠ ['-'])
    (h : cd sys n true home cdpath [dir] s = .ok s' pr) : Walk fs (from_ s.at_ dir) (comps dir) s'.at_ ∧ pr = false := by
  have hmp : (makePath s.wd dir cdpath).text.drop (makePath s.wd dir cdpath).phys = dir ∧ (makePath s.wd dir cdpath).cdpath = none ∧
      (makePath s.wd dir cdpath).rval = false := by
    unfold makePath
    split
    · exact ⟨rfl, rfl, rfl⟩
    · rcases hc with rfl | rfl <;> simp
  obtain ⟨m1, m2, m3⟩ := hmp
  unfold cd operand at h
  simp only [if_neg hd] at h
  rw [tryAll] at h
  simp only [if_true, m1, m2, m3] at h
  split at h
  · cases h
  rename_i xs b l ht
  split at ht
  · rename_i l' hch
    cases ht
    have hw := hs.chdir _ _ _ hg.phys hch
    split at h
    · split at h
      · cases h
      · cases h; exact ⟨hw, rfl⟩
    · cases h; exact ⟨hw, rfl⟩
  · cases ht

/-- **C75** What `pwd` prints leads to the directory the shell is in, and is its name without links with `-P`. -/
theorem pwd_right {fs : FS} {sys : Sys} (hs : Sound fs sys) {s : St} (hg : Good fs s) {n : Nat} {readable : List Char → Bool} {getwd : Option (List Char)}
    {physical : Bool} (hgw : ∀ t, getwd = some t → t = name s.at_) {t : List Char} (h : pwd sys n readable getwd physical s = some (some t)) :
    Walk fs [] (comps t) s.at_ ∧ (physical = true → t = name s.at_) := by
  have hget : ∀ t, getwd = some t → Walk fs [] (comps t) s.at_ ∧ (physical = true → t = name s.at_) := by
    intro t ht
    have := hgw t ht
    subst this
    exact ⟨walk_name hg.phys, fun _ => rfl⟩
  unfold pwd at h
  simp only at h
  split at h
  · simp only [Option.map_some, Option.some.injEq] at h
    exact hget t h
  · rename_i hn
    obtain ⟨-, -, hw⟩ := hg.wd.resolve_left hn
    split at h
    · rename_i hph
      cases hp : physPath sys.readlink n s.wd with
      | none => rw [hp] at h; cases h
      | some r =>
        have := physPath_any hs hw hp
        subst this
        rw [hp] at h
        simp only [Option.map_some, Option.some.injEq] at h
        split at h
        · cases h; exact ⟨walk_name hg.phys, fun _ => rfl⟩
        · exact hget t h
    · rename_i hph
      simp only [Option.map_some, Option.some.injEq] at h
      split at h
      · cases h; exact ⟨hw, fun hc => absurd hc hph⟩
      · exact hget t h

/-! ## The start -/

theorem foldl_go_filter : ∀ (cs : List (List Char)) (a : Loc), dotdot ∉ cs → cs.foldl go a = a ++ cs.filter (fun c => !(c = [] ∨ c = dot : Bool))
  | [], a, _ => by simp
  | c :: cs, a, h => by
    simp only [List.mem_cons, not_or] at h
    rw [List.foldl_cons, foldl_go_filter cs _ h.2]
    by_cases hc : c = [] ∨ c = dot
    · rw [List.filter_cons_of_neg (by simpa using Decidable.or_iff_not_imp_left.1 hc)]
      simp only [go, if_pos hc]
    · rw [List.filter_cons_of_pos (by simpa using hc)]
      simp only [go, if_neg hc, if_neg (Ne.symm h.1)]
      simp

theorem walk_filter {fs : FS} {l m : Loc} {cs : List (List Char)} (h : Walk fs l cs m) : Walk fs l (cs.filter (fun c => !(c = [] ∨ c = dot : Bool))) m := by
  induction h with
  | nil => exact .nil _
  | stay hc _ ih => rw [List.filter_cons_of_neg (by simpa using Decidable.or_iff_not_imp_left.1 hc)]; exact ih
  | up _ ih => rw [List.filter_cons_of_pos (by decide)]; exact .up ih
  | down hp hd _ ih => rw [List.filter_cons_of_pos (by simpa using (plain_ne hp).1)]; exact .down hp hd ih
  | link hp hd h1 _ _ ih => rw [List.filter_cons_of_pos (by simpa using (plain_ne hp).1)]; exact .link hp hd h1 ih

/-- A path without `..` leads to the same place when it is simplified. -/
theorem simp_walk {fs : FS} {m : Loc} {p : List Char} (hr : p.head? = some '/') (hd : dotdot ∉ comps p) (h : Walk fs [] (comps p) m) :
    Walk fs [] (comps (simp p)) m := by
  have hs := simp_ok p
  have hne : p ≠ [] := by rintro rfl; cases hr
  have hrt := (simp_head p).2 hr
  have hpl := simplify_same_place _ _ hs []
  have hpp : place [] p = (comps p).filter (fun c => !(c = [] ∨ c = dot : Bool)) := by
    unfold place
    rw [if_pos hr, foldl_go_filter _ _ hd]; rfl
  have hw := walk_filter h
  rw [← hpp, ← hpl] at hw
  rcases simplify_normal _ _ hne hs with h1 | h1 | ⟨ups, names, hpn, hnn, h1 | h1⟩
  · rw [h1] at hrt; cases hrt
  · rw [h1] at hw ⊢
    exact .stay (Or.inl rfl) (.stay (Or.inl rfl) hw)
  · obtain ⟨-, hu, hc⟩ := h1
    have : place [] (simp p) = names := by
      unfold place
      rw [if_pos hrt, hc, List.foldl_cons, show go [] [] = [] from rfl, place_plain names [] hpn]; rfl
    rw [this] at hw
    rw [hc]
    exact .stay (Or.inl rfl) hw
  · exact absurd hrt h1.1

/-- **C75** (partial) The shell starts with a right name.  Missing: a `PWD` with a `..` in it
(`start_wrong`). -/
theorem start_right_partial {fs : FS} {l : Loc} {same : List Char → Bool} {getwd : Option (List Char)} {p o : List Char} (hl : Phys fs l)
    (hsame : ∀ t, same t = true → Walk fs [] (comps t) l) (hgw : ∀ t, getwd = some t → t = name l) (hd : dotdot ∉ comps p) :
    Good fs (start same getwd l p o) ∧ ((start same getwd l p o).wd ≠ [] → (start same getwd l p o).pwd = (start same getwd l p o).wd) ∧
      ((∃ t, getwd = some t) → (start same getwd l p o).wd ≠ []) := by
  have hnn : name l ≠ [] := by
    intro hc
    have := name_head l
    rw [hc] at this; cases this
  have hsne : ∀ t : List Char, t.head? = some '/' → simp t ≠ [] := by
    intro t ht hc
    have := (simp_head t).2 ht
    rw [hc] at this; cases this
  unfold start
  simp only
  by_cases hp : p.head? = some '/' ∧ same p = true
  · have hpne : p ≠ [] := by rintro rfl; cases hp.1
    simp only [if_pos hp, if_neg hpne]
    refine ⟨⟨hl, Or.inr ⟨(simp_head p).2 hp.1, simp_simp p, simp_walk hp.1 hd (hsame p hp.2)⟩⟩, ?_, fun _ => hsne p hp.1⟩
    intro _
    rw [if_pos (Or.inl (hsne p hp.1))]
  · simp only [if_neg hp]
    cases getwd with
    | none =>
      simp only [Option.getD_none, if_true]
      exact ⟨⟨hl, Or.inl rfl⟩, fun hc => absurd rfl hc, by rintro ⟨t, ht⟩; cases ht⟩
    | some t =>
      have := hgw t rfl
      subst this
      simp only [Option.getD_some, if_neg hnn, simp_name hl.plain]
      refine ⟨⟨hl, Or.inr ⟨name_head l, simp_name hl.plain, walk_name hl⟩⟩, ?_, fun _ => hnn⟩
      intro _
      rw [if_pos (Or.inl hnn)]

/-! ## A system -/

/-- A system that resolves paths in `fs`. -/
def resolve (fs : FS) : Nat → Loc → List (List Char) → Option Loc
  | _, l, [] => some l
  | 0, _, _ => none
  | f + 1, l, c :: r =>
    if c = [] ∨ c = dot then resolve fs f l r
    else if c = dotdot then resolve fs f l.dropLast r
    else match fs (l ++ [c]) with
      | some .dir => resolve fs f (l ++ [c]) r
      | some (.link t) => (resolve fs f (from_ l t) (comps t)).bind fun k => resolve fs f k r
      | _ => none

def ofFS (fs : FS) : Sys where
  chdir l p := resolve fs 100 (from_ l p) (comps p)
  readlink p :=
    match fs (comps p).tail with
    | some (.link t) => .link t
    | some _ => .notLink
    | none => .err

theorem resolve_walk (fs : FS) : ∀ (f : Nat) (l : Loc) (cs : List (List Char)) (m : Loc), (∀ c ∈ cs, '/' ∉ c) → resolve fs f l cs = some m → Walk fs l cs m := by
  intro f
  induction f with
  | zero =>
    intro l cs m _ h
    cases cs with
    | nil => rw [resolve] at h; cases h; exact .nil _
    | cons c r => cases h
  | succ f ih =>
    intro l cs m hcs h
    cases cs with
    | nil => rw [resolve] at h; cases h; exact .nil _
    | cons c r =>
      have hr : ∀ c ∈ r, '/' ∉ c := fun x hx => hcs x (List.mem_cons_of_mem _ hx)
      rw [resolve] at h
      split at h
      · rename_i hc; exact .stay hc (ih _ _ _ hr h)
      rename_i hc
      split at h
      · rename_i hd; subst hd; exact .up (ih _ _ _ hr h)
      rename_i hd
      have hp : Plain c := ⟨fun h => hc (Or.inl h), fun h => hc (Or.inr h), hd, hcs c (by simp)⟩
      split at h
      · rename_i hf; exact .down hp hf (ih _ _ _ hr h)
      · rename_i t hf
        obtain ⟨k, hk1, hk2⟩ := Option.bind_eq_some_iff.1 h
        exact .link hp hf (ih _ _ _ (comps_mem_noslash t) hk1) (ih _ _ _ hr hk2)
      · cases h

/-- The assumptions about the system can be met for every file system. -/
theorem ofFS_sound (fs : FS) : Sound fs (ofFS fs) := by
  have hn : ∀ l c, Phys fs l → Plain c → (comps (name (l ++ [c]))).tail = l ++ [c] := by
    intro l c hl hp
    rw [comps_name, if_neg (by simp)]
    · rfl
    · intro x hx
      simp only [List.mem_append, List.mem_singleton] at hx
      rcases hx with hx | rfl
      · exact (hl.plain x hx).2.2.2
      · exact hp.2.2.2
  refine ⟨?_, ?_, ?_⟩
  · intro l p m _ h
    exact resolve_walk fs _ _ _ _ (comps_mem_noslash p) h
  · intro l c hl hp hd
    simp only [ofFS, hn l c hl hp, hd]
  · intro l c t hl hp hd
    simp only [ofFS, hn l c hl hp, hd]

/-- `/t`, `/u`, `/u/l` are directories, `/t/k` is a link to `/u/l`. -/
def exFS : FS := fun l =>
  if l = [['t']] ∨ l = [['u']] ∨ l = [['u'], ['l']] then some .dir
  else if l = [['t'], ['k']] then some (.link ['/', 'u', '/', 'l'])
  else none

/-- **C75** (negative) `PWD=/t/k/..` names the directory the shell is in, but the shell starts with `/t`: the
check is made before the name is simplified. -/
theorem start_wrong : ∃ (fs : FS) (l : Loc) (p : List Char) (same : List Char → Bool), Phys fs l ∧ (∀ t, same t = true → Walk fs [] (comps t) l) ∧
    (start same none l p []).pwd ≠ [] ∧ ¬ Walk fs [] (comps (start same none l p []).pwd) l := by
  have hp1 : Plain ['t'] := by refine ⟨?_, ?_, ?_, ?_⟩ <;> decide
  have hu : Walk exFS [] (comps "/t/k/..".toList) [['u']] := by
    apply resolve_walk exFS 100 _ _ _ (comps_mem_noslash _)
    decide +kernel
  have ht : Walk exFS [] (comps ['/', 't']) [['t']] := by
    apply resolve_walk exFS 100 _ _ _ (comps_mem_noslash _)
    decide +kernel
  refine ⟨exFS, [['u']], "/t/k/..".toList, fun t => t = "/t/k/..".toList, hu.phys (Phys.nil _), ?_, ?_, ?_⟩
  · intro t h
    have : t = "/t/k/..".toList := by simpa using h
    rw [this]; exact hu
  · decide +kernel
  · have : (start (fun t => t = "/t/k/..".toList) none [['u']] "/t/k/..".toList []).pwd = ['/', 't'] := by decide +kernel
    rw [this]
    intro h
    have := h.det ht
    revert this
    decide

/-! ## Examples -/

def exS : St := ⟨[['t']], ['/', 't'], ['/', 't'], []⟩

def Res.shows : Res → Option (Loc × List Char × List Char × List Char × Bool)
  | .ok s b => some (s.at_, s.wd, s.pwd, s.oldpwd, b)
  | _ => none

-- the logical name keeps the link
example : (cd (ofFS exFS) 50 false [] (some []) [['k']] exS).shows = some ([['u'], ['l']], "/t/k".toList, "/t/k".toList, "/t".toList, false) := by decide +kernel
-- the physical name does not
example : (cd (ofFS exFS) 50 true [] (some []) [['k']] exS).shows = some ([['u'], ['l']], "/u/l".toList, "/u/l".toList, "/t".toList, false) := by decide +kernel
-- `..` by name, and through the link
example : (cd (ofFS exFS) 50 false [] (some []) ["k/..".toList] exS).shows = some ([['t']], "/t".toList, "/t".toList, "/t".toList, false) := by decide +kernel
example : (cd (ofFS exFS) 50 true [] (some []) ["k/..".toList] exS).shows = some ([['u']], "/u".toList, "/u".toList, "/t".toList, false) := by decide +kernel
-- found in `CDPATH`, and printed
example : (cd (ofFS exFS) 50 false [] (some "/x:/u".toList) [['l']] exS).shows = some ([['u'], ['l']], "/u/l".toList, "/u/l".toList, "/t".toList, true) := by decide +kernel
example : Good exFS exS := by
  have ht : Walk exFS [] (comps ['/', 't']) [['t']] := by
    apply resolve_walk exFS 100 _ _ _ (comps_mem_noslash _)
    decide +kernel
  exact ⟨ht.phys (Phys.nil _), Or.inr ⟨rfl, by decide +kernel, ht⟩⟩

end Ksh.Cd
