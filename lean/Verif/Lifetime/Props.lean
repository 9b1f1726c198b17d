import Verif.Lifetime.Spec

/-!
# How long assignments and declarations last: proofs
-/
namespace Ksh.Lifetime

/-- Whether the text of a command has an assignment to a variable or a declaration of it. -/
def writes (x : Name) : Cmd → Bool
  | .nop | .note _ => false
  | .seq a b => writes x a || writes x b
  | .set as => as.any (fun a => a.1 = x)
  | .typeset as _ y _ => as.any (fun a => a.1 = x) || y = x
  | .call as _ body => as.any (fun a => a.1 = x) || writes x body

/-- Where the shell does what the manual says: no declaration behind `command` or inside of
what is run by `command eval` or by another command that has a block only for its assignments; no variable is assigned
twice in front of a Bourne-style function, or both in front of and in it. -/
def Ok : Bool → Cmd → Prop
  | _, .nop | _, .note _ | _, .set _ => True
  | d, .seq a b => Ok d a ∧ Ok d b
  | d, .typeset _ via _ _ => d = true ∧ via = false
  | d, .call as k body =>
    match k with
    | .special false => Ok d body
    | .special true | .regular => Ok false body
    | .ksh => Ok true body
    | .posix => (as.map (·.1)).Nodup ∧ (∀ a ∈ as, writes a.1 body = false) ∧ Ok true body

/-- The remembered values are those of the outer blocks. -/
def Locs (b : Block) (r : List Block) (g : Name → Option Str) (l : Name → Option (Option Str)) : Prop :=
  ∀ x, l x = (b x).map (fun _ => look r g x)

theorem look_put (x : Name) (v : Option Str) (y : Name) : ∀ (bs : List Block) (g : Name → Option Str),
    look (put x v bs g).1 (put x v bs g).2 y = if y = x then v else look bs g y := by
  intro bs
  induction bs with
  | nil => intro g; rfl
  | cons b r ih =>
    intro g
    unfold put
    split
    · rename_i h
      by_cases hy : y = x
      · simp [look, hy]
      · simp [look, hy]
    · rename_i h
      by_cases hy : y = x
      · subst hy
        have hb : b y = none := by cases hb : b y <;> simp_all
        simp only [look, hb, ih]
      · simp only [look, ih, if_neg hy]

/-- A series of assignments to what is visible. -/
def putAll : List (Name × Option Str) → List Block × (Name → Option Str) → List Block × (Name → Option Str)
  | [], q => q
  | w :: l, q => putAll l (put w.1 w.2 q.1 q.2)

theorem putAll_append (a b : List (Name × Option Str)) : ∀ q, putAll (a ++ b) q = putAll b (putAll a q) := by
  induction a with
  | nil => intro q; rfl
  | cons w l ih => intro q; exact ih _

/-- The frame of the spec and the blocks of the code. -/
def Fr : List Block → (Name → Option Str) → Frame → Prop
  | [], _, f => f = none
  | b :: r, g, f => ∃ l, f = some l ∧ Locs b r g l

theorem Fr.put {x v} : ∀ {bs g f}, Fr bs g f → Fr (put x v bs g).1 (put x v bs g).2 f := by
  intro bs g f h
  cases bs with
  | nil => exact h
  | cons b r =>
    obtain ⟨l, hf, hl⟩ := h
    unfold Lifetime.put
    split
    · rename_i hb
      refine ⟨l, hf, fun y => ?_⟩
      by_cases hy : y = x
      · subst hy
        rw [hl y]
        cases hby : b y <;> simp_all
      · simp [hl y, hy]
    · rename_i hb
      refine ⟨l, hf, fun y => ?_⟩
      rw [hl y]
      by_cases hy : y = x
      · subst hy
        have : b y = none := by cases hb' : b y <;> simp_all
        simp [this]
      · simp [look_put, hy]

theorem Fr.putAll {f} : ∀ (ws) {q : List Block × (Name → Option Str)}, Fr q.1 q.2 f →
    Fr (putAll ws q).1 (putAll ws q).2 f := by
  intro ws
  induction ws with
  | nil => intro q h; exact h
  | cons w l ih => intro q h; exact ih h.put

theorem put_length (x v) : ∀ bs g, (put x v bs g).1.length = bs.length := by
  intro bs
  induction bs with
  | nil => intro g; rfl
  | cons b r ih =>
    intro g
    unfold put
    split
    · rfl
    · simp [ih]

/-- What is outside of the innermost block has changed by assignments only. -/
def Outer (s t : St) : Prop :=
  match s.bs with
  | [] => t.bs = []
  | _ :: r => ∃ b' ws, t.bs = b' :: (putAll ws (r, s.g)).1 ∧ t.g = (putAll ws (r, s.g)).2

theorem Outer.refl (s : St) : Outer s s := by
  unfold Outer
  cases h : s.bs with
  | nil => rfl
  | cons b r => exact ⟨b, [], rfl, rfl⟩

theorem Outer.trans {s t u : St} (h1 : Outer s t) (h2 : Outer t u) : Outer s u := by
  unfold Outer at *
  cases hs : s.bs with
  | nil =>
    rw [hs] at h1
    simp only at h1
    rw [h1] at h2
    exact h2
  | cons b r =>
    rw [hs] at h1
    obtain ⟨b', ws, e1, e2⟩ := h1
    rw [e1] at h2
    obtain ⟨b'', ws', e3, e4⟩ := h2
    refine ⟨b'', ws ++ ws', ?_, ?_⟩
    · rw [e3, putAll_append, e2]
    · rw [e4, putAll_append, e2]

theorem outer_assign (x v) (s : St) : Outer s (assign x v s) := by
  obtain ⟨bs, g, out⟩ := s
  cases bs with
  | nil => rfl
  | cons b r =>
    simp only [Outer, assign, put]
    split
    · exact ⟨_, [], rfl, rfl⟩
    · exact ⟨b, [(x, v)], rfl, rfl⟩

/-- The relation between the two states. -/
structure Rel (s : St) (p : Sp) : Prop where
  vis : p.cur = s.vis
  fr : Fr s.bs s.g p.loc
  out : p.out = s.out

theorem vis_assign (x v) (s : St) : (assign x v s).vis = fun y => if y = x then v else s.vis y := by
  funext y; exact look_put x v y s.bs s.g

theorem Rel.assign {s p} (h : Rel s p) (x v) : Rel (assign x v s) (p.put x v) :=
  ⟨by rw [vis_assign]; simp [Sp.put, h.vis], h.fr.put, h.out⟩

theorem Rel.assigns : ∀ (as) {s p}, Rel s p → Rel (assigns as s) (p.puts as) ∧ Outer s (Lifetime.assigns as s) := by
  intro as
  induction as with
  | nil => intro s p h; exact ⟨h, Outer.refl s⟩
  | cons a l ih =>
    intro s p h
    have h1 := h.assign a.1 (some (a.2 s.vis))
    have h2 := ih h1
    unfold Lifetime.assigns Sp.puts
    rw [h.vis]
    exact ⟨h2.1, (outer_assign _ _ _).trans h2.2⟩

theorem Rel.typeset {s p} (h : Rel s p) (x v) :
    Rel (doTypeset x v s) (p.declare x v) ∧ Outer s (doTypeset x v s) := by
  obtain ⟨bs, g, out⟩ := s
  obtain ⟨cur, loc, out'⟩ := p
  obtain ⟨hv, hf, ho⟩ := h
  simp only at hv hf ho
  subst hv ho
  cases bs with
  | nil =>
    simp only [Fr] at hf
    subst hf
    cases v with
    | none => exact ⟨⟨rfl, rfl, rfl⟩, Outer.refl _⟩
    | some t =>
      refine ⟨⟨?_, rfl, rfl⟩, rfl⟩
      funext y
      simp [Sp.declare, Sp.put, doTypeset, setLocal, St.vis, look]
  | cons b r =>
    obtain ⟨l, hl, hL⟩ := hf
    subst hl
    have hlx := hL x
    cases hb : b x with
    | none =>
      rw [hb] at hlx
      simp only [Option.map_none] at hlx
      cases v with
      | none =>
        refine ⟨⟨?_, ⟨_, by simp only [Sp.declare, hlx]; rfl, fun y => ?_⟩, by simp [Sp.declare, hlx, doTypeset, Lifetime.declare]⟩,
          ⟨_, [], rfl, rfl⟩⟩
        · funext y
          by_cases hy : y = x <;> simp [Sp.declare, hlx, doTypeset, Lifetime.declare, St.vis, look, hy, hb]
        · by_cases hy : y = x
          · subst hy; simp [doTypeset, Lifetime.declare, St.vis, look, hb]
          · simp [hy, hL y, doTypeset, Lifetime.declare]
      | some t =>
        refine ⟨⟨?_, ⟨_, by simp only [Sp.declare, hlx, Sp.put]; rfl, fun y => ?_⟩, by simp [Sp.declare, Sp.put, hlx, doTypeset, setLocal]⟩,
          ⟨_, [], rfl, rfl⟩⟩
        · funext y
          by_cases hy : y = x <;> simp [Sp.declare, Sp.put, hlx, doTypeset, setLocal, St.vis, look, hy]
        · by_cases hy : y = x
          · subst hy; simp [doTypeset, setLocal, St.vis, look, hb]
          · simp [hy, hL y, doTypeset, setLocal]
    | some w =>
      rw [hb] at hlx
      simp only [Option.map_some] at hlx
      cases v with
      | none =>
        refine ⟨⟨?_, ⟨l, by simp only [Sp.declare, hlx], fun y => ?_⟩, by simp [Sp.declare, hlx, doTypeset, Lifetime.declare]⟩,
          ⟨_, [], rfl, rfl⟩⟩
        · funext y
          by_cases hy : y = x <;> simp [Sp.declare, hlx, doTypeset, Lifetime.declare, St.vis, look, hy, hb]
        · by_cases hy : y = x
          · subst hy; simp [hL y, doTypeset, Lifetime.declare, hb]
          · simp [hy, hL y, doTypeset, Lifetime.declare]
      | some t =>
        refine ⟨⟨?_, ⟨l, by simp only [Sp.declare, hlx, Sp.put], fun y => ?_⟩, by simp [Sp.declare, Sp.put, hlx, doTypeset, setLocal]⟩,
          ⟨_, [], rfl, rfl⟩⟩
        · funext y
          by_cases hy : y = x <;> simp [Sp.declare, Sp.put, hlx, doTypeset, setLocal, St.vis, look, hy]
        · by_cases hy : y = x
          · subst hy; simp [hL y, doTypeset, setLocal, hb]
          · simp [hy, hL y, doTypeset, setLocal]

/-- The block of assignments: what it has, and what is visible. -/
theorem locals_spec : ∀ (as) (b : Block) (r) (g) (out) (p : Sp),
    p.cur = look (b :: r) g →
    ∃ b', locals as { bs := b :: r, g := g, out := out } = { bs := b' :: r, g := g, out := out } ∧
      (p.puts as).cur = look (b' :: r) g ∧ (∀ x, (b' x).isSome = ((b x).isSome || as.any (fun a => a.1 = x))) ∧
      (p.puts as).out = p.out ∧ (p.puts as).loc = p.loc := by
  intro as
  induction as with
  | nil => intro b r g out p h; exact ⟨b, rfl, h, by simp, rfl, rfl⟩
  | cons a l ih =>
    intro b r g out p h
    unfold locals Sp.puts
    have h' : (p.put a.1 (some (a.2 p.cur))).cur = look ((fun y => if y = a.1 then some (some (a.2 p.cur)) else b y) :: r) g := by
      funext y
      by_cases hy : y = a.1
      · simp [Sp.put, look, hy]
      · simp [Sp.put, look, hy, h]
    obtain ⟨b', e1, e2, e3, e4, e5⟩ := ih _ r g out _ h'
    refine ⟨b', ?_, e2, fun x => ?_, e4, e5⟩
    · simp only [setLocal, St.vis, ← h]
      exact e1
    · rw [e3 x]
      by_cases hx : x = a.1
      · simp [hx]
      · have hx' : ¬ a.1 = x := fun e => hx e.symm
        simp [hx, hx']

/-- Without declarations of its own, what a command does does not depend on the frame. -/
theorem spec_frame : ∀ (c : Cmd), Ok false c → ∀ (cur) (l l' : Frame) (out),
    (spec c ⟨cur, l, out⟩).cur = (spec c ⟨cur, l', out⟩).cur ∧
    (spec c ⟨cur, l, out⟩).out = (spec c ⟨cur, l', out⟩).out ∧ (spec c ⟨cur, l, out⟩).loc = l := by
  have hputs : ∀ (as) (cur) (l : Frame) (out), ∃ cur', ∀ l : Frame, Sp.puts as ⟨cur, l, out⟩ = ⟨cur', l, out⟩ := by
    intro as
    induction as with
    | nil => intro cur l out; exact ⟨cur, fun _ => rfl⟩
    | cons a m ih => intro cur l out; exact ih (fun y => if y = a.1 then some (a.2 cur) else cur y) l out
  intro c
  induction c with
  | nop => intro _ cur l l' out; exact ⟨rfl, rfl, rfl⟩
  | note x => intro _ cur l l' out; exact ⟨rfl, rfl, rfl⟩
  | seq a b iha ihb =>
    intro h cur l l' out
    obtain ⟨ha, hb⟩ := h
    obtain ⟨h1, h2, h3⟩ := iha ha cur l l' out
    obtain ⟨_, _, h3'⟩ := iha ha cur l' l out
    simp only [spec]
    cases e : spec a ⟨cur, l, out⟩ with
    | mk c1 l1 o1 =>
      cases e' : spec a ⟨cur, l', out⟩ with
      | mk c2 l2 o2 =>
        rw [e] at h1 h2 h3
        rw [e'] at h1 h2 h3'
        simp only at h1 h2 h3 h3'
        subst h1 h2 h3 h3'
        exact ihb hb _ _ _ _
  | set as =>
    intro _ cur l l' out
    obtain ⟨cur', hc⟩ := hputs as cur l out
    simp only [spec, hc, and_self]
  | typeset as via x v => intro h; exact absurd h.1 (by simp)
  | call as k body ih =>
    intro h cur l l' out
    obtain ⟨cur', hc⟩ := hputs as cur l out
    cases k with
    | special via =>
      cases via with
      | false => simp only [spec, hc]; exact ih h cur' l l' out
      | true =>
        obtain ⟨i1, i2, i3⟩ := ih h cur' l l' out
        simp only [spec, hc, i1, i2, i3, and_self]
    | regular =>
      obtain ⟨i1, i2, i3⟩ := ih h cur' l l' out
      simp only [spec, hc, i1, i2, i3, and_self]
    | ksh => simp only [spec, hc, and_self]
    | posix => simp only [spec, hc, and_self]

/-- The end of a block. -/
theorem popped {s t : St} {p : Sp} {q : Sp} {b : Block} (hfr : Fr s.bs s.g p.loc)
    (ho : Outer { s with bs := b :: s.bs } t) (hq : Rel t q) (f : Name → Option (Option Str))
    (hqf : q.loc = some f) :
    Rel (popblock t) { q with loc := p.loc, cur := back f q.cur } ∧ Outer s (popblock t) := by
  obtain ⟨b', ws, e1, e2⟩ := ho
  obtain ⟨tb, tg, to⟩ := t
  simp only at e1 e2
  subst e1 e2
  obtain ⟨hv, ⟨l, hl, hL⟩, hout⟩ := hq
  rw [hqf] at hl
  cases hl
  refine ⟨⟨?_, ?_, hout⟩, ?_⟩
  · funext x
    simp only [back, hv, hL x, popblock, St.vis, List.tail_cons]
    cases hb : b' x with
    | none => simp [look, hb]
    | some w => simp
  · exact Fr.putAll ws (q := (s.bs, s.g)) hfr
  · have gen : ∀ (ws) (s : St) (out), Outer s { bs := (putAll ws (s.bs, s.g)).1, g := (putAll ws (s.bs, s.g)).2, out := out } := by
      intro ws
      induction ws with
      | nil => intro s out; exact Outer.refl s
      | cons w m ih =>
        intro s out
        exact (outer_assign w.1 w.2 s).trans (ih (assign w.1 w.2 s) out)
    exact gen ws s to

/-! ### The copies made for a Bourne-style function -/

/-- The same blocks, but that one of the first has copies of what the blocks below it have. -/
def Shadow (X : Name → Bool) : Nat → List Block → List Block → (Name → Option Str) → Prop
  | _, [], _, _ => False
  | _, _, [], _ => False
  | 0, b :: r, b' :: r', g =>
    r = r' ∧ ∀ x, if X x then b x = some (look r g x) ∧ b' x = none else b x = b' x
  | n + 1, b :: r, b' :: r', g => b = b' ∧ Shadow X n r r' g

theorem shadow_look {X} : ∀ {n bs bs' g}, Shadow X n bs bs' g → look bs g = look bs' g := by
  intro n
  induction n with
  | zero =>
    intro bs bs' g h
    cases bs with
    | nil => exact h.elim
    | cons b r =>
      cases bs' with
      | nil => exact h.elim
      | cons b' r' =>
        obtain ⟨rfl, h⟩ := h
        funext x
        have hx := h x
        split at hx
        · simp [look, hx.1, hx.2]
        · simp [look, hx]
  | succ n ih =>
    intro bs bs' g h
    cases bs with
    | nil => exact h.elim
    | cons b r =>
      cases bs' with
      | nil => exact h.elim
      | cons b' r' =>
        obtain ⟨rfl, h⟩ := h
        funext x
        simp [look, ih h]

theorem shadow_put {X} {y : Name} {v : Option Str} (hy : X y = false) : ∀ {n bs bs' g}, Shadow X n bs bs' g →
    Shadow X n (put y v bs g).1 (put y v bs' g).1 (put y v bs g).2 ∧ (put y v bs g).2 = (put y v bs' g).2 := by
  intro n
  induction n with
  | zero =>
    intro bs bs' g h
    cases bs with
    | nil => exact h.elim
    | cons b r =>
      cases bs' with
      | nil => exact h.elim
      | cons b' r' =>
        obtain ⟨rfl, h⟩ := h
        have hb := h y
        simp only [hy, Bool.false_eq_true, if_false] at hb
        simp only [put, ← hb]
        split
        · refine ⟨⟨rfl, fun x => ?_⟩, rfl⟩
          have hx := h x
          by_cases hxy : x = y
          · subst hxy; simp [hy]
          · simpa [hxy] using hx
        · refine ⟨⟨rfl, fun x => ?_⟩, rfl⟩
          have hx := h x
          by_cases hxy : x = y
          · subst hxy; simp [hy, hb]
          · simpa [hxy, look_put] using hx
  | succ n ih =>
    intro bs bs' g h
    cases bs with
    | nil => exact h.elim
    | cons b r =>
      cases bs' with
      | nil => exact h.elim
      | cons b' r' =>
        obtain ⟨rfl, h⟩ := h
        simp only [put]
        split
        · exact ⟨⟨rfl, h⟩, rfl⟩
        · exact ⟨⟨rfl, (ih h).1⟩, (ih h).2⟩

/-- The states of two runs. -/
structure Twin (X : Name → Bool) (n : Nat) (s t : St) : Prop where
  g : s.g = t.g
  out : s.out = t.out
  bs : Shadow X n s.bs t.bs s.g

theorem Twin.vis {X n s t} (h : Twin X n s t) : s.vis = t.vis := by
  have := shadow_look h.bs
  simp only [St.vis, ← h.g, this]

theorem Twin.assign {X n s t} (h : Twin X n s t) {y v} (hy : X y = false) : Twin X n (assign y v s) (assign y v t) := by
  have := shadow_put (v := v) hy h.bs
  refine ⟨?_, h.out, ?_⟩
  · simp only [Lifetime.assign, ← h.g]; exact this.2
  · simp only [Lifetime.assign, ← h.g]; exact this.1

theorem Twin.assigns {X n} : ∀ (as : List (Name × Expr)) {s t}, Twin X n s t → (∀ a ∈ as, X a.1 = false) →
    Twin X n (assigns as s) (assigns as t) := by
  intro as
  induction as with
  | nil => intro s t h _; exact h
  | cons a l ih =>
    intro s t h hX
    simp only [Lifetime.assigns, h.vis]
    exact ih (h.assign (hX a (by simp))) (fun c hc => hX c (by simp [hc]))

/-- Changing one variable that is not copied in the innermost block. -/
theorem Twin.top {X n s t} (h : Twin X n s t) (y : Name) (hy : X y = false) (w : Option (Option Str) → Option (Option Str)) :
    ∃ b r b' r', s.bs = b :: r ∧ t.bs = b' :: r' ∧
      Twin X n { s with bs := (fun z => if z = y then w (b y) else b z) :: r }
        { t with bs := (fun z => if z = y then w (b' y) else b' z) :: r' } := by
  obtain ⟨bs, g, out⟩ := s
  obtain ⟨bs', g', out'⟩ := t
  obtain ⟨hg, ho, hs⟩ := h
  cases bs with
  | nil => cases n <;> exact hs.elim
  | cons b r =>
    cases bs' with
    | nil => cases n <;> exact hs.elim
    | cons b' r' =>
      refine ⟨b, r, b', r', rfl, rfl, hg, ho, ?_⟩
      cases n with
      | zero =>
        obtain ⟨rfl, h⟩ := hs
        refine ⟨rfl, fun x => ?_⟩
        have hx := h x
        have hb := h y
        simp only [hy, Bool.false_eq_true, if_false] at hb
        by_cases hxy : x = y
        · subst hxy; simp [hy, hb]
        · simpa [hxy] using hx
      | succ n => obtain ⟨rfl, h⟩ := hs; exact ⟨rfl, h⟩

theorem Twin.setLocal {X n s t} (h : Twin X n s t) {y v} (hy : X y = false) : Twin X n (setLocal y v s) (setLocal y v t) := by
  obtain ⟨b, r, b', r', e, e', ht⟩ := h.top y hy (fun _ => some (some v))
  simp only [Lifetime.setLocal, e, e']
  exact ht

theorem Twin.doTypeset {X n s t} (h : Twin X n s t) {y v} (hy : X y = false) : Twin X n (doTypeset y v s) (doTypeset y v t) := by
  cases v with
  | some v => exact h.setLocal hy
  | none =>
    obtain ⟨b, r, b', r', e, e', ht⟩ := h.top y hy (fun u => some (u.getD none))
    simp only [Lifetime.doTypeset, declare, e, e']
    exact ht

theorem Twin.locals {X n} : ∀ (as : List (Name × Expr)) {s t}, Twin X n s t → (∀ a ∈ as, X a.1 = false) →
    Twin X n (locals as s) (locals as t) := by
  intro as
  induction as with
  | nil => intro s t h _; exact h
  | cons a l ih =>
    intro s t h hX
    simp only [Lifetime.locals, h.vis]
    exact ih (h.setLocal (hX a (by simp))) (fun c hc => hX c (by simp [hc]))

theorem Twin.boths {X n} : ∀ (as : List (Name × Expr)) {s t}, Twin X n s t → (∀ a ∈ as, X a.1 = false) →
    Twin X n (boths as s) (boths as t) := by
  intro as
  induction as with
  | nil => intro s t h _; exact h
  | cons a l ih =>
    intro s t h hX
    have ha := hX a (by simp)
    simp only [Lifetime.boths, h.vis]
    exact ih ((h.assign ha).setLocal ha) (fun c hc => hX c (by simp [hc]))

theorem Twin.newblock {X n s t} (h : Twin X n s t) : Twin X (n + 1) (newblock s) (newblock t) :=
  ⟨h.g, h.out, rfl, h.bs⟩

theorem Twin.popblock {X n s t} (h : Twin X (n + 1) s t) : Twin X n (popblock s) (popblock t) := by
  obtain ⟨bs, g, out⟩ := s
  obtain ⟨bs', g', out'⟩ := t
  obtain ⟨hg, ho, hs⟩ := h
  cases bs with
  | nil => exact hs.elim
  | cons b r =>
    cases bs' with
    | nil => exact hs.elim
    | cons b' r' => exact ⟨hg, ho, hs.2⟩

/-- Copies that nothing writes to make no difference. -/
theorem Twin.exec {X} : ∀ (c : Cmd) {n s t}, Twin X n s t → (∀ x, X x = true → writes x c = false) →
    Twin X n (exec c s) (exec c t) := by
  have ha : ∀ {as : List (Name × Expr)} {f : Name → Bool}, (∀ x, X x = true → (as.any (fun a => a.1 = x) || f x) = false) →
      ∀ a ∈ as, X a.1 = false := by
    intro as f h a hm
    cases hX : X a.1 with
    | false => rfl
    | true =>
      have := h a.1 hX
      simp only [Bool.or_eq_false_iff, List.any_eq_false] at this
      exact absurd (by simp) (this.1 a hm)
  intro c
  induction c with
  | nop => intro n s t h _; exact h
  | note x =>
    intro n s t h _
    exact ⟨h.g, by simp [Lifetime.exec, h.out, h.vis], h.bs⟩
  | seq a b iha ihb =>
    intro n s t h hX
    simp only [writes, Bool.or_eq_false_iff] at hX
    exact ihb (iha h (fun x hx => (hX x hx).1)) (fun x hx => (hX x hx).2)
  | set as =>
    intro n s t h hX
    exact h.assigns as (ha (f := fun _ => false) (by simpa [writes] using hX))
  | typeset as via y v =>
    intro n s t h hX
    have h1 := ha (as := as) (f := fun x => decide (y = x)) (by simpa [writes] using hX)
    have hy : X y = false := by
      cases hXy : X y with
      | false => rfl
      | true => have := hX y hXy; simp [writes] at this
    simp only [Lifetime.exec, h.vis]
    cases via with
    | false => exact (h.assigns as h1).doTypeset hy
    | true => exact ((h.newblock.locals as h1).doTypeset hy).popblock
  | call as k body ih =>
    intro n s t h hX
    have h1 := ha (as := as) (f := fun x => writes x body) (by simpa [writes] using hX)
    have h2 : ∀ x, X x = true → writes x body = false := by
      intro x hx
      have := hX x hx
      simp only [writes, Bool.or_eq_false_iff] at this
      exact this.2
    cases k with
    | special via =>
      cases via with
      | false => exact ih (h.assigns as h1) h2
      | true => exact (ih (h.newblock.locals as h1) h2).popblock
    | regular => exact (ih (h.newblock.locals as h1) h2).popblock
    | ksh => exact (ih (h.newblock.locals as h1) h2).popblock
    | posix => exact (ih (h.newblock.boths as h1) h2).popblock

/-- After the assignments in front of a Bourne-style function. -/
theorem boths_twin : ∀ (as : List (Name × Expr)) (X : Name → Bool) (s t : St), Twin X 0 s (newblock t) →
    (as.map (·.1)).Nodup → (∀ a ∈ as, X a.1 = false) →
    Twin (fun x => X x || as.any (fun a => a.1 = x)) 0 (boths as s) (newblock (assigns as t)) := by
  intro as
  induction as with
  | nil => intro X s t h _ _; simpa [boths, assigns] using h
  | cons a l ih =>
    intro X s t h hn hX
    simp only [List.map_cons, List.nodup_cons] at hn
    have ha := hX a (by simp)
    have hv : s.vis = t.vis := h.vis
    have h1 : Twin (fun x => X x || a.1 = x) 0 (setLocal a.1 (a.2 t.vis) (assign a.1 (some (a.2 t.vis)) s))
        (newblock (assign a.1 (some (a.2 t.vis)) t)) := by
      have h2 : Twin X 0 (assign a.1 (some (a.2 t.vis)) s) (newblock (assign a.1 (some (a.2 t.vis)) t)) :=
        h.assign (t := newblock t) ha
      have hl : look (assign a.1 (some (a.2 t.vis)) t).bs (assign a.1 (some (a.2 t.vis)) t).g a.1 = some (a.2 t.vis) := by
        have := congrFun (vis_assign a.1 (some (a.2 t.vis)) t) a.1
        simpa [St.vis] using this
      generalize hs : assign a.1 (some (a.2 t.vis)) s = s' at *
      generalize ht : assign a.1 (some (a.2 t.vis)) t = t' at *
      obtain ⟨bs, g, out⟩ := s'
      obtain ⟨hg, ho, hb⟩ := h2
      cases bs with
      | nil => exact hb.elim
      | cons b r =>
        obtain ⟨hr, hb⟩ := hb
        refine ⟨hg, ho, hr, fun x => ?_⟩
        have hbx := hb x
        by_cases hx : a.1 = x
        · subst hx
          simp only at hg hr
          subst hr hg
          simp [hl, newblock, setLocal]
        · have hx' : ¬ x = a.1 := fun e => hx e.symm
          simpa [hx, hx', newblock, setLocal] using hbx
    have h3 := ih (fun x => X x || a.1 = x) _ _ h1 hn.2 (by
      intro c hc
      have hne : ¬ a.1 = c.1 := by
        intro e
        exact hn.1 (by rw [e]; exact List.mem_map_of_mem hc)
      simp [hX c (by simp [hc]), hne])
    simp only [boths, assigns, hv]
    simpa [Bool.or_assoc] using h3

/-- A call of a Bourne-style function with assignments does what the assignments and then the call
do, if they are to different variables that the function does not assign. -/
theorem bourne_kept (as : List (Name × Expr)) (body : Cmd) (s : St) (hn : (as.map (·.1)).Nodup)
    (hw : ∀ a ∈ as, writes a.1 body = false) :
    exec (.call as .posix body) s = exec (.seq (.set as) (.call [] .posix body)) s := by
  have h0 : Twin (fun _ => false) 0 (newblock s) (newblock s) := ⟨rfl, rfl, rfl, fun x => rfl⟩
  have h1 := boths_twin as (fun _ => false) (newblock s) s h0 hn (fun _ _ => rfl)
  have h2 := h1.exec body (by
    intro x hx
    simp only [Bool.false_or, List.any_eq_true, decide_eq_true_eq] at hx
    obtain ⟨a, ha, rfl⟩ := hx
    exact hw a ha)
  obtain ⟨hg, ho, hb⟩ := h2
  have e1 : exec (.call as .posix body) s = popblock (exec body (boths as (newblock s))) := rfl
  have e2 : exec (.seq (.set as) (.call [] .posix body)) s = popblock (exec body (newblock (assigns as s))) := rfl
  rw [e1, e2]
  generalize exec body (boths as (newblock s)) = u at *
  generalize exec body (newblock (assigns as s)) = w at *
  obtain ⟨bs, g, out⟩ := u
  obtain ⟨bs', g', out'⟩ := w
  simp only at hg ho hb
  subst hg ho
  cases bs with
  | nil => exact hb.elim
  | cons b r =>
    cases bs' with
    | nil => exact hb.elim
    | cons b' r' => obtain ⟨rfl, _⟩ := hb; rfl

/-- The code and the manual's rule agree, step by step. -/
theorem sim : ∀ (c : Cmd) (s : St) (p : Sp), Ok true c → Rel s p →
    Rel (exec c s) (spec c p) ∧ Outer s (exec c s) := by
  have okw : ∀ c, Ok false c → Ok true c := by
    intro c
    induction c with
    | nop => intro _; trivial
    | note x => intro _; trivial
    | seq a b iha ihb => intro h; exact ⟨iha h.1, ihb h.2⟩
    | set as => intro _; trivial
    | typeset as via x v => intro h; exact absurd h.1 (by simp)
    | call as k body ih =>
      intro h
      cases k with
      | special via => cases via with
        | false => exact ih h
        | true => exact h
      | regular => exact h
      | ksh => exact h
      | posix => exact h
  intro c
  induction c with
  | nop => intro s p _ h; exact ⟨h, Outer.refl s⟩
  | note x =>
    intro s p _ h
    refine ⟨⟨h.vis, h.fr, ?_⟩, Outer.refl s⟩
    simp [spec, exec, h.out, h.vis]
  | seq a b iha ihb =>
    intro s p hok h
    obtain ⟨h1, o1⟩ := iha s p hok.1 h
    obtain ⟨h2, o2⟩ := ihb (exec a s) (spec a p) hok.2 h1
    exact ⟨h2, o1.trans o2⟩
  | set as => intro s p _ h; exact h.assigns as
  | typeset as via x v =>
    intro s p hok h
    obtain ⟨_, hvia⟩ := hok
    subst hvia
    obtain ⟨h1, o1⟩ := h.assigns as
    obtain ⟨h2, o2⟩ := h1.typeset x (v.map (fun e => e s.vis))
    simp only [spec, exec, h.vis]
    exact ⟨h2, o1.trans o2⟩
  | call as k body ih =>
    intro s p hok h
    -- a block for the assignments
    have blk : ∃ b, locals as (newblock s) = { s with bs := b :: s.bs } ∧
        (p.puts as).out = p.out ∧ (p.puts as).loc = p.loc ∧
        Rel { s with bs := b :: s.bs } { p.puts as with loc := some (hidden as p.cur) } := by
      have h0 : p.cur = look ((fun _ => none) :: s.bs) s.g := by rw [h.vis]; rfl
      obtain ⟨b, e1, e2, e3, e4, e5⟩ := locals_spec as (fun _ => none) s.bs s.g s.out p h0
      refine ⟨b, e1, e4, e5, e2, ⟨_, rfl, fun x => ?_⟩, by rw [← h.out, ← e4]⟩
      have e3x := e3 x
      simp only [Option.isSome_none, Bool.false_or] at e3x
      simp only [hidden, ← e3x, h.vis]
      cases b x <;> simp [St.vis]
    have temp : Ok false body → Rel (popblock (exec body (locals as (newblock s))))
          { spec body (p.puts as) with cur := back (hidden as p.cur) (spec body (p.puts as)).cur } ∧
        Outer s (popblock (exec body (locals as (newblock s)))) := by
      intro hb
      obtain ⟨b, e1, e4, e5, hr⟩ := blk
      rw [e1]
      obtain ⟨h1, o1⟩ := ih { s with bs := b :: s.bs } { p.puts as with loc := some (hidden as p.cur) } (okw _ hb) hr
      obtain ⟨f1, f2, f3⟩ := spec_frame body hb (p.puts as).cur (some (hidden as p.cur)) p.loc (p.puts as).out
      obtain ⟨_, _, f3'⟩ := spec_frame body hb (p.puts as).cur p.loc p.loc (p.puts as).out
      obtain ⟨g1, g2⟩ := popped (p := p) h.fr o1 h1 (hidden as p.cur) f3
      refine ⟨?_, g2⟩
      have hp : p.puts as = ⟨(p.puts as).cur, p.loc, (p.puts as).out⟩ := by rw [← e5]
      have : ({ spec body (p.puts as) with cur := back (hidden as p.cur) (spec body (p.puts as)).cur } : Sp) =
          { spec body { p.puts as with loc := some (hidden as p.cur) } with
            loc := p.loc, cur := back (hidden as p.cur) (spec body { p.puts as with loc := some (hidden as p.cur) }).cur } := by
        rw [hp]
        simp only [f1, f2, f3']
      rw [this]
      exact g1
    cases k with
    | special via =>
      cases via with
      | false =>
        obtain ⟨h1, o1⟩ := h.assigns as
        obtain ⟨h2, o2⟩ := ih (Lifetime.assigns as s) (p.puts as) hok h1
        exact ⟨h2, o1.trans o2⟩
      | true => exact temp hok
    | regular => exact temp hok
    | ksh =>
      obtain ⟨b, e1, e4, e5, hr⟩ := blk
      simp only [exec, spec, e1]
      obtain ⟨h1, o1⟩ := ih { s with bs := b :: s.bs } { p.puts as with loc := some (hidden as p.cur) } hok hr
      have : ∃ f, (spec body { p.puts as with loc := some (hidden as p.cur) }).loc = some f := by
        obtain ⟨b', ws, t1, t2⟩ := o1
        have := h1.fr
        rw [t1] at this
        exact ⟨_, this.choose_spec.1⟩
      obtain ⟨f, hf⟩ := this
      have := popped (p := p) h.fr o1 h1 f hf
      rw [hf]
      exact this
    | posix =>
      obtain ⟨hn, hw, hok⟩ := hok
      rw [bourne_kept as body s hn hw]
      obtain ⟨ha, oa⟩ := h.assigns as
      have kp : ∀ (as : List (Name × Expr)) (q : Sp), (q.puts as).loc = q.loc := by
        intro as
        induction as with
        | nil => intro q; rfl
        | cons a m ih => intro q; exact ih _
      have hr : Rel (newblock (Lifetime.assigns as s)) { p.puts as with loc := some (fun _ => none) } :=
        ⟨ha.vis, ⟨_, rfl, fun _ => rfl⟩, ha.out⟩
      have e : exec (.seq (.set as) (.call [] .posix body)) s = popblock (exec body (newblock (Lifetime.assigns as s))) := rfl
      rw [e]
      obtain ⟨h1, o1⟩ := ih (newblock (Lifetime.assigns as s)) { p.puts as with loc := some (fun _ => none) } hok hr
      have : ∃ f, (spec body { p.puts as with loc := some (fun _ => none) }).loc = some f := by
        obtain ⟨b', ws, t1, t2⟩ := o1
        have := h1.fr
        rw [t1] at this
        exact ⟨_, this.choose_spec.1⟩
      obtain ⟨f, hf⟩ := this
      obtain ⟨g1, g2⟩ := popped (p := p.puts as) ha.fr o1 h1 f hf
      simp only [spec, hf, Option.getD_some]
      rw [kp] at g1
      exact ⟨g1, oa.trans g2⟩

/-- What a function has remembered it keeps. -/
theorem remembers (x : Name) : ∀ (c : Cmd) (q : Sp) (l), q.loc = some l → ∀ w, l x = some w →
    ∃ l', (spec c q).loc = some l' ∧ l' x = some w := by
  have kp : ∀ (as : List (Name × Expr)) (q : Sp), (q.puts as).loc = q.loc := by
    intro as
    induction as with
    | nil => intro q; rfl
    | cons a m ih => intro q; exact ih _
  have kd : ∀ (y v) (q : Sp) (l), q.loc = some l → ∀ w, l x = some w →
      ∃ l', (q.declare y v).loc = some l' ∧ l' x = some w := by
    intro y v q l hq w hw
    by_cases hy : y = x
    · subst hy
      refine ⟨l, ?_, hw⟩
      cases v <;> simp [Sp.declare, Sp.put, hq, hw]
    · have hy' : ¬ x = y := fun e => hy e.symm
      cases hl : l y with
      | some u => exact ⟨l, by cases v <;> simp [Sp.declare, Sp.put, hq, hl], hw⟩
      | none =>
        refine ⟨fun z => if z = y then some (q.cur y) else l z, ?_, by simp [hy', hw]⟩
        cases v <;> simp [Sp.declare, Sp.put, hq, hl]
  intro c
  induction c with
  | nop => intro q l hq w hw; exact ⟨l, hq, hw⟩
  | note y => intro q l hq w hw; exact ⟨l, hq, hw⟩
  | seq a b iha ihb =>
    intro q l hq w hw
    obtain ⟨l1, e1, w1⟩ := iha q l hq w hw
    exact ihb _ l1 e1 w w1
  | set as => intro q l hq w hw; exact ⟨l, by simp only [spec, kp, hq], hw⟩
  | typeset as via y v =>
    intro q l hq w hw
    obtain ⟨l', e, w'⟩ := kd y (v.map (fun e => e q.cur)) (q.puts as) l (by rw [kp, hq]) w hw
    refine ⟨l', ?_, w'⟩
    cases via <;> simpa [spec] using e
  | call as k body ih =>
    intro q l hq w hw
    have i := ih (q.puts as) l (by rw [kp, hq]) w hw
    cases k with
    | special via => cases via <;> exact i
    | regular => exact i
    | ksh => exact ⟨l, hq, hw⟩
    | posix => exact ⟨l, hq, hw⟩

def start (g : Name → Option Str) : St := { bs := [], g := g }
def startSp (g : Name → Option Str) : Sp := { cur := g, loc := none }

/-- **C144.**  A script prints what the rule of the manual says, and ends with the values it says: with
assignments and declarations nested in any way, where `Ok` holds.  Missing are the cases shown below to
be wrong. -/
theorem lasting_partial (c : Cmd) (g : Name → Option Str) (h : Ok true c) :
    (exec c (start g)).out = (spec c (startSp g)).out ∧ (exec c (start g)).vis = (spec c (startSp g)).cur := by
  have := (sim c (start g) (startSp g) h ⟨rfl, rfl, rfl⟩).1
  exact ⟨this.out.symm, this.vis.symm⟩

/-- Any state the shell can be in has a counterpart in the rule. -/
theorem related (s : St) : ∃ p, Rel s p := by
  obtain ⟨bs, g, out⟩ := s
  cases bs with
  | nil => exact ⟨⟨_, none, out⟩, rfl, rfl, rfl⟩
  | cons b r => exact ⟨⟨_, some (fun x => (b x).map (fun _ => look r g x)), out⟩, rfl, ⟨_, rfl, fun _ => rfl⟩, rfl⟩

/-- An assignment in front of a command that is no special built-in is gone when the command ends, whatever
the command assigns; also in front of a function defined with the word `function`, and behind `command`. -/
theorem temporary (as : List (Name × Expr)) (k : Kind) (body : Cmd) (s : St) (x : Name)
    (hk : k = .regular ∨ k = .special true ∨ k = .ksh) (hb : Ok (k = .ksh) body) (hx : as.any (fun a => a.1 = x)) :
    (exec (.call as k body) s).vis x = s.vis x := by
  obtain ⟨p, hp⟩ := related s
  have hok : Ok true (.call as k body) := by
    rcases hk with rfl | rfl | rfl <;> simpa [Ok] using hb
  have h1 := (sim _ s p hok hp).1
  rw [← h1.vis, ← hp.vis]
  rcases hk with rfl | rfl | rfl
  · simp [spec, back, hidden, hx]
  · simp [spec, back, hidden, hx]
  · -- what a function remembers stays
    obtain ⟨l', e, w'⟩ := remembers x body { p.puts as with loc := some (hidden as p.cur) } _ rfl (p.cur x) (by simp [hidden, hx])
    simp [spec, e, back, w']

/-- An assignment in front of a special built-in stays. -/
theorem kept (x : Name) (e : Expr) (s : St) : (exec (.call [(x, e)] (.special false) .nop) s).vis x = some (e s.vis) := by
  simp [exec, assigns, vis_assign]

/-- A variable that a function declares is outside what it was, whatever is done with it after. -/
theorem declared (k : Kind) (x : Name) (v : Option Expr) (body : Cmd) (s : St)
    (hk : k = .ksh ∨ k = .posix) (hb : Ok true body) :
    (exec (.call [] k (.seq (.typeset [] false x v) body)) s).vis x = s.vis x := by
  have he : exec (.call [] k (.seq (.typeset [] false x v) body)) s =
      popblock (exec body (doTypeset x (v.map (fun e => e s.vis)) (newblock s))) := by
    rcases hk with rfl | rfl <;> rfl
  rw [he]
  -- the block after the declaration has `x`; blocks keep what they have, and what is below does not change
  have key : ∀ (c : Cmd), Ok true c → ∀ (t : St) (b r), t.bs = b :: r → (b x).isSome →
      ∃ b' r', (exec c t).bs = b' :: r' ∧ (b' x).isSome ∧ look r' (exec c t).g x = look r t.g x := by
    intro c hc t b r hbs hbx
    have hR : Rel t ⟨t.vis, some (fun y => (b y).map (fun _ => look r t.g y)), t.out⟩ :=
      ⟨rfl, by rw [hbs]; exact ⟨_, rfl, fun _ => rfl⟩, rfl⟩
    obtain ⟨h1, o1⟩ := sim c t _ hc hR
    have htemp := h1.fr
    unfold Outer at o1
    rw [hbs] at o1
    obtain ⟨b', ws, e1, e2⟩ := o1
    rw [e1] at htemp
    obtain ⟨l', hl', hL'⟩ := htemp
    obtain ⟨l2, f1, f2⟩ := remembers x c ⟨t.vis, some (fun y => (b y).map (fun _ => look r t.g y)), t.out⟩ _ rfl (look r t.g x) (by
      cases hb : b x with
      | none => rw [hb] at hbx; simp at hbx
      | some w => simp)
    rw [hl'] at f1
    cases f1
    have := hL' x
    rw [f2] at this
    refine ⟨b', _, e1, ?_, ?_⟩
    · cases hb : b' x with
      | none => rw [hb] at this; simp at this
      | some w => rfl
    · cases hb : b' x with
      | none => rw [hb] at this; simp at this
      | some w => rw [hb] at this; simpa using this.symm
  have hd : ∃ b, (doTypeset x (v.map (fun e => e s.vis)) (newblock s)).bs = b :: s.bs ∧ (b x).isSome ∧
      (doTypeset x (v.map (fun e => e s.vis)) (newblock s)).g = s.g := by
    cases v with
    | none => exact ⟨_, rfl, by simp, rfl⟩
    | some e => exact ⟨_, rfl, by simp, rfl⟩
  obtain ⟨b, hb1, hb2, hb3⟩ := hd
  obtain ⟨b', r', k1, k2, k3⟩ := key body hb _ b s.bs hb1 hb2
  have : (popblock (exec body (doTypeset x (v.map (fun e => e s.vis)) (newblock s)))).vis x =
      look (exec body (doTypeset x (v.map (fun e => e s.vis)) (newblock s))).bs.tail
        (exec body (doTypeset x (v.map (fun e => e s.vis)) (newblock s))).g x := rfl
  rw [this, k1, List.tail_cons, k3, hb3]
  rfl

/-! ## Where the shell does something else -/

def lit (t : String) : Expr := fun _ => t.toList

/-- `command typeset y=2; echo $y` prints nothing: the variable was declared in the block of `command`. -/
theorem command_typeset_lost :
    (exec (.seq (.typeset [] true 1 (some (lit "2"))) (.note 1)) (start fun _ => none)).out = [(1, none)] ∧
    (spec (.seq (.typeset [] true 1 (some (lit "2"))) (.note 1)) (startSp fun _ => none)).out = [(1, some ['2'])] := by
  exact ⟨rfl, rfl⟩

/-- So is what `command eval 'typeset y=2'` declares, or `x=1 command . file`, for any value, at any depth. -/
theorem command_eval_typeset_lost (as : List (Name × Expr)) (y : Name) (v : Option Expr) (s : St) :
    (exec (.call as (.special true) (.typeset [] false y v)) s).vis y = s.vis y := by
  obtain ⟨b, e1, _⟩ := locals_spec as (fun _ => none) s.bs s.g s.out ⟨look ((fun _ => none) :: s.bs) s.g, none, []⟩ rfl
  have e1' : locals as (newblock s) = { bs := b :: s.bs, g := s.g, out := s.out } := e1
  simp only [exec, e1', assigns]
  cases v <;> rfl

/-- The manual: assignments are kept by Bourne-style functions, and those made inside are visible after.  With
`f() { x=2; }`, after `x=1 f` the value is 1: the one made inside went to a copy. -/
theorem bourne_assignment_lost :
    (exec (.seq (.call [(1, lit "1")] .posix (.set [(1, lit "2")])) (.note 1)) (start fun _ => none)).out =
      [(1, some ['1'])] ∧
    (spec (.seq (.call [(1, lit "1")] .posix (.set [(1, lit "2")])) (.note 1)) (startSp fun _ => none)).out =
      [(1, some ['2'])] := by
  exact ⟨rfl, rfl⟩

/-- `x=1 x=2 f; echo $x` prints 1, and `$x` in the function is 2: the second assignment finds the copy made for the
first. -/
theorem bourne_twice :
    (exec (.seq (.call [(1, lit "1"), (1, lit "2")] .posix (.note 1)) (.note 1)) (start fun _ => none)).out =
      [(1, some ['2']), (1, some ['1'])] ∧
    (spec (.seq (.call [(1, lit "1"), (1, lit "2")] .posix (.note 1)) (.note 1)) (startSp fun _ => none)).out =
      [(1, some ['2']), (1, some ['2'])] := by
  exact ⟨rfl, rfl⟩

/-- `f() { typeset x; echo $x; }; x=1 f` prints 1, although the variable is new in the function: the
declaration finds the copy. -/
theorem bourne_typeset_not_new :
    (exec (.call [(1, lit "1")] .posix (.seq (.typeset [] false 1 none) (.note 1))) (start fun _ => none)).out =
      [(1, some ['1'])] ∧
    (spec (.call [(1, lit "1")] .posix (.seq (.typeset [] false 1 none) (.note 1))) (startSp fun _ => none)).out =
      [(1, none)] := by
  exact ⟨rfl, rfl⟩

/-! ## Cases -/

/-- `function f { typeset a; a=3; echo $a $b; b=7; }; a=1; b=2 f; echo $a $b`. -/
def script : Cmd :=
  .seq (.set [(1, lit "1")])
    (.seq (.call [(2, lit "2")] .ksh
        (.seq (.typeset [] false 1 none)
          (.seq (.set [(1, lit "3")]) (.seq (.note 1) (.seq (.note 2) (.set [(2, lit "7")]))))))
      (.seq (.note 1) (.note 2)))

example : Ok true script := by simp [script, Ok]

example : (exec script (start fun _ => none)).out =
    [(1, some ['3']), (2, some ['2']), (1, some ['1']), (2, none)] := rfl

/-- A function sees and changes the variables of its caller. -/
example : (exec (.seq (.call [] .ksh (.seq (.typeset [] false 1 (some (lit "a")))
      (.seq (.call [] .posix (.set [(1, lit "b")])) (.note 1)))) (.note 1)) (start fun _ => none)).out =
    [(1, some ['b']), (1, none)] := rfl

/-- `f() { echo $a; b=2; }; a=1 f; echo $a $b`. -/
def bourne : Cmd :=
  .seq (.call [(1, lit "1")] .posix (.seq (.note 1) (.set [(2, lit "2")]))) (.seq (.note 1) (.note 2))

example : Ok true bourne := by simp [bourne, Ok, writes]

example : (exec bourne (start fun _ => none)).out = [(1, some ['1']), (1, some ['1']), (2, some ['2'])] := rfl

/-- `x=1 :; echo $x` and `x=1 command :; echo $x`. -/
example : (exec (.seq (.call [(1, lit "1")] (.special false) .nop) (.note 1)) (start fun _ => none)).out = [(1, some ['1'])] := rfl
example : (exec (.seq (.call [(1, lit "1")] (.special true) .nop) (.note 1)) (start fun _ => none)).out = [(1, none)] := rfl

end Ksh.Lifetime
