import Verif.Func.Lemmas
/-!
# Functions live as long as they are executed

A function may define, redefine and remove any function while it is executed, including itself and the
functions that called it.
-/

namespace Ksh.Func

open Ksh.Table (Name home prev)

variable {B : Type}

/-! ## Specification -/

/-- What functions are: a map from names to bodies, and the bodies of the calls in progress. -/
structure Sp (B : Type) where
  env : Name → Option B
  stack : List B

def Sp.init : Sp B := ⟨fun _ => none, []⟩

def Sp.set (sp : Sp B) (n : Name) (b : Option B) : Sp B := { sp with env := fun m => if m = n then b else sp.env m }

/-- A call executes the body that the name has at this time, to the end. -/
def Sp.step (sp : Sp B) : Op B → Sp B
  | .define n b _ => sp.set n (some b)
  | .remove n => sp.set n none
  | .call n => { sp with stack := (sp.env n).toList ++ sp.stack }
  | .ret => { sp with stack := sp.stack.tail }

def Sp.run (sp : Sp B) (ops : List (Op B)) : Sp B := ops.foldl Sp.step sp

/-! ## The table -/

theorem TI.congr {ents ents' : Nat → Option Ent} {slots : List (Option Nat)} {nfree : Int} (h : TI ents slots nfree)
    (hc : ∀ p, some p ∈ slots → (ents' p).map (fun e => (e.name, e.defined)) = (ents p).map (fun e => (e.name, e.defined))) : TI ents' slots nfree := by
  have hv : view ents' slots = view ents slots := by
    unfold view
    apply List.map_congr_left
    intro o ho
    cases o with
    | none => rfl
    | some p =>
      have := hc p ho
      have hlk : look ents' p = look ents p := by
        unfold look
        cases h1 : ents' p <;> cases h2 : ents p <;> rw [h1, h2] at this <;> simp at this
        · simp [this.1, this.2]
      simp [hlk]
  refine ⟨fun p hp => ?_, h.once, fun i p e hi he hd => ?_, h.count, h.nonneg⟩
  · have := hc p hp
    have hl := h.live p hp
    cases h1 : ents' p with
    | some _ => rfl
    | none =>
      obtain ⟨x, hx⟩ := Option.isSome_iff_exists.1 hl
      rw [h1, hx] at this
      cases this
  · rw [hv]
    have := hc p (List.mem_of_getElem? hi)
    obtain ⟨x, hx⟩ := Option.isSome_iff_exists.1 (h.live p (List.mem_of_getElem? hi))
    rw [he, hx] at this
    simp only [Option.map_some, Option.some.injEq, Prod.mk.injEq] at this
    rw [this.1]
    exact h.reach i p x hi hx (by rw [← this.2]; exact hd)

theorem TI.undefine {ents : Nat → Option Ent} {slots : List (Option Nat)} {nfree : Int} (h : TI ents slots nfree) {p : Nat} {e e' : Ent}
    (he : ents p = some e) (hd' : e'.defined = false) : TI (upd ents p (some e')) slots nfree := by
  have hup : ∀ q, q ≠ p → upd ents p (some e') q = ents q := fun q hq => by simp [upd, hq]
  have hself : upd ents p (some e') p = some e' := by simp [upd]
  refine ⟨fun q hq => ?_, h.once, fun i q x hi hx hd => ?_, h.count, h.nonneg⟩
  · by_cases hqp : q = p
    · subst hqp; rw [hself]; rfl
    · rw [hup q hqp]; exact h.live q hq
  · have hqp : q ≠ p := by
      intro hc; subst hc; rw [hself] at hx; cases hx; rw [hd] at hd'; cases hd'
    rw [hup q hqp] at hx
    rw [← h.reach i q x hi hx hd]
    apply probe_congr2 (by simp [view_len])
    intro k
    rw [view_get, view_get]
    cases hk : slots[k]? with
    | none => rfl
    | some o =>
      cases o with
      | none => rfl
      | some r =>
        by_cases hrp : r = p
        · subst hrp
          have : (e.name == x.name && e.defined) = false := by
            cases hed : e.defined with
            | false => simp
            | true =>
              simp only [Bool.and_true, beq_eq_false_iff_ne]
              intro hn
              exact hqp (h.unique (List.mem_of_getElem? hk) (List.mem_of_getElem? hi) he hx hed hd hn).symm
          simp [look, hself, he, hd', this]
        · simp [look, hup r hrp]

/-! ## The invariant -/

/-- `old_inuse` is set iff the entry is in use by a call further out. -/
def FramesOk : List Frame → Prop
  | [] => True
  | f :: r => (f.oldInuse = true ↔ f.ent ∈ r.map Frame.ent) ∧ FramesOk r

structure MI (s : St B) (sp : Sp B) : Prop where
  ti : TI s.ents s.slots s.nfree
  below : ∀ p, (s.ents p).isSome → p < s.next
  belowT : ∀ t, (s.trees t).isSome → t < s.next
  inTab : ∀ p e, s.ents p = some e → e.defined = true → some p ∈ s.slots
  defd : ∀ p e, s.ents p = some e → e.defined = true → e.isset = true ∧ e.alloc = true ∧ e.fdelete = false ∧ e.name ≠ []
  zapd : ∀ p e, s.ents p = some e → e.defined = false → e.finuse = true → e.fdelete = true ∧ e.alloc = true ∧ e.name = []
  dead : ∀ p e, s.ents p = some e → e.defined = false → e.finuse = false → e.alloc = false
  use : ∀ p e, s.ents p = some e → (e.finuse = true ↔ p ∈ s.frames.map Frame.ent)
  frame : ∀ f ∈ s.frames, ∃ e, s.ents f.ent = some e ∧ e.tree = f.tree
  old : FramesOk s.frames
  own : ∀ p e, s.ents p = some e → e.alloc = true → (s.trees e.tree).isSome
  once : ∀ p q e e', s.ents p = some e → s.ents q = some e' → e.alloc = true → e'.alloc = true → e.tree = e'.tree → p = q
  kept : ∀ t, (s.trees t).isSome → ∃ p e, s.ents p = some e ∧ e.alloc = true ∧ e.tree = t
  env : ∀ n b, sp.env n = some b ↔ ∃ p e, s.ents p = some e ∧ e.defined = true ∧ e.name = n ∧ s.trees e.tree = some b
  stack : s.frames.map (fun f => s.trees f.tree) = sp.stack.map some

theorem MI.init : MI (init : St B) Sp.init := by
  refine ⟨⟨?_, ?_, ?_, ?_, ?_⟩, ?_, ?_, ?_, ?_, ?_, ?_, ?_, ?_, trivial, ?_, ?_, ?_, ?_, rfl⟩ <;> simp [Func.init, Sp.init]

/-- An entry in use has its tree. -/
theorem MI.used {s : St B} {sp : Sp B} (h : MI s sp) {p : Nat} {e : Ent} (he : s.ents p = some e) (hu : e.finuse = true) : e.alloc = true := by
  cases hd : e.defined with
  | true => exact (h.defd p e he hd).2.1
  | false => exact (h.zapd p e he hd hu).2.1

/-- Only calls of an entry execute its tree. -/
theorem MI.tree_used {s : St B} {sp : Sp B} (h : MI s sp) {p : Nat} {e : Ent} (he : s.ents p = some e) (ha : e.alloc = true) {f : Frame} (hf : f ∈ s.frames)
    (ht : f.tree = e.tree) : f.ent = p := by
  obtain ⟨e', he', ht'⟩ := h.frame f hf
  have hu : e'.finuse = true := (h.use _ _ he').2 (List.mem_map.2 ⟨f, hf, rfl⟩)
  exact h.once _ _ _ _ he' he (h.used he' hu) ha (by rw [ht', ht])

/-- The state after a function was removed. -/
structure Gone (s : St B) (sp : Sp B) (n : Name) (p : Nat) (d : Ent) : Prop where
  mi : MI s sp
  none : sp.env n = none
  ent : s.ents p = some d
  name : d.name = n
  off : d.defined = false ∧ d.finuse = false ∧ d.alloc = false ∧ d.fdelete = false
  slot : some p ∈ s.slots
  ti : ∀ e', e'.name = n → e'.defined = true → TI (upd s.ents p (some e')) s.slots s.nfree

/-- A defined function that is not being executed is removed. -/
theorem MI.remove {s : St B} {sp : Sp B} (h : MI s sp) {p : Nat} {e : Ent} (he : s.ents p = some e) (hd : e.defined = true) (hu : e.finuse = false) :
    Gone { s with trees := upd s.trees e.tree none, ents := upd s.ents p (some { fresh e.name with tree := e.tree }) } (sp.set e.name none) e.name p { fresh e.name with tree := e.tree } := by
  obtain ⟨-, ha, hf, hn⟩ := h.defd p e he hd
  have hup : ∀ (v : Option Ent) q, q ≠ p → upd s.ents p v q = s.ents q := fun v q hq => by simp [upd, hq]
  have hself : ∀ v : Option Ent, upd s.ents p v p = v := fun v => by simp [upd]
  have htree : ∀ q x, q ≠ p → s.ents q = some x → x.alloc = true → x.tree ≠ e.tree := fun q x hq hx hxa hc => hq (h.once q p x e hx he hxa ha hc)
  have hft : ∀ f ∈ s.frames, f.tree ≠ e.tree := by
    intro f hf hc
    have := h.tree_used he ha hf hc
    have := (h.use p e he).2 (List.mem_map.2 ⟨f, hf, this⟩)
    rw [hu] at this; cases this
  refine ⟨⟨h.ti.undefine he rfl, ?_, ?_, ?_, ?_, ?_, ?_, ?_, ?_, h.old, ?_, ?_, ?_, ?_, ?_⟩, by simp [Sp.set], hself _, rfl, ⟨rfl, rfl, rfl, rfl⟩, h.inTab p e he hd, ?_⟩
  · intro q hq
    by_cases hqp : q = p
    · subst hqp; exact h.below q (by rw [he]; rfl)
    · simp only [hup _ q hqp] at hq; exact h.below q hq
  · intro t ht
    simp only [upd] at ht
    split at ht
    · cases ht
    · exact h.belowT t ht
  · intro q x hx hxd
    by_cases hqp : q = p
    · subst hqp; simp only [hself] at hx; cases hx; cases hxd
    · simp only [hup _ q hqp] at hx; exact h.inTab q x hx hxd
  · intro q x hx hxd
    by_cases hqp : q = p
    · subst hqp; simp only [hself] at hx; cases hx; cases hxd
    · simp only [hup _ q hqp] at hx; exact h.defd q x hx hxd
  · intro q x hx hxd hxu
    by_cases hqp : q = p
    · subst hqp; simp only [hself] at hx; cases hx; cases hxu
    · simp only [hup _ q hqp] at hx; exact h.zapd q x hx hxd hxu
  · intro q x hx hxd hxu
    by_cases hqp : q = p
    · subst hqp; simp only [hself] at hx; cases hx; rfl
    · simp only [hup _ q hqp] at hx; exact h.dead q x hx hxd hxu
  · intro q x hx
    by_cases hqp : q = p
    · subst hqp; simp only [hself] at hx; cases hx
      rw [← h.use q e he, hu]; simp [fresh]
    · simp only [hup _ q hqp] at hx; exact h.use q x hx
  · intro f hf
    obtain ⟨x, hx, hxt⟩ := h.frame f hf
    have hqp : f.ent ≠ p := by
      intro hc
      have := (h.use p e he).2 (List.mem_map.2 ⟨f, hf, hc⟩)
      rw [hu] at this; cases this
    exact ⟨x, by simp only [hup _ _ hqp]; exact hx, hxt⟩
  · intro q x hx hxa
    by_cases hqp : q = p
    · subst hqp; simp only [hself] at hx; cases hx; cases hxa
    · simp only [hup _ q hqp] at hx
      simp only [upd, htree q x hqp hx hxa, if_false]
      exact h.own q x hx hxa
  · intro q r x y hx hy hxa hya hxy
    by_cases hqp : q = p
    · subst hqp; simp only [hself] at hx; cases hx; cases hxa
    · by_cases hrp : r = p
      · subst hrp; simp only [hself] at hy; cases hy; cases hya
      · simp only [hup _ q hqp] at hx
        simp only [hup _ r hrp] at hy
        exact h.once q r x y hx hy hxa hya hxy
  · intro t ht
    simp only [upd] at ht
    split at ht
    · cases ht
    · rename_i hte
      obtain ⟨q, x, hx, hxa, hxt⟩ := h.kept t ht
      have hqp : q ≠ p := by
        intro hc; subst hc; rw [he] at hx; cases hx; exact hte hxt.symm
      exact ⟨q, x, by simp only [hup _ q hqp]; exact hx, hxa, hxt⟩
  · intro m b
    simp only [Sp.set]
    by_cases hm : m = e.name
    · rw [if_pos hm]
      constructor
      · intro hc; cases hc
      · rintro ⟨q, x, hx, hxd, hxn, -⟩
        by_cases hqp : q = p
        · subst hqp; simp only [hself] at hx; cases hx; cases hxd
        · simp only [hup _ q hqp] at hx
          exact absurd (h.ti.unique (h.inTab q x hx hxd) (h.inTab p e he hd) hx he hxd hd (by rw [hxn, hm])) hqp
    · rw [if_neg hm, h.env]
      constructor
      · rintro ⟨q, x, hx, hxd, hxn, hxt⟩
        have hqp : q ≠ p := by
          intro hc; subst hc; rw [he] at hx; cases hx; exact hm hxn.symm
        exact ⟨q, x, by simp only [hup _ q hqp]; exact hx, hxd, hxn, by simp only [upd, htree q x hqp hx (h.defd q x hx hxd).2.1, if_false]; exact hxt⟩
      · rintro ⟨q, x, hx, hxd, hxn, hxt⟩
        by_cases hqp : q = p
        · subst hqp; simp only [hself] at hx; cases hx; cases hxd
        · simp only [hup _ q hqp] at hx
          simp only [upd, htree q x hqp hx (h.defd q x hx hxd).2.1, if_false] at hxt
          exact ⟨q, x, hx, hxd, hxn, hxt⟩
  · simp only [Sp.set]
    rw [← h.stack]
    apply List.map_congr_left
    intro f hf
    simp [upd, hft f hf]
  · intro e' hn' hd'
    apply h.ti.congr
    intro q hq
    by_cases hqp : q = p
    · subst hqp; simp [upd, he, hn', hd', hd]
    · simp [upd, hqp]

/-- A function that is being executed is removed. -/
theorem MI.zap {s : St B} {sp : Sp B} (h : MI s sp) {p : Nat} {e : Ent} (he : s.ents p = some e) (hd : e.defined = true) (hu : e.finuse = true) :
    MI { s with ents := upd s.ents p (some { e with name := [], defined := false, fdelete := true }) } (sp.set e.name none) := by
  obtain ⟨-, ha, hf, hn⟩ := h.defd p e he hd
  have hup : ∀ (v : Option Ent) q, q ≠ p → upd s.ents p v q = s.ents q := fun v q hq => by simp [upd, hq]
  have hself : ∀ v : Option Ent, upd s.ents p v p = v := fun v => by simp [upd]
  refine ⟨h.ti.undefine he rfl, ?_, h.belowT, ?_, ?_, ?_, ?_, ?_, ?_, h.old, ?_, ?_, ?_, ?_, ?_⟩
  · intro q hq
    by_cases hqp : q = p
    · subst hqp; exact h.below q (by rw [he]; rfl)
    · simp only [hup _ q hqp] at hq; exact h.below q hq
  · intro q x hx hxd
    by_cases hqp : q = p
    · subst hqp; simp only [hself] at hx; cases hx; cases hxd
    · simp only [hup _ q hqp] at hx; exact h.inTab q x hx hxd
  · intro q x hx hxd
    by_cases hqp : q = p
    · subst hqp; simp only [hself] at hx; cases hx; cases hxd
    · simp only [hup _ q hqp] at hx; exact h.defd q x hx hxd
  · intro q x hx hxd hxu
    by_cases hqp : q = p
    · subst hqp; simp only [hself] at hx; cases hx; exact ⟨rfl, ha, rfl⟩
    · simp only [hup _ q hqp] at hx; exact h.zapd q x hx hxd hxu
  · intro q x hx hxd hxu
    by_cases hqp : q = p
    · subst hqp; simp only [hself] at hx; cases hx; rw [hu] at hxu; cases hxu
    · simp only [hup _ q hqp] at hx; exact h.dead q x hx hxd hxu
  · intro q x hx
    by_cases hqp : q = p
    · subst hqp; simp only [hself] at hx; cases hx
      exact h.use q e he
    · simp only [hup _ q hqp] at hx; exact h.use q x hx
  · intro f hf
    obtain ⟨x, hx, hxt⟩ := h.frame f hf
    by_cases hqp : f.ent = p
    · rw [hqp, he] at hx; cases hx
      exact ⟨{ e with name := [], defined := false, fdelete := true }, by rw [hqp]; exact hself _, hxt⟩
    · exact ⟨x, by simp only [hup _ _ hqp]; exact hx, hxt⟩
  · intro q x hx hxa
    by_cases hqp : q = p
    · subst hqp; simp only [hself] at hx; cases hx; exact h.own q e he ha
    · simp only [hup _ q hqp] at hx
      exact h.own q x hx hxa
  · intro q r x y hx hy hxa hya hxy
    have conv : ∀ q x, upd s.ents p (some { e with name := [], defined := false, fdelete := true }) q = some x →
        ∃ x', s.ents q = some x' ∧ x'.alloc = x.alloc ∧ x'.tree = x.tree := by
      intro q x hx
      by_cases hqp : q = p
      · subst hqp; simp only [hself] at hx; cases hx; exact ⟨e, he, rfl, rfl⟩
      · simp only [hup _ q hqp] at hx; exact ⟨x, hx, rfl, rfl⟩
    obtain ⟨x', a1, a2, a3⟩ := conv q x hx
    obtain ⟨y', b1, b2, b3⟩ := conv r y hy
    exact h.once q r x' y' a1 b1 (by rw [a2]; exact hxa) (by rw [b2]; exact hya) (by rw [a3, b3]; exact hxy)
  · intro t ht
    obtain ⟨q, x, hx, hxa, hxt⟩ := h.kept t ht
    by_cases hqp : q = p
    · subst hqp; rw [he] at hx; cases hx; exact ⟨q, _, hself _, hxa, hxt⟩
    · exact ⟨q, x, by simp only [hup _ q hqp]; exact hx, hxa, hxt⟩
  · intro m b
    simp only [Sp.set]
    by_cases hm : m = e.name
    · rw [if_pos hm]
      constructor
      · intro hc; cases hc
      · rintro ⟨q, x, hx, hxd, hxn, -⟩
        by_cases hqp : q = p
        · subst hqp; simp only [hself] at hx; cases hx; cases hxd
        · simp only [hup _ q hqp] at hx
          exact absurd (h.ti.unique (h.inTab q x hx hxd) (h.inTab p e he hd) hx he hxd hd (by rw [hxn, hm])) hqp
    · rw [if_neg hm, h.env]
      constructor
      · rintro ⟨q, x, hx, hxd, hxn, hxt⟩
        have hqp : q ≠ p := by
          intro hc; subst hc; rw [he] at hx; cases hx; exact hm hxn.symm
        exact ⟨q, x, by simp only [hup _ q hqp]; exact hx, hxd, hxn, hxt⟩
      · rintro ⟨q, x, hx, hxd, hxn, hxt⟩
        by_cases hqp : q = p
        · subst hqp; simp only [hself] at hx; cases hx; cases hxd
        · simp only [hup _ q hqp] at hx
          exact ⟨q, x, hx, hxd, hxn, hxt⟩
  · simp only [Sp.set]
    exact h.stack

/-- An entry is made for a name that is not defined. -/
theorem MI.enter {s : St B} {sp : Sp B} (h : MI s sp) {n : Name} (hn : n ≠ []) (hno : sp.env n = none) :
    enter s n = .tooMany ∨ ∃ s' p e, enter s n = .ok (s', p) ∧ s'.ents p = some e ∧ e.name = n ∧
      Gone { s' with ents := upd s'.ents p (some (fresh n)) } sp n p (fresh n) := by
  have hnone : ∀ q x, some q ∈ s.slots → s.ents q = some x → x.defined = true → x.name ≠ n := by
    intro q x hq hx hxd hxn
    obtain ⟨b, hb⟩ := Option.isSome_iff_exists.1 (h.own q x hx (h.defd q x hx hxd).2.1)
    rw [(h.env n b).2 ⟨q, x, hx, hxd, hxn, hb⟩] at hno
    cases hno
  rcases enter_spec h.ti n hnone h.below { fresh n with defined := true } rfl rfl with ht | ⟨s', p, e, a1, a2, a3, a4, a5, a6, a7, a8, a9, a10, a11⟩
  · exact Or.inl ht
  · refine Or.inr ⟨s', p, e, a1, a2, a3, ?_⟩
    have hold : ∀ q x, q ≠ p → s'.ents q = some x → s.ents q = some x := fun q x hq hx => by
      rcases a8 q hq with h | ⟨h, _⟩
      · rw [← h]; exact hx
      · rw [h] at hx; cases hx
    have hkeep : ∀ q x, q ≠ p → s.ents q = some x → (x.defined = true ∨ x.finuse = true) → s'.ents q = some x := fun q x hq hx hor => by
      rcases a8 q hq with h | ⟨-, -, y, hy, h1, h2⟩
      · rw [h]; exact hx
      · rw [hx] at hy; cases hy; rw [h1, h2] at hor; simp at hor
    -- the entry is not in use and has no tree
    have hp : ∀ x, s.ents p = some x → x.defined = false ∧ x.finuse = false ∧ x.alloc = false := by
      intro x hx
      rcases a9 with ⟨b1, -⟩ | ⟨-, b2, b3, -⟩
      · have := h.below p (by rw [hx]; rfl)
        omega
      · rw [hx] at b2
        obtain rfl := Option.some.inj b2
        have hu : x.finuse = false := by
          cases hxu : x.finuse with
          | false => rfl
          | true => rw [(h.zapd p x hx b3 hxu).2.2] at a3; exact absurd a3.symm hn
        exact ⟨b3, hu, h.dead p x hx b3 hu⟩
    have hpf : p ∉ s.frames.map Frame.ent := by
      intro hc
      obtain ⟨f, hf, hfe⟩ := List.mem_map.1 hc
      obtain ⟨x, hx, -⟩ := h.frame f hf
      rw [hfe] at hx
      have := (h.use p x hx).2 hc
      rw [(hp x hx).2.1] at this; cases this
    have hup : ∀ (v : Option Ent) q, q ≠ p → upd s'.ents p v q = s'.ents q := fun v q hq => by simp [upd, hq]
    have hself : ∀ v : Option Ent, upd s'.ents p v p = v := fun v => by simp [upd]
    have huu : ∀ v w : Option Ent, upd (upd s'.ents p v) p w = upd s'.ents p w := fun v w => by
      funext q; simp only [upd]; split <;> rfl
    have hnx : s.next ≤ s'.next := by rcases a9 with ⟨-, b⟩ | ⟨b, -⟩ <;> omega
    have hpn : p < s'.next := by
      rcases a9 with ⟨b1, b2⟩ | ⟨b1, b2, -⟩
      · omega
      · have := h.below p (by rw [b2]; rfl)
        omega
    have conv : ∀ q x, q ≠ p → upd s'.ents p (some (fresh n)) q = some x → s.ents q = some x := fun q x hq hx => hold q x hq (by rw [← hup _ q hq]; exact hx)
    refine ⟨⟨?_, ?_, ?_, ?_, ?_, ?_, ?_, ?_, ?_, ?_, ?_, ?_, ?_, ?_, ?_⟩, hno, hself _, rfl, ⟨rfl, rfl, rfl, rfl⟩, a5, ?_⟩
    · have := a4.undefine (p := p) (e := { fresh n with defined := true }) (e' := fresh n) (hself _) rfl
      rw [huu] at this
      exact this
    · intro q hq
      by_cases hqp : q = p
      · subst hqp; exact hpn
      · obtain ⟨x, hx⟩ := Option.isSome_iff_exists.1 hq
        have := h.below q (by rw [conv q x hqp hx]; rfl)
        simp only
        omega
    · intro t ht
      simp only [a10] at ht
      have := h.belowT t ht
      simp only
      omega
    · intro q x hx hxd
      by_cases hqp : q = p
      · subst hqp; exact a5
      · have := conv q x hqp hx
        exact a7 q x (h.inTab q x this hxd) this hxd
    · intro q x hx hxd
      by_cases hqp : q = p
      · subst hqp; simp only [hself] at hx; cases hx; cases hxd
      · exact h.defd q x (conv q x hqp hx) hxd
    · intro q x hx hxd hxu
      by_cases hqp : q = p
      · subst hqp; simp only [hself] at hx; cases hx; cases hxu
      · exact h.zapd q x (conv q x hqp hx) hxd hxu
    · intro q x hx hxd hxu
      by_cases hqp : q = p
      · subst hqp; simp only [hself] at hx; cases hx; rfl
      · exact h.dead q x (conv q x hqp hx) hxd hxu
    · intro q x hx
      simp only [a11]
      by_cases hqp : q = p
      · subst hqp; simp only [hself] at hx; cases hx
        constructor
        · intro hc; cases hc
        · intro hc; exact absurd hc hpf
      · exact h.use q x (conv q x hqp hx)
    · intro f hf
      simp only [a11] at hf
      obtain ⟨x, hx, hxt⟩ := h.frame f hf
      have hqp : f.ent ≠ p := fun hc => hpf (List.mem_map.2 ⟨f, hf, hc⟩)
      exact ⟨x, by simp only [hup _ _ hqp]; exact hkeep _ x hqp hx (Or.inr ((h.use _ _ hx).2 (List.mem_map.2 ⟨f, hf, rfl⟩))), hxt⟩
    · simp only [a11]; exact h.old
    · intro q x hx hxa
      simp only [a10]
      by_cases hqp : q = p
      · subst hqp; simp only [hself] at hx; cases hx; cases hxa
      · exact h.own q x (conv q x hqp hx) hxa
    · intro q r x y hx hy hxa hya hxy
      by_cases hqp : q = p
      · subst hqp; simp only [hself] at hx; cases hx; cases hxa
      · by_cases hrp : r = p
        · subst hrp; simp only [hself] at hy; cases hy; cases hya
        · exact h.once q r x y (conv q x hqp hx) (conv r y hrp hy) hxa hya hxy
    · intro t ht
      simp only [a10] at ht
      obtain ⟨q, x, hx, hxa, hxt⟩ := h.kept t ht
      have hqp : q ≠ p := by
        intro hc; subst hc; rw [(hp x hx).2.2] at hxa; cases hxa
      refine ⟨q, x, ?_, hxa, hxt⟩
      simp only [hup _ q hqp]
      apply hkeep q x hqp hx
      cases hxd : x.defined with
      | true => exact Or.inl rfl
      | false =>
        cases hxu : x.finuse with
        | true => exact Or.inr rfl
        | false => rw [h.dead q x hx hxd hxu] at hxa; cases hxa
    · intro m b
      rw [h.env]
      simp only [a10]
      constructor
      · rintro ⟨q, x, hx, hxd, hxn, hxt⟩
        have hqp : q ≠ p := by
          intro hc; subst hc; rw [(hp x hx).1] at hxd; cases hxd
        exact ⟨q, x, by simp only [hup _ q hqp]; exact hkeep q x hqp hx (Or.inl hxd), hxd, hxn, hxt⟩
      · rintro ⟨q, x, hx, hxd, hxn, hxt⟩
        by_cases hqp : q = p
        · subst hqp; simp only [hself] at hx; cases hx; cases hxd
        · exact ⟨q, x, conv q x hqp hx, hxd, hxn, hxt⟩
    · simp only [a10, a11]; exact h.stack
    · intro e' hn' hd'
      rw [huu]
      apply a4.congr
      intro q hq
      by_cases hqp : q = p
      · subst hqp; simp [upd, hn', hd', fresh]
      · simp [upd, hqp]

/-- A function is defined in the entry. -/
theorem Gone.define {s : St B} {sp : Sp B} {n : Name} {p : Nat} {d : Ent} (g : Gone s sp n p d) (hn : n ≠ []) (b : B) (k : Bool) :
    MI { s with trees := upd s.trees s.next (some b), next := s.next + 1, ents := upd s.ents p (some ⟨n, true, true, true, false, false, k, s.next⟩) } (sp.set n (some b)) := by
  have h := g.mi
  have hup : ∀ (v : Option Ent) q, q ≠ p → upd s.ents p v q = s.ents q := fun v q hq => by simp [upd, hq]
  have hself : ∀ v : Option Ent, upd s.ents p v p = v := fun v => by simp [upd]
  have htt : ∀ t, (s.trees t).isSome → upd s.trees s.next (some b) t = s.trees t := fun t ht => by
    have := h.belowT t ht
    simp [upd, Nat.ne_of_lt this]
  have hpf : p ∉ s.frames.map Frame.ent := by
    intro hc
    have := (h.use p d g.ent).2 hc
    rw [g.off.2.1] at this; cases this
  refine ⟨g.ti _ rfl rfl, ?_, ?_, ?_, ?_, ?_, ?_, ?_, ?_, h.old, ?_, ?_, ?_, ?_, ?_⟩
  · intro q hq
    by_cases hqp : q = p
    · subst hqp
      have := h.below q (by rw [g.ent]; rfl)
      simp only
      omega
    · simp only [hup _ q hqp] at hq
      have := h.below q hq
      simp only
      omega
  · intro t ht
    simp only [upd] at ht
    split at ht
    · simp only; omega
    · have := h.belowT t ht
      simp only; omega
  · intro q x hx hxd
    by_cases hqp : q = p
    · subst hqp; exact g.slot
    · simp only [hup _ q hqp] at hx; exact h.inTab q x hx hxd
  · intro q x hx hxd
    by_cases hqp : q = p
    · subst hqp; simp only [hself] at hx; cases hx; exact ⟨rfl, rfl, rfl, hn⟩
    · simp only [hup _ q hqp] at hx; exact h.defd q x hx hxd
  · intro q x hx hxd hxu
    by_cases hqp : q = p
    · subst hqp; simp only [hself] at hx; cases hx; cases hxu
    · simp only [hup _ q hqp] at hx; exact h.zapd q x hx hxd hxu
  · intro q x hx hxd hxu
    by_cases hqp : q = p
    · subst hqp; simp only [hself] at hx; cases hx; cases hxd
    · simp only [hup _ q hqp] at hx; exact h.dead q x hx hxd hxu
  · intro q x hx
    by_cases hqp : q = p
    · subst hqp; simp only [hself] at hx; cases hx
      constructor
      · intro hc; cases hc
      · intro hc; exact absurd hc hpf
    · simp only [hup _ q hqp] at hx; exact h.use q x hx
  · intro f hf
    obtain ⟨x, hx, hxt⟩ := h.frame f hf
    have hqp : f.ent ≠ p := fun hc => hpf (List.mem_map.2 ⟨f, hf, hc⟩)
    exact ⟨x, by simp only [hup _ _ hqp]; exact hx, hxt⟩
  · intro q x hx hxa
    by_cases hqp : q = p
    · subst hqp; simp only [hself] at hx; cases hx; simp [upd]
    · simp only [hup _ q hqp] at hx
      have := h.own q x hx hxa
      simp only [htt _ this]; exact this
  · intro q r x y hx hy hxa hya hxy
    have hlt : ∀ q x, s.ents q = some x → x.alloc = true → x.tree ≠ s.next := fun q x hx hxa => Nat.ne_of_lt (h.belowT _ (h.own q x hx hxa))
    by_cases hqp : q = p
    · by_cases hrp : r = p
      · rw [hqp, hrp]
      · subst hqp; simp only [hself] at hx; cases hx
        simp only [hup _ r hrp] at hy
        exact absurd hxy.symm (hlt r y hy hya)
    · simp only [hup _ q hqp] at hx
      by_cases hrp : r = p
      · subst hrp; simp only [hself] at hy; cases hy
        exact absurd hxy (hlt q x hx hxa)
      · simp only [hup _ r hrp] at hy
        exact h.once q r x y hx hy hxa hya hxy
  · intro t ht
    by_cases hts : t = s.next
    · subst hts; exact ⟨p, _, hself _, rfl, rfl⟩
    · simp only [upd, hts, if_false] at ht
      obtain ⟨q, x, hx, hxa, hxt⟩ := h.kept t ht
      have hqp : q ≠ p := by
        intro hc; subst hc; rw [g.ent] at hx; cases hx; rw [g.off.2.2.1] at hxa; cases hxa
      exact ⟨q, x, by simp only [hup _ q hqp]; exact hx, hxa, hxt⟩
  · intro m c
    have hother : (∃ q x, q ≠ p ∧ s.ents q = some x ∧ x.defined = true ∧ x.name = m ∧ s.trees x.tree = some c) ↔ sp.env m = some c := by
      rw [h.env]
      constructor
      · rintro ⟨q, x, -, hx⟩; exact ⟨q, x, hx⟩
      · rintro ⟨q, x, hx, hxd, hxx⟩
        have hqp : q ≠ p := by
          intro hc; subst hc; rw [g.ent] at hx; cases hx; rw [g.off.1] at hxd; cases hxd
        exact ⟨q, x, hqp, hx, hxd, hxx⟩
    simp only [Sp.set]
    by_cases hm : m = n
    · rw [if_pos hm]
      constructor
      · intro hc
        cases hc
        exact ⟨p, _, hself _, rfl, hm.symm, by simp [upd]⟩
      · rintro ⟨q, x, hx, hxd, hxn, hxt⟩
        by_cases hqp : q = p
        · subst hqp; simp only [hself] at hx; cases hx
          simpa [upd] using hxt
        · simp only [hup _ q hqp] at hx
          have htl := h.own q x hx (h.defd q x hx hxd).2.1
          rw [htt _ htl] at hxt
          have := hother.1 ⟨q, x, hqp, hx, hxd, hxn, hxt⟩
          rw [hm, g.none] at this; cases this
    · rw [if_neg hm, ← hother]
      constructor
      · rintro ⟨q, x, hqp, hx, hxd, hxn, hxt⟩
        exact ⟨q, x, by simp only [hup _ q hqp]; exact hx, hxd, hxn, by rw [htt _ (by rw [hxt]; rfl)]; exact hxt⟩
      · rintro ⟨q, x, hx, hxd, hxn, hxt⟩
        by_cases hqp : q = p
        · subst hqp; simp only [hself] at hx; cases hx; exact absurd hxn.symm hm
        · simp only [hup _ q hqp] at hx
          have htl := h.own q x hx (h.defd q x hx hxd).2.1
          rw [htt _ htl] at hxt
          exact ⟨q, x, hqp, hx, hxd, hxn, hxt⟩
  · simp only [Sp.set]
    rw [← h.stack]
    apply List.map_congr_left
    intro f hf
    obtain ⟨x, hx, hxt⟩ := h.frame f hf
    have hu : x.finuse = true := (h.use _ _ hx).2 (List.mem_map.2 ⟨f, hf, rfl⟩)
    have := h.own _ x hx (h.used hx hu)
    rw [hxt] at this
    exact htt _ this

/-! ## The operations -/

theorem set_set (sp : Sp B) (n : Name) (a b : Option B) : (sp.set n a).set n b = sp.set n b := by
  unfold Sp.set
  congr 1
  funext m
  simp only
  split <;> rfl

theorem upd_upd {α : Type} (m : Nat → Option α) (p : Nat) (v w : Option α) : upd (upd m p v) p w = upd m p w := by
  funext q; simp only [upd]; split <;> rfl

/-- The case of `define` in which a new entry is made. -/
theorem define_new {s : St B} {sp : Sp B} (h : MI s sp) {n : Name} (hn : n ≠ []) (hno : sp.env n = none) (k : Nat) :
    defineLoop n (k + 1) s = .tooMany ∨ ∃ s1 p, defineLoop n (k + 1) s = .ok (s1, p) ∧ s1.ents p = some { fresh n with defined := true } ∧
      Gone { s1 with ents := upd s1.ents p (some (fresh n)) } sp n p (fresh n) := by
  have hs : search s n = .ok none := by
    rcases search_spec h.ti n with ⟨p, e, h1, h2, h3, h4, h5⟩ | ⟨h1, -⟩
    · obtain ⟨b, hb⟩ := Option.isSome_iff_exists.1 (h.own p e h3 (h.defd p e h3 h5).2.1)
      rw [(h.env n b).2 ⟨p, e, h3, h5, h4, hb⟩] at hno
      cases hno
    · exact h1
  rcases h.enter hn hno with ht | ⟨s', p, e, a1, a2, a3, g⟩
  · left
    simp only [defineLoop, findfunc, hs, Out.bind, ht]
  · right
    refine ⟨{ s' with ents := upd s'.ents p (some { fresh n with defined := true }) }, p, ?_, by simp [upd], ?_⟩
    · simp only [defineLoop, findfunc, hs, Out.bind, a1, a2, a3]
      simp [upd, fresh]
    · simp only [upd_upd]
      exact g

/-- The style of the function that is going to be replaced in its entry. -/
def oldStyle (s : St B) (n : Name) : Bool :=
  match search s n with
  | .ok (some p) =>
    match s.ents p with
    | some e => !e.finuse && e.fksh
    | none => false
  | _ => false

/-- `define` removes the function first. -/
theorem define_core {s : St B} {sp : Sp B} (h : MI s sp) {n : Name} (hn : n ≠ []) :
    (∀ t, define s n t = .tooMany) ∨ ∃ D p d, Gone D (sp.set n none) n p d ∧ define s n none = .ok D ∧
      ∀ b ksh, define s n (some (b, ksh)) = .ok { D with trees := upd D.trees D.next (some b), next := D.next + 1
                                                         ents := upd D.ents p (some ⟨n, true, true, true, false, false, oldStyle s n || ksh, D.next⟩) } := by
  have new : ∀ (Z : St B) (sp' : Sp B) (k : Nat), MI Z sp' → sp'.env n = none → defineLoop n 3 s = defineLoop n (k + 1) Z → sp' = sp.set n none → oldStyle s n = false →
      (∀ t, define s n t = .tooMany) ∨ ∃ D p d, Gone D (sp.set n none) n p d ∧ define s n none = .ok D ∧
        ∀ b ksh, define s n (some (b, ksh)) = .ok { D with trees := upd D.trees D.next (some b), next := D.next + 1
                                                           ents := upd D.ents p (some ⟨n, true, true, true, false, false, oldStyle s n || ksh, D.next⟩) } := by
    intro Z sp' k hZ hno heq hsp hst
    rcases define_new hZ hn hno k with ht | ⟨s1, p, a1, a2, g⟩
    · left
      intro t
      rw [define, heq, ht]; rfl
    · right
      rw [← hsp]
      refine ⟨_, p, _, g, ?_, fun b ksh => ?_⟩
      · simp only [define, heq, a1, Out.bind, a2, drop, fresh]
        rfl
      · simp only [define, heq, a1, Out.bind, a2, drop, fresh, upd_upd, hst]
        rfl
  rcases search_spec h.ti n with ⟨p, e, h1, h2, h3, h4, h5⟩ | ⟨h1, h2⟩
  · cases hu : e.finuse with
    | false =>
      right
      have g := h.remove h3 h5 hu
      rw [h4] at g
      have hloop : defineLoop n 3 s = .ok (s, p) := by
        simp only [defineLoop, findfunc, h1, Out.bind, h3, hu]
        rfl
      obtain ⟨hset, ha, hfd, -⟩ := h.defd p e h3 h5
      obtain ⟨b0, hb0⟩ := Option.isSome_iff_exists.1 (h.own p e h3 ha)
      refine ⟨_, p, _, g, ?_, fun b ksh => ?_⟩
      · simp only [define, hloop, Out.bind, h3, drop, ha, if_true, hb0, h4]
      · simp only [define, hloop, Out.bind, h3, drop, ha, if_true, hb0, upd_upd, h4, h5, hu, hfd, oldStyle, h1, Bool.not_false, Bool.true_and]
    | true =>
      have hZ := h.zap h3 h5 hu
      rw [h4] at hZ
      refine new _ _ 1 hZ (by simp [Sp.set]) ?_ rfl (by simp [oldStyle, h1, h3, hu])
      rw [show (3 : Nat) = 2 + 1 from rfl]
      rw [show defineLoop n (2 + 1) s = defineLoop n 2 { s with ents := upd s.ents p (some { e with name := [], defined := false, fdelete := true }) } by
        conv => lhs; unfold defineLoop
        simp only [findfunc, h1, Out.bind, h3, hu, if_true]]
  · have hno : sp.env n = none := by
      cases hb : sp.env n with
      | none => rfl
      | some b =>
        obtain ⟨p, e, he, hd, hnm, -⟩ := (h.env n b).1 hb
        exact absurd hnm (h2 p e (h.inTab p e he hd) he hd)
    refine new s sp 2 h hno rfl ?_ (by simp [oldStyle, h1])
    unfold Sp.set
    cases sp with
    | mk env stack =>
      congr 1
      funext m
      simp only
      split
      · rename_i hm; rw [hm]; exact hno
      · rfl

/-- The beginning of a call. -/
theorem call_spec {s : St B} {sp : Sp B} (h : MI s sp) (n : Name) : ∃ s', call s n = .ok s' ∧ MI s' (sp.step (.call n)) := by
  rcases search_spec h.ti n with ⟨p, e, h1, h2, he, h4, hd⟩ | ⟨h1, h2⟩
  · obtain ⟨hset, ha, hfd, hne⟩ := h.defd p e he hd
    obtain ⟨b, hb⟩ := Option.isSome_iff_exists.1 (h.own p e he ha)
    have henv : sp.env n = some b := (h.env n b).2 ⟨p, e, he, hd, h4, hb⟩
    refine ⟨{ s with ents := upd s.ents p (some { e with finuse := true }), frames := ⟨p, e.finuse, e.tree⟩ :: s.frames },
      by simp [call, h1, Out.bind, he, hset], ?_⟩
    have hup : ∀ (v : Option Ent) q, q ≠ p → upd s.ents p v q = s.ents q := fun v q hq => by simp [upd, hq]
    have hself : ∀ v : Option Ent, upd s.ents p v p = v := fun v => by simp [upd]
    have conv : ∀ q x, upd s.ents p (some { e with finuse := true }) q = some x → ∃ x', s.ents q = some x' ∧ x' = { x with finuse := x'.finuse } ∧ (q ≠ p → x' = x) := by
      intro q x hx
      by_cases hqp : q = p
      · subst hqp; simp only [hself] at hx; cases hx; exact ⟨e, he, rfl, fun hc => absurd rfl hc⟩
      · simp only [hup _ q hqp] at hx; exact ⟨x, hx, rfl, fun _ => rfl⟩
    have back : ∀ q x, s.ents q = some x → ∃ x', upd s.ents p (some { e with finuse := true }) q = some x' ∧ x = { x' with finuse := x.finuse } := by
      intro q x hx
      by_cases hqp : q = p
      · subst hqp; rw [he] at hx; cases hx; exact ⟨_, hself _, rfl⟩
      · exact ⟨x, by rw [hup _ q hqp]; exact hx, rfl⟩
    refine ⟨?_, ?_, h.belowT, ?_, ?_, ?_, ?_, ?_, ?_, ⟨h.use p e he, h.old⟩, ?_, ?_, ?_, ?_, ?_⟩
    · apply h.ti.congr
      intro q hq
      by_cases hqp : q = p
      · subst hqp; simp [upd, he]
      · simp [upd, hqp]
    · intro q hq
      obtain ⟨x, hx⟩ := Option.isSome_iff_exists.1 hq
      obtain ⟨x', hx', -⟩ := conv q x hx
      exact h.below q (by rw [hx']; rfl)
    · intro q x hx hxd
      obtain ⟨x', hx', heq, -⟩ := conv q x hx
      exact h.inTab q x' hx' (by rw [heq]; exact hxd)
    · intro q x hx hxd
      obtain ⟨x', hx', heq, -⟩ := conv q x hx
      have := h.defd q x' hx' (by rw [heq]; exact hxd)
      rw [heq] at this; exact this
    · intro q x hx hxd hxu
      by_cases hqp : q = p
      · subst hqp; simp only [hself] at hx; cases hx; rw [hd] at hxd; cases hxd
      · simp only [hup _ q hqp] at hx; exact h.zapd q x hx hxd hxu
    · intro q x hx hxd hxu
      by_cases hqp : q = p
      · subst hqp; simp only [hself] at hx; cases hx; cases hxu
      · simp only [hup _ q hqp] at hx; exact h.dead q x hx hxd hxu
    · intro q x hx
      by_cases hqp : q = p
      · subst hqp; simp only [hself] at hx; cases hx; simp
      · simp only [hup _ q hqp] at hx
        rw [h.use q x hx]
        simp [hqp]
    · intro f hf
      rcases List.mem_cons.1 hf with rfl | hf
      · exact ⟨_, hself _, rfl⟩
      · obtain ⟨x, hx, hxt⟩ := h.frame f hf
        obtain ⟨x', hx', heq⟩ := back _ x hx
        exact ⟨x', hx', by rw [heq] at hxt; exact hxt⟩
    · intro q x hx hxa
      obtain ⟨x', hx', heq, -⟩ := conv q x hx
      have := h.own q x' hx' (by rw [heq]; exact hxa)
      rw [heq] at this; exact this
    · intro q r x y hx hy hxa hya hxy
      obtain ⟨x', hx', heq, -⟩ := conv q x hx
      obtain ⟨y', hy', heq', -⟩ := conv r y hy
      exact h.once q r x' y' hx' hy' (by rw [heq]; exact hxa) (by rw [heq']; exact hya) (by rw [heq, heq']; exact hxy)
    · intro t ht
      obtain ⟨q, x, hx, hxa, hxt⟩ := h.kept t ht
      obtain ⟨x', hx', heq⟩ := back _ x hx
      exact ⟨q, x', hx', by rw [heq] at hxa; exact hxa, by rw [heq] at hxt; exact hxt⟩
    · intro m c
      simp only [Sp.step]
      rw [h.env]
      constructor
      · rintro ⟨q, x, hx, hxd, hxn, hxt⟩
        obtain ⟨x', hx', heq⟩ := back _ x hx
        rw [heq] at hxd hxn hxt
        exact ⟨q, x', hx', hxd, hxn, hxt⟩
      · rintro ⟨q, x, hx, hxd, hxn, hxt⟩
        obtain ⟨x', hx', heq, -⟩ := conv q x hx
        exact ⟨q, x', hx', by rw [heq]; exact hxd, by rw [heq]; exact hxn, by rw [heq]; exact hxt⟩
    · simp only [Sp.step, henv, List.map_cons, Option.toList, List.singleton_append]
      rw [hb, ← h.stack]
  · have hno : sp.env n = none := by
      cases hb : sp.env n with
      | none => rfl
      | some b =>
        obtain ⟨p, e, he, hd, hnm, -⟩ := (h.env n b).1 hb
        exact absurd hnm (h2 p e (h.inTab p e he hd) he hd)
    refine ⟨s, by simp [call, h1, Out.bind], ?_⟩
    simp only [Sp.step, hno, Option.toList, List.nil_append]
    exact h

/-- The end of a call. -/
theorem ret_spec {s : St B} {sp : Sp B} (h : MI s sp) : ∃ s', ret s = .ok s' ∧ MI s' (sp.step .ret) := by
  cases hfr : s.frames with
  | nil =>
    have hst := h.stack
    rw [hfr] at hst
    have : sp.stack = [] := by simpa using hst.symm
    refine ⟨s, by simp [ret, hfr], ?_⟩
    simp only [Sp.step, this, List.tail_nil]
    cases sp; cases this; exact h
  | cons f r =>
    obtain ⟨e, he, het⟩ := h.frame f (by rw [hfr]; simp)
    have hmem : f.ent ∈ s.frames.map Frame.ent := by rw [hfr]; simp
    have hu : e.finuse = true := (h.use _ _ he).2 hmem
    have ha := h.used he hu
    have hold := h.old
    rw [hfr] at hold
    obtain ⟨ho, hold⟩ := hold
    have hup : ∀ (v : Option Ent) q, q ≠ f.ent → upd s.ents f.ent v q = s.ents q := fun v q hq => by simp [upd, hq]
    have hself : ∀ v : Option Ent, upd s.ents f.ent v f.ent = v := fun v => by simp [upd]
    have hst := h.stack
    rw [hfr] at hst
    cases hsp : sp.stack with
    | nil => rw [hsp] at hst; cases hst
    | cons b0 bs =>
      rw [hsp] at hst
      simp only [List.map_cons, List.cons.injEq] at hst
      have hbr : ∀ q, q ≠ f.ent → (q ∈ s.frames.map Frame.ent ↔ q ∈ r.map Frame.ent) := by
        intro q hq; rw [hfr]; simp [hq]
      have hframe : ∀ g ∈ r, g ∈ s.frames := fun g hg => by rw [hfr]; exact List.mem_cons_of_mem _ hg
      cases hcond : e.fdelete && !f.oldInuse with
      | false =>
        refine ⟨{ s with ents := upd s.ents f.ent (some { e with finuse := f.oldInuse }), frames := r }, by simp [ret, hfr, he, hcond], ?_⟩
        have conv : ∀ q x, upd s.ents f.ent (some { e with finuse := f.oldInuse }) q = some x → ∃ x', s.ents q = some x' ∧ x' = { x with finuse := x'.finuse } := by
          intro q x hx
          by_cases hqp : q = f.ent
          · subst hqp; simp only [hself] at hx; cases hx; exact ⟨e, he, rfl⟩
          · simp only [hup _ q hqp] at hx; exact ⟨x, hx, rfl⟩
        have back : ∀ q x, s.ents q = some x → ∃ x', upd s.ents f.ent (some { e with finuse := f.oldInuse }) q = some x' ∧ x = { x' with finuse := x.finuse } := by
          intro q x hx
          by_cases hqp : q = f.ent
          · subst hqp; rw [he] at hx; cases hx; exact ⟨_, hself _, rfl⟩
          · exact ⟨x, by rw [hup _ q hqp]; exact hx, rfl⟩
        refine ⟨?_, ?_, h.belowT, ?_, ?_, ?_, ?_, ?_, ?_, hold, ?_, ?_, ?_, ?_, ?_⟩
        · apply h.ti.congr
          intro q hq
          by_cases hqp : q = f.ent
          · subst hqp; simp [upd, he]
          · simp [upd, hqp]
        · intro q hq
          obtain ⟨x, hx⟩ := Option.isSome_iff_exists.1 hq
          obtain ⟨x', hx', -⟩ := conv q x hx
          exact h.below q (by rw [hx']; rfl)
        · intro q x hx hxd
          obtain ⟨x', hx', heq⟩ := conv q x hx
          exact h.inTab q x' hx' (by rw [heq]; exact hxd)
        · intro q x hx hxd
          obtain ⟨x', hx', heq⟩ := conv q x hx
          have := h.defd q x' hx' (by rw [heq]; exact hxd)
          rw [heq] at this; exact this
        · intro q x hx hxd hxu
          by_cases hqp : q = f.ent
          · subst hqp; simp only [hself] at hx; cases hx; exact h.zapd _ e he hxd hu
          · simp only [hup _ q hqp] at hx; exact h.zapd q x hx hxd hxu
        · intro q x hx hxd hxu
          by_cases hqp : q = f.ent
          · subst hqp; simp only [hself] at hx; cases hx
            have := (h.zapd _ e he hxd hu).1
            simp only at hxu
            rw [this, hxu] at hcond
            cases hcond
          · simp only [hup _ q hqp] at hx; exact h.dead q x hx hxd hxu
        · intro q x hx
          by_cases hqp : q = f.ent
          · subst hqp; simp only [hself] at hx; cases hx; exact ho
          · simp only [hup _ q hqp] at hx
            rw [h.use q x hx]
            exact hbr q hqp
        · intro g hg
          obtain ⟨x, hx, hxt⟩ := h.frame g (hframe g hg)
          obtain ⟨x', hx', heq⟩ := back _ x hx
          exact ⟨x', hx', by rw [heq] at hxt; exact hxt⟩
        · intro q x hx hxa
          obtain ⟨x', hx', heq⟩ := conv q x hx
          have := h.own q x' hx' (by rw [heq]; exact hxa)
          rw [heq] at this; exact this
        · intro q r x y hx hy hxa hya hxy
          obtain ⟨x', hx', heq⟩ := conv q x hx
          obtain ⟨y', hy', heq'⟩ := conv r y hy
          exact h.once q r x' y' hx' hy' (by rw [heq]; exact hxa) (by rw [heq']; exact hya) (by rw [heq, heq']; exact hxy)
        · intro t ht
          obtain ⟨q, x, hx, hxa, hxt⟩ := h.kept t ht
          obtain ⟨x', hx', heq⟩ := back _ x hx
          exact ⟨q, x', hx', by rw [heq] at hxa; exact hxa, by rw [heq] at hxt; exact hxt⟩
        · intro m c
          simp only [Sp.step]
          rw [h.env]
          constructor
          · rintro ⟨q, x, hx, hxd, hxn, hxt⟩
            obtain ⟨x', hx', heq⟩ := back _ x hx
            rw [heq] at hxd hxn hxt
            exact ⟨q, x', hx', hxd, hxn, hxt⟩
          · rintro ⟨q, x, hx, hxd, hxn, hxt⟩
            obtain ⟨x', hx', heq⟩ := conv q x hx
            exact ⟨q, x', hx', by rw [heq]; exact hxd, by rw [heq]; exact hxn, by rw [heq]; exact hxt⟩
        · simp only [Sp.step, hsp, List.tail_cons]
          exact hst.2
      | true =>
        simp only [Bool.and_eq_true, Bool.not_eq_true'] at hcond
        obtain ⟨hfd, hoi⟩ := hcond
        have hd : e.defined = false := by
          cases hed : e.defined with
          | false => rfl
          | true => rw [(h.defd _ e he hed).2.2.1] at hfd; cases hfd
        have hnr : f.ent ∉ r.map Frame.ent := fun hc => by rw [ho.2 hc] at hoi; cases hoi
        obtain ⟨b, hb⟩ := Option.isSome_iff_exists.1 (h.own _ e he ha)
        have htree : ∀ q x, q ≠ f.ent → s.ents q = some x → x.alloc = true → x.tree ≠ e.tree := fun q x hq hx hxa hc => hq (h.once q _ x e hx he hxa ha hc)
        have hnew : ∀ x, some { fresh e.name with tree := e.tree } = some x → x.defined = false ∧ x.finuse = false ∧ x.alloc = false := by
          intro x hx; cases hx; exact ⟨rfl, rfl, rfl⟩
        refine ⟨{ s with trees := upd s.trees e.tree none, ents := upd s.ents f.ent (some { fresh e.name with tree := e.tree }), frames := r },
          by simp [ret, hfr, he, hfd, hoi, drop, ha, hb, Out.bind], ?_⟩
        refine ⟨h.ti.undefine he rfl, ?_, ?_, ?_, ?_, ?_, ?_, ?_, ?_, hold, ?_, ?_, ?_, ?_, ?_⟩
        · intro q hq
          by_cases hqp : q = f.ent
          · subst hqp; exact h.below _ (by rw [he]; rfl)
          · simp only [hup _ q hqp] at hq; exact h.below q hq
        · intro t ht
          simp only [upd] at ht
          split at ht
          · cases ht
          · exact h.belowT t ht
        · intro q x hx hxd
          by_cases hqp : q = f.ent
          · subst hqp; simp only [hself] at hx; rw [(hnew x hx).1] at hxd; cases hxd
          · simp only [hup _ q hqp] at hx; exact h.inTab q x hx hxd
        · intro q x hx hxd
          by_cases hqp : q = f.ent
          · subst hqp; simp only [hself] at hx; rw [(hnew x hx).1] at hxd; cases hxd
          · simp only [hup _ q hqp] at hx; exact h.defd q x hx hxd
        · intro q x hx hxd hxu
          by_cases hqp : q = f.ent
          · subst hqp; simp only [hself] at hx; rw [(hnew x hx).2.1] at hxu; cases hxu
          · simp only [hup _ q hqp] at hx; exact h.zapd q x hx hxd hxu
        · intro q x hx hxd hxu
          by_cases hqp : q = f.ent
          · subst hqp; simp only [hself] at hx; exact (hnew x hx).2.2
          · simp only [hup _ q hqp] at hx; exact h.dead q x hx hxd hxu
        · intro q x hx
          by_cases hqp : q = f.ent
          · subst hqp; simp only [hself] at hx; rw [(hnew x hx).2.1]
            constructor
            · intro hc; cases hc
            · intro hc; exact absurd hc hnr
          · simp only [hup _ q hqp] at hx
            rw [h.use q x hx]
            exact hbr q hqp
        · intro g hg
          obtain ⟨x, hx, hxt⟩ := h.frame g (hframe g hg)
          have hqp : g.ent ≠ f.ent := fun hc => hnr (List.mem_map.2 ⟨g, hg, hc⟩)
          exact ⟨x, by simp only [hup _ _ hqp]; exact hx, hxt⟩
        · intro q x hx hxa
          by_cases hqp : q = f.ent
          · subst hqp; simp only [hself] at hx; rw [(hnew x hx).2.2] at hxa; cases hxa
          · simp only [hup _ q hqp] at hx
            simp only [upd, htree q x hqp hx hxa, if_false]
            exact h.own q x hx hxa
        · intro q r x y hx hy hxa hya hxy
          by_cases hqp : q = f.ent
          · subst hqp; simp only [hself] at hx; rw [(hnew x hx).2.2] at hxa; cases hxa
          · by_cases hrp : r = f.ent
            · subst hrp; simp only [hself] at hy; rw [(hnew y hy).2.2] at hya; cases hya
            · simp only [hup _ q hqp] at hx
              simp only [hup _ r hrp] at hy
              exact h.once q r x y hx hy hxa hya hxy
        · intro t ht
          simp only [upd] at ht
          split at ht
          · cases ht
          · rename_i hte
            obtain ⟨q, x, hx, hxa, hxt⟩ := h.kept t ht
            have hqp : q ≠ f.ent := by
              intro hc; subst hc; rw [he] at hx; cases hx; exact hte hxt.symm
            exact ⟨q, x, by simp only [hup _ q hqp]; exact hx, hxa, hxt⟩
        · intro m c
          simp only [Sp.step]
          rw [h.env]
          constructor
          · rintro ⟨q, x, hx, hxd, hxn, hxt⟩
            have hqp : q ≠ f.ent := by
              intro hc; subst hc; rw [he] at hx; cases hx; rw [hd] at hxd; cases hxd
            exact ⟨q, x, by simp only [hup _ q hqp]; exact hx, hxd, hxn, by simp only [upd, htree q x hqp hx (h.defd q x hx hxd).2.1, if_false]; exact hxt⟩
          · rintro ⟨q, x, hx, hxd, hxn, hxt⟩
            by_cases hqp : q = f.ent
            · subst hqp; simp only [hself] at hx; rw [(hnew x hx).1] at hxd; cases hxd
            · simp only [hup _ q hqp] at hx
              simp only [upd, htree q x hqp hx (h.defd q x hx hxd).2.1, if_false] at hxt
              exact ⟨q, x, hx, hxd, hxn, hxt⟩
        · simp only [Sp.step, hsp, List.tail_cons]
          rw [← hst.2]
          apply List.map_congr_left
          intro g hg
          have : g.tree ≠ e.tree := by
            intro hc
            exact hnr (List.mem_map.2 ⟨g, hg, h.tree_used he ha (hframe g hg) hc⟩)
          simp [upd, this]

/-- The operation is not about a function with an empty name. -/
def Named : Op B → Prop
  | .define n _ _ => n ≠ []
  | .remove n => n ≠ []
  | _ => True

theorem step_spec {s : St B} {sp : Sp B} (h : MI s sp) (o : Op B) (ho : Named o) : step s o = .tooMany ∨ ∃ s', step s o = .ok s' ∧ MI s' (sp.step o) := by
  cases o with
  | define n b k =>
    rcases define_core h ho with ht | ⟨D, p, d, g, -, h2⟩
    · exact Or.inl (ht (some (b, k)))
    · refine Or.inr ⟨_, h2 b k, ?_⟩
      have := g.define ho b (oldStyle s n || k)
      rw [set_set] at this
      exact this
  | remove n =>
    rcases define_core h ho with ht | ⟨D, p, d, g, h1, -⟩
    · exact Or.inl (ht none)
    · exact Or.inr ⟨D, h1, g.mi⟩
  | call n => exact Or.inr (call_spec h n)
  | ret => exact Or.inr (ret_spec h)

theorem run_spec : ∀ (ops : List (Op B)) {s : St B} {sp : Sp B}, MI s sp → (∀ o ∈ ops, Named o) →
    run s ops = .tooMany ∨ ∃ s', run s ops = .ok s' ∧ MI s' (sp.run ops)
  | [], s, sp, h, _ => Or.inr ⟨s, rfl, h⟩
  | o :: r, s, sp, h, hn => by
    rcases step_spec h o (hn o (by simp)) with ht | ⟨s', h1, h2⟩
    · exact Or.inl (by simp [run, ht, Out.bind])
    · rcases run_spec r h2 (fun o ho => hn o (List.mem_cons_of_mem _ ho)) with ht | ⟨s'', h3, h4⟩
      · exact Or.inl (by simp [run, h1, Out.bind, ht])
      · exact Or.inr ⟨s'', by simp [run, h1, Out.bind, h3], h4⟩

/-! ## The theorems -/

def Out.isBad {α : Type} : Out α → Bool
  | .bad => true
  | _ => false

/-- The body that a call of `n` executes. -/
def body (s : St B) (n : Name) : Option B :=
  match search s n with
  | .ok (some p) => (s.ents p).bind fun e => s.trees e.tree
  | _ => none

/-- The style of the function `n`. -/
def style (s : St B) (n : Name) : Option Bool :=
  match search s n with
  | .ok (some p) => (s.ents p).map Ent.fksh
  | _ => none

theorem MI.body {s : St B} {sp : Sp B} (h : MI s sp) (n : Name) : Func.body s n = sp.env n := by
  unfold Func.body
  rcases search_spec h.ti n with ⟨p, e, h1, h2, h3, h4, h5⟩ | ⟨h1, h2⟩
  · obtain ⟨b, hb⟩ := Option.isSome_iff_exists.1 (h.own p e h3 (h.defd p e h3 h5).2.1)
    rw [h1, (h.env n b).2 ⟨p, e, h3, h5, h4, hb⟩]
    simp [h3, hb]
  · rw [h1]
    cases hb : sp.env n with
    | none => rfl
    | some b =>
      obtain ⟨p, e, he, hd, hnm, -⟩ := (h.env n b).1 hb
      exact absurd hnm (h2 p e (h.inTab p e he hd) he hd)

/-- **C74** Full statement: whatever functions do to functions, no released memory is used, every call executes the body its name had
when it was called, to the end, and only the bodies of functions and of calls in progress are kept.  It is
false for a function whose name is empty (`empty_name_released`), so that names are not empty here. -/
theorem functions_live_partial (ops : List (Op B)) (hn : ∀ o ∈ ops, Named o) :
    run init ops = .tooMany ∨ ∃ s, run init ops = .ok s ∧
      s.frames.map (fun f => s.trees f.tree) = (Sp.init.run ops).stack.map some ∧
      (∀ n, body s n = (Sp.init.run ops).env n) ∧
      (∀ t, (s.trees t).isSome → t ∈ s.frames.map Frame.tree ∨ ∃ n p e, search s n = .ok (some p) ∧ s.ents p = some e ∧ e.tree = t) := by
  rcases run_spec ops MI.init hn with ht | ⟨s, h1, h2⟩
  · exact Or.inl ht
  · refine Or.inr ⟨s, h1, h2.stack, h2.body, fun t ht => ?_⟩
    obtain ⟨p, e, he, ha, het⟩ := h2.kept t ht
    cases hd : e.defined with
    | true =>
      right
      rcases search_spec h2.ti e.name with ⟨q, x, a1, a2, a3, a4, a5⟩ | ⟨-, a2⟩
      · have := h2.ti.unique a2 (h2.inTab p e he hd) a3 he a5 hd a4
        subst this
        exact ⟨e.name, q, e, a1, he, het⟩
      · exact absurd rfl (a2 p e (h2.inTab p e he hd) he hd)
    | false =>
      left
      have hu : e.finuse = true := by
        cases hu : e.finuse with
        | true => rfl
        | false => rw [h2.dead p e he hd hu] at ha; cases ha
      obtain ⟨f, hf, hfe⟩ := List.mem_map.1 ((h2.use p e he).1 hu)
      obtain ⟨x, hx, hxt⟩ := h2.frame f hf
      rw [hfe, he] at hx; cases hx
      exact List.mem_map.2 ⟨f, hf, by rw [← hxt, het]⟩

/-- Full statement: a function has the style (`function f` or `f()`) of its last definition.  This is
so unless the name has a function of the other style that is not being executed. -/
theorem style_of_definition_partial (ops : List (Op B)) (hn : ∀ o ∈ ops, Named o) (n : Name) (hne : n ≠ []) (b : B) (ksh : Bool) (s s' : St B)
    (hr : run init ops = .ok s) (hs : step s (.define n b ksh) = .ok s') : style s' n = some (oldStyle s n || ksh) := by
  rcases run_spec ops MI.init hn with ht | ⟨s0, h1, h2⟩
  · rw [hr] at ht; cases ht
  · rw [hr] at h1; cases h1
    rcases define_core h2 hne with ht | ⟨D, p, d, g, -, hdef⟩
    · have : define s n (some (b, ksh)) = .ok s' := hs
      rw [ht] at this; cases this
    · have h3 : define s n (some (b, ksh)) = .ok s' := hs
      rw [hdef] at h3
      have h4 := g.define hne b (oldStyle s n || ksh)
      obtain rfl := Out.ok.inj h3
      unfold style
      rcases search_spec h4.ti n with ⟨q, x, a1, a2, a3, a4, a5⟩ | ⟨a1, a2⟩
      · have := h4.ti.unique a2 g.slot a3 (e' := ⟨n, true, true, true, false, false, oldStyle s n || ksh, D.next⟩) (by simp [upd]) a5 rfl a4
        subst this
        rw [a1]
        simp [upd]
      · exact absurd rfl (a2 p ⟨n, true, true, true, false, false, oldStyle s n || ksh, D.next⟩ g.slot (by simp [upd]) rfl)

/-- `function f { ...; }; f() { ...; }`: the function is a `function f` still. -/
theorem style_sticks : ∃ s : St Nat, run init [.define [102] 1 true, .define [102] 2 false] = .ok s ∧ style s [102] = some true ∧ body s [102] = some 2 :=
  ⟨_, rfl, by decide +kernel, by decide +kernel⟩

/-- `'' () { unset -f ''; a() { :; }; ...; f() { :; }; }; ''`: the entry of the function is released by
the growth of the table and used at the end of the call. -/
theorem empty_name_released :
    (run (init : St Nat) ([.define [] 0 false, .call [], .remove []] ++ [97, 98, 99, 100, 101, 102].map (fun c => .define [c] 1 false))).isBad = false ∧
    (run (init : St Nat) ([.define [] 0 false, .call [], .remove []] ++ [97, 98, 99, 100, 101, 102].map (fun c => .define [c] 1 false) ++ [.ret])).isBad = true := by
  constructor <;> decide +kernel

/-- A function replaces and removes itself while it is executed recursively. -/
example : ∃ s : St Nat, run init [.define [102] 1 true, .call [102], .call [102], .define [102] 2 false, .call [102], .remove [102]] = .ok s ∧
    s.frames.map (fun f => s.trees f.tree) = [some 2, some 1, some 1] ∧ body s [102] = none :=
  ⟨_, rfl, by decide +kernel, by decide +kernel⟩

end Ksh.Func
