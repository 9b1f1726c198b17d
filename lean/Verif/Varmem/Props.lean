import Verif.Varmem.Model

/-!
# The memory of the value of a variable: proofs
-/
namespace Ksh.Varmem

/-! ## The heap -/

structure HeapOk (h : H) : Prop where
  lt : ∀ p ∈ h.live, p.1 < h.next

theorem get_new (h : H) (c : Str) : (h.new c).get h.next = some c := by
  simp [H.get, H.new]

theorem get_lt {h : H} (ho : HeapOk h) {a : Nat} {c : Str} (hg : h.get a = some c) : a < h.next := by
  simp only [H.get, Option.map_eq_some_iff] at hg
  obtain ⟨p, hp, -⟩ := hg
  have h1 := List.mem_of_find?_eq_some hp
  have h2 := List.find?_some hp
  simp only [decide_eq_true_eq] at h2
  have := ho.lt p h1
  omega

theorem get_new_old {h : H} (c : Str) {a : Nat} (ha : a ≠ h.next) : (h.new c).get a = h.get a := by
  have : ¬ h.next = a := fun e => ha e.symm
  simp [H.get, H.new, this]

theorem HeapOk.new {h : H} (ho : HeapOk h) (c : Str) : HeapOk (h.new c) := by
  constructor
  intro p hp
  simp only [H.new, List.mem_cons] at hp ⊢
  rcases hp with rfl | hp
  · simp
  · have := ho.lt p hp
    omega

theorem free_some {h : H} {a : Nat} {c : Str} (hg : h.get a = some c) :
    h.free a = some { h with live := h.live.filter fun p => p.1 ≠ a } := by
  simp [H.free, hg]

theorem HeapOk.free {h : H} (ho : HeapOk h) {a : Nat} {h' : H} (hf : h.free a = some h') : HeapOk h' := by
  simp only [H.free] at hf
  split at hf
  · cases hf
    exact ⟨fun p hp => ho.lt p (List.mem_filter.1 hp).1⟩
  · cases hf

theorem get_free {h : H} {a b : Nat} {h' : H} (hf : h.free a = some h') (hb : b ≠ a) :
    h'.get b = h.get b := by
  simp only [H.free] at hf
  split at hf
  · cases hf
    simp only [H.get]
    congr 1
    rw [List.find?_filter]
    congr 1
    funext p
    by_cases e : p.1 = b
    · have : p.1 ≠ a := by omega
      simp [e, hb]
    · simp [e]
  · cases hf

/-! ## The invariant -/

/-- The text of the variable: none of it is missing or freed. -/
structure Own (s : S) : Prop where
  noint : s.v.integer = false
  mem : ∃ a c, s.v.val = .ptr a ∧ s.h.get a = some c ∧
    (s.v.type = 0 ∨ (s.v.type = s.v.name.length + 1 ∧ ∃ r, c = s.v.name ++ '=' :: r))

structure Inv (s : S) : Prop where
  heap : HeapOk s.h
  own : s.v.alloc = true → Own s
  set : s.v.isset = true → s.v.integer = false → s.v.alloc = true
  env : s.v.isset = true → s.v.integer = false → s.v.exp = true → s.v.type = s.v.name.length + 1

theorem fresh_inv (name : Str) (a : Att) (type : Nat) : Inv (fresh name a type) :=
  ⟨⟨by simp [fresh]⟩, by simp [fresh], by simp [fresh], by simp [fresh]⟩

theorem dropVal_inv {s : S} (h : HeapOk s.h) (ho : s.v.alloc = true → Own s) :
    ∃ h', dropVal s = some { s with h := h' } ∧ HeapOk h' := by
  unfold dropVal
  split
  · rename_i ha
    obtain ⟨a, c, hv, hg, -⟩ := (ho ha).mem
    simp only [hv, free_some hg, Option.map_some]
    exact ⟨_, rfl, h.free (free_some hg)⟩
  · exact ⟨s.h, rfl, h⟩

/-- A new value. -/
theorem store_own (t : Str) {s : S} (hi : s.v.integer = false) : Own (store t s) := by
  unfold store
  split
  · exact ⟨hi, s.h.next, s.v.name ++ '=' :: t, rfl, get_new _ _, .inr ⟨rfl, t, rfl⟩⟩
  · exact ⟨hi, s.h.next, t, rfl, get_new _ _, .inl rfl⟩

theorem store_heap (t : Str) {s : S} (h : HeapOk s.h) : HeapOk (store t s).h := by
  unfold store
  split
  · exact h.new _
  · exact h.new _

theorem store_flags (t : Str) (s : S) : (store t s).v.alloc = true ∧ (store t s).v.integer = s.v.integer ∧
    (store t s).v.exp = s.v.exp ∧ (store t s).v.name = s.v.name ∧ (store t s).v.isset = s.v.isset ∧
    (store t s).v.ro = s.v.ro ∧ (store t s).v.fm = s.v.fm ∧
    (s.v.exp = true → (store t s).v.type = s.v.name.length + 1) ∧
    (s.v.exp = false → (store t s).v.type = 0) := by
  unfold store
  split <;> simp_all

/-- The text that was stored. -/
theorem store_val (t : Str) (s : S) : ∃ c, stored (store t s) = some c ∧ c.drop (store t s).v.type = t := by
  unfold store
  split
  · refine ⟨s.v.name ++ '=' :: t, by simp [stored, get_new], ?_⟩
    simp [List.drop_append]
  · exact ⟨t, by simp [stored, get_new], rfl⟩

theorem Own.isset {s : S} (h : Own s) (b : Bool) : Own { s with v := { s.v with isset := b } } :=
  ⟨h.noint, h.mem⟩

theorem strVal_text (E : Env) {s : S} {c : Str} (h1 : s.v.isset = true) (h2 : s.v.integer = false)
    (h3 : stored s = some c) : strVal E s = some (c.drop s.v.type) := by
  simp [strVal, h1, h2, h3]

/-- `setstr` misuses no memory; if it succeeds the variable has the text. -/
theorem setstr_spec (E : Env) (t : Str) (ign : Bool) (e : Option (Int × Nat)) {s : S} (hh : HeapOk s.h)
    (ho : s.v.alloc = true → Own s) :
    ∃ s' ok, setstr E t ign e s = some (s', ok) ∧
      (ok = false → s' = s ∧ (s.v.ro = true ∧ ign = false ∨ s.v.integer = true ∧ e = none)) ∧
      (ok = true → Inv s' ∧ s'.v.isset = true ∧ s'.v.integer = s.v.integer ∧ s'.v.exp = s.v.exp ∧
        s'.v.name = s.v.name ∧ s'.v.ro = s.v.ro ∧ s'.v.fm = s.v.fm ∧
        (s.v.integer = false → strVal E s' = some (if s.v.fm then E.fmt t else t)) ∧
        (∀ n b, s.v.integer = true → e = some (n, b) → s'.v.val = .int n)) := by
  unfold setstr
  by_cases hr : (s.v.ro && !ign) = true
  · rw [if_pos hr]
    simp only [Bool.and_eq_true, Bool.not_eq_true'] at hr
    exact ⟨s, false, rfl, fun _ => ⟨rfl, .inl hr⟩, fun h => by cases h⟩
  rw [if_neg hr]
  cases hint : s.v.integer with
  | false =>
    obtain ⟨h', hd, hh'⟩ := dropVal_inv hh ho
    let s0 : S := ⟨{ s.v with isset := false, alloc := false, type := 0 }, h'⟩
    let t' := if s.v.fm then E.fmt t else t
    refine ⟨{ store t' s0 with v := { (store t' s0).v with isset := true } }, true,
      by simp only [Bool.not_false, if_true, hd]; rfl, (fun h => by cases h), fun _ => ?_⟩
    have f := store_flags t' s0
    have o := store_own t' (s := s0) hint
    obtain ⟨c, hc, hcd⟩ := store_val t' s0
    refine ⟨⟨store_heap t' (s := s0) hh', fun _ => o.isset true, fun _ _ => f.1, fun _ _ he => ?_⟩, rfl,
      f.2.1.trans hint, f.2.2.1, f.2.2.2.1, f.2.2.2.2.2.1, f.2.2.2.2.2.2.1, fun _ => ?_, fun n b hi => by cases hi⟩
    · have he' : s0.v.exp = true := f.2.2.1 ▸ he
      exact (f.2.2.2.2.2.2.2.1 he').trans (by rw [show s0.v.name = _ from f.2.2.2.1.symm])
    · have hi' : (store t' s0).v.integer = false := f.2.1.trans hint
      show strVal E { store t' s0 with v := { (store t' s0).v with isset := true } } = some t'
      have hc' : stored { store t' s0 with v := { (store t' s0).v with isset := true } } = some c := hc
      exact (strVal_text E (s := { store t' s0 with v := { (store t' s0).v with isset := true } })
        rfl hi' hc').trans (congrArg some hcd)
  | true =>
    cases e with
    | none => exact ⟨s, false, rfl, fun _ => ⟨rfl, .inr ⟨rfl, rfl⟩⟩, fun h => by cases h⟩
    | some p =>
      obtain ⟨n, b⟩ := p
      refine ⟨_, true, rfl, (fun h => by cases h), fun _ => ⟨⟨hh, fun ha => ?_, fun _ hi => ?_, fun _ hi => ?_⟩,
        rfl, hint, rfl, rfl, rfl, rfl, (fun hi => by cases hi), (fun n' b' _ he => by cases he; rfl)⟩⟩
      · have := (ho ha).noint
        rw [hint] at this
        cases this
      · rw [hint] at hi; cases hi
      · rw [hint] at hi; cases hi

theorem Inv.stored {s : S} (h : Inv s) (hs : s.v.isset = true) (hi : s.v.integer = false) :
    ∃ a c, s.v.val = .ptr a ∧ Varmem.stored s = some c ∧ s.h.get a = some c := by
  obtain ⟨a, c, hv, hg, -⟩ := (h.own (h.set hs hi)).mem
  exact ⟨a, c, hv, by simp [Varmem.stored, hv, hg], hg⟩

theorem Inv.strVal {s : S} (h : Inv s) (E : Env) : ∃ t, Varmem.strVal E s = some t := by
  unfold Varmem.strVal
  cases hs : s.v.isset with
  | false => exact ⟨[], by simp⟩
  | true =>
    cases hi : s.v.integer with
    | false =>
      obtain ⟨a, c, -, hc, -⟩ := h.stored hs hi
      exact ⟨c.drop s.v.type, by simp [hc]⟩
    | true =>
      cases hv : s.v.val with
      | int n => exact ⟨_, rfl⟩
      | ptr a => exact ⟨_, rfl⟩

/-- var.c:751-755 restores what the environment needs. -/
theorem exportEnd_spec (E : Env) {s : S} (hh : HeapOk s.h) (ho : s.v.alloc = true → Own s)
    (hs : s.v.isset = true → s.v.integer = false → s.v.alloc = true)
    (hok : s.v.isset = true → s.v.integer = false → s.v.type = 0 ∨ s.v.type = s.v.name.length + 1) :
    ∃ s', exportEnd s = some s' ∧ Inv s' ∧ Varmem.strVal E s' = Varmem.strVal E s ∧
      s'.v.exp = s.v.exp ∧ s'.v.ro = s.v.ro ∧ s'.v.integer = s.v.integer ∧ s'.v.isset = s.v.isset ∧
      s'.v.name = s.v.name := by
  unfold exportEnd
  by_cases hc : (s.v.exp && !s.v.integer && decide (s.v.type = 0)) = true
  · rw [if_pos hc]
    simp only [Bool.and_eq_true, Bool.not_eq_true', decide_eq_true_eq] at hc
    obtain ⟨⟨he, hi⟩, ht⟩ := hc
    have hst : ∃ c, (if s.v.isset then Varmem.stored s else some []) = some c ∧
        (s.v.isset = true → Varmem.stored s = some c) := by
      cases hb : s.v.isset with
      | false => exact ⟨[], rfl, fun h => by cases h⟩
      | true =>
        obtain ⟨a, c, hv, hg, -⟩ := (ho (hs hb hi)).mem
        exact ⟨c, by simp [Varmem.stored, hv, hg], fun _ => by simp [Varmem.stored, hv, hg]⟩
    obtain ⟨c, hc1, hc2⟩ := hst
    rw [hc1]
    simp only
    have f := store_flags c s
    have o := store_own c hi
    obtain ⟨d, hd1, hd2⟩ := store_val c s
    have hval : ∀ s' : S, s'.v = (store c s).v → Varmem.stored s' = some d →
        Varmem.strVal E s' = Varmem.strVal E s := by
      intro s' hv' hd'
      unfold Varmem.strVal
      rw [hv', f.2.1, f.2.2.2.2.1, hi]
      cases hb : s.v.isset with
      | false => rfl
      | true =>
        simp only [Bool.not_true, Bool.false_eq_true, if_false, Bool.not_false, if_true]
        rw [hd', hc2 hb, ht]
        simp only [Option.map_some, List.drop_zero]
        exact congrArg some hd2
    cases ha : s.v.alloc with
    | false =>
      simp only [Bool.false_eq_true, if_false]
      exact ⟨_, rfl, ⟨store_heap c hh, fun _ => o, fun _ _ => f.1, fun _ _ _ => by
        rw [f.2.2.2.2.2.2.2.1 he, f.2.2.2.1]⟩, hval _ rfl hd1, f.2.2.1, f.2.2.2.2.2.1, f.2.1,
        f.2.2.2.2.1, f.2.2.2.1⟩
    | true =>
      simp only [if_true]
      obtain ⟨a, c', hv, hg, -⟩ := (ho ha).mem
      rw [hv]
      simp only
      have hlt := get_lt hh hg
      have hnh : (store c s).h = s.h.new (s.v.name ++ '=' :: c) := by
        unfold store
        rw [if_pos he]
      have hnv : (store c s).v.val = .ptr s.h.next := by
        unfold store
        rw [if_pos he]
      have hg' : (store c s).h.get a = some c' := by
        rw [hnh, get_new_old _ (by omega)]
        exact hg
      have hf := free_some hg'
      rw [hf]
      simp only [Option.map_some]
      have hnext : ∀ h', (store c s).h.free a = some h' → h'.get s.h.next = (store c s).h.get s.h.next :=
        fun h' hh' => get_free hh' (by omega)
      have hnn := hnext _ hf
      refine ⟨_, rfl, ⟨(store_heap c hh).free hf, fun _ => ?_, fun _ _ => f.1, fun _ _ _ => by
        rw [f.2.2.2.2.2.2.2.1 he, f.2.2.2.1]⟩, hval _ rfl ?_, f.2.2.1, f.2.2.2.2.2.1, f.2.1,
        f.2.2.2.2.1, f.2.2.2.1⟩
      · obtain ⟨b, c2, hb1, hb2, hb3⟩ := o.mem
        rw [hnv] at hb1
        cases hb1
        exact ⟨o.noint, s.h.next, c2, hnv, by rw [hnn]; exact hb2, hb3⟩
      · have : Varmem.stored (store c s) = (store c s).h.get s.h.next := by simp [Varmem.stored, hnv]
        rw [this] at hd1
        simp only [Varmem.stored, hnv, hnn, hd1]
  · rw [if_neg hc]
    refine ⟨s, rfl, ⟨hh, ho, hs, fun h1 h2 h3 => ?_⟩, rfl, rfl, rfl, rfl, rfl, rfl⟩
    rcases hok h1 h2 with h4 | h4
    · exact absurd (by simp [h2, h3, h4]) hc
    · exact h4

/-- Freeing a block that is not the variable's. -/
theorem Inv.free {s : S} (h : Inv s) {a : Nat} {h' : H} (hf : s.h.free a = some h')
    (hne : s.v.alloc = true → s.v.val ≠ .ptr a) : Inv { s with h := h' } := by
  refine ⟨h.heap.free hf, fun ha => ?_, h.set, h.env⟩
  obtain ⟨b, c, hv, hg, ht⟩ := (h.own ha).mem
  refine ⟨(h.own ha).noint, b, c, hv, ?_, ht⟩
  rw [get_free hf (by intro e; exact hne ha (by rw [hv, e]))]
  exact hg

/-- Where `setstr` puts the value of a variable that has no storage. -/
theorem setstr_heap (E : Env) (t : Str) (ign : Bool) (e : Option (Int × Nat)) {s s' : S} {ok : Bool}
    (ha : s.v.alloc = false) (h : setstr E t ign e s = some (s', ok)) :
    (s'.h = s.h ∧ s'.v.alloc = false) ∨ ∃ c, s'.h = s.h.new c ∧ s'.v.val = .ptr s.h.next := by
  unfold setstr at h
  split at h
  · cases h; exact .inl ⟨rfl, ha⟩
  · split at h
    · simp only [dropVal, ha, Bool.false_eq_true, if_false] at h
      cases h
      right
      unfold store
      split
      · exact ⟨_, rfl, rfl⟩
      · exact ⟨_, rfl, rfl⟩
    · split at h
      · cases h; exact .inl ⟨rfl, ha⟩
      · cases h; exact .inl ⟨rfl, ha⟩

/-- The storage after the attributes changed. -/
theorem attrs_own (set clr : Att) (base : Nat) (given fake : Bool) {s : S} (h : Inv s)
    (ha : (attrs set clr base given fake s.v).alloc = true) :
    Own { s with v := attrs set clr base given fake s.v } ∧ s.v.alloc = true ∧ fake = false ∧
      set.integer = false := by
  simp only [attrs, Bool.and_eq_true, Bool.not_eq_true', Bool.and_eq_false_iff, Bool.not_eq_false'] at ha
  obtain ⟨⟨h1, h2⟩, h3⟩ := ha
  have o := h.own h1
  have hs : set.integer = false := by
    rcases h3 with h3 | h3
    · rw [o.noint] at h3; cases h3
    · exact h3
  refine ⟨⟨by simp [attrs, o.noint, hs], ?_⟩, h1, h2, hs⟩
  obtain ⟨a, c, hv, hg, ht⟩ := o.mem
  exact ⟨a, c, hv, hg, by simpa [attrs, hs] using ht⟩

theorem giveUp_inv {s : S} (hh : HeapOk s.h) (ho : s.v.alloc = false) :
    ∃ s', giveUp s = some s' ∧ Inv s' ∧ s'.h = s.h ∧ s'.v.alloc = false ∧ s'.v.name = s.v.name := by
  unfold giveUp
  split
  · exact ⟨_, rfl, ⟨hh, (fun h => by simp [ho] at h), (fun h => by simp at h), (fun h => by simp at h)⟩,
      rfl, ho, rfl⟩
  · simp only [dropVal, ho, Bool.false_eq_true, if_false, Option.map_some]
    exact ⟨_, rfl, ⟨hh, (fun h => by simp at h), (fun h => by simp at h), (fun h => by simp at h)⟩,
      rfl, rfl, rfl⟩

theorem freeOld_inv {s : S} (h : Inv s) {old : Option Nat}
    (ho : ∀ a, old = some a → (∃ c, s.h.get a = some c) ∧ (s.v.alloc = true → s.v.val ≠ .ptr a)) :
    ∃ h', freeOld old s = some { s with h := h' } ∧ Inv { s with h := h' } ∧
      ∀ b, old ≠ some b → h'.get b = s.h.get b := by
  cases old with
  | none => exact ⟨s.h, rfl, h, fun _ _ => rfl⟩
  | some a =>
    obtain ⟨⟨c, hc⟩, hne⟩ := ho a rfl
    have hf := free_some hc
    refine ⟨_, by simp only [freeOld, hf, Option.map_some], h.free hf hne, fun b hb => ?_⟩
    exact get_free hf (fun e => hb (by rw [e]))

/-- The value of a variable with its own text depends on the block it points to alone. -/
theorem strVal_heap (E : Env) {s : S} {h' : H}
    (hg : ∀ a, s.v.val = .ptr a → h'.get a = s.h.get a) :
    Varmem.strVal E { s with h := h' } = Varmem.strVal E s := by
  unfold Varmem.strVal Varmem.stored
  cases hv : s.v.val with
  | int n => simp
  | ptr a => simp [hg a hv]

/-- var.c:684-735: no memory is misused, and the old value is the value (formatted, or what it is
worth as a number) unless it cannot be evaluated. -/
theorem retype_spec (E : Env) (set clr : Att) (base : Nat) (given : Bool) (c : Conv) {s : S} (h : Inv s) :
    ∃ s' ok, retype E set clr base given c s = some (s', ok) ∧ HeapOk s'.h ∧
      (s'.v.alloc = true → Own s') ∧ (given = false → s'.v.isset = true →
        s'.v.integer = false → s'.v.alloc = true) ∧ (ok = false → Inv s') ∧ s'.v.name = s.v.name ∧
      (ok = true → s'.v.integer = ((s.v.integer || set.integer) && !clr.integer) ∧
        s'.v.exp = ((s.v.exp || set.exp) && !clr.exp) ∧ s'.v.ro = ((s.v.ro || set.ro) && !clr.ro) ∧
        s'.v.isset = s.v.isset) ∧
      (ok = true → fakeAssign set clr given s.v = true → s'.v.integer = false → ∀ t,
        Varmem.strVal E s = some t → Varmem.strVal E s' =
          some (if (s.v.fm || set.fm) && !clr.fm then E.fmt t else t)) := by
  unfold retype
  simp only
  cases hf : fakeAssign set clr given s.v with
  | false =>
    refine ⟨_, true, rfl, h.heap, fun ha => (attrs_own set clr base given false h ha).1, ?_,
      (fun hk => by cases hk), rfl, (fun _ => ⟨rfl, rfl, rfl, rfl⟩), (fun _ hk => by cases hk)⟩
    intro hg hs hi
    subst hg
    have hs' : s.v.isset = true := hs
    simp only [fakeAssign, hs', Bool.not_false, Bool.and_true, Bool.true_and] at hf
    simp only [attrs] at hi
    cases h1 : s.v.integer with
    | false =>
      have h2 := h.set hs' h1
      simp_all [attrs]
    | true => simp_all
  | true =>
    obtain ⟨t, ht⟩ := h.strVal E
    simp only [Bool.not_true, Bool.false_eq_true, if_false, ht]
    have ha1 : (attrs set clr base given true s.v).alloc = false := by simp [attrs]
    split
    · rename_i hu
      simp only [Bool.and_eq_true, decide_eq_true_eq] at hu
      refine ⟨_, false, rfl, h.heap, (fun ha => by rw [ha1] at ha; cases ha),
        (fun _ _ hi => by rw [hu.1] at hi; cases hi),
        fun _ => ⟨h.heap, (fun ha => by rw [ha1] at ha; cases ha), (fun _ hi => by rw [hu.1] at hi; cases hi),
          (fun _ hi => by rw [hu.1] at hi; cases hi)⟩, rfl, (fun hk => by cases hk), (fun hk => by cases hk)⟩
    · obtain ⟨s2, ok, h2, hk0, hk1⟩ := setstr_spec E t (!s.v.ro && set.ro) c.res
        (s := ⟨attrs set clr base given true s.v, s.h⟩) h.heap (fun ha => by rw [ha1] at ha; cases ha)
      have hheap := setstr_heap E t _ _ (s := ⟨attrs set clr base given true s.v, s.h⟩) ha1 h2
      rw [h2]
      simp only
      have hold : ∀ a, oldStorage true s.v = some a → ∃ c, s.h.get a = some c := by
        intro a hoa
        unfold oldStorage at hoa
        split at hoa
        · rename_i hcond
          simp only [Bool.true_and, Bool.and_eq_true] at hcond
          obtain ⟨a', c', hv, hg, -⟩ := (h.own hcond.2).mem
          rw [hv] at hoa
          cases hoa
          exact ⟨c', hg⟩
        · cases hoa
      cases ok with
      | false =>
        obtain ⟨e2, -⟩ := hk0 rfl
        subst e2
        obtain ⟨s3, h3, i3, hh3, ha3, hn3⟩ := giveUp_inv (s := ⟨attrs set clr base given true s.v, s.h⟩) h.heap ha1
        obtain ⟨h', h4, i4, -⟩ := freeOld_inv i3 (old := oldStorage true s.v) (fun a ha =>
          ⟨by rw [hh3]; exact hold a ha, fun hx => by rw [ha3] at hx; cases hx⟩)
        refine ⟨{ s3 with h := h' }, false, by simp [h3, h4], i4.heap, i4.own, fun _ => i4.set, fun _ => i4, hn3,
          (fun hk => by cases hk), (fun hk => by cases hk)⟩
      | true =>
        obtain ⟨i2, hset, hint, hexp, hname, hro, -, hstr, -⟩ := hk1 rfl
        have hx : ∀ a, oldStorage true s.v = some a →
            (∃ c, s2.h.get a = some c) ∧ (s2.v.alloc = true → s2.v.val ≠ .ptr a) := by
          intro a ha
          obtain ⟨d, hd⟩ := hold a ha
          have hlt := get_lt h.heap hd
          rcases hheap with ⟨e1, e2⟩ | ⟨cc, e1, e2⟩
          · exact ⟨⟨d, by rw [e1]; exact hd⟩, fun hy => by rw [e2] at hy; cases hy⟩
          · refine ⟨⟨d, ?_⟩, fun _ hy => ?_⟩
            · rw [e1]
              show (s.h.new cc).get a = _
              rw [get_new_old _ (by omega)]
              exact hd
            · rw [e2] at hy
              cases hy
              exact absurd hlt (by simp)
        obtain ⟨h', h4, i4, hkeep⟩ := freeOld_inv i2 hx
        have hiss : s.v.isset = true := by
          simp only [fakeAssign, Bool.and_eq_true] at hf
          exact hf.1.1
        refine ⟨{ s2 with h := h' }, true, by simp [h4], i4.heap, i4.own, fun _ => i4.set, fun _ => i4, hname,
          (fun _ => ⟨hint, hexp, hro, hset.trans hiss.symm⟩), fun _ _ hi t' ht' => ?_⟩
        cases ht'
        have hi2 : s2.v.integer = false := hi
        rw [strVal_heap E (fun a ha => hkeep a (fun hy => (hx a hy).2 (i2.set hset hi2) ha))]
        exact hstr (hint.symm.trans hi2)

/-- `typeset` misuses no memory. -/
theorem Inv.typeset (E : Env) (set clr : Att) (base : Nat) (val : Option Str) (c : Conv)
    (e : Option (Int × Nat)) {s : S} (h : Inv s) :
    ∃ s' ok, Varmem.typeset E set clr base val c e s = some (s', ok) ∧ Inv s' ∧ s'.v.name = s.v.name := by
  unfold Varmem.typeset
  split
  · exact ⟨s, false, rfl, h, rfl⟩
  · obtain ⟨s1, ok, h1, hh, ho, hs, hi, hn⟩ : ∃ s1 ok,
        (if (set.any || clr.any) = true then retype E set clr base val.isSome c s else some (s, true)) =
          some (s1, ok) ∧ HeapOk s1.h ∧ (s1.v.alloc = true → Own s1) ∧ (val.isSome = false →
          s1.v.isset = true → s1.v.integer = false → s1.v.alloc = true) ∧ (ok = false → Inv s1) ∧
          s1.v.name = s.v.name := by
      split
      · obtain ⟨s1, ok, a1, a2, a3, a4, a5, a6, -⟩ := retype_spec E set clr base val.isSome c h
        exact ⟨s1, ok, a1, a2, a3, a4, a5, a6⟩
      · exact ⟨s, true, rfl, h.heap, h.own, fun _ => h.set, fun _ => h, rfl⟩
    rw [h1]
    have htype : ∀ s : S, (s.v.alloc = true → Own s) →
        (s.v.isset = true → s.v.integer = false → s.v.alloc = true) → s.v.isset = true →
        s.v.integer = false → s.v.type = 0 ∨ s.v.type = s.v.name.length + 1 := by
      intro s ho hs h1 h2
      obtain ⟨a, c, -, -, ht⟩ := (ho (hs h1 h2)).mem
      rcases ht with ht | ⟨ht, -⟩
      · exact .inl ht
      · exact .inr ht
    cases ok with
    | false => exact ⟨s1, false, rfl, hi rfl, hn⟩
    | true =>
      cases val with
      | none =>
        simp only
        obtain ⟨s2, h2, i2, -, -, -, -, -, hn2⟩ := exportEnd_spec E hh ho (hs rfl) (htype s1 ho (hs rfl))
        exact ⟨s2, true, by rw [h2]; rfl, i2, hn2.trans hn⟩
      | some t =>
        simp only
        obtain ⟨s2, ok, h2, hk0, hk1⟩ := setstr_spec E t true e hh ho
        rw [h2]
        cases ok with
        | false =>
          obtain ⟨e2, e3⟩ := hk0 rfl
          subst e2
          rcases e3 with ⟨-, e3⟩ | ⟨e3, -⟩
          · cases e3
          · exact ⟨s2, false, rfl, ⟨hh, ho, (fun _ x => by rw [e3] at x; cases x),
              (fun _ x => by rw [e3] at x; cases x)⟩, hn⟩
        | true =>
          obtain ⟨i2, -, -, -, hn2, -⟩ := hk1 rfl
          simp only
          split
          · rename_i hb
            simp only [Bool.and_eq_true, decide_eq_true_eq] at hb
            have i3 : Inv { s2 with v := { s2.v with type := base } } :=
              ⟨i2.heap, (fun ha => by have := (i2.own ha).noint; rw [hb.1] at this; cases this),
                (fun _ x => by exact absurd (hb.1.symm.trans x) (by simp)),
                (fun _ x => by exact absurd (hb.1.symm.trans x) (by simp))⟩
            obtain ⟨s3, h3, j3, -, -, -, -, -, hn3⟩ := exportEnd_spec E i3.heap i3.own i3.set
              (htype _ i3.own i3.set)
            exact ⟨s3, true, by rw [h3]; rfl, j3, (hn3.trans hn2).trans hn⟩
          · obtain ⟨s3, h3, j3, -, -, -, -, -, hn3⟩ := exportEnd_spec E i2.heap i2.own i2.set
              (htype _ i2.own i2.set)
            exact ⟨s3, true, by rw [h3]; rfl, j3, (hn3.trans hn2).trans hn⟩

theorem Inv.setstr (E : Env) (t : Str) (ign : Bool) (e : Option (Int × Nat)) {s : S} (h : Inv s) :
    ∃ s' ok, Varmem.setstr E t ign e s = some (s', ok) ∧ Inv s' ∧ s'.v.name = s.v.name := by
  obtain ⟨s', ok, h1, h2, h3⟩ := setstr_spec E t ign e h.heap h.own
  cases ok with
  | false => exact ⟨s', false, h1, by rw [(h2 rfl).1]; exact h, by rw [(h2 rfl).1]⟩
  | true => exact ⟨s', true, h1, (h3 rfl).1, (h3 rfl).2.2.2.2.1⟩

/-- A number is put into a variable that is neither read-only, unset and a text. -/
theorem Inv.setint (E : Env) (n : Int) {s : S} (h : Inv s)
    (hb : s.v.ro = true → s.v.isset = false → s.v.integer = false → False) :
    ∃ s' ok, Varmem.setint E n s = some (s', ok) ∧ Inv s' ∧ s'.v.name = s.v.name := by
  unfold Varmem.setint
  cases hi : s.v.integer with
  | false =>
    obtain ⟨s', ok, h1, h2, h3⟩ := setstr_spec E (E.digits n 10) false none h.heap h.own
    simp only [Bool.not_false, if_true, h1]
    cases ok with
    | false =>
      obtain ⟨e1, e2⟩ := h2 rfl
      subst e1
      rcases e2 with ⟨e2, -⟩ | ⟨e2, -⟩
      · have hset : s'.v.isset = true := by
          cases hs : s'.v.isset with
          | true => rfl
          | false => exact (hb e2 hs hi).elim
        have e : ({ s' with v := { s'.v with isset := true } } : S) = s' := by
          obtain ⟨v, hp⟩ := s'
          cases v
          simp_all
        exact ⟨_, _, rfl, by rw [e]; exact h, rfl⟩
      · rw [hi] at e2; cases e2
    | true =>
      obtain ⟨i, hset, -, -, hn, -⟩ := h3 rfl
      have e : ({ s' with v := { s'.v with isset := true } } : S) = s' := by
        obtain ⟨v, hp⟩ := s'
        cases v
        simp_all
      exact ⟨_, _, rfl, by rw [e]; exact i, hn⟩
  | true =>
    exact ⟨_, _, rfl, ⟨h.heap, (fun ha => by have := (h.own ha).noint; rw [hi] at this; cases this),
      (fun _ x => by rw [hi] at x; cases x), (fun _ x => by rw [hi] at x; cases x)⟩, rfl⟩

theorem Inv.unset {s : S} (h : Inv s) : ∃ s', Varmem.unset s = some s' ∧ Inv s' ∧ s'.v.name = s.v.name := by
  obtain ⟨h', h1, h2⟩ := dropVal_inv h.heap h.own
  refine ⟨⟨{ name := s.v.name, type := s.v.type, val := s.v.val }, h'⟩,
    by simp only [Varmem.unset, h1, Option.map_some], ⟨h2, ?_, ?_, ?_⟩, rfl⟩
  · intro h; cases h
  · intro h; cases h
  · intro h; cases h

/-- The entry of the environment is the name, an equals sign and the value. -/
theorem Inv.makenv (E : Env) {s : S} (h : Inv s) :
    ∃ s' en t, Varmem.makenv E s = some (s', en) ∧ Inv s' ∧ s'.v.name = s.v.name ∧
      Varmem.strVal E s = some t ∧
      en = if s.v.isset && s.v.exp then
        some (s.v.name ++ '=' :: (if s.v.integer && s.v.fm then E.fmt t else t)) else none := by
  obtain ⟨t, ht⟩ := h.strVal E
  have key : ∀ {s' : S} {t' : Str}, Inv s' → s'.v.isset = true → s'.v.integer = false → s'.v.exp = true →
      Varmem.strVal E s' = some t' → Varmem.stored s' = some (s'.v.name ++ '=' :: t') := by
    intro s' t' i h1 h2 h3 h4
    obtain ⟨a, c, hv, hg, hty⟩ := (i.own (i.set h1 h2)).mem
    have hst : Varmem.stored s' = some c := by simp [Varmem.stored, hv, hg]
    have he := i.env h1 h2 h3
    rw [strVal_text E h1 h2 hst] at h4
    rcases hty with hty | ⟨hty, r, hr⟩
    · omega
    · rw [hst, hr]
      rw [hr, hty] at h4
      have hdrop : (s'.v.name ++ '=' :: r).drop (s'.v.name.length + 1) = r := by simp [List.drop_append]
      rw [hdrop] at h4
      cases h4
      rfl
  unfold Varmem.makenv
  cases hc : (s.v.isset && s.v.exp) with
  | false => exact ⟨s, none, t, by simp, h, rfl, ht, by simp⟩
  | true =>
    simp only [Bool.and_eq_true] at hc
    cases hi : s.v.integer with
    | false =>
      refine ⟨s, _, t, ?_, h, rfl, ht, rfl⟩
      simp [key h hc.1 hi hc.2 ht]
    | true =>
      have hna : s.v.alloc = false := by
        cases ha : s.v.alloc with
        | false => rfl
        | true => have := (h.own ha).noint; rw [hi] at this; cases this
      obtain ⟨s', ok, h1, h2, h3⟩ := setstr_spec E t false none
        (s := { s with v := { s.v with integer := false, ro := false } }) h.heap
        (fun ha => by rw [show _ = false from hna] at ha; cases ha)
      cases ok with
      | false =>
        rcases (h2 rfl).2 with ⟨x, -⟩ | ⟨x, -⟩
        · cases x
        · cases x
      | true =>
        obtain ⟨i, a1, a2, a3, a4, a5, a6, a7, -⟩ := h3 rfl
        have := key i a1 a2 (a3.trans hc.2) (a7 rfl)
        refine ⟨s', _, t, ?_, i, a4, ht, rfl⟩
        simp only [if_true, ht, h1, Option.map_some, this, a4]
        simp

/-- The size of the window is put into a variable that is read-only and has no value. -/
def bad (s : S) : Op → Bool
  | .window _ => s.v.ro && !s.v.isset && !s.v.integer
  | _ => false

theorem Inv.step (E : Env) {s : S} (h : Inv s) (o : Op) (hb : bad s o = false) :
    ∃ s', Varmem.step E s o = some s' ∧ Inv s' ∧ s'.v.name = s.v.name := by
  cases o with
  | assign t e =>
    obtain ⟨s', ok, h1, h2⟩ := h.setstr E t false e
    exact ⟨s', by simp [Varmem.step, h1], h2⟩
  | arith n =>
    unfold Varmem.step
    cases hr : s.v.ro with
    | true => exact ⟨s, by simp, h, rfl⟩
    | false =>
      obtain ⟨s', ok, h1, h2⟩ := h.setint E n (by simp [hr])
      exact ⟨s', by simp [h1], h2⟩
  | window n =>
    obtain ⟨s', ok, h1, h2⟩ := h.setint E n (by
      intro a b c
      simp [bad, a, b, c] at hb)
    exact ⟨s', by simp [Varmem.step, h1], h2⟩
  | typeset set clr base val c e =>
    obtain ⟨s', ok, h1, h2⟩ := h.typeset E set clr base val c e
    exact ⟨s', by simp [Varmem.step, h1], h2⟩
  | unset =>
    obtain ⟨s', h1, h2⟩ := h.unset
    exact ⟨s', by simp [Varmem.step, h1], h2⟩
  | env =>
    obtain ⟨s', en, t, h1, h2, h3, -⟩ := h.makenv E
    exact ⟨s', by simp [Varmem.step, h1], h2, h3⟩

/-- No window is resized while the variable is read-only and has no value. -/
def careful (E : Env) (s : S) : List Op → Bool
  | [] => true
  | o :: l => !bad s o && (match step E s o with | none => true | some s => careful E s l)

theorem run_inv (E : Env) (l : List Op) : ∀ {s : S}, Inv s → careful E s l = true →
    ∃ s', run E s l = some s' ∧ Inv s' ∧ s'.v.name = s.v.name := by
  induction l with
  | nil => intro s h _; exact ⟨s, rfl, h, rfl⟩
  | cons o l ih =>
    intro s h hc
    simp only [careful, Bool.and_eq_true, Bool.not_eq_true'] at hc
    obtain ⟨s1, h1, i1, n1⟩ := h.step E o hc.1
    rw [h1] at hc
    obtain ⟨s2, h2, i2, n2⟩ := ih i1 hc.2
    exact ⟨s2, by simp [run, h1, h2], i2, n2.trans n1⟩

/-! ## The theorems -/

/-- Whatever is done to a variable, no block is freed twice, nothing but a block is freed and none
that was freed is read, as long as no resized window meets a variable that is read-only without a
value.  (That exception is `window_dangling`.) -/
theorem safe_partial (E : Env) (name : Str) (a : Att) (type : Nat) (l : List Op)
    (hc : careful E (fresh name a type) l = true) :
    ∃ s t, run E (fresh name a type) l = some s ∧ strVal E s = some t := by
  obtain ⟨s, h1, h2, -⟩ := run_inv E l (fresh_inv name a type) hc
  obtain ⟨t, ht⟩ := h2.strVal E
  exact ⟨s, t, h1, ht⟩

/-- No resized window at all. -/
theorem careful_nowindow (E : Env) (l : List Op) (h : ∀ n, Op.window n ∉ l) : ∀ s, careful E s l = true := by
  induction l with
  | nil => intro s; rfl
  | cons o l ih =>
    intro s
    have ho : bad s o = false := by
      cases o with
      | window n => exact absurd List.mem_cons_self (h n)
      | _ => rfl
    simp only [careful, ho, Bool.not_false, Bool.true_and]
    cases Varmem.step E s o with
    | none => rfl
    | some s' => exact ih (fun n hn => h n (List.mem_cons_of_mem _ hn)) s'

/-- What commands get in their environment is `name=value`. -/
theorem env_entry (E : Env) (name : Str) (a : Att) (type : Nat) (l : List Op)
    (hc : careful E (fresh name a type) l = true) :
    ∃ s s' en t, run E (fresh name a type) l = some s ∧ makenv E s = some (s', en) ∧
      strVal E s = some t ∧
      en = if s.v.isset && s.v.exp then
        some (name ++ '=' :: (if s.v.integer && s.v.fm then E.fmt t else t)) else none := by
  obtain ⟨s, h1, h2, h3⟩ := run_inv E l (fresh_inv name a type) hc
  obtain ⟨s', en, t, h4, -, -, h5, h6⟩ := h2.makenv E
  exact ⟨s, s', en, t, h1, h4, h5, by rw [h6, h3]; rfl⟩

/-- An assigned text is read back. -/
theorem assign_read (E : Env) (name : Str) (a : Att) (type : Nat) (l : List Op) (t : Str)
    (e : Option (Int × Nat)) (hc : careful E (fresh name a type) l = true) :
    ∃ s, run E (fresh name a type) l = some s ∧ (s.v.ro = false → s.v.integer = false →
      ∃ s', step E s (.assign t e) = some s' ∧ strVal E s' = some (if s.v.fm then E.fmt t else t)) := by
  obtain ⟨s, h1, h2, -⟩ := run_inv E l (fresh_inv name a type) hc
  refine ⟨s, h1, fun hr hi => ?_⟩
  obtain ⟨s', ok, h3, h4, h5⟩ := setstr_spec E t false e h2.heap h2.own
  cases ok with
  | false =>
    rcases (h4 rfl).2 with ⟨x, -⟩ | ⟨x, -⟩
    · rw [hr] at x; cases x
    · rw [hi] at x; cases x
  | true => exact ⟨s', by simp [Varmem.step, h3], (h5 rfl).2.2.2.2.2.2.2.1 hi⟩

/-- `export`, `readonly`, `typeset +x` and the like leave the value. -/
theorem attr_keeps (E : Env) (name : Str) (a : Att) (type : Nat) (l : List Op) (set clr : Att) (base : Nat)
    (c : Conv) (e : Option (Int × Nat)) (hc : careful E (fresh name a type) l = true)
    (h1 : set.integer = false) (h2 : set.fm = false) (h3 : clr.integer = false) :
    ∃ s s', run E (fresh name a type) l = some s ∧
      step E s (.typeset set clr base none c e) = some s' ∧ strVal E s' = strVal E s := by
  obtain ⟨s, r1, r2, -⟩ := run_inv E l (fresh_inv name a type) hc
  refine ⟨s, ?_⟩
  show ∃ s', _ ∧ (Varmem.typeset E set clr base none c e s).map (·.1) = some s' ∧ _
  unfold Varmem.typeset
  split
  · exact ⟨s, r1, rfl, rfl⟩
  · have hf : fakeAssign set clr false s.v = false := by
      simp [fakeAssign, h1, h2, h3]
    have hx : ∃ s1, (if (set.any || clr.any) = true then retype E set clr base (none : Option Str).isSome c s
        else some (s, true)) = some (s1, true) ∧ HeapOk s1.h ∧ (s1.v.alloc = true → Own s1) ∧
        (s1.v.isset = true → s1.v.integer = false → s1.v.alloc = true) ∧
        strVal E s1 = strVal E s := by
      split
      · obtain ⟨s1, ok, a1, a2, a3, a4, a5, a6, -⟩ := retype_spec E set clr base false c r2
        have e1 : retype E set clr base false c s =
            some ({ s with v := attrs set clr base false false s.v }, true) := by
          unfold retype
          simp [hf]
        rw [e1] at a1
        cases a1
        refine ⟨_, e1, a2, a3, a4 rfl, ?_⟩
        simp [Varmem.strVal, Varmem.stored, attrs, h1, h3]
      · exact ⟨s, rfl, r2.heap, r2.own, r2.set, rfl⟩
    obtain ⟨s1, b1, b2, b3, b4, b5⟩ := hx
    rw [b1]
    simp only
    obtain ⟨s2, c1, -, c2, -⟩ := exportEnd_spec E b2 b3 b4 (by
      intro x1 x2
      obtain ⟨_, _, -, -, ht⟩ := (b3 (b4 x1 x2)).mem
      rcases ht with ht | ⟨ht, -⟩
      · exact .inl ht
      · exact .inr ht)
    exact ⟨s2, r1, by rw [c1]; rfl, c2.trans b5⟩

/-- A new format is applied to the value (`typeset -u`), and a number that becomes a text
(`typeset +i`) is the text of the number. -/
theorem format_value (E : Env) (name : Str) (a : Att) (type : Nat) (l : List Op) (set clr : Att) (base : Nat)
    (c : Conv) (e : Option (Int × Nat)) (hc : careful E (fresh name a type) l = true)
    (h1 : set.integer = false) :
    ∃ s, run E (fresh name a type) l = some s ∧ (s.v.ro = false → s.v.isset = true →
      (set.fm = true ∧ s.v.integer = false ∨ s.v.integer = true ∧ clr.integer = true) →
      ∃ s' t, step E s (.typeset set clr base none c e) = some s' ∧ strVal E s = some t ∧
        strVal E s' = some (if (s.v.fm || set.fm) && !clr.fm then E.fmt t else t)) := by
  obtain ⟨s, r1, r2, -⟩ := run_inv E l (fresh_inv name a type) hc
  refine ⟨s, r1, fun hro hset hcase => ?_⟩
  obtain ⟨t, ht⟩ := r2.strVal E
  have hf : fakeAssign set clr false s.v = true := by
    rcases hcase with ⟨x, y⟩ | ⟨x, y⟩
    · simp [fakeAssign, hset, x]
    · simp [fakeAssign, hset, x, y]
  have hnew : ((s.v.integer || set.integer) && !clr.integer) = false := by
    rcases hcase with ⟨x, y⟩ | ⟨x, y⟩
    · simp [y, h1]
    · simp [y]
  have hany : (set.any || clr.any) = true := by
    rcases hcase with ⟨x, y⟩ | ⟨x, y⟩
    · simp [Att.any, x]
    · simp [Att.any, y]
  obtain ⟨s1, ok, a1, a2, a3, a4, a5, a6, a7, a8⟩ := retype_spec E set clr base false c r2
  have hok : ok = true := by
    cases ok with
    | true => rfl
    | false =>
      exfalso
      unfold retype at a1
      simp only [hf, Bool.not_true, Bool.false_eq_true, if_false, ht] at a1
      rw [if_neg (by simp [attrs, hnew])] at a1
      obtain ⟨s2, k, b1, b2, -⟩ := setstr_spec E t (!s.v.ro && set.ro) c.res
        (s := ⟨attrs set clr base false true s.v, s.h⟩) r2.heap (fun ha => by simp [attrs] at ha)
      rw [b1] at a1
      cases k with
      | true =>
        simp only [if_true, Option.map_eq_some_iff] at a1
        obtain ⟨_, -, x⟩ := a1
        cases x
      | false =>
        rcases (b2 rfl).2 with ⟨x, y⟩ | ⟨x, -⟩
        · simp [attrs, hro] at x y
          rw [x.1] at y
          cases y
        · simp only [attrs, hnew] at x
          cases x
  subst hok
  have hint := (a7 rfl).1.trans hnew
  obtain ⟨s2, c1, -, c2, -⟩ := exportEnd_spec E a2 a3 (a4 rfl) (by
    intro x1 x2
    obtain ⟨_, _, -, -, hty⟩ := (a3 (a4 rfl x1 x2)).mem
    rcases hty with hty | ⟨hty, -⟩
    · exact .inl hty
    · exact .inr hty)
  refine ⟨s2, t, ?_, ht, c2.trans (a8 rfl hf hint t ht)⟩
  unfold Varmem.step Varmem.typeset
  simp [hro, hany, a1, c1]

/-- `typeset -i` makes a text the number it is worth, in the base asked for or else that of the text. -/
theorem to_integer (E : Env) (name : Str) (a : Att) (type : Nat) (l : List Op) (set clr : Att) (base : Nat)
    (n : Int) (b : Nat) (e : Option (Int × Nat)) (hc : careful E (fresh name a type) l = true)
    (h1 : set.integer = true) (h2 : clr.integer = false) :
    ∃ s, run E (fresh name a type) l = some s ∧ (s.v.ro = false → s.v.isset = true → s.v.integer = false →
      ∃ s', step E s (.typeset set clr base none (.value n b) e) = some s' ∧
        strVal E s' = some (E.digits n (if base = 0 then b else base))) := by
  obtain ⟨s, r1, r2, -⟩ := run_inv E l (fresh_inv name a type) hc
  refine ⟨s, r1, fun hro hset hint => ?_⟩
  obtain ⟨s1, ok, a1, -⟩ := retype_spec E set clr base false (.value n b) r2
  obtain ⟨t, ht⟩ := r2.strVal E
  have hf : fakeAssign set clr false s.v = true := by simp [fakeAssign, hset, hint, h1]
  have a1' := a1
  unfold retype at a1
  simp only [hf, Bool.not_true, Bool.false_eq_true, if_false, ht] at a1
  rw [if_neg (by simp)] at a1
  have hk : ∀ v : V, v.integer = true → (v.ro && !(!s.v.ro && set.ro)) = false →
      Varmem.setstr E t (!s.v.ro && set.ro) (Conv.value n b).res ⟨v, s.h⟩ =
        some (⟨{ v with isset := true, val := .int n, type := if v.type = 0 then b else v.type }, s.h⟩, true) := by
    intro v hv hr
    unfold Varmem.setstr
    rw [if_neg (by simp only [hr]; simp)]
    simp [hv, Conv.res]
  rw [hk _ (by simp [attrs, h1, h2]) (by cases hx : set.ro <;> simp [attrs, hro, hx])] at a1
  simp only [if_true, Option.map_eq_some_iff, Option.bind_some] at a1
  obtain ⟨s2, b1, b2⟩ := a1
  cases b2
  have hv : s1.v.isset = true ∧ s1.v.integer = true ∧ s1.v.val = .int n ∧
      s1.v.type = if base = 0 then b else base := by
    have : ∀ {o : Option Nat} {x y : S}, freeOld o x = some y → y.v = x.v := by
      intro o x y hh
      unfold freeOld at hh
      split at hh
      · cases hh; rfl
      · simp only [Option.map_eq_some_iff] at hh
        obtain ⟨_, -, rfl⟩ := hh
        rfl
    rw [this b1]
    refine ⟨rfl, by simp [attrs, h1, h2], rfl, ?_⟩
    by_cases hb : base = 0
    · simp [attrs, h1, hb, hint]
    · have : 0 < base := by omega
      simp [attrs, h1, hb, this]
  refine ⟨s1, ?_, ?_⟩
  · unfold Varmem.step Varmem.typeset
    simp [hro, Att.any, h1, a1', exportEnd, hv.2.1]
  · simp [Varmem.strVal, hv.1, hv.2.1, hv.2.2.1, hv.2.2.2]

/-! ## Where it goes wrong -/

/-- Digits of natural numbers, a format that makes capitals. -/
def exampleEnv : Env := ⟨fun t => t.map Char.toUpper, fun n _ => Nat.toDigits 10 n.toNat⟩

/-- `LINES=24; unset LINES; readonly LINES`, and the window is resized: the value of LINES is read
from a block that was freed. -/
theorem window_dangling : ∃ s, run exampleEnv (fresh "LINES".toList {} 0)
    [.assign "24".toList none, .unset, .typeset { ro := true } {} 0 none .fails none, .window 30] = some s ∧
    strVal exampleEnv s = none := ⟨_, by rfl, by decide⟩

/-- `x=abc` and `typeset -i x='1+'` (an error in the new value) in an interactive shell: the
value of `x` is the address of its old value, here block 0 written as a number. -/
theorem failed_address : ∃ s, run exampleEnv (fresh "x".toList {} 0)
    [.assign "abc".toList none, .typeset { integer := true } {} 0 (some "1+".toList) .fails none] = some s ∧
    s.v.isset = true ∧ s.v.integer = true ∧ s.v.val = .ptr 0 ∧ strVal exampleEnv s = some "0".toList :=
  ⟨_, by rfl, by decide, by decide, by decide, by decide⟩

/-- The same if the error is in an expression that another variable holds: `y='1+'; x=y; typeset -i x`. -/
theorem unwound_address : ∃ s, run exampleEnv (fresh "x".toList {} 0)
    [.assign "y".toList none, .typeset { integer := true } {} 0 none .unwinds none] = some s ∧
    s.v.isset = true ∧ s.v.integer = true ∧ s.v.val = .ptr 0 :=
  ⟨_, by rfl, by decide, by decide, by decide⟩

/-- `x=abc; typeset -i x=5`: the block of the old value is lost. -/
theorem old_value_leaks : ∃ s, run exampleEnv (fresh "x".toList {} 0)
    [.assign "abc".toList none, .typeset { integer := true } {} 0 (some "5".toList) .fails (some (5, 10))] = some s ∧
    s.v.alloc = false ∧ s.h.live = [(0, "abc".toList)] := ⟨_, by rfl, by decide, by decide⟩

/-! ## Examples -/

/-- `x=ab; export x; typeset -u x; readonly x; x=cd; env` -/
example : careful exampleEnv (fresh "x".toList {} 0)
    [.assign "ab".toList none, .typeset { exp := true } {} 0 none .fails none,
     .typeset { fm := true } {} 0 none .fails none, .typeset { ro := true } {} 0 none .fails none,
     .assign "cd".toList none, .window 3, .env] = true := by decide

example : ((run exampleEnv (fresh "x".toList {} 0)
    [.assign "ab".toList none, .typeset { exp := true } {} 0 none .fails none,
     .typeset { fm := true } {} 0 none .fails none, .typeset { ro := true } {} 0 none .fails none,
     .assign "cd".toList none, .env]).bind (makenv exampleEnv)).map (·.2) =
    some (some "x=AB".toList) := by decide

/-- `typeset -ix x=7; typeset +i x`: a number as a text, and no block but its own. -/
example : (run exampleEnv (fresh "x".toList {} 0)
    [.typeset { integer := true, exp := true } {} 0 (some "7".toList) .fails (some (7, 10)),
     .typeset {} { integer := true } 0 none .fails none]).map (fun s => (strVal exampleEnv s, s.h.live)) =
    some (some "7".toList, [(0, "x=7".toList)]) := by decide

example : careful exampleEnv (fresh "LINES".toList {} 0)
    [.assign "24".toList none, .unset, .typeset { ro := true } {} 0 none .fails none, .window 30] = false := by
  decide

end Ksh.Varmem
