/-!
# Variables with a meaning for the shell (C109)

The shell keeps what follows from `IFS`, `PATH`, `TMPDIR`, `HISTCONTROL`, `MAIL` and `MAILPATH` in
variables of its own (`setspec` and `unsetspec`, var.c:975-1141).  The model follows one such name through
the blocks: `newblock`, `popblock` (var.c:57-101), `global` and `local` (var.c:182-303), `arraysearch`
(var.c:1147-1189), the end of `setstr` (var.c:408-410) and `unset` (var.c:756-784, with
c_sh.c:665-675).

`f` is what the shell derives from the text of the variable, `f none` what it derives when the
variable is unset: for `IFS` the table of `setctypes` and `ifs0`.  Attributes are left out: a read only
variable stops the operation before anything happens, and the text handed to `setspec` is the one
stored.  The other special names either do nothing when they are unset or lose their meaning then.
-/

namespace Ksh.Special

abbrev Str := List Char

/-- a `struct tbl` of an array other than the first: `SPECIAL` and the value if `ISSET` -/
structure Elem where
  special : Bool := false
  val : Option Str := none
  deriving DecidableEq, Repr

/-- the `struct tbl` in the table of a block: `DEFINED`, `SPECIAL`, value, `u.array` -/
structure Slot where
  defined : Bool := false
  special : Bool := false
  val : Option Str := none
  elems : List (Nat × Elem) := []
  deriving DecidableEq, Repr

def put (es : List (Nat × Elem)) (i : Nat) (e : Elem) : List (Nat × Elem) := (i, e) :: es.filter (·.1 ≠ i)

/-- `arraysearch`, var.c:1147-1189: an element without value is made anew, without `SPECIAL` -/
def search (i : Nat) (s : Slot) : Slot :=
  if i = 0 then { s with defined := true }
  else match s.elems.lookup i with
    | some e => { s with defined := true, elems := put s.elems i (if e.val.isSome then e else {}) }
    | none => { s with defined := true, elems := put s.elems i {} }

/-- var.c:263-265 and 300-302: `SPECIAL` goes to what was looked up, which may be an element -/
def mark (i : Nat) (s : Slot) : Slot :=
  if i = 0 then { s with defined := true, special := true }
  else { s with elems := put s.elems i { (s.elems.lookup i).getD {} with special := true } }

/-- whether the looked up `struct tbl` has `SPECIAL` -/
def isSpecial (i : Nat) (s : Slot) : Bool :=
  if i = 0 then s.special else ((s.elems.lookup i).getD {}).special

/-- what is done to a variable that has been looked up -/
inductive Act
  | ref
  /-- `setstr` -/
  | assign (v : Str)
  /-- `unset`; `whole` is `!array_ref` -/
  | unset (whole : Bool)
  deriving DecidableEq, Repr

/-- The new entry, and the value told to `setspec` (`some (some v)`) or `unsetspec` (`some none`). -/
def act (i : Nat) (s : Slot) : Act → Slot × Option (Option Str)
  | .ref => (s, none)
  | .assign v =>
    (if i = 0 then { s with val := some v } else { s with elems := put s.elems i { (s.elems.lookup i).getD {} with val := some v } },
     if isSpecial i s then some (some v) else none)
  | .unset whole =>
    (if i = 0 then { s with val := none, defined := s.defined && !whole, elems := if whole then [] else s.elems }
     else { s with elems := put s.elems i { (s.elems.lookup i).getD {} with val := none } },
     if isSpecial i s then some none else none)

def isDef : Option Slot → Bool
  | some s => s.defined
  | none => false

/-- `global` (var.c:182-266) for a name that is special, then `a` -/
def onGlobal (i : Nat) (a : Act) : List (Option Slot) → List (Option Slot) × Option (Option Str)
  | [] => ([], none)
  | o :: r =>
    if isDef o then
      let q := act i (search i (o.getD {})) a
      (some q.1 :: r, q.2)
    else match r with
      | [] => let q := act i (mark i (search i (o.getD {}))) a
        ([some q.1], q.2)
      | _ :: _ => (o :: (onGlobal i a r).1, (onGlobal i a r).2)

/-- `local` (var.c:271-303), then `a` -/
def onLocal (i : Nat) (a : Act) : List (Option Slot) → List (Option Slot) × Option (Option Str)
  | [] => ([], none)
  | o :: r =>
    let q := act i (mark i (search i (o.getD {}))) a
    (some q.1 :: r, q.2)

/-- the value that `$name` has -/
def value : List (Option Slot) → Option Str
  | [] => none
  | o :: r => if isDef o then (o.getD {}).val else value r

/-- the entries of the blocks, innermost first, and what the shell derived last -/
structure St (α : Type) where
  l : List (Option Slot)
  cur : α

inductive Op
  | push
  | pop
  /-- `name[i]` looked up, assigned or unset -/
  | glob (i : Nat) (a : Act)
  /-- `typeset name[i]` or `typeset name[i]=v` in a function, or `name=v command` -/
  | loc (i : Nat) (v : Option Str)
  deriving DecidableEq, Repr

def tell {α} (f : Option Str → α) (cur : α) : Option (Option Str) → α
  | none => cur
  | some v => f v

/-- `popblock`, var.c:83-101: only entries of the block itself are looked at, not elements -/
def pop {α} (f : Option Str → α) (s : St α) : St α :=
  match s.l with
  | o :: p :: r =>
    if (o.getD {}).special then ⟨(onGlobal 0 .ref (p :: r)).1, f (value (onGlobal 0 .ref (p :: r)).1)⟩
    else ⟨p :: r, s.cur⟩
  | _ => s

def step {α} (f : Option Str → α) (s : St α) : Op → St α
  | .push => ⟨none :: s.l, s.cur⟩
  | .pop => pop f s
  | .glob i a => ⟨(onGlobal i a s.l).1, tell f s.cur (onGlobal i a s.l).2⟩
  | .loc i v =>
    let a := match v with | some v => Act.assign v | none => .ref
    ⟨(onLocal i a s.l).1, tell f s.cur (onLocal i a s.l).2⟩

def run {α} (f : Option Str → α) (s : St α) (ops : List Op) : St α := ops.foldl (step f) s

/-! ## C109 -/

/-- Spec: what the shell uses is what follows from the variable -/
def Sync {α} (f : Option Str → α) (s : St α) : Prop := s.cur = f (value s.l)

/-- every entry is marked, and no element is -/
def Marked (l : List (Option Slot)) : Prop := ∀ s, some s ∈ l → s.special = true ∧ ∀ p ∈ s.elems, p.2.special = false

/-- the name is visible somewhere -/
def Visible (l : List (Option Slot)) : Prop := ∃ o ∈ l, isDef o = true

/-- the name is not visible in an inner block -/
def OuterOnly (l : List (Option Slot)) : Prop := ∀ o ∈ l.dropLast, isDef o = false

/-- Operations after which the two agree: elements are touched only while the name is visible, and not by
`typeset`; a local variable is given a value; and a local variable is not unset. -/
def Fine (l : List (Option Slot)) : Op → Prop
  | .push => True
  | .pop => True
  | .glob 0 (.unset true) => OuterOnly l
  | .glob 0 _ => True
  | .glob (_ + 1) (.unset true) => False
  | .glob (_ + 1) _ => Visible l
  | .loc 0 (some _) => True
  | .loc _ _ => False

/-- the same with declarations that give no value -/
def Fine' (l : List (Option Slot)) : Op → Prop
  | .loc 0 none => True
  | op => Fine l op

theorem lookup_mem {i : Nat} {e : Elem} : ∀ {es : List (Nat × Elem)}, es.lookup i = some e → (i, e) ∈ es
  | [], h => by cases h
  | (j, d) :: es, h => by
    simp only [List.lookup_cons] at h
    split at h
    · rename_i hj
      simp only [beq_iff_eq] at hj
      cases h; subst hj; simp
    · exact List.mem_cons_of_mem _ (lookup_mem h)

theorem put_lookup (es : List (Nat × Elem)) (i : Nat) (e : Elem) : (put es i e).lookup i = some e := by simp [put]

/-- elements are not special -/
def Bare (es : List (Nat × Elem)) : Prop := ∀ p ∈ es, p.2.special = false

theorem bare_put {es : List (Nat × Elem)} (h : Bare es) (i : Nat) {e : Elem} (he : e.special = false) : Bare (put es i e) := by
  intro p hp
  simp only [put, List.mem_cons, List.mem_filter] at hp
  rcases hp with rfl | ⟨hp, _⟩
  · exact he
  · exact h p hp

theorem bare_get {es : List (Nat × Elem)} (h : Bare es) (i : Nat) : ((es.lookup i).getD {}).special = false := by
  cases hl : es.lookup i with
  | none => rfl
  | some e => exact h _ (lookup_mem hl)

theorem search_ok (i : Nat) {s : Slot} (hb : Bare s.elems) : (search i s).special = s.special ∧ Bare (search i s).elems ∧
    (search i s).val = s.val ∧ (search i s).defined = true := by
  simp only [search]
  split
  · exact ⟨rfl, hb, rfl, rfl⟩
  · split
    · rename_i e he
      refine ⟨rfl, bare_put hb i ?_, rfl, rfl⟩
      split
      · exact hb _ (lookup_mem he)
      · rfl
    · exact ⟨rfl, bare_put hb i rfl, rfl, rfl⟩

/-- what an operation does to an entry that was found -/
theorem act_found (i : Nat) (a : Act) {s : Slot} (hs : s.special = true) (hb : Bare s.elems) (hd : s.defined = true)
    (h : i = 0 ∨ a ≠ .unset true) :
    (act i s a).1.special = true ∧ Bare (act i s a).1.elems ∧
    ((act i s a).1.defined = true ∨ a = .unset true) ∧
    ((act i s a).2 = none ∧ (act i s a).1.val = s.val ∨ (act i s a).2 = some (act i s a).1.val) := by
  cases a with
  | ref => exact ⟨hs, hb, Or.inl hd, Or.inl ⟨rfl, rfl⟩⟩
  | assign v =>
    simp only [act, isSpecial]
    by_cases hi : i = 0
    · simp only [hi, if_true, hs]
      exact ⟨trivial, hb, Or.inl hd, Or.inr trivial⟩
    · simp only [hi, if_false, bare_get hb i, Bool.false_eq_true]
      exact ⟨hs, bare_put hb i rfl, Or.inl hd, Or.inl ⟨trivial, trivial⟩⟩
  | unset whole =>
    simp only [act, isSpecial]
    by_cases hi : i = 0
    · simp only [hi, if_true, hs]
      refine ⟨trivial, ?_, ?_, Or.inr trivial⟩
      · cases whole with
        | true => intro p hp; cases hp
        | false => exact hb
      · cases whole with
        | true => exact Or.inr rfl
        | false => exact Or.inl (by simp [hd])
    · simp only [hi, if_false, bare_get hb i, Bool.false_eq_true]
      exact ⟨hs, bare_put hb i rfl, Or.inl hd, Or.inl ⟨trivial, trivial⟩⟩

theorem marked_tail {o : Option Slot} {l : List (Option Slot)} (h : Marked (o :: l)) : Marked l := fun s hs => h s (List.mem_cons_of_mem _ hs)

theorem marked_cons {s : Slot} {l : List (Option Slot)} (h : Marked l) (hs : s.special = true) (hb : Bare s.elems) : Marked (some s :: l) := by
  intro t ht
  simp only [List.mem_cons, Option.some.injEq] at ht
  rcases ht with rfl | ht
  · exact ⟨hs, hb⟩
  · exact h t ht

theorem marked_head {o : Option Slot} {l : List (Option Slot)} (h : Marked (o :: l)) : Bare (o.getD {}).elems ∧ (o.isSome = true → (o.getD {}).special = true) := by
  cases o with
  | none =>
    refine ⟨?_, by simp⟩
    intro p hp
    simp at hp
  | some s => exact ⟨(h s (by simp)).2, fun _ => (h s (by simp)).1⟩

/-- an entry that is marked again after an undefined one, name looked up without subscript -/
theorem mark_zero {s : Slot} (hb : Bare s.elems) : (mark 0 (search 0 s)).special = true ∧ Bare (mark 0 (search 0 s)).elems ∧
    (mark 0 (search 0 s)).defined = true ∧ (mark 0 (search 0 s)).val = s.val := by
  simp only [mark, search, if_true]
  exact ⟨trivial, hb, trivial, trivial⟩

/-- an entry that is not defined has no value -/
def Dead (l : List (Option Slot)) : Prop := ∀ s, some s ∈ l → s.defined = false → s.val = none

theorem dead_tail {o : Option Slot} {l : List (Option Slot)} (h : Dead (o :: l)) : Dead l := fun s hs => h s (List.mem_cons_of_mem _ hs)

theorem dead_cons {s : Slot} {l : List (Option Slot)} (h : Dead l) (hs : s.defined = false → s.val = none) : Dead (some s :: l) := by
  intro t ht
  simp only [List.mem_cons, Option.some.injEq] at ht
  rcases ht with rfl | ht
  · exact hs
  · exact h t ht

theorem unset_dead (s : Slot) : (act 0 s (.unset true)).1.val = none ∧ (act 0 s (.unset true)).1.defined = false := by simp [act]

/-- the operation of `onGlobal` -/
theorem global_ok (i : Nat) (a : Act) : ∀ (l : List (Option Slot)), l ≠ [] → Marked l → Dead l →
    (i = 0 ∨ (Visible l ∧ a ≠ .unset true)) → (a = .unset true → OuterOnly l) →
    Marked (onGlobal i a l).1 ∧ Dead (onGlobal i a l).1 ∧ (onGlobal i a l).1.length = l.length ∧
    ((onGlobal i a l).2 = none ∧ value (onGlobal i a l).1 = value l ∨ (onGlobal i a l).2 = some (value (onGlobal i a l).1))
  | [], h, _, _, _, _ => absurd rfl h
  | o :: r, _, hm, hdd, hi, hu => by
    obtain ⟨hb, hsp⟩ := marked_head hm
    unfold onGlobal
    by_cases hd : isDef o = true
    · rw [if_pos hd]
      have ho : o.isSome = true := by cases o <;> simp [isDef] at hd ⊢
      obtain ⟨h1, h2, h3, h4⟩ := search_ok i hb
      obtain ⟨g1, g2, g3, g4⟩ := act_found i a (h1.trans (hsp ho)) h2 h4 (by rcases hi with h | h; exact Or.inl h; exact Or.inr h.2)
      refine ⟨marked_cons (marked_tail hm) g1 g2, dead_cons (dead_tail hdd) ?_, by simp, ?_⟩
      · intro hnd
        rcases g3 with g3 | rfl
        · rw [g3] at hnd; cases hnd
        · have : i = 0 := by rcases hi with h | h; exact h; exact absurd rfl h.2
          subst this
          exact (unset_dead _).1
      · rcases g3 with g3 | rfl
        · have e1 : value (some (act i (search i (o.getD {})) a).1 :: r) = (act i (search i (o.getD {})) a).1.val := by
            simp only [value, isDef, g3, if_true, Option.getD_some]
          have e2 : value (o :: r) = (o.getD {}).val := by simp [value, hd]
          simp only
          rw [e1, e2]
          rcases g4 with ⟨g4, g5⟩ | g4
          · exact Or.inl ⟨g4, g5.trans h3⟩
          · exact Or.inr g4
        · have : i = 0 := by rcases hi with h | h; exact h; exact absurd rfl h.2
          subst this
          have hr : r = [] := by
            cases r with
            | nil => rfl
            | cons p r =>
              have := hu rfl o (by simp)
              rw [hd] at this; cases this
          subst hr
          refine Or.inr ?_
          have := (unset_dead (search 0 (o.getD {})))
          simp only [value, isDef, this.2, Bool.false_eq_true, if_false]
          rcases g4 with ⟨g4, _⟩ | g4
          · simp [act, isSpecial, h1, hsp ho] at g4
          · rw [g4, this.1]
    · rw [if_neg hd]
      cases r with
      | nil =>
        have hi0 : i = 0 := by
          rcases hi with h | ⟨⟨p, hp, hpd⟩, _⟩
          · exact h
          · simp only [List.mem_singleton] at hp
            subst hp
            exact absurd hpd hd
        subst hi0
        obtain ⟨h1, h2, h3, h4⟩ := mark_zero (s := o.getD {}) hb
        obtain ⟨g1, g2, g3, g4⟩ := act_found 0 a h1 h2 h3 (Or.inl rfl)
        have hov : (o.getD {}).val = none := by
          cases o with
          | none => rfl
          | some s => exact hdd s (by simp) (by simpa [isDef] using hd)
        refine ⟨marked_cons (marked_tail hm) g1 g2, dead_cons (dead_tail hdd) ?_, by simp, ?_⟩
        · intro hnd
          rcases g3 with g3 | rfl
          · rw [g3] at hnd; cases hnd
          · exact (unset_dead _).1
        · have e0 : value [o] = none := by simp [value, hd]
          simp only
          rw [e0]
          rcases g3 with g3 | rfl
          · have e1 : value [some (act 0 (mark 0 (search 0 (o.getD {}))) a).1] = (act 0 (mark 0 (search 0 (o.getD {}))) a).1.val := by
              simp only [value, isDef, g3, if_true, Option.getD_some]
            rw [e1]
            rcases g4 with ⟨g4, g5⟩ | g4
            · exact Or.inl ⟨g4, g5.trans (h4.trans hov)⟩
            · exact Or.inr g4
          · have := (unset_dead (mark 0 (search 0 (o.getD {}))))
            refine Or.inr ?_
            simp only [value, isDef, this.2, Bool.false_eq_true, if_false]
            rcases g4 with ⟨g4, _⟩ | g4
            · simp [act, isSpecial, h1] at g4
            · rw [g4, this.1]
      | cons p r =>
        have hi' : i = 0 ∨ (Visible (p :: r) ∧ a ≠ .unset true) := by
          rcases hi with h | ⟨⟨q, hq, hqd⟩, h⟩
          · exact Or.inl h
          · refine Or.inr ⟨⟨q, ?_, hqd⟩, h⟩
            rcases List.mem_cons.1 hq with rfl | hq
            · exact absurd hqd hd
            · exact hq
        have hu' : a = .unset true → OuterOnly (p :: r) := by
          intro h q hq
          exact hu h q (by simp only [List.dropLast_cons_of_ne_nil (List.cons_ne_nil p r), List.mem_cons]; exact Or.inr hq)
        obtain ⟨g1, g2, g3, g4⟩ := global_ok i a (p :: r) (by simp) (marked_tail hm) (dead_tail hdd) hi' hu'
        refine ⟨?_, ?_, by simp [g3], ?_⟩
        · intro t ht
          rcases List.mem_cons.1 ht with ht | ht
          · exact hm t (by rw [ht]; simp)
          · exact g1 t ht
        · intro t ht
          rcases List.mem_cons.1 ht with ht | ht
          · exact hdd t (by rw [ht]; simp)
          · exact g2 t ht
        · have e : ∀ x, value (o :: x) = value x := by intro x; simp [value, hd]
          simp only [e]
          exact g4

theorem marked_none {l : List (Option Slot)} (h : Marked l) : Marked (none :: l) := by
  intro s hs
  simp only [List.mem_cons, reduceCtorEq, false_or] at hs
  exact h s hs

theorem dead_none {l : List (Option Slot)} (h : Dead l) : Dead (none :: l) := by
  intro s hs
  simp only [List.mem_cons, reduceCtorEq, false_or] at hs
  exact h s hs

/-- the two conditions kept by every operation that is fine -/
structure Inv (l : List (Option Slot)) : Prop where
  ne : l ≠ []
  marked : Marked l
  dead : Dead l

theorem fine_glob {l : List (Option Slot)} {i : Nat} {a : Act} (h : Fine l (.glob i a)) :
    (i = 0 ∨ (Visible l ∧ a ≠ .unset true)) ∧ (a = .unset true → OuterOnly l) := by
  cases i with
  | zero =>
    refine ⟨Or.inl rfl, ?_⟩
    rintro rfl
    exact h
  | succ i =>
    cases a with
    | ref => exact ⟨Or.inr ⟨h, by simp⟩, by simp⟩
    | assign v => exact ⟨Or.inr ⟨h, by simp⟩, by simp⟩
    | unset w =>
      cases w with
      | true => exact h.elim
      | false => exact ⟨Or.inr ⟨h, by simp⟩, by simp⟩

theorem ref_keeps (l : List (Option Slot)) (h : Inv l) : Inv (onGlobal 0 .ref l).1 ∧ (onGlobal 0 .ref l).1.length = l.length := by
  obtain ⟨h1, h2, h3, _⟩ := global_ok 0 .ref l h.ne h.marked h.dead (Or.inl rfl) (by simp)
  refine ⟨⟨?_, h1, h2⟩, h3⟩
  intro e
  rw [e] at h3
  exact h.ne (List.eq_nil_of_length_eq_zero h3.symm)

theorem pop_ok {α} (f : Option Str → α) (s : St α) (h : Inv s.l) :
    Inv (pop f s).l ∧ (pop f s).l.length = (if s.l.length ≤ 1 then s.l.length else s.l.length - 1) ∧ (Sync f s → Sync f (pop f s)) := by
  obtain ⟨l, cur⟩ := s
  cases l with
  | nil => exact absurd rfl h.ne
  | cons o l =>
    cases l with
    | nil => exact ⟨h, by simp [pop], id⟩
    | cons p r =>
      have hi : Inv (p :: r) := ⟨by simp, marked_tail h.marked, dead_tail h.dead⟩
      obtain ⟨h1, h2⟩ := ref_keeps _ hi
      simp only [pop]
      split
      · refine ⟨h1, ?_, fun _ => rfl⟩
        simp [h2]
      · rename_i hsp
        refine ⟨hi, by simp, ?_⟩
        intro hs
        have ho : o = none := by
          cases o with
          | none => rfl
          | some t => exact absurd (h.marked t (by simp)).1 hsp
        subst ho
        exact hs

/-- **C109** (partial) What the shell uses agrees with what the variable says after every operation,
across function calls and assignments before commands.

Missing: the operations that `Fine` excludes.  `declared_unset`, `unset_local`, `element_local` and
`element_global` show that after these the two differ. -/
theorem step_sync_partial {α} (f : Option Str → α) (s : St α) (op : Op) (h : Inv s.l) (hs : Sync f s) (hf : Fine s.l op) :
    Inv (step f s op).l ∧ Sync f (step f s op) := by
  cases op with
  | push => exact ⟨⟨by simp [step], marked_none h.marked, dead_none h.dead⟩, hs⟩
  | pop => exact ⟨(pop_ok f s h).1, (pop_ok f s h).2.2 hs⟩
  | glob i a =>
    obtain ⟨hi, hu⟩ := fine_glob hf
    obtain ⟨h1, h2, h3, h4⟩ := global_ok i a s.l h.ne h.marked h.dead hi hu
    refine ⟨⟨?_, h1, h2⟩, ?_⟩
    · intro e
      have e' : (onGlobal i a s.l).1 = [] := e
      rw [e'] at h3
      exact h.ne (List.eq_nil_of_length_eq_zero h3.symm)
    · simp only [Sync, step]
      rcases h4 with ⟨g1, g2⟩ | g
      · rw [g1, g2]; exact hs
      · rw [g]; rfl
  | loc i v =>
    cases i with
    | succ i => cases v <;> exact hf.elim
    | zero =>
      cases v with
      | none => exact hf.elim
      | some v =>
        obtain ⟨l, cur⟩ := s
        cases l with
        | nil => exact absurd rfl h.ne
        | cons o r =>
          obtain ⟨hb, _⟩ := marked_head h.marked
          obtain ⟨h1, h2, h3, h4⟩ := mark_zero (s := o.getD {}) hb
          simp only [step, onLocal]
          refine ⟨⟨by simp, ?_, ?_⟩, ?_⟩
          · refine marked_cons (marked_tail h.marked) ?_ ?_
            · simp [act, h1]
            · simpa [act] using h2
          · refine dead_cons (dead_tail h.dead) ?_
            simp [act, h3]
          · simp [Sync, act, isSpecial, h1, h3, tell, value, isDef]

/-- the operations are fine one after the other -/
def AllFine {α} (f : Option Str → α) : St α → List Op → Prop
  | _, [] => True
  | s, op :: ops => Fine s.l op ∧ AllFine f (step f s op) ops

/-- **C109** (partial) the same for whole histories -/
theorem run_sync_partial {α} (f : Option Str → α) : ∀ (ops : List Op) (s : St α), Inv s.l → Sync f s → AllFine f s ops →
    Inv (run f s ops).l ∧ Sync f (run f s ops)
  | [], s, h, hs, _ => ⟨h, hs⟩
  | op :: ops, s, h, hs, hf => by
    obtain ⟨h1, h2⟩ := step_sync_partial f s op h hs hf.1
    exact run_sync_partial f ops _ h1 h2 hf.2

/-! ### Return from a function -/

/-- the visible entry is in one of the blocks above the lowest `n` and has no value -/
def Fresh (n : Nat) (l : List (Option Slot)) : Prop :=
  ∃ pre s post, l = pre ++ some s :: post ∧ (∀ o ∈ pre, isDef o = false) ∧ s.defined = true ∧ s.val = none ∧ n ≤ post.length

theorem value_split (pre : List (Option Slot)) (s : Slot) (post : List (Option Slot)) (hp : ∀ o ∈ pre, isDef o = false) (hd : s.defined = true) :
    value (pre ++ some s :: post) = s.val := by
  induction pre with
  | nil => simp [value, isDef, hd]
  | cons o pre ih =>
    have := hp o (by simp)
    simp only [List.cons_append, value, this, Bool.false_eq_true, if_false]
    exact ih (fun o ho => hp o (by simp [ho]))

theorem global_split (i : Nat) (a : Act) (pre : List (Option Slot)) (s : Slot) (post : List (Option Slot)) (hp : ∀ o ∈ pre, isDef o = false) (hd : s.defined = true) :
    onGlobal i a (pre ++ some s :: post) = (pre ++ some (act i (search i s) a).1 :: post, (act i (search i s) a).2) := by
  induction pre with
  | nil =>
    simp only [List.nil_append]
    unfold onGlobal
    simp [isDef, hd]
  | cons o pre ih =>
    have ho := hp o (by simp)
    have ih := ih (fun o ho => hp o (by simp [ho]))
    simp only [List.cons_append]
    unfold onGlobal
    rw [if_neg (by simp [ho])]
    cases hx : pre ++ some s :: post with
    | nil => simp at hx
    | cons p r =>
      simp only
      rw [← hx, ih]

/-- blocks stay above the lowest `n` -/
def Above {α} (n : Nat) (f : Option Str → α) : St α → List Op → Prop
  | s, [] => n < s.l.length
  | s, op :: ops => n < s.l.length ∧ Fine' s.l op ∧ Above n f (step f s op) ops

theorem step_fresh {α} (f : Option Str → α) (n : Nat) (s : St α) (op : Op) (h : Inv s.l) (hn : n < s.l.length)
    (hs : Sync f s ∨ Fresh n s.l) (hf : Fine' s.l op) (hn' : n < (step f s op).l.length) :
    Inv (step f s op).l ∧ (Sync f (step f s op) ∨ Fresh n (step f s op).l) := by
  by_cases hl : op = .loc 0 none
  · subst hl
    obtain ⟨l, cur⟩ := s
    cases l with
    | nil => exact absurd rfl h.ne
    | cons o r =>
      obtain ⟨hb, hsp⟩ := marked_head h.marked
      obtain ⟨h1, h2, h3, h4⟩ := mark_zero (s := o.getD {}) hb
      simp only [step, onLocal, act, tell]
      refine ⟨⟨by simp, marked_cons (marked_tail h.marked) h1 h2, dead_cons (dead_tail h.dead) (by simp [h3])⟩, ?_⟩
      by_cases hd : isDef o = true
      · have e : value (some (mark 0 (search 0 (o.getD {}))) :: r) = value (o :: r) := by
          have e2 : value (o :: r) = (o.getD {}).val := by simp [value, hd]
          rw [e2, ← h4]
          simp only [value, isDef, h3, if_true, Option.getD_some]
        rcases hs with hs | hs
        · refine Or.inl ?_
          simp only [Sync] at hs ⊢
          rw [e]; exact hs
        · obtain ⟨pre, t, post, g1, g2, g3, g4, g5⟩ := hs
          cases pre with
          | nil =>
            simp only [List.nil_append, List.cons.injEq] at g1
            obtain ⟨rfl, rfl⟩ := g1
            exact Or.inr ⟨[], _, r, rfl, by simp, h3, by rw [h4]; exact g4, g5⟩
          | cons p pre =>
            simp only [List.cons_append, List.cons.injEq] at g1
            obtain ⟨rfl, _⟩ := g1
            rw [g2 o (by simp)] at hd
            cases hd
      · refine Or.inr ⟨[], _, r, rfl, by simp, h3, ?_, ?_⟩
        · rw [h4]
          cases o with
          | none => rfl
          | some t => exact h.dead t (by simp) (by simpa [isDef] using hd)
        · simp at hn; omega
  · have hf2 : Fine s.l op := by
      cases op with
      | push => exact hf
      | pop => exact hf
      | glob i a => exact hf
      | loc i v =>
        cases i with
        | succ i => exact hf
        | zero =>
          cases v with
          | none => exact absurd rfl hl
          | some v => exact hf
    rcases hs with hs | hs
    · obtain ⟨g1, g2⟩ := step_sync_partial f s op h hs hf2
      exact ⟨g1, Or.inl g2⟩
    · obtain ⟨pre, t, post, e, hp, hd, hv, hk⟩ := hs
      obtain ⟨l, cur⟩ := s
      simp only at e hn hf2 h
      subst e
      cases op with
      | push => exact ⟨⟨by simp [step], marked_none h.marked, dead_none h.dead⟩, Or.inr ⟨none :: pre, t, post, rfl,
          by intro o ho; rcases List.mem_cons.1 ho with rfl | ho; rfl; exact hp o ho, hd, hv, hk⟩⟩
      | pop =>
        refine ⟨(pop_ok f _ h).1, ?_⟩
        simp only [step] at hn'
        cases pre with
        | nil =>
          cases post with
          | nil => exact Or.inr ⟨[], t, [], rfl, by simp, hd, hv, hk⟩
          | cons p r =>
            have hsp := (h.marked t (by simp)).1
            refine Or.inl ?_
            simp [step, pop, hsp, Sync]
        | cons o pre =>
          have hpre : ∀ o ∈ pre, isDef o = false := fun o ho => hp o (by simp [ho])
          cases hx : pre ++ some t :: post with
          | nil => simp at hx
          | cons p r =>
            have ex : (o :: pre) ++ some t :: post = o :: p :: r := by rw [List.cons_append, hx]
            simp only [ex]
            simp only [step, pop]
            split
            · exact Or.inl rfl
            · refine Or.inr ⟨pre, t, post, hx.symm, hpre, hd, hv, hk⟩
      | glob i a =>
        obtain ⟨hi, hu⟩ := fine_glob hf2
        obtain ⟨h1, h2, h3, h4⟩ := global_ok i a _ h.ne h.marked h.dead hi hu
        have hne : (onGlobal i a (pre ++ some t :: post)).1 ≠ [] := by
          intro e'
          rw [e'] at h3
          exact h.ne (List.eq_nil_of_length_eq_zero h3.symm)
        refine ⟨⟨hne, h1, h2⟩, ?_⟩
        rcases h4 with ⟨g1, g2⟩ | g
        · simp only [step]
          rw [global_split i a pre t post hp hd] at g1 g2 ⊢
          simp only at g1 g2 ⊢
          have ht := h.marked t (by simp)
          obtain ⟨k1, k2, k3, k4⟩ := search_ok i ht.2
          obtain ⟨m1, m2, m3, m4⟩ := act_found i a (k1.trans ht.1) k2 k4 (by rcases hi with x | x; exact Or.inl x; exact Or.inr x.2)
          refine Or.inr ⟨pre, _, post, rfl, hp, ?_, ?_, hk⟩
          · rcases m3 with m3 | rfl
            · exact m3
            · have : i = 0 := by rcases hi with x | x; exact x; exact absurd rfl x.2
              subst this
              simp [act, isSpecial, k1, ht.1] at g1
          · rcases m4 with ⟨_, m4⟩ | m4
            · rw [m4, k3, hv]
            · rw [g1] at m4; cases m4
        · refine Or.inl ?_
          simp only [Sync, step, g, tell]
      | loc i v =>
        cases i with
        | succ i => cases v <;> exact hf2.elim
        | zero =>
          cases v with
          | none => exact hf2.elim
          | some v =>
            cases hx : pre ++ some t :: post with
            | nil => simp at hx
            | cons o r =>
              rw [hx] at h
              obtain ⟨hb, _⟩ := marked_head h.marked
              obtain ⟨h1, h2, h3, h4⟩ := mark_zero (s := o.getD {}) hb
              simp only [step, onLocal]
              refine ⟨⟨by simp, ?_, ?_⟩, Or.inl ?_⟩
              · refine marked_cons (marked_tail h.marked) ?_ ?_
                · simp [act, h1]
                · simpa [act] using h2
              · refine dead_cons (dead_tail h.dead) ?_
                simp [act, h3]
              · simp [Sync, act, isSpecial, h1, h3, tell, value, isDef]

theorem above_pos {α} {n : Nat} {f : Option Str → α} {s : St α} {ops : List Op} (h : Above n f s ops) : n < s.l.length := by
  cases ops with
  | nil => exact h
  | cons => exact h.1

theorem run_fresh {α} (f : Option Str → α) (n : Nat) : ∀ (ops : List Op) (s : St α), Inv s.l → (Sync f s ∨ Fresh n s.l) → Above n f s ops →
    Inv (run f s ops).l ∧ (Sync f (run f s ops) ∨ Fresh n (run f s ops).l)
  | [], s, h, hs, _ => ⟨h, hs⟩
  | op :: ops, s, h, hs, hf => by
    obtain ⟨h1, h2⟩ := step_fresh f n s op h hf.1 hs hf.2.1 (above_pos hf.2.2)
    exact run_fresh f n ops _ h1 h2 hf.2.2

/-- **C109** (partial) A function may declare the variable local without giving a value, which makes the
two differ (`declared_unset`): when it returns they agree again. -/
theorem return_sync_partial {α} (f : Option Str → α) (s : St α) (body : List Op) (h : Inv s.l) (hs : Sync f s)
    (hf : Above s.l.length f (step f s .push) body)
    (hd : (run f (step f s .push) body).l.length = s.l.length + 1) :
    Sync f (step f (run f (step f s .push) body) .pop) := by
  obtain ⟨h1, h2⟩ := run_fresh f s.l.length body (step f s .push) ⟨by simp [step], marked_none h.marked, dead_none h.dead⟩
    (Or.inl hs) hf
  generalize run f (step f s .push) body = t at *
  rcases h2 with h2 | ⟨pre, u, post, e, hp, hud, hv, hk⟩
  · exact (pop_ok f t h1).2.2 h2
  · have hl : pre = [] ∧ post.length = s.l.length := by
      rw [e] at hd
      simp at hd
      exact ⟨List.eq_nil_of_length_eq_zero (by omega), by omega⟩
    obtain ⟨rfl, hl⟩ := hl
    cases post with
    | nil =>
      have := List.length_pos_iff.2 h.ne
      simp at hl
      omega
    | cons p r =>
      have hsp := (h1.marked u (by rw [e]; simp)).1
      simp [step, pop, e, hsp, Sync]

/-! ### What is missing

`f` is the identity, so `cur` is the value the shell uses. -/

/-- at the start: one block with the variable -/
def start (v : Str) : St (Option Str) := ⟨[some { defined := true, special := true, val := some v }], some v⟩

theorem start_ok (v : Str) : Inv (start v).l ∧ Sync id (start v) :=
  ⟨⟨by simp [start], by intro s hs; simp [start] at hs; subst hs; exact ⟨rfl, by simp⟩, by intro s hs; simp [start] at hs; subst hs; simp⟩, rfl⟩

/-- `typeset IFS` in a function: the variable is unset, the shell goes on with the old value. -/
theorem declared_unset : value (run id (start [':']) [.push, .loc 0 none]).l = none ∧
    (run id (start [':']) [.push, .loc 0 none]).cur = some [':'] := by decide

/-- `typeset IFS=,; unset IFS` in a function: the outer value is visible again, and not used. -/
theorem unset_local : value (run id (start [':']) [.push, .loc 0 (some [',']), .glob 0 (.unset true)]).l = some [':'] ∧
    (run id (start [':']) [.push, .loc 0 (some [',']), .glob 0 (.unset true)]).cur = none := by decide

/-- `typeset IFS[1]=,` in a function: the element is used, and still is after the return; what is then
assigned in the function to `IFS` itself is not used at all. -/
theorem element_local : value (run id (start [':']) [.push, .loc 1 (some [',']), .pop]).l = some [':'] ∧
    (run id (start [':']) [.push, .loc 1 (some [',']), .pop]).cur = some [','] ∧
    value (run id (start [':']) [.push, .loc 1 (some [',']), .glob 0 (.assign ['.'])]).l = some ['.'] ∧
    (run id (start [':']) [.push, .loc 1 (some [',']), .glob 0 (.assign ['.'])]).cur = some [','] := by decide

/-- `unset IFS; IFS[1]=,`: the element is used although `IFS` is unset. -/
theorem element_global : value (run id (start [':']) [.glob 0 (.unset true), .glob 1 (.assign [','])]).l = none ∧
    (run id (start [':']) [.glob 0 (.unset true), .glob 1 (.assign [','])]).cur = some [','] := by decide

/-! ### Cases -/

/-- `f() { typeset IFS=,; g; }; g() { IFS=.; }`, and `f` returns -/
example : (run id (start [':']) [.push, .loc 0 (some [',']), .push, .glob 0 (.assign ['.']), .pop]).cur = some ['.'] ∧
    (run id (start [':']) [.push, .loc 0 (some [',']), .push, .glob 0 (.assign ['.']), .pop, .pop]).cur = some [':'] := by decide

example : AllFine id (start [':']) [.push, .loc 0 (some [',']), .push, .glob 0 (.assign ['.']), .pop, .pop, .glob 0 (.unset true)] := by
  simp [AllFine, Fine, OuterOnly, step, pop, start, onLocal, onGlobal, mark, search, act, isDef]

end Ksh.Special
