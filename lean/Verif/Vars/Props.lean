import Verif.Vars.Model
/-!
# Variables and scopes (C13, C33, C34)
-/

namespace Ksh.Vars
open Ksh.Num

/-! ## Tables -/

theorem find_write_same (sc : Scope) (n : Str) (o : Option Var) : find (write sc n o) n = o := by
  cases o with
  | none =>
    simp only [find, write]
    induction sc with
    | nil => rfl
    | cons e r ih =>
      obtain ⟨m, w⟩ := e
      by_cases h : m = n
      · simp [h, List.filter_cons]; simpa using ih
      · have : (n == m) = false := by simp; exact fun e => h e.symm
        simp only [List.filter_cons, ne_eq, h, not_false_eq_true, decide_true, if_true]
        rw [List.lookup_cons, this]
        simpa using ih
  | some v =>
    simp only [write]
    cases hf : find sc n with
    | none =>
      simp only [Option.isSome_none, Bool.false_eq_true, if_false]
      unfold find at *
      induction sc with
      | nil => simp
      | cons e r ih =>
        obtain ⟨m, w⟩ := e
        rw [List.lookup_cons] at hf
        split at hf
        · simp at hf
        · rename_i h; rw [List.cons_append, List.lookup_cons, h]; exact ih hf
    | some u =>
      simp only [Option.isSome_some, if_true]
      unfold find at *
      induction sc with
      | nil => simp at hf
      | cons e r ih =>
        obtain ⟨m, w⟩ := e
        rw [List.lookup_cons] at hf
        by_cases h : m = n
        · simp [h]
        · have hb : (n == m) = false := by simp; exact fun e => h e.symm
          rw [hb] at hf
          simp only [List.map_cons, h, if_false]
          rw [List.lookup_cons, hb]
          exact ih hf

theorem find_write_other (sc : Scope) (n m : Str) (o : Option Var) (hm : m ≠ n) : find (write sc n o) m = find sc m := by
  cases o with
  | none =>
    simp only [find, write]
    induction sc with
    | nil => rfl
    | cons e r ih =>
      obtain ⟨k, w⟩ := e
      by_cases h : k = n
      · have hb : (m == k) = false := by simp [h, hm]
        simp only [List.filter_cons, ne_eq, h, not_true, decide_false, Bool.false_eq_true, if_false]
        rw [List.lookup_cons, show (m == n) = false from by simp [hm]]
        exact ih
      · simp only [List.filter_cons, ne_eq, h, not_false_eq_true, decide_true, if_true]
        rw [List.lookup_cons, List.lookup_cons, ih]
  | some v =>
    simp only [write]
    split
    · rename_i hh
      clear hh
      unfold find
      induction sc with
      | nil => rfl
      | cons e r ih =>
        obtain ⟨k, w⟩ := e
        by_cases h : k = n
        · have hb : (m == n) = false := by simp [hm]
          simp only [List.map_cons, h, if_true]
          rw [List.lookup_cons, List.lookup_cons, hb]
          exact ih
        · simp only [List.map_cons, h, if_false]
          rw [List.lookup_cons, List.lookup_cons, ih]
    · rename_i hh
      clear hh
      unfold find
      induction sc with
      | nil => simp [List.lookup_cons, show (m == n) = false from by simp [hm]]
      | cons e r ih =>
        obtain ⟨k, w⟩ := e
        rw [List.cons_append, List.lookup_cons, List.lookup_cons, ih]

/-! ## One name at a time

The instances of `x` in the blocks, innermost first. -/

def bind (x : Str) (s : St) : List (Option Var) := s.map (find · x)

/-- the operation on the instances of one name -/
def onVis (f : Var → Option Var) : List (Option Var) → List (Option Var)
  | [] => []
  | [o] => [f (o.getD {})]
  | some v :: r => f v :: r
  | none :: r => none :: onVis f r

def first (l : List (Option Var)) : Option Var := l.findSome? id

def blankX (copy : Bool) (outer : List (Option Var)) : Var :=
  match copy, first outer with
  | true, some v => { c0 := { attr := v.c0.attr, base := if v.c0.attr.int then v.c0.base else 0, field := v.c0.field } }
  | _, _ => {}

def stepX (x : Str) (l : List (Option Var)) : Op → List (Option Var)
  | .push => none :: l
  | .pop => match l with
    | _ :: o :: r => o :: r
    | l => l
  | .glob n a => if n = x then onVis (fun v => (act a v).1) l else l
  | .loc n copy a => if n = x then (match l with
      | [] => []
      | o :: r => (act a (o.getD (blankX copy r))).1 :: r) else l

theorem bind_onGlobal (x n : Str) (f : Var → Option Var) : ∀ s : St,
    bind x (onGlobal n f s) = if n = x then onVis f (bind x s) else bind x s
  | [] => by simp [onGlobal, bind, onVis]
  | [sc] => by
    by_cases h : n = x
    · subst h; simp [onGlobal, bind, onVis, find_write_same]
    · simp [onGlobal, bind, h, find_write_other _ _ _ _ (fun e => h e.symm : x ≠ n)]
  | sc :: sc2 :: r => by
    have ih := bind_onGlobal x n f (sc2 :: r)
    simp only [onGlobal]
    cases hf : find sc n with
    | some v =>
      by_cases h : n = x
      · subst h; simp [bind, onVis, find_write_same, hf]
      · simp [bind, h, find_write_other _ _ _ _ (fun e => h e.symm : x ≠ n)]
    | none =>
      by_cases h : n = x
      · subst h
        simp only [bind, List.map_cons, hf, if_true, onVis] at ih ⊢
        rw [← ih]
      · simp only [h, if_false] at ih ⊢
        simp only [bind, List.map_cons] at ih ⊢
        rw [ih]

theorem first_bind (x : Str) : ∀ s : St, first (bind x s) = visible x s
  | [] => rfl
  | sc :: r => by
    have := first_bind x r
    simp only [bind, List.map_cons, first, visible, List.findSome?_cons, id] at this ⊢
    cases find sc x <;> simp [this]

theorem blank_bind (x : Str) (copy : Bool) (s : St) : localBlank x copy s = blankX copy (bind x s) := by
  simp only [localBlank, blankX, first_bind]
  cases copy <;> cases visible x s <;> rfl

theorem bind_step (x : Str) (s : St) (op : Op) : bind x (step s op) = stepX x (bind x s) op := by
  cases op with
  | push => rfl
  | pop =>
    match s with
    | [] => rfl
    | [_] => rfl
    | _ :: _ :: _ => rfl
  | glob n a => exact bind_onGlobal x n _ s
  | loc n copy a =>
    simp only [step, stepX]
    cases s with
    | nil => simp [onLocal, bind]
    | cons sc r =>
      by_cases h : n = x
      · subst h
        simp only [onLocal, bind, List.map_cons, find_write_same, if_true, blank_bind]
      · simp [onLocal, bind, h, find_write_other _ _ _ _ (fun e => h e.symm : x ≠ n)]

theorem bind_run (x : Str) (ops : List Op) : ∀ s : St, bind x (run s ops) = ops.foldl (stepX x) (bind x s) := by
  induction ops with
  | nil => intro s; rfl
  | cons op ops ih =>
    intro s
    simp only [run, List.foldl_cons] at ih ⊢
    rw [ih, bind_step]

/-! ## Depth -/

/-- Follow blocks opened and closed; `none` if a block outside is closed. -/
def depth : Nat → List Op → Option Nat
  | d, [] => some d
  | d, .push :: r => depth (d + 1) r
  | 0, .pop :: _ => none
  | d + 1, .pop :: r => depth d r
  | d, .glob .. :: r => depth d r
  | d, .loc .. :: r => depth d r

/-! ## C13 -/

/-- A cell and its value as seen by the user. -/
def value (v : Var) (i : Nat) : Option Val := (v.cell i).bind (·.val)

/-- Elements of a read-only array are read-only. -/
def Sound (v : Var) : Prop := v.c0.attr.rdonly = true → ∀ e ∈ v.rest, e.2.attr.rdonly = true

/-- Operations that look at the flag: all but `getopts` storing `OPTARG` and the stores into
the special integers. -/
def Honest : Act → Prop
  | .optarg _ => False
  | .refresh _ => False
  | _ => True

theorem lookup_filter_ne {α : Type} (i j : Nat) (l : List (Nat × α)) (h : j ≠ i) :
    (l.filter (fun e => e.1 ≠ i)).lookup j = l.lookup j := by
  induction l with
  | nil => rfl
  | cons e r ih =>
    obtain ⟨k, c⟩ := e
    by_cases hk : k = i
    · have : (j == k) = false := by simp [hk, h]
      simp only [List.filter_cons, hk, ne_eq, not_true, decide_false, Bool.false_eq_true, if_false]
      rw [List.lookup_cons, show (j == i) = false from by simp [h]]
      exact ih
    · simp only [List.filter_cons, hk, ne_eq, not_false_eq_true, decide_true, if_true]
      rw [List.lookup_cons, List.lookup_cons, ih]

theorem cell_setCell (v : Var) (i j : Nat) (c : Cell) : (v.setCell i c).cell j = if j = i then some c else v.cell j := by
  unfold Var.setCell Var.cell
  by_cases hi : i = 0
  · subst hi
    by_cases hj : j = 0 <;> simp [hj]
  · by_cases hj : j = 0
    · subst hj; simp [hi, Ne.symm hi]
    · simp only [hi, hj, if_false]
      by_cases hij : j = i
      · subst hij; simp
      · have : (j == i) = false := by simp [hij]
        rw [List.lookup_cons, this, if_neg hij]
        exact lookup_filter_ne i j _ hij

theorem c0_setCell (v : Var) (i : Nat) (c : Cell) : (v.setCell i c).c0 = if i = 0 then c else v.c0 := by
  unfold Var.setCell; split <;> rfl

theorem rest_setCell {v : Var} {i : Nat} {c : Cell} {e} (h : e ∈ (v.setCell i c).rest) : e ∈ v.rest ∨ (i ≠ 0 ∧ e = (i, c)) := by
  unfold Var.setCell at h
  split at h
  · exact Or.inl h
  · rename_i hi
    simp only [List.mem_cons, List.mem_filter] at h
    rcases h with h | h
    · exact Or.inr ⟨hi, h⟩
    · exact Or.inl h.1

theorem c0_search (v : Var) (i : Nat) : (v.search i).c0 = v.c0 := by
  unfold Var.search
  split
  · rfl
  · rename_i hi
    split
    · split
      · rfl
      · rw [c0_setCell, if_neg hi]
    · rw [c0_setCell, if_neg hi]

theorem value_search (v : Var) (i j : Nat) : value (v.search i) j = value v j := by
  unfold Var.search
  split
  · rfl
  · rename_i hi
    split
    · rename_i c hc
      split
      · rfl
      · rename_i hv
        unfold value
        rw [cell_setCell]
        by_cases h : j = i
        · subst h
          simp only [if_true, Var.cell, hi, if_false, hc]
          simpa using (show c.val = none by simpa using hv).symm
        · simp [h]
    · rename_i hc
      unfold value
      rw [cell_setCell]
      by_cases h : j = i
      · subst h; simp [Var.cell, hi, hc]
      · simp [h]

theorem sound_search {v : Var} (h : Sound v) (i : Nat) : Sound (v.search i) := by
  intro hr e he
  rw [c0_search] at hr
  unfold Var.search at he
  split at he
  · exact h hr e he
  · split at he
    · split at he
      · exact h hr e he
      · rcases rest_setCell he with he | ⟨_, rfl⟩
        · exact h hr e he
        · exact hr
    · rcases rest_setCell he with he | ⟨_, rfl⟩
      · exact h hr e he
      · exact hr

theorem mem_of_lookup {α : Type} {i : Nat} {c : α} : ∀ {l : List (Nat × α)}, l.lookup i = some c → (i, c) ∈ l
  | [], h => by simp at h
  | (k, d) :: r, h => by
    rw [List.lookup_cons] at h
    split at h
    · rename_i hb
      simp only [Option.some.injEq] at h
      simp only [beq_iff_eq] at hb
      subst hb h
      simp
    · exact List.mem_cons_of_mem _ (mem_of_lookup h)

/-- the cell of a read-only variable is read-only -/
theorem at_rdonly {v : Var} (h : Sound v) (hr : v.c0.attr.rdonly = true) (i : Nat) : (v.at i).attr.rdonly = true := by
  unfold Var.at
  by_cases hi : i = 0
  · subst hi; simp [Var.search, Var.cell, hr]
  · simp only [Var.search, hi, if_false]
    cases hl : v.rest.lookup i with
    | none => simp [cell_setCell, hr]
    | some c =>
      simp only
      by_cases hc : c.val.isSome = true
      · simp only [hc, if_true]
        simp only [Var.cell, hi, if_false, hl, Option.getD_some]
        exact h hr _ (mem_of_lookup hl)
      · simp [hc, cell_setCell, hr]

/-- What it means that the read-only variable has been kept. -/
structure Kept (v v' : Var) : Prop where
  rdonly : v'.c0.attr.rdonly = true
  sound : Sound v'
  value : ∀ i, value v' i = value v i

theorem kept_search {v : Var} (h : Sound v) (hr : v.c0.attr.rdonly = true) (i : Nat) : Kept v (v.search i) :=
  ⟨by rw [c0_search]; exact hr, sound_search h i, value_search v i⟩

theorem retype_export (c : Cell) (set : Attr) (field base : Nat) (b : Bool) (res) (hs : ({ set with expo := false } : Attr) = {}) :
    (retype c set {} field base b res).2 = true ∧ (retype c set {} field base b res).1.val = c.val ∧
    (retype c set {} field base b res).1.attr.rdonly = c.attr.rdonly := by
  obtain ⟨i, e, r, l, rj, z, lc, uc, iu⟩ := set
  simp only [Attr.mk.injEq] at hs
  obtain ⟨rfl, -, rfl, rfl, rfl, rfl, rfl, rfl, rfl⟩ := hs
  have : ∀ v : Option Val, (match v with
      | some (Val.str s) => if (!c.attr.int && c.attr.int) = true then some (Val.addr s) else v
      | v => v) = v := by
    intro v; cases v with
    | none => rfl
    | some v => cases v <;> simp
  cases hv : c.val with
  | none => simp [retype, hv, Attr.change]
  | some v => cases v <;> simp [retype, hv, Attr.change]

theorem act_kept (a : Act) (ha : Honest a) (v : Var) (h : Sound v) (hr : v.c0.attr.rdonly = true) :
    ∃ v', (act a v).1 = some v' ∧ Kept v v' := by
  cases a with
  | ref i => exact ⟨_, rfl, kept_search h hr i⟩
  | assign i s res =>
    have : setstr (v.at i) s false res = none := by simp [setstr, at_rdonly h hr i]
    exact ⟨_, by simp only [act, this], kept_search h hr i⟩
  | arith i n b => exact ⟨_, by simp only [act, at_rdonly h hr i, if_true], kept_search h hr i⟩
  | typeset i set clr field base val res resv =>
    have hr' : (v.search i).c0.attr.rdonly = true := by rw [c0_search]; exact hr
    simp only [act, hr', Bool.true_and]
    by_cases hc : (val.isSome || !clr.isEmpty || !({ set with expo := false } : Attr).isEmpty) = true
    · rw [if_pos hc]
      exact ⟨_, rfl, kept_search h hr i⟩
    · rw [if_neg hc]
      simp only [Bool.or_eq_true, Bool.not_eq_true', not_or, Bool.not_eq_true, Option.isSome_eq_false_iff, Option.isNone_iff_eq_none,
        Bool.not_eq_false] at hc
      obtain ⟨⟨hv, hcl⟩, hst⟩ := hc
      have hcl : clr = {} := by simpa [Attr.isEmpty] using hcl
      have hst : ({ set with expo := false } : Attr) = {} := by simpa [Attr.isEmpty] using hst
      subst hv hcl
      simp only [Option.isSome_none, Bool.false_and]
      by_cases hse : set.isEmpty = true
      · have hce : ({} : Attr).isEmpty = true := rfl
        simp only [hse, hce, Bool.and_true, Bool.true_or, Bool.not_true, Bool.false_eq_true, if_false, if_true]
        exact ⟨_, rfl, kept_search h hr i⟩
      · have hok : ((retype (v.search i).c0 set {} field base false (res 0)).2 &&
            (v.search i).rest.all fun e => (retype e.2 set {} field base false (res e.1)).2) = true := by
          simp only [Bool.and_eq_true, List.all_eq_true]
          exact ⟨(retype_export _ _ _ _ _ _ hst).1, fun e _ => (retype_export _ _ _ _ _ _ hst).1⟩
        simp only [hse, Bool.false_and, Bool.false_or, hok, Bool.not_true, Bool.false_eq_true, if_false]
        refine ⟨_, rfl, ?_⟩
        have hk := kept_search h hr i
        refine ⟨?_, ?_, ?_⟩
        · simp only [(retype_export _ _ _ _ _ _ hst).2.2]; exact hk.rdonly
        · intro _ e he
          simp only [List.mem_map] at he
          obtain ⟨e', he', rfl⟩ := he
          simp only [(retype_export _ _ _ _ _ _ hst).2.2]
          exact hk.sound hk.rdonly e' he'
        · intro j
          rw [← hk.value j]
          simp only [value, Var.cell]
          by_cases hj : j = 0
          · simp [hj, (retype_export _ _ _ _ _ _ hst).2.1]
          · simp only [hj, if_false]
            generalize (v.search i).rest = l
            induction l with
            | nil => rfl
            | cons e r ih =>
              obtain ⟨k, c⟩ := e
              simp only [List.map_cons, List.lookup_cons]
              split
              · simp [(retype_export _ _ _ _ _ _ hst).2.1]
              · exact ih
  | unset i =>
    simp only [act, at_rdonly h hr, if_true]
    exact ⟨_, rfl, kept_search h hr _⟩
  | setA reset vals res =>
    simp only [act, hr, if_true]
    exact ⟨_, rfl, hr, h, fun _ => rfl⟩
  | optarg s => exact absurd ha id
  | refresh n => exact absurd ha id

/-- every operation on `x` in the list looks at the flag -/
def HonestFor (x : Str) (ops : List Op) : Prop :=
  ∀ op ∈ ops, match op with
    | .glob n a => n = x → Honest a
    | .loc n _ a => n = x → Honest a
    | _ => True

theorem onVis_kept {f : Var → Option Var} (hf : ∀ v, Sound v → v.c0.attr.rdonly = true → ∃ v', f v = some v' ∧ Kept v v') :
    ∀ (pre post : List (Option Var)) (v : Var), Sound v → v.c0.attr.rdonly = true →
    ∃ pre' v' post', onVis f (pre ++ some v :: post) = pre' ++ some v' :: post' ∧ pre'.length = pre.length ∧
      post'.length = post.length ∧ Kept v v'
  | [], [], v, h, hr => by
    obtain ⟨v', h1, h2⟩ := hf v h hr
    exact ⟨[], v', [], by simp [onVis, h1], rfl, rfl, h2⟩
  | [], o :: post, v, h, hr => by
    obtain ⟨v', h1, h2⟩ := hf v h hr
    exact ⟨[], v', o :: post, by simp [onVis, h1], rfl, rfl, h2⟩
  | some w :: pre, post, v, h, hr => by
    refine ⟨f w :: pre, v, post, ?_, by simp, rfl, hr, h, fun _ => rfl⟩
    cases pre <;> simp [onVis]
  | none :: pre, post, v, h, hr => by
    obtain ⟨pre', v', post', h1, h2, h3, h4⟩ := onVis_kept hf pre post v h hr
    refine ⟨none :: pre', v', post', ?_, by simp [h2], h3, h4⟩
    have : onVis f (none :: pre ++ some v :: post) = none :: onVis f (pre ++ some v :: post) := by
      cases pre <;> simp [onVis]
    rw [this, h1]; rfl

theorem run_kept (x : Str) : ∀ (ops : List Op) (pre post : List (Option Var)) (v : Var), Sound v → v.c0.attr.rdonly = true →
    HonestFor x ops → (depth pre.length ops).isSome →
    ∃ pre' v' post', ops.foldl (stepX x) (pre ++ some v :: post) = pre' ++ some v' :: post' ∧ post'.length = post.length ∧ Kept v v'
  | [], pre, post, v, h, hr, _, _ => ⟨pre, v, post, rfl, rfl, hr, h, fun _ => rfl⟩
  | op :: ops, pre, post, v, h, hr, hh, hd => by
    have hh' : HonestFor x ops := fun o ho => hh o (List.mem_cons_of_mem _ ho)
    have hop := hh op (by simp)
    have key : ∀ pre1 v1 post1, stepX x (pre ++ some v :: post) op = pre1 ++ some v1 :: post1 → post1.length = post.length →
        Kept v v1 → (depth pre1.length ops).isSome →
        ∃ pre' v' post', (op :: ops).foldl (stepX x) (pre ++ some v :: post) = pre' ++ some v' :: post' ∧ post'.length = post.length ∧ Kept v v' := by
      intro pre1 v1 post1 h1 h2 h3 h4
      obtain ⟨pre', v', post', g1, g2, g3⟩ := run_kept x ops pre1 post1 v1 h3.sound h3.rdonly hh' h4
      exact ⟨pre', v', post', by rw [List.foldl_cons, h1, g1], by omega, g3.rdonly, g3.sound, fun i => by rw [g3.value, h3.value]⟩
    have same : Kept v v := ⟨hr, h, fun _ => rfl⟩
    cases op with
    | push => exact key (none :: pre) v post rfl rfl same (by simpa [depth] using hd)
    | pop =>
      cases pre with
      | nil => simp [depth] at hd
      | cons o pre =>
        refine key pre v post ?_ rfl same (by simpa [depth] using hd)
        cases pre <;> rfl
    | glob n a =>
      by_cases hn : n = x
      · obtain ⟨pre', v', post', g1, g2, g3, g4⟩ := onVis_kept (fun v h hr => act_kept a (hop hn) v h hr) pre post v h hr
        exact key pre' v' post' (by simpa [stepX, hn] using g1) g3 g4 (by rw [g2]; simpa [depth] using hd)
      · exact key pre v post (by simp [stepX, hn]) rfl same (by simpa [depth] using hd)
    | loc n copy a =>
      by_cases hn : n = x
      · cases pre with
        | nil =>
          obtain ⟨v', g1, g2⟩ := act_kept a (hop hn) v h hr
          exact key [] v' post (by simp [stepX, hn, g1]) rfl g2 (by simpa [depth] using hd)
        | cons o pre =>
          exact key (_ :: pre) v post (by simp only [stepX, hn, if_true, List.cons_append]; rfl) rfl same (by simpa [depth] using hd)
      · exact key pre v post (by simp [stepX, hn]) rfl same (by simpa [depth] using hd)

/-- **C13** (partial: `getopts` storing `OPTARG` and the shell's own stores into special
integer variables are left out, they ignore the flag): a variable that is read-only in a
block keeps its value, every element of it, and stays read-only through every sequence of
operations, in this or inner blocks, as long as the block exists. -/
theorem readonly_kept_partial (x : Str) (inner : St) (sc : Scope) (outer : St) (v : Var) (hv : find sc x = some v)
    (hs : Sound v) (hr : v.c0.attr.rdonly = true) (ops : List Op) (hh : HonestFor x ops)
    (hd : (depth inner.length ops).isSome) :
    ∃ inner' sc' outer' v', run (inner ++ sc :: outer) ops = inner' ++ sc' :: outer' ∧ outer'.length = outer.length ∧
      find sc' x = some v' ∧ v'.c0.attr.rdonly = true ∧ ∀ i, value v' i = value v i := by
  have hb : bind x (inner ++ sc :: outer) = bind x inner ++ some v :: bind x outer := by simp [bind, hv]
  obtain ⟨pre', v', post', h1, h2, h3⟩ := run_kept x ops (bind x inner) (bind x outer) v hs hr hh (by simpa [bind] using hd)
  rw [← hb, ← bind_run] at h1
  generalize run (inner ++ sc :: outer) ops = s' at h1
  obtain ⟨a, b, rfl, ha, hb'⟩ := List.map_eq_append_iff.1 (show s'.map (find · x) = pre' ++ some v' :: post' from h1)
  obtain ⟨sc', outer', rfl, hsc, hout⟩ := List.map_eq_cons_iff.1 hb'
  refine ⟨a, sc', outer', v', rfl, ?_, hsc, h3.rdonly, h3.value⟩
  have := congrArg List.length hout
  simp only [List.length_map] at this
  rw [this, h2, bind, List.length_map]

/-- The read-only flag is set on all elements at once: every history reaches sound
variables only (the flag of `OPTARG` may be cleared, never set, by `getopts`). -/
theorem sound_act (a : Act) (v : Var) (h : Sound v) (v' : Var) (hv : (act a v).1 = some v') : Sound v' := by
  have hset : ∀ (w : Var) (i : Nat) (c : Cell), Sound w → (c.attr.rdonly = w.c0.attr.rdonly ∨ (w.c0.attr.rdonly = false ∧ (i = 0 → c.attr.rdonly = false))) →
      Sound (w.setCell i c) := by
    intro w i c hw hc hr e he
    rw [c0_setCell] at hr
    by_cases hi : i = 0
    · subst hi
      simp only [if_true] at hr
      have he' : e ∈ w.rest := by
        rcases rest_setCell he with h | ⟨h, _⟩
        · exact h
        · exact absurd rfl h
      rcases hc with hc | ⟨_, hc⟩
      · exact hw (by rw [← hc]; exact hr) e he'
      · rw [hc rfl] at hr; simp at hr
    · rw [if_neg hi] at hr
      rcases rest_setCell he with he | ⟨_, rfl⟩
      · exact hw hr e he
      · rcases hc with hc | ⟨hc, _⟩
        · rw [hc]; exact hr
        · rw [hc] at hr; simp at hr
  have hat : ∀ (w : Var) (i : Nat), Sound w → ∀ c : Cell, c.attr.rdonly = (w.at i).attr.rdonly → Sound ((w.search i).setCell i c) := by
    intro w i hw c hc
    refine hset _ _ _ (sound_search hw i) ?_
    rw [c0_search]
    cases hr : w.c0.attr.rdonly with
    | true => left; rw [hc, at_rdonly hw hr]
    | false =>
      right
      refine ⟨rfl, ?_⟩
      intro hi
      subst hi
      rw [hc]
      simpa [Var.at, Var.search, Var.cell] using hr
  have hsstr : ∀ (c : Cell) s b res c', setstr c s b res = some c' → c'.attr.rdonly = c.attr.rdonly := by
    intro c s b res c' hc
    unfold setstr at hc
    split at hc
    · simp at hc
    · split at hc
      · simp only [Option.some.injEq] at hc; rw [← hc]
      · split at hc
        · simp at hc
        · simp only [Option.some.injEq] at hc; rw [← hc]
  have hsint : ∀ (c : Cell) n c', setint c n = some c' → c'.attr.rdonly = c.attr.rdonly := by
    intro c n c' hc
    unfold setint at hc
    split at hc
    · simp only [Option.some.injEq] at hc; rw [← hc]
    · exact hsstr _ _ _ _ _ hc
  cases a with
  | ref i => simp only [act, Option.some.injEq] at hv; subst hv; exact sound_search h i
  | assign i s res =>
    simp only [act] at hv
    split at hv
    · rename_i c hc
      simp only [Option.some.injEq] at hv; subst hv
      exact hat v i h c (hsstr _ _ _ _ _ hc)
    · simp only [Option.some.injEq] at hv; subst hv; exact sound_search h i
  | arith i n b =>
    simp only [act] at hv
    split at hv
    · simp only [Option.some.injEq] at hv; subst hv; exact sound_search h i
    · split at hv
      · simp only [Option.some.injEq] at hv; subst hv; exact hat v i h _ rfl
      · split at hv
        · rename_i c hc
          simp only [Option.some.injEq] at hv; subst hv
          exact hat v i h c (hsint _ _ _ hc)
        · simp only [Option.some.injEq] at hv; subst hv; exact sound_search h i
  | typeset i set clr field base val res resv =>
    have hretype : ∀ (c : Cell) f b x r, (retype c set clr f b x r).1.attr.rdonly = ((c.attr.rdonly || set.rdonly) && !clr.rdonly) := by
      intro c f b x r
      unfold retype
      simp only
      split
      · split
        · rename_i c' hc
          rw [hsstr _ _ _ _ _ hc]; rfl
        · split <;> rfl
      · rfl
    have hloop : ∀ w : Var, Sound w → Sound (⟨(retype w.c0 set clr field base (val.isSome && decide (0 = i)) (res 0)).1,
        w.rest.map fun e => (e.1, (retype e.2 set clr field base (val.isSome && decide (e.1 = i)) (res e.1)).1)⟩) := by
      intro w hw hr e he
      simp only [List.mem_map] at he
      obtain ⟨e', he', rfl⟩ := he
      simp only [hretype] at hr ⊢
      simp only [Bool.and_eq_true, Bool.or_eq_true] at hr ⊢
      refine ⟨?_, hr.2⟩
      rcases hr.1 with h1 | h1
      · exact Or.inl (hw h1 e' he')
      · exact Or.inr h1
    simp only [act] at hv
    split at hv
    · simp only [Option.some.injEq] at hv; subst hv; exact sound_search h i
    · rename_i hnr
      have hs2 : Sound (if (set.isEmpty && clr.isEmpty) = true then v.search i else
          ⟨(retype (v.search i).c0 set clr field base (val.isSome && decide (0 = i)) (res 0)).1,
           (v.search i).rest.map fun e => (e.1, (retype e.2 set clr field base (val.isSome && decide (e.1 = i)) (res e.1)).1)⟩) := by
        split
        · exact sound_search h i
        · exact hloop _ (sound_search h i)
      generalize hg : (if (set.isEmpty && clr.isEmpty) = true then v.search i else
          ⟨(retype (v.search i).c0 set clr field base (val.isSome && decide (0 = i)) (res 0)).1,
           (v.search i).rest.map fun e => (e.1, (retype e.2 set clr field base (val.isSome && decide (e.1 = i)) (res e.1)).1)⟩) = w at hs2 hv
      split at hv
      · simp only [Option.some.injEq] at hv; subst hv; exact hs2
      · split at hv
        · simp only [Option.some.injEq] at hv; subst hv; exact hs2
        · split at hv
          · simp only [Option.some.injEq] at hv; subst hv; exact hs2
          · rename_i c' hc'
            simp only [Option.some.injEq] at hv; subst hv
            have hcr := hsstr _ _ _ _ _ hc'
            have hfin : ∀ c : Cell, c.attr.rdonly = ((w.cell i).getD {}).attr.rdonly → Sound (w.setCell i c) := by
              intro c hc
              -- the cell assigned is the base, or an element carrying the flag of the base if that is set
              by_cases hi : i = 0
              · subst hi
                exact hset _ _ _ hs2 (Or.inl (by simpa [Var.cell] using hc))
              · cases hw : w.c0.attr.rdonly with
                | false => exact hset _ _ _ hs2 (Or.inr ⟨hw, fun h => absurd h hi⟩)
                | true =>
                  refine hset _ _ _ hs2 (Or.inl ?_)
                  rw [hc, hw]
                  have hex : ∃ d, (v.search i).rest.lookup i = some d := by
                    simp only [Var.search, hi, if_false]
                    split
                    · rename_i d hd
                      split
                      · exact ⟨d, hd⟩
                      · simp [Var.setCell, hi]
                    · simp [Var.setCell, hi]
                  obtain ⟨d, hd⟩ := hex
                  have hex' : ∃ d, w.rest.lookup i = some d := by
                    rw [← hg]
                    split
                    · exact ⟨d, hd⟩
                    · simp only
                      clear hg hs2 hc' hw hcr hc
                      revert hd
                      generalize (v.search i).rest = l
                      intro hd
                      induction l with
                      | nil => simp at hd
                      | cons e r ih =>
                        rw [List.lookup_cons] at hd
                        simp only [List.map_cons]
                        rw [List.lookup_cons]
                        split at hd
                        · exact ⟨_, rfl⟩
                        · exact ih hd
                  obtain ⟨d', hd'⟩ := hex'
                  simp only [Var.cell, hi, if_false, hd', Option.getD_some]
                  exact hs2 hw _ (mem_of_lookup hd')
            split
            · exact hfin _ hcr
            · exact hfin _ hcr
  | unset i =>
    simp only [act] at hv
    split at hv
    · simp only [Option.some.injEq] at hv; subst hv; exact sound_search h _
    · rename_i hnr
      cases i with
      | none => simp at hv
      | some j =>
        simp only [Option.some.injEq] at hv; subst hv
        refine hset _ _ _ (sound_search h j) (Or.inr ⟨?_, fun _ => rfl⟩)
        rw [Option.getD_some, c0_search]
        cases hr : v.c0.attr.rdonly with
        | false => rfl
        | true => exact absurd (at_rdonly h hr j) hnr
  | setA reset vals res =>
    simp only [act] at hv
    split at hv
    · simp only [Option.some.injEq] at hv; subst hv; exact h
    · rename_i hnr
      have hgo : ∀ (l : List (Str × Nat)) (w : Var), Sound w →
          Sound (l.foldl (fun v (s, i) => match setstr (v.at i) s false (res i) with
            | some c => (v.search i).setCell i c
            | none => v.search i) w) := by
        intro l
        induction l with
        | nil => intro w hw; exact hw
        | cons e l ih =>
          intro w hw
          obtain ⟨t, i⟩ := e
          rw [List.foldl_cons]
          apply ih
          simp only
          cases hc : setstr (w.at i) t false (res i) with
          | some c => exact hat w _ hw c (hsstr _ _ _ _ _ hc)
          | none => exact sound_search hw _
      split at hv
      · simp at hv
      · simp only [Option.some.injEq] at hv; subst hv
        apply hgo
        split
        · intro hr; simp at hr
        · exact h
  | optarg s =>
    simp only [act] at hv
    cases s with
    | none => simp at hv
    | some s =>
      simp only [Option.some.injEq] at hv; subst hv
      intro hr
      simp only [setstr, Bool.false_and, Bool.false_eq_true, if_false, Bool.not_false, if_true, Option.getD_some] at hr
  | refresh n =>
    simp only [act] at hv
    split at hv
    · rename_i c hc
      simp only [Option.some.injEq] at hv; subst hv
      intro hr e he
      exact h (by rw [← hsint _ _ _ hc]; exact hr) e he
    · simp only [Option.some.injEq] at hv; subst hv; exact h

/-- Sound states: all instances of all names. -/
def SoundSt (s : St) : Prop := ∀ x v, some v ∈ bind x s → Sound v

theorem sound_blank {a : Attr} {val b f} : Sound { c0 := ⟨a, val, b, f⟩ } := by intro _ e he; simp at he

theorem sound_onVis (a : Act) : ∀ (l : List (Option Var)), (∀ v, some v ∈ l → Sound v) →
    ∀ v, some v ∈ onVis (fun v => (act a v).1) l → Sound v
  | [], _, v, hv => by simp [onVis] at hv
  | [o], h, v, hv => by
    simp only [onVis, List.mem_singleton] at hv
    refine sound_act a _ ?_ v hv.symm
    cases o with
    | none => exact sound_blank
    | some w => exact h w (by simp)
  | some w :: o :: r, h, v, hv => by
    simp only [onVis, List.mem_cons] at hv
    rcases hv with hv | hv
    · exact sound_act a w (h w (by simp)) v hv.symm
    · exact h v (by simp [hv])
  | none :: o :: r, h, v, hv => by
    simp only [onVis, List.mem_cons, reduceCtorEq, false_or] at hv
    exact sound_onVis a (o :: r) (fun w hw => h w (List.mem_cons_of_mem _ hw)) v hv

/-- Every history from the empty table reaches sound states. -/
theorem sound_run (ops : List Op) : ∀ s, SoundSt s → SoundSt (run s ops) := by
  induction ops with
  | nil => intro s h; exact h
  | cons op ops ih =>
    intro s h
    refine ih (step s op) ?_
    intro x v hv
    rw [bind_step] at hv
    have hx := h x
    cases op with
    | push => simp only [stepX, List.mem_cons, reduceCtorEq, false_or] at hv; exact hx v hv
    | pop =>
      simp only [stepX] at hv
      split at hv
      · rename_i heq; exact hx v (by rw [heq]; exact List.mem_cons_of_mem _ hv)
      · exact hx v hv
    | glob n a =>
      simp only [stepX] at hv
      split at hv
      · exact sound_onVis a _ hx v hv
      · exact hx v hv
    | loc n copy a =>
      simp only [stepX] at hv
      split at hv
      · split at hv
        · simp at hv
        · rename_i o r heq
          rw [heq] at hx
          simp only [List.mem_cons] at hv
          rcases hv with hv | hv
          · refine sound_act a _ ?_ v hv.symm
            cases o with
            | none =>
              simp only [Option.getD_none, blankX]
              split <;> exact sound_blank
            | some w => exact hx w (by simp)
          · exact hx v (by simp [hv])
      · exact hx v hv

theorem sound_start : SoundSt [[]] := by
  intro x v hv
  simp [bind, find] at hv

end Ksh.Vars
