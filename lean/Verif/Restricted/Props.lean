import Verif.Restricted.Model

/-!
# The restricted shell (C53)
-/

namespace Ksh.Restricted
open Ksh.Vars (Str Var Act Attr Scope value Sound find)

variable {W : Type}

/-- The least one may do in a restricted shell. -/
def Allowed : Ev W → Prop
  | .chdir _ => False
  | .opened o => o.acc = .rdonly ∧ o.creat = false ∧ o.trunc = false
  | .ran w => '/' ∉ w

/-! ## Directory, redirections, commands, and the option itself -/

theorem open_readonly (noclobber special : Bool) (io : Io) (o : OFlags) (h : ioopen true noclobber special io = some o) :
    o = { acc := .rdonly } := by
  cases io <;> simp [ioopen, ioflags] at h <;> simp [← h]

/-- The check is not too strict: what is opened for reading only is the same as without it. -/
theorem open_read_same (r noclobber special : Bool) : ioopen r noclobber special .read = some { acc := .rdonly } := by
  cases r <;> rfl

theorem flags_step (s : St) (c : Cmd W) (hs : s.flags .restricted = 1) : (step s c).1.flags .restricted = 1 := by
  have hv : ∀ v, (stepVar s v).flags .restricted = 1 := by intro v; cases v <;> exact hs
  cases c with
  | set me args =>
    simp only [step]
    cases hp : Options.parseArgs me Options.OF_SET ("set".toList :: args) s.flags with
    | none => exact hs
    | some o =>
      simp only
      rw [Options.set_keeps_cmdline me hp .restricted (Or.inl rfl)]; exact hs
  | cd b to => simp only [step]; (repeat' split) <;> exact hs
  | redir io sp => exact hs
  | word S ws => simp only [step]; split <;> exact hs
  | _ => simp only [step]; exact hv _

theorem events_step (s : St) (c : Cmd W) (hs : s.restricted = true) : ∀ ev ∈ (step s c).2, Allowed ev := by
  cases c with
  | set me argv => simp only [step]; split <;> simp
  | cd b to => simp only [step, hs, if_true]; split <;> simp
  | redir io sp =>
    intro ev h
    simp only [step, hs, List.mem_map, Option.mem_toList, Option.mem_def] at h
    obtain ⟨o, ho, rfl⟩ := h
    rw [open_readonly _ _ _ _ ho]
    exact ⟨rfl, rfl, rfl⟩
  | word S ws =>
    intro ev h
    simp only [step] at h
    split at h
    · rename_i f w x hw
      simp only [List.mem_singleton] at h
      subst h
      exact Findcom.restricted_no_slash _ hs ws f w x hw
    · simp at h
  | _ => intro ev h; simp [step] at h

theorem St.restricted_of {s : St} (h : s.flags .restricted = 1) : s.restricted = true := by simp [St.restricted, h]

/-- **C53**, all but the variables: whatever commands are given, once the option is on it stays on,
the directory is never changed, no name with a slash is run, and redirections open for reading
only. -/
theorem restricted_events (cs : List (Cmd W)) : ∀ (s : St), s.flags .restricted = 1 →
    (run s cs).1.flags .restricted = 1 ∧ ∀ ev ∈ (run s cs).2, Allowed ev := by
  induction cs with
  | nil => intro s hs; exact ⟨hs, by simp [run]⟩
  | cons c cs ih =>
    intro s hs
    have h := ih _ (flags_step s c hs)
    simp only [run]
    refine ⟨h.1, ?_⟩
    intro ev he
    rcases List.mem_append.1 he with he | he
    · exact events_step s c (St.restricted_of hs) ev he
    · exact h.2 ev he

/-! ## The variables -/

structure RO (w : Var) : Prop where
  ro : w.c0.attr.rdonly = true
  sound : Sound w

/-- The outermost instance is read-only and has the values `g`; the others are read-only and have
no value. -/
def Locked (g : Nat → Option Vars.Val) : List (Option Var) → Prop
  | [] => False
  | [o] => ∃ v, o = some v ∧ RO v ∧ ∀ i, value v i = g i
  | o :: o2 :: r => (∀ w, o = some w → RO w ∧ ∀ i, value w i = none) ∧ Locked g (o2 :: r)

theorem locked_first {g} : ∀ {l}, Locked g l → ∃ w, Vars.first l = some w ∧ w.c0.attr.rdonly = true
  | [], h => h.elim
  | [o], ⟨v, ho, hr, _⟩ => ⟨v, by simp [Vars.first, ho], hr.ro⟩
  | o :: o2 :: r, ⟨h1, h2⟩ => by
    cases o with
    | some w => exact ⟨w, by simp [Vars.first], (h1 w rfl).1.ro⟩
    | none =>
      obtain ⟨w, hw, h⟩ := locked_first h2
      exact ⟨w, by simpa [Vars.first] using hw, h⟩

theorem kept_ro {a : Act} (ha : Vars.Honest a) {v : Var} (h : RO v) :
    ∃ v', (Vars.act a v).1 = some v' ∧ RO v' ∧ ∀ i, value v' i = value v i := by
  obtain ⟨v', h1, h2⟩ := Vars.act_kept a ha v h.sound h.ro
  exact ⟨v', h1, ⟨h2.rdonly, h2.sound⟩, h2.value⟩

theorem locked_onVis {g} {a : Act} (ha : Vars.Honest a) : ∀ {l}, Locked g l → Locked g (Vars.onVis (fun v => (Vars.act a v).1) l)
  | [], h => h.elim
  | [o], ⟨v, ho, hr, hv⟩ => by
    subst ho
    obtain ⟨v', h1, h2, h3⟩ := kept_ro ha hr
    exact ⟨v', by simp [h1], h2, fun i => by rw [h3, hv]⟩
  | some w :: o2 :: r, ⟨h1, h2⟩ => by
    obtain ⟨hr, hv⟩ := h1 w rfl
    obtain ⟨v', g1, g2, g3⟩ := kept_ro ha hr
    refine ⟨?_, h2⟩
    intro u hu
    have hu : some v' = some u := g1.symm.trans hu
    simp only [Option.some.injEq] at hu
    subst hu
    exact ⟨g2, fun i => by rw [g3, hv]⟩
  | none :: o2 :: r, ⟨h1, h2⟩ => by
    have := locked_onVis ha h2
    simp only [Vars.onVis]
    cases hl : Vars.onVis (fun v => (Vars.act a v).1) (o2 :: r) with
    | nil => rw [hl] at this; exact this.elim
    | cons x y => rw [hl] at this; exact ⟨by simp, this⟩

theorem blank_ro {g} {l} (h : Locked g l) : RO (Vars.blankX true l) ∧ ∀ i, value (Vars.blankX true l) i = none := by
  obtain ⟨w, hw, hr⟩ := locked_first h
  simp only [Vars.blankX, hw]
  refine ⟨⟨hr, ?_⟩, ?_⟩
  · intro _ e he; simp at he
  · intro i
    simp only [value, Vars.Var.cell]
    split <;> simp

theorem locked_loc {g} {a : Act} (ha : Vars.Honest a) {o r} (copy : Bool) (h : Locked g (o :: r)) (hc : copy = true ∨ r = []) :
    Locked g ((Vars.act a (o.getD (Vars.blankX copy r))).1 :: r) := by
  cases r with
  | nil =>
    obtain ⟨v, rfl, hr, hv⟩ := h
    obtain ⟨v', h1, h2, h3⟩ := kept_ro ha hr
    exact ⟨v', by simpa using h1, h2, fun i => by rw [h3, hv]⟩
  | cons o2 r =>
    have hc : copy = true := by simpa using hc
    subst hc
    obtain ⟨h1, h2⟩ := h
    have hb : RO (o.getD (Vars.blankX true (o2 :: r))) ∧ ∀ i, value (o.getD (Vars.blankX true (o2 :: r))) i = none := by
      cases o with
      | none => exact blank_ro h2
      | some w => exact h1 w rfl
    obtain ⟨v', g1, g2, g3⟩ := kept_ro ha hb.1
    refine ⟨?_, h2⟩
    intro u hu
    rw [g1] at hu
    simp only [Option.some.injEq] at hu
    subst hu
    exact ⟨g2, fun i => by rw [g3, hb.2]⟩

/-- The way around the check: a `typeset` in a function of `PATH`, `ENV` or `SHELL` with a
subscript. -/
def Escape : Cmd W → Prop
  | .typeset n (some _) .loc .. => n ∈ guarded
  | _ => False

theorem locked_step {g} {x : Str} (hx : x ∈ guarded) (s : St) (c : Cmd W) (hs : s.restricted = true) (hc : ¬ Escape c)
    (h : Locked g (Vars.bind x s.vars)) : Locked g (Vars.bind x (step s c).1.vars) := by
  have glob : ∀ (n : Str) (a : Act), (n = x → Vars.Honest a) →
      Locked g (Vars.bind x (Vars.step s.vars (.glob n a))) := by
    intro n a ha
    rw [Vars.bind_step]
    simp only [Vars.stepX]
    split
    · rename_i hn; exact locked_onVis (ha hn) h
    · exact h
  have locl : ∀ (n : Str) (copy : Bool) (a : Act), Vars.Honest a → (n = x → copy = true) →
      Locked g (Vars.bind x (Vars.step s.vars (.loc n copy a))) := by
    intro n copy a ha hcp
    rw [Vars.bind_step]
    simp only [Vars.stepX]
    split
    · rename_i hn
      generalize Vars.bind x s.vars = l at h
      cases l with
      | nil => exact h.elim
      | cons o r => exact locked_loc ha copy h (Or.inl (hcp hn))
    · exact h
  cases c with
  | set me argv => simp only [step]; split <;> exact h
  | cd b to => simp only [step]; (repeat' split) <;> exact h
  | redir io sp => exact h
  | word S ws => simp only [step]; split <;> exact h
  | push =>
    simp only [step, varOp, stepVar, Vars.bind_step, Vars.stepX]
    generalize Vars.bind x s.vars = l at h
    cases l with
    | nil => exact h.elim
    | cons o r => exact ⟨by simp, h⟩
  | pop =>
    simp only [step, varOp, stepVar, Vars.bind_step, Vars.stepX]
    generalize Vars.bind x s.vars = l at h
    match l, h with
    | [o], h => exact h
    | o :: o2 :: r, h => exact h.2
  | typeset n sub m set clr field base val res resv =>
    simp only [step, varOp]
    by_cases hb : (s.restricted && sub.isNone && guarded.contains n) = true
    · rw [if_pos hb]; exact h
    · rw [if_neg hb]
      cases m with
      | global => exact glob _ _ (fun _ => trivial)
      | copy => exact locl _ _ _ trivial (fun _ => rfl)
      | loc =>
        refine locl _ _ _ trivial (fun hn => ?_)
        subst hn
        cases sub with
        | none => exact absurd (by simp [hs, hx]) hb
        | some i => exact absurd hx hc
  | ref n i => exact glob _ _ (fun _ => trivial)
  | assign n i v res => exact glob _ _ (fun _ => trivial)
  | arith n i v b => exact glob _ _ (fun _ => trivial)
  | unset n i => exact glob _ _ (fun _ => trivial)
  | setA n reset vals res => exact glob _ _ (fun _ => trivial)
  | optarg v =>
    refine glob _ _ (fun hn => ?_)
    subst hn
    exact absurd hx (by decide +kernel)
  | refresh k v =>
    simp only [step, varOp]
    cases hk : selfSet[(k : Nat)]? with
    | none => exact h
    | some n =>
      refine glob _ _ (fun hn => ?_)
      subst hn
      exact absurd hx ((show ∀ n ∈ selfSet, n ∉ guarded by decide +kernel) _ (List.mem_of_getElem? hk))

theorem locked_run {g} {x : Str} (hx : x ∈ guarded) (cs : List (Cmd W)) : ∀ (s : St), s.flags .restricted = 1 → (∀ c ∈ cs, ¬ Escape c) →
    Locked g (Vars.bind x s.vars) → Locked g (Vars.bind x (run s cs).1.vars) := by
  induction cs with
  | nil => intro s _ _ h; exact h
  | cons c cs ih =>
    intro s hs hc h
    exact ih _ (flags_step s c hs) (fun d hd => hc d (List.mem_cons_of_mem _ hd))
      (locked_step hx s c (St.restricted_of hs) (hc c (by simp)) h)

/-! ### The start of the shell -/

def ro : Act := .typeset 0 { rdonly := true } {} 0 0 none (fun _ => none) none

/-- one name of `typeset -r` -/
def one (o : Option Scope) (n : Str) : Option Scope := o.bind fun sc =>
  if (Vars.act ro ((find sc n).getD {})).2 then some (Vars.write sc n (Vars.act ro ((find sc n).getD {})).1) else none

theorem start_eq (fl : Options.Flags) (sc : Scope) :
    start fl sc = (guarded.foldl one (some sc)).map fun sc => ⟨Options.upd fl .restricted 1, [sc]⟩ := rfl

theorem retype_ro (c : Vars.Cell) (res) : (Vars.retype c { rdonly := true } {} 0 0 false res).2 = true ∧
    (Vars.retype c { rdonly := true } {} 0 0 false res).1.val = c.val ∧
    (Vars.retype c { rdonly := true } {} 0 0 false res).1.attr.rdonly = true := by
  cases hv : c.val with
  | none => simp [Vars.retype, hv, Attr.change]
  | some v => cases v <;> simp [Vars.retype, hv, Attr.change]

theorem act_ro (v : Var) (h : (Vars.act ro v).2 = true) : ∃ v', (Vars.act ro v).1 = some v' ∧ RO v' ∧ ∀ i, value v' i = value v i := by
  have hs : v.search 0 = v := by simp [Vars.Var.search]
  by_cases hr : v.c0.attr.rdonly = true
  · simp [ro, Vars.act, hs, hr, Attr.isEmpty] at h
  · have hok : ((Vars.retype v.c0 { rdonly := true } {} 0 0 false none).2 &&
        v.rest.all fun e => (Vars.retype e.2 { rdonly := true } {} 0 0 false none).2) = true := by
      simp only [Bool.and_eq_true, List.all_eq_true]
      exact ⟨(retype_ro _ _).1, fun e _ => (retype_ro _ _).1⟩
    have he : ({ rdonly := true } : Attr).isEmpty = false := by decide
    simp only [ro, Vars.act, hs, hr, Bool.false_and, Bool.false_eq_true, if_false, Option.isSome_none, he, Bool.false_or, hok, Bool.not_true]
    refine ⟨_, rfl, ⟨(retype_ro _ _).2.2, ?_⟩, ?_⟩
    · intro _ e hm
      simp only [List.mem_map] at hm
      obtain ⟨e', _, rfl⟩ := hm
      exact (retype_ro _ _).2.2
    · intro j
      simp only [value, Vars.Var.cell]
      by_cases hj : j = 0
      · simp [hj, (retype_ro _ _).2.1]
      · simp only [hj, if_false]
        generalize v.rest = l
        induction l with
        | nil => rfl
        | cons e r ih =>
          obtain ⟨k, c⟩ := e
          simp only [List.map_cons, List.lookup_cons]
          split
          · simp [(retype_ro _ _).2.1]
          · exact ih

theorem one_spec {sc sc' : Scope} {n : Str} (h : one (some sc) n = some sc') :
    (∃ v, find sc' n = some v ∧ RO v ∧ ∀ i, value v i = value ((find sc n).getD {}) i) ∧ ∀ m, m ≠ n → find sc' m = find sc m := by
  simp only [one, Option.bind_some] at h
  split at h
  · rename_i hok
    simp only [Option.some.injEq] at h
    subst h
    obtain ⟨v', h1, h2, h3⟩ := act_ro _ hok
    refine ⟨⟨v', by rw [Vars.find_write_same]; exact h1, h2, h3⟩, fun m hm => Vars.find_write_other _ _ _ _ hm⟩
  · simp at h

theorem ones_spec : ∀ (ns : List Str) (sc sc' : Scope), ns.Nodup → ns.foldl one (some sc) = some sc' →
    ∀ x ∈ ns, ∃ v, find sc' x = some v ∧ RO v ∧ ∀ i, value v i = value ((find sc x).getD {}) i := by
  have other : ∀ (ns : List Str) (sc sc' : Scope), ns.foldl one (some sc) = some sc' → ∀ x, x ∉ ns → find sc' x = find sc x := by
    intro ns
    induction ns with
    | nil => intro sc sc' h x _; simp at h; rw [h]
    | cons n ns ih =>
      intro sc sc' h x hx
      simp only [List.foldl_cons] at h
      cases h1 : one (some sc) n with
      | none =>
        rw [h1] at h
        have : ∀ l : List Str, l.foldl one none = none := by intro l; induction l <;> simp_all [one]
        rw [this] at h; cases h
      | some sc1 =>
        rw [h1] at h
        rw [ih _ _ h x (fun hh => hx (List.mem_cons_of_mem _ hh)), (one_spec h1).2 x (fun e => hx (by simp [e]))]
  intro ns
  induction ns with
  | nil => intro _ _ _ _ x hx; simp at hx
  | cons n ns ih =>
    intro sc sc' hnd h x hx
    simp only [List.nodup_cons] at hnd
    simp only [List.foldl_cons] at h
    cases h1 : one (some sc) n with
    | none =>
      rw [h1] at h
      have : ∀ l : List Str, l.foldl one none = none := by intro l; induction l <;> simp_all [one]
      rw [this] at h; cases h
    | some sc1 =>
      rw [h1] at h
      rcases List.mem_cons.1 hx with rfl | hx
      · rw [other ns _ _ h x hnd.1]; exact (one_spec h1).1
      · obtain ⟨v, g1, g2, g3⟩ := ih _ _ hnd.2 h x hx
        refine ⟨v, g1, g2, fun i => ?_⟩
        rw [g3, (one_spec h1).2 x (fun e => hnd.1 (e ▸ hx))]

theorem start_locked {fl : Options.Flags} {sc : Scope} {s : St} (h : start fl sc = some s) :
    s.flags .restricted = 1 ∧ ∀ x ∈ guarded, Locked (value ((find sc x).getD {})) (Vars.bind x s.vars) := by
  rw [start_eq] at h
  cases hg : guarded.foldl one (some sc) with
  | none => rw [hg] at h; simp at h
  | some sc' =>
    rw [hg] at h
    simp only [Option.map_some, Option.some.injEq] at h
    subst h
    refine ⟨by simp [Options.upd], fun x hx => ?_⟩
    obtain ⟨v, h1, h2, h3⟩ := ones_spec guarded sc sc' (by decide +kernel) hg x hx
    exact ⟨v, h1, h2, h3⟩

theorem locked_mem {g} : ∀ {l}, Locked g l → ∀ w, some w ∈ l → ∀ i, value w i = none ∨ value w i = g i
  | [], h => h.elim
  | [o], ⟨v, ho, _, hv⟩ => by
    intro w hw i
    simp only [List.mem_singleton] at hw
    rw [ho] at hw
    simp only [Option.some.injEq] at hw
    subst hw
    exact Or.inr (hv i)
  | o :: o2 :: r, ⟨h1, h2⟩ => by
    intro w hw i
    rcases List.mem_cons.1 hw with hw | hw
    · exact Or.inl ((h1 w hw.symm).2 i)
    · exact locked_mem h2 w hw i

theorem locked_last {g} : ∀ {l}, Locked g l → ∃ v, l.getLast? = some (some v) ∧ v.c0.attr.rdonly = true ∧ ∀ i, value v i = g i
  | [], h => h.elim
  | [o], ⟨v, ho, hr, hv⟩ => ⟨v, by simp [ho], hr.ro, hv⟩
  | o :: o2 :: r, ⟨_, h2⟩ => by
    obtain ⟨v, h3, h4⟩ := locked_last h2
    exact ⟨v, by rw [List.getLast?_cons_cons]; exact h3, h4⟩

/-- The names the property is about. -/
def sensitive : List Str := ["PATH".toList, "ENV".toList, "SHELL".toList]

theorem sensitive_guarded : ∀ x ∈ sensitive, x ∈ guarded := by decide +kernel

/-- **C53** (partial: without `typeset` of `PATH`, `ENV` or `SHELL` with a subscript in a function,
see `escape`): in a shell that has started restricted, whatever commands are given, the option
stays on, the directory is not changed, no name with a slash is run, redirections open for reading
only, and no instance of `PATH`, `ENV` or `SHELL` in any block has a value other than the one the
variable had at the start, which the outermost one keeps. -/
theorem restricted_kept_partial {fl : Options.Flags} {sc : Scope} {s : St} (h : start fl sc = some s) (cs : List (Cmd W))
    (hc : ∀ c ∈ cs, ¬ Escape c) :
    (run s cs).1.flags .restricted = 1 ∧ (∀ ev ∈ (run s cs).2, Allowed ev) ∧
    ∀ x ∈ sensitive,
      (∀ b ∈ (run s cs).1.vars, ∀ w, find b x = some w → ∀ i, value w i = none ∨ value w i = value ((find sc x).getD {}) i) ∧
      ∃ b v, (run s cs).1.vars.getLast? = some b ∧ find b x = some v ∧ v.c0.attr.rdonly = true ∧
        ∀ i, value v i = value ((find sc x).getD {}) i := by
  obtain ⟨h1, h2⟩ := start_locked h
  obtain ⟨h3, h4⟩ := restricted_events cs s h1
  refine ⟨h3, h4, fun x hx' => ?_⟩
  have hx : x ∈ guarded := sensitive_guarded x hx'
  have hl := locked_run hx cs s h1 hc (h2 x hx)
  refine ⟨fun b hb w hw => locked_mem hl w (List.mem_map.2 ⟨b, hb, hw⟩), ?_⟩
  obtain ⟨v, g1, g2, g3⟩ := locked_last hl
  rw [Vars.bind, List.getLast?_map, Option.map_eq_some_iff] at g1
  obtain ⟨b, hb, hv⟩ := g1
  exact ⟨b, v, hb, hv, g2, g3⟩

/-- The shell does start, unless one of the three is read-only already. -/
theorem start_isSome (fl : Options.Flags) (sc : Scope) :
    (start fl sc).isSome ↔ ∀ x ∈ guarded, ∀ v, find sc x = some v → v.c0.attr.rdonly = false := by
  have act2 : ∀ v : Var, (Vars.act ro v).2 = true ↔ v.c0.attr.rdonly = false := by
    intro v
    have hs : v.search 0 = v := by simp [Vars.Var.search]
    by_cases hr : v.c0.attr.rdonly = true
    · simp [ro, Vars.act, hs, hr, Attr.isEmpty]
    · have hok : ((Vars.retype v.c0 { rdonly := true } {} 0 0 false none).2 &&
          v.rest.all fun e => (Vars.retype e.2 { rdonly := true } {} 0 0 false none).2) = true := by
        simp only [Bool.and_eq_true, List.all_eq_true]
        exact ⟨(retype_ro _ _).1, fun e _ => (retype_ro _ _).1⟩
      have he : ({ rdonly := true } : Attr).isEmpty = false := by decide
      simp [ro, Vars.act, hs, hr, he, hok]
  have none_fold : ∀ l : List Str, l.foldl one none = none := by intro l; induction l <;> simp_all [one]
  have key : ∀ (ns : List Str) (sc : Scope), ns.Nodup →
      ((ns.foldl one (some sc)).isSome ↔ ∀ x ∈ ns, ∀ v, find sc x = some v → v.c0.attr.rdonly = false) := by
    intro ns
    induction ns with
    | nil => intro sc _; simp
    | cons n ns ih =>
      intro sc hnd
      simp only [List.nodup_cons] at hnd
      have hb : ((find sc n).getD {}).c0.attr.rdonly = false ↔ ∀ v, find sc n = some v → v.c0.attr.rdonly = false := by
        cases find sc n <;> simp
      simp only [List.foldl_cons, List.forall_mem_cons]
      cases h1 : one (some sc) n with
      | none =>
        rw [none_fold]
        simp only [one, Option.bind_some, ite_eq_right_iff, reduceCtorEq, imp_false] at h1
        rw [act2, hb] at h1
        simp [h1]
      | some sc1 =>
        rw [ih sc1 hnd.2]
        have h2 : ∀ x ∈ ns, find sc1 x = find sc x := fun x hx => (one_spec h1).2 x (fun e => hnd.1 (e ▸ hx))
        simp only [one, Option.bind_some] at h1
        split at h1
        · rename_i hok
          rw [act2, hb] at hok
          rw [and_iff_right hok]
          exact forall_congr' fun x => forall_congr' fun hx => by rw [h2 x hx]
        · simp at h1
  rw [start_eq]
  rw [Option.isSome_map]
  exact key guarded sc (by decide +kernel)

/-! ## Cases -/

def strv (s : String) : Var := { c0 := { val := some (.str s.toList) } }

def sc0 : Scope := [("PATH".toList, strv "/usr/bin"), ("HOME".toList, strv "/home/u"), ("SHELL".toList, strv "/bin/rksh")]

def s0 : St := (start (fun _ => 0) sc0).getD ⟨fun _ => 0, []⟩

/-- `typeset PATH[0]=/tmp` in a function -/
def sneak : List (Cmd Unit) :=
  [.push, .typeset "PATH".toList (some 0) .loc {} {} 0 0 (some "/tmp".toList) (fun _ => none) none]

/-- **The escape**: with a subscript the check does not see the name, the new local variable is not
read-only, and `PATH` has another value: the property does not hold as it stands. -/
theorem escape : (start (fun _ => 0) sc0).isSome = true ∧
    (Vars.visible "PATH".toList (run s0 sneak).1.vars).bind (value · 0) = some (.str "/tmp".toList) := by
  decide +kernel

/-- Without the subscript it is refused, and so are an assignment in front of a command and a plain
assignment with a subscript. -/
example : (Vars.visible "PATH".toList (run s0 ([.push,
      .typeset "PATH".toList none .loc {} {} 0 0 (some "/tmp".toList) (fun _ => none) none] : List (Cmd Unit))).1.vars).bind (value · 0)
    = some (.str "/usr/bin".toList) := by decide +kernel

example : (Vars.visible "PATH".toList (run s0 ([.push,
      .typeset "PATH".toList (some 0) .copy {} {} 0 0 (some "/tmp".toList) (fun _ => none) none, .pop,
      .typeset "PATH".toList (some 0) .global {} {} 0 0 (some "/tmp".toList) (fun _ => none) none,
      .assign "PATH".toList 0 "/tmp".toList none, .unset "PATH".toList none] : List (Cmd Unit))).1.vars).bind (value · 0)
    = some (.str "/usr/bin".toList) := by decide +kernel

/-- Other variables can be set. -/
example : (Vars.visible "HOME".toList (run s0 ([.push,
      .typeset "HOME".toList none .loc {} {} 0 0 (some "/tmp".toList) (fun _ => none) none] : List (Cmd Unit))).1.vars).bind (value · 0)
    = some (.str "/tmp".toList) := by decide +kernel

/-- `set +r` and `set +o restricted` fail. -/
example : (run s0 ([.set true ["+r".toList], .set true ["+o".toList, "restricted".toList],
    .set true ["-x".toList]] : List (Cmd Unit))).1.flags .restricted = 1 ∧
  (run s0 ([.set true ["-x".toList]] : List (Cmd Unit))).1.flags .xtrace = 1 := by decide +kernel

/-- An unrestricted shell does all of it. -/
example : ioopen false false false (.write false) = some { acc := .wronly, creat := true, trunc := true } ∧
    ioopen true false false (.write true) = none ∧ ioopen true false false .rdwr = none ∧ ioopen true false false .read = some { acc := .rdonly } := by
  decide

/-- A profile that has `readonly PATH` keeps the restricted shell from starting. -/
theorem readonly_profile : (start (fun _ => 0) [("PATH".toList, { c0 := { attr := { rdonly := true }, val := some (.str "/bin".toList) } })]).isNone = true := by
  decide +kernel

end Ksh.Restricted
