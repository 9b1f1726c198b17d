import Verif.Hangup.Model

/-!
# C128: which processes a signal to a job reaches
-/
namespace Ksh.Hangup

/-! ## Specification -/

/-- Process `q` gets the signal from one of the calls. -/
def Gets (os : Os) (l : List Act) (sig : Sig) (q : Nat) : Prop :=
  ∃ a, os q = some a ∧ a.zombie = false ∧ (Act.proc q sig ∈ l ∨ Act.group a.pgrp sig ∈ l)

/-- Process `q` is there and belongs to the job. -/
def Belongs (os : Os) (j : Job) (q : Nat) : Prop :=
  ∃ a, os q = some a ∧ a.zombie = false ∧ a.tag = some j.id

/-- The numbers by which the shell knows the job still mean it.  For a job with a process
group: some process of the job is left, if only to be waited for.  For one without: none of
the processes already waited for has its number taken by another. -/
def Known (os : Os) (j : Job) : Prop :=
  if j.pgrp = 0 then ∀ p ∈ j.procs, p.done = true → os p.pid = none
  else ∃ q a, os q = some a ∧ a.tag = some j.id

/-! ## The invariant -/

/-- A job with process group `g`. -/
def M (os : Os) (t g : Nat) : Prop :=
  (∀ q a, os q = some a → a.tag = some t → a.pgrp = g) ∧
  (∀ m b, os m = some b → b.tag = some t →
    (∀ q a, os q = some a → a.pgrp = g → a.tag = some t) ∧
    ∀ a, os g = some a → a.tag = some t)

/-- A job without one. -/
def U (os : Os) (t : Nat) (ps : List P) : Prop :=
  (∀ q a, os q = some a → a.tag = some t → ⟨q, false⟩ ∈ ps) ∧
  (∀ q a, ⟨q, false⟩ ∈ ps → os q = some a → a.tag = some t)

structure JInv (os : Os) (j : Job) : Prop where
  nz : ∀ p ∈ j.procs, p.pid ≠ 0
  aw : ∀ q, ⟨q, false⟩ ∈ j.procs → (os q).isSome
  mon : j.pgrp ≠ 0 → M os j.id j.pgrp
  un : j.pgrp = 0 → U os j.id j.procs

structure Inv (w : W) : Prop where
  nd : (remembered w.jobs).Nodup
  ids : (w.jobs.map (·.id)).Nodup
  idlt : ∀ j ∈ w.jobs, j.id < w.next
  taglt : ∀ q a, w.os q = some a → ∀ t, a.tag = some t → t < w.next
  shell : ∃ g, w.os w.me = some g ∧ g.tag = none ∧ g.zombie = false
  jobs : ∀ j ∈ w.jobs, JInv w.os j

theorem Inv.init {w : W} (h : Init w) : Inv w := by
  obtain ⟨h1, h2, g, h3, h4⟩ := h
  refine ⟨by simp [h1, remembered], by simp [h1], by simp [h1], ?_, ⟨g, h3, h2 _ _ h3, h4⟩,
    by simp [h1]⟩
  intro q a ha t ht
  simp [h2 q a ha] at ht

theorem ids_unique {l : List Job} (h : (l.map (·.id)).Nodup) {j j' : Job} (hj : j ∈ l)
    (hj' : j' ∈ l) (e : j.id = j'.id) : j = j' := by
  induction l with
  | nil => simp at hj
  | cons x l ih =>
    simp only [List.map_cons, List.nodup_cons, List.mem_map, not_exists, not_and] at h
    simp only [List.mem_cons] at hj hj'
    rcases hj with rfl | hj <;> rcases hj' with rfl | hj'
    · rfl
    · exact absurd e.symm (h.1 j' hj')
    · exact absurd e (h.1 j hj)
    · exact ih h.2 hj hj'

/-! ### Marking -/

/-- All processes with this number. -/
def markAll (pid : Nat) (ps : List P) : List P :=
  ps.map fun p => if p.pid = pid then { p with done := true } else p

theorem markAll_absent {pid : Nat} : ∀ {ps : List P}, (∀ p ∈ ps, p.pid ≠ pid) →
    markAll pid ps = ps := by
  intro ps h
  induction ps with
  | nil => rfl
  | cons p l ih =>
    simp only [List.mem_cons, forall_eq_or_imp] at h
    have := ih h.2
    simp only [markAll] at this
    simp [markAll, h.1, this]

theorem markP_eq {pid : Nat} : ∀ {ps : List P}, (ps.map (·.pid)).Nodup →
    markP pid ps = markAll pid ps := by
  intro ps h
  induction ps with
  | nil => rfl
  | cons p l ih =>
    simp only [List.map_cons, List.nodup_cons, List.mem_map, not_exists, not_and] at h
    by_cases hp : p.pid = pid
    · have := markAll_absent (pid := pid) (ps := l) (fun x hx => hp ▸ h.1 x hx)
      simp only [markAll] at this
      simp [markP, markAll, hp, this]
    · have := ih h.2
      simp only [markAll] at this
      simp [markP, markAll, hp, this]

theorem mark_eq {pid : Nat} : ∀ {l : List Job}, (remembered l).Nodup →
    mark pid l = l.map fun j => { j with procs := markAll pid j.procs } := by
  intro l h
  induction l with
  | nil => rfl
  | cons j l ih =>
    simp only [remembered, List.flatMap_cons, List.nodup_append] at h
    obtain ⟨h1, h2, h3⟩ := h
    by_cases hj : ∃ p ∈ j.procs, p.pid = pid
    · obtain ⟨p, hp, hp'⟩ := hj
      have e : l.map (fun j => { j with procs := markAll pid j.procs }) = l := by
        have : ∀ x ∈ l, ({ x with procs := markAll pid x.procs } : Job) = id x := by
          intro x hx
          rw [markAll_absent]
          · rfl
          · intro y hy e
            exact h3 pid (List.mem_map.2 ⟨p, hp, hp'⟩) pid
              (List.mem_flatMap.2 ⟨x, hx, List.mem_map.2 ⟨y, hy, e⟩⟩) rfl
        rw [List.map_congr_left this, List.map_id]
      have hany : j.procs.any (·.pid == pid) = true := by
        simp only [List.any_eq_true, beq_iff_eq]
        exact ⟨p, hp, hp'⟩
      rw [mark, if_pos hany, List.map_cons, e, markP_eq h1]
    · have hany : ¬ (j.procs.any (·.pid == pid) = true) := by
        simp only [List.any_eq_true, beq_iff_eq]
        exact hj
      have hm : markAll pid j.procs = j.procs := by
        apply markAll_absent
        intro p hp e
        exact hj ⟨p, hp, e⟩
      rw [mark, if_neg hany, List.map_cons, hm, ih h2]

theorem mem_markAll {pid q : Nat} {ps : List P} :
    (⟨q, false⟩ : P) ∈ markAll pid ps ↔ ⟨q, false⟩ ∈ ps ∧ q ≠ pid := by
  simp only [markAll, List.mem_map]
  constructor
  · rintro ⟨p, hp, e⟩
    by_cases h : p.pid = pid
    · simp [h] at e
    · rw [if_neg h] at e
      subst e
      exact ⟨hp, h⟩
  · rintro ⟨h, hq⟩
    exact ⟨_, h, by simp [hq]⟩

theorem pids_markAll (pid : Nat) (ps : List P) :
    (markAll pid ps).map (·.pid) = ps.map (·.pid) := by
  simp only [markAll, List.map_map]
  apply List.map_congr_left
  intro p _
  simp only [Function.comp]
  split <;> rfl

/-! ### The steps -/

theorem inherits_eq {jobs : List Job} {t : Option Nat} {x : Nat}
    (h : inherits jobs t = some x) : t = some x ∧ ∃ j ∈ jobs, j.id = x ∧ j.pgrp ≠ 0 := by
  unfold inherits at h
  split at h
  · rename_i hc
    simp only [List.any_eq_true, Bool.and_eq_true, beq_iff_eq, bne_iff_ne] at hc
    obtain ⟨j, hj, e, hp⟩ := hc
    subst h
    exact ⟨rfl, j, hj, by simpa using e, hp⟩
  · cases h

theorem inherits_mon {jobs : List Job} {j : Job} (hj : j ∈ jobs) (hp : j.pgrp ≠ 0) :
    inherits jobs (some j.id) = some j.id := by
  unfold inherits
  rw [if_pos]
  simp only [List.any_eq_true, Bool.and_eq_true, beq_iff_eq, bne_iff_ne]
  exact ⟨j, hj, rfl, hp⟩

theorem Inv.fork {w : W} (h : Inv w) {q c : Nat} {a : Pr} (ha : w.os q = some a)
    (hf : Free w.os c) :
    Inv { w with os := upd w.os c (some ⟨a.pgrp, inherits w.jobs a.tag, false⟩) } := by
  obtain ⟨f0, f1, f2⟩ := hf
  refine ⟨h.nd, h.ids, h.idlt, ?_, ?_, ?_⟩
  · intro x b hb t ht
    simp only [upd] at hb
    split at hb
    · cases hb
      exact h.taglt q a ha t (inherits_eq ht).1
    · exact h.taglt x b hb t ht
  · obtain ⟨g, hg, hg'⟩ := h.shell
    refine ⟨g, ?_, hg'⟩
    have : w.me ≠ c := by
      intro e
      rw [e, f1] at hg
      cases hg
    simp [upd, this, hg]
  · intro j hj
    have J := h.jobs j hj
    refine ⟨J.nz, ?_, ?_, ?_⟩
    · intro x hx
      have := J.aw x hx
      simp only [upd]
      split
      · rfl
      · exact this
    · intro hp
      obtain ⟨m1, m2⟩ := J.mon hp
      have key : inherits w.jobs a.tag = some j.id ↔ a.tag = some j.id := by
        constructor
        · exact fun e => (inherits_eq e).1
        · intro e
          rw [e]
          exact inherits_mon hj hp
      constructor
      · intro x b hb ht
        simp only [upd] at hb
        split at hb
        · cases hb
          exact m1 q a ha (key.1 ht)
        · exact m1 x b hb ht
      · intro m b hb ht
        have hm : ∃ m b, w.os m = some b ∧ b.tag = some j.id := by
          simp only [upd] at hb
          split at hb
          · cases hb
            exact ⟨q, a, ha, key.1 ht⟩
          · exact ⟨m, b, hb, ht⟩
        obtain ⟨m', b', hb', ht'⟩ := hm
        obtain ⟨n1, n2⟩ := m2 m' b' hb' ht'
        constructor
        · intro x y hy hyp
          simp only [upd] at hy
          split at hy
          · cases hy
            exact key.2 (n1 q a ha hyp)
          · exact n1 x y hy hyp
        · intro y hy
          simp only [upd] at hy
          split at hy
          · rename_i e
            exact absurd (m1 m' b' hb' ht') (e ▸ f2 m' b' hb')
          · exact n2 y hy
    · intro hp
      obtain ⟨u1, u2⟩ := J.un hp
      constructor
      · intro x b hb ht
        simp only [upd] at hb
        split at hb
        · cases hb
          obtain ⟨_, j', hj', e, hp'⟩ := inherits_eq ht
          have := ids_unique h.ids hj' hj e
          subst this
          exact absurd hp hp'
        · exact u1 x b hb ht
      · intro x b hx hb
        simp only [upd] at hb
        split at hb
        · rename_i e
          have := J.aw x hx
          rw [e, f1] at this
          cases this
        · exact u2 x b hx hb

theorem Inv.move {w : W} (h : Inv w) {q : Nat} {a : Pr} (ha : w.os q = some a)
    (hm : q ≠ w.me) (hp : a.pgrp ≠ q) :
    Inv { w with os := upd w.os q (some ⟨q,
      if (inherits w.jobs a.tag).isSome then none else a.tag, false⟩) } := by
  have htag : ∀ t, (if (inherits w.jobs a.tag).isSome then none else a.tag) = some t →
      a.tag = some t ∧ inherits w.jobs a.tag = none := by
    intro t ht
    split at ht
    · cases ht
    · rename_i hi
      exact ⟨ht, by simpa using hi⟩
  have hmon : ∀ j ∈ w.jobs, j.pgrp ≠ 0 →
      (if (inherits w.jobs a.tag).isSome then none else a.tag) ≠ some j.id := by
    intro j hj hjp e
    obtain ⟨e1, e2⟩ := htag _ e
    rw [e1, inherits_mon hj hjp] at e2
    cases e2
  refine ⟨h.nd, h.ids, h.idlt, ?_, ?_, ?_⟩
  · intro x b hb t ht
    simp only [upd] at hb
    split at hb
    · cases hb
      exact h.taglt q a ha t (htag t ht).1
    · exact h.taglt x b hb t ht
  · obtain ⟨g, hg, hg'⟩ := h.shell
    refine ⟨g, ?_, hg'⟩
    simp [upd, Ne.symm hm, hg]
  · intro j hj
    have J := h.jobs j hj
    refine ⟨J.nz, ?_, ?_, ?_⟩
    · intro x hx
      have := J.aw x hx
      simp only [upd]
      split
      · rfl
      · exact this
    · intro hjp
      obtain ⟨m1, m2⟩ := J.mon hjp
      constructor
      · intro x b hb ht
        simp only [upd] at hb
        split at hb
        · cases hb
          exact absurd ht (hmon j hj hjp)
        · exact m1 x b hb ht
      · intro m b hb ht
        simp only [upd] at hb
        split at hb
        · cases hb
          exact absurd ht (hmon j hj hjp)
        · obtain ⟨n1, n2⟩ := m2 m b hb ht
          have hq : j.pgrp ≠ q := by
            intro e
            have t := n2 a (e ▸ ha)
            exact hp ((m1 q a ha t).trans e)
          constructor
          · intro x y hy hyp
            simp only [upd] at hy
            split at hy
            · cases hy
              exact absurd hyp.symm hq
            · exact n1 x y hy hyp
          · intro y hy
            simp only [upd, if_neg hq] at hy
            exact n2 y hy
    · intro hjp
      obtain ⟨u1, u2⟩ := J.un hjp
      constructor
      · intro x b hb ht
        simp only [upd] at hb
        split at hb
        · rename_i e
          cases hb
          exact e ▸ u1 q a ha (htag _ ht).1
        · exact u1 x b hb ht
      · intro x b hx hb
        simp only [upd] at hb
        split at hb
        · rename_i e
          cases hb
          have t := u2 q a (e ▸ hx) ha
          have : inherits w.jobs a.tag = none := by
            rcases hi : inherits w.jobs a.tag with _ | t'
            · rfl
            · obtain ⟨e1, j', hj', e2, hp'⟩ := inherits_eq hi
              rw [t] at e1
              cases e1
              have := ids_unique h.ids hj' hj e2
              subst this
              exact absurd hjp hp'
          simp only [this]
          exact t
        · exact u2 x b hx hb

/-- Fewer processes, or the same as zombies. -/
theorem JInv.shrink {os os' : Os} {j : Job} (J : JInv os j)
    (hs : ∀ q a, os' q = some a → ∃ b, os q = some b ∧ b.tag = a.tag ∧ b.pgrp = a.pgrp)
    (ps : List P) (hps : ∀ q, (⟨q, false⟩ : P) ∈ ps ↔ ⟨q, false⟩ ∈ j.procs ∧ (os' q).isSome)
    (hnz : ∀ p ∈ ps, p.pid ≠ 0) : JInv os' { j with procs := ps } := by
  refine ⟨hnz, fun q hq => ((hps q).1 hq).2, ?_, ?_⟩
  · intro hp
    obtain ⟨m1, m2⟩ := J.mon hp
    constructor
    · intro q a ha ht
      obtain ⟨b, hb, e1, e2⟩ := hs q a ha
      rw [← e2]
      exact m1 q b hb (e1.trans ht)
    · intro m a ha ht
      obtain ⟨b, hb, e1, e2⟩ := hs m a ha
      obtain ⟨n1, n2⟩ := m2 m b hb (e1.trans ht)
      constructor
      · intro x y hy hyp
        obtain ⟨z, hz, f1, f2⟩ := hs x y hy
        rw [← f1]
        exact n1 x z hz (f2.trans hyp)
      · intro y hy
        obtain ⟨z, hz, f1, f2⟩ := hs _ y hy
        rw [← f1]
        exact n2 z hz
  · intro hp
    obtain ⟨u1, u2⟩ := J.un hp
    constructor
    · intro q a ha ht
      obtain ⟨b, hb, e1, e2⟩ := hs q a ha
      exact (hps q).2 ⟨u1 q b hb (e1.trans ht), by simp [ha]⟩
    · intro q a hq ha
      obtain ⟨b, hb, e1, e2⟩ := hs q a ha
      rw [← e1]
      exact u2 q b ((hps q).1 hq).1 hb

theorem Inv.exit {w : W} (h : Inv w) {q : Nat} {a : Pr} (ha : w.os q = some a)
    (hm : q ≠ w.me) :
    Inv { w with os := upd w.os q (if awaited w.jobs q then some { a with zombie := true }
      else none) } := by
  have hs : ∀ x b, upd w.os q (if awaited w.jobs q then some { a with zombie := true }
      else none) x = some b → ∃ c, w.os x = some c ∧ c.tag = b.tag ∧ c.pgrp = b.pgrp := by
    intro x b hb
    simp only [upd] at hb
    split at hb
    · rename_i e
      split at hb
      · cases hb
        exact ⟨a, e ▸ ha, rfl, rfl⟩
      · cases hb
    · exact ⟨b, hb, rfl, rfl⟩
  refine ⟨h.nd, h.ids, h.idlt, ?_, ?_, ?_⟩
  · intro x b hb t ht
    obtain ⟨c, hc, e, _⟩ := hs x b hb
    exact h.taglt x c hc t (e.trans ht)
  · obtain ⟨g, hg, hg'⟩ := h.shell
    refine ⟨g, ?_, hg'⟩
    simp [upd, Ne.symm hm, hg]
  · intro j hj
    have J := h.jobs j hj
    refine J.shrink hs j.procs ?_ J.nz
    intro x
    constructor
    · intro hx
      refine ⟨hx, ?_⟩
      have := J.aw x hx
      simp only [upd]
      split
      · rename_i e
        have : awaited w.jobs q = true := by
          simp only [awaited, List.any_eq_true, Bool.and_eq_true, beq_iff_eq,
            Bool.not_eq_true']
          exact ⟨j, hj, _, hx, e, rfl⟩
        simp [this]
      · exact this
    · exact fun hx => hx.1

theorem Inv.reap {w : W} (h : Inv w) {q : Nat} {a : Pr} (ha : w.os q = some a)
    (hz : a.zombie = true) :
    Inv { w with os := upd w.os q none, jobs := mark q w.jobs } := by
  have hs : ∀ x b, upd w.os q none x = some b →
      ∃ c, w.os x = some c ∧ c.tag = b.tag ∧ c.pgrp = b.pgrp := by
    intro x b hb
    simp only [upd] at hb
    split at hb
    · cases hb
    · exact ⟨b, hb, rfl, rfl⟩
  rw [mark_eq h.nd]
  refine ⟨?_, ?_, ?_, ?_, ?_, ?_⟩
  · have : remembered (w.jobs.map fun j => { j with procs := markAll q j.procs }) =
        remembered w.jobs := by
      simp only [remembered, List.flatMap_map, pids_markAll]
    simp only [this]
    exact h.nd
  · simp only [List.map_map]
    exact h.ids
  · intro j hj
    simp only [List.mem_map] at hj
    obtain ⟨j', hj', rfl⟩ := hj
    exact h.idlt j' hj'
  · intro x b hb t ht
    obtain ⟨c, hc, e, _⟩ := hs x b hb
    exact h.taglt x c hc t (e.trans ht)
  · obtain ⟨g, hg, hg', hg2⟩ := h.shell
    refine ⟨g, ?_, hg', hg2⟩
    have : w.me ≠ q := by
      intro e
      rw [e, ha] at hg
      cases hg
      rw [hz] at hg2
      cases hg2
    simp [upd, this, hg]
  · intro j hj
    simp only [List.mem_map] at hj
    obtain ⟨j', hj', rfl⟩ := hj
    have J := h.jobs j' hj'
    refine J.shrink hs _ ?_ ?_
    · intro x
      rw [mem_markAll]
      constructor
      · rintro ⟨hx, hq⟩
        exact ⟨hx, by simpa [upd, hq] using J.aw x hx⟩
      · rintro ⟨hx, hq⟩
        refine ⟨hx, ?_⟩
        intro e
        simp [upd, e] at hq
    · intro p hp
      simp only [markAll, List.mem_map] at hp
      obtain ⟨p', hp', rfl⟩ := hp
      split
      · exact J.nz p' hp'
      · exact J.nz p' hp'

theorem addAll_cases {os : Os} {l : List Nat} {b a : Pr} {q : Nat}
    (h : addAll os l b q = some a) : (q ∈ l ∧ a = b) ∨ (q ∉ l ∧ os q = some a) := by
  unfold addAll at h
  split at h
  · rename_i hq
    exact .inl ⟨hq, by cases h; rfl⟩
  · rename_i hq
    exact .inr ⟨hq, h⟩

theorem Inv.start {w : W} (h : Inv w) {mon fg : Bool} {p : Nat} {ps : List Nat} {g : Pr}
    (hf : ∀ q ∈ p :: ps, Free w.os q) (hr : ∀ q ∈ p :: ps, q ∉ remembered w.jobs)
    (hn : (p :: ps).Nodup) (hg : w.os w.me = some g) :
    Inv { w with
      os := addAll w.os (p :: ps) ⟨if mon then p else g.pgrp, some w.next, false⟩
      jobs := ⟨w.next, if mon then p else 0, w.me, (p :: ps).map (⟨·, false⟩), .running,
        fg⟩ :: w.jobs
      next := w.next + 1 } := by
  obtain ⟨g', hg', gt, gz⟩ := h.shell
  rw [hg] at hg'
  cases hg'
  have hp0 : p ≠ 0 := (hf p List.mem_cons_self).1
  have notnew : ∀ q a, w.os q = some a → q ∉ p :: ps := by
    intro q a ha hq
    rw [(hf q hq).2.1] at ha
    cases ha
  refine ⟨?_, ?_, ?_, ?_, ?_, ?_⟩
  · simp only [remembered, List.flatMap_cons, List.map_map, List.nodup_append]
    refine ⟨?_, h.nd, ?_⟩
    · have : ((fun x : P => x.pid) ∘ fun x => (⟨x, false⟩ : P)) = id := rfl
      rw [this, List.map_id]
      exact hn
    · intro x hx y hy e
      have : ((fun x : P => x.pid) ∘ fun x => (⟨x, false⟩ : P)) = id := rfl
      rw [this, List.map_id] at hx
      exact hr x hx (e ▸ hy)
  · simp only [List.map_cons, List.nodup_cons, List.mem_map, not_exists, not_and]
    refine ⟨?_, h.ids⟩
    intro j hj e
    have := h.idlt j hj
    omega
  · intro j hj
    simp only [List.mem_cons] at hj
    rcases hj with rfl | hj
    · exact Nat.lt_succ_self _
    · exact Nat.lt_succ_of_lt (h.idlt j hj)
  · intro x b hb t ht
    rcases addAll_cases hb with ⟨_, rfl⟩ | ⟨_, hb⟩
    · simp only [Option.some.injEq] at ht
      exact ht ▸ Nat.lt_succ_self _
    · exact Nat.lt_succ_of_lt (h.taglt x b hb t ht)
  · exact ⟨g, by simp only [addAll, if_neg (notnew _ _ hg), hg], gt, gz⟩
  · intro j hj
    simp only [List.mem_cons] at hj
    rcases hj with rfl | hj
    · refine ⟨?_, ?_, ?_, ?_⟩
      · intro x hx
        simp only [List.mem_map] at hx
        obtain ⟨y, hy, rfl⟩ := hx
        exact (hf y hy).1
      · intro q hq
        simp only [List.mem_map, P.mk.injEq, and_true, exists_eq_right] at hq
        simp only [addAll, if_pos hq, Option.isSome_some]
      · intro hmon
        simp only at hmon ⊢
        have hmt : mon = true := by
          cases mon
          · simp at hmon
          · rfl
        subst hmt
        simp only [if_true]
        constructor
        · intro q a ha ht
          rcases addAll_cases ha with ⟨hq', rfl⟩ | ⟨hq', ha⟩
          · rfl
          · have := h.taglt q a ha _ ht
            omega
        · intro m b hb ht
          constructor
          · intro q a ha hap
            rcases addAll_cases ha with ⟨hq', rfl⟩ | ⟨hq', ha⟩
            · rfl
            · exact absurd hap ((hf p List.mem_cons_self).2.2 q a ha)
          · intro a ha
            rw [addAll, if_pos List.mem_cons_self] at ha
            cases ha
            rfl
      · intro hmon
        simp only at hmon ⊢
        constructor
        · intro q a ha ht
          rcases addAll_cases ha with ⟨hq, rfl⟩ | ⟨_, ha⟩
          · simp only [List.mem_map, P.mk.injEq, and_true, exists_eq_right]
            exact hq
          · have := h.taglt q a ha _ ht
            omega
        · intro q a hq ha
          simp only [List.mem_map, P.mk.injEq, and_true, exists_eq_right] at hq
          rw [addAll, if_pos hq] at ha
          cases ha
          rfl
    · have J := h.jobs j hj
      have hid := h.idlt j hj
      refine ⟨J.nz, ?_, ?_, ?_⟩
      · intro q hq
        have := J.aw q hq
        simp only [addAll]
        split
        · rfl
        · exact this
      · intro hjp
        obtain ⟨m1, m2⟩ := J.mon hjp
        simp only
        constructor
        · intro q a ha ht
          rcases addAll_cases ha with ⟨hq', rfl⟩ | ⟨hq', ha⟩
          · simp only [Option.some.injEq] at ht
            omega
          · exact m1 q a ha ht
        · intro m b hb ht
          have hb0 := addAll_cases hb
          clear hb
          rcases hb0 with ⟨hq', rfl⟩ | ⟨hq', hb⟩
          · simp only [Option.some.injEq] at ht
            omega
          · obtain ⟨n1, n2⟩ := m2 m b hb ht
            have hpg := m1 m b hb ht
            constructor
            · intro q a ha hap
              rcases addAll_cases ha with ⟨hq', rfl⟩ | ⟨hq', ha⟩
              · simp only at hap
                cases mon
                · simp only [Bool.false_eq_true, if_false] at hap
                  have := n1 _ g hg hap
                  rw [gt] at this
                  cases this
                · simp only [if_true] at hap
                  exact absurd (hpg.trans hap.symm) ((hf p List.mem_cons_self).2.2 m b hb)
              · exact n1 q a ha hap
            · intro a ha
              rcases addAll_cases ha with ⟨hq, rfl⟩ | ⟨_, ha⟩
              · exact absurd hpg ((hf _ hq).2.2 m b hb)
              · exact n2 a ha
      · intro hjp
        obtain ⟨u1, u2⟩ := J.un hjp
        simp only
        constructor
        · intro q a ha ht
          rcases addAll_cases ha with ⟨hq', rfl⟩ | ⟨hq', ha⟩
          · simp only [Option.some.injEq] at ht
            omega
          · exact u1 q a ha ht
        · intro q a hq ha
          rcases addAll_cases ha with ⟨hq', rfl⟩ | ⟨_, ha⟩
          · exfalso
            apply hr q hq'
            simp only [remembered, List.mem_flatMap, List.mem_map]
            exact ⟨j, hj, _, hq, rfl⟩
          · exact u2 q a hq ha

theorem JInv.congr {os : Os} {j j' : Job} (J : JInv os j) (h1 : j'.id = j.id)
    (h2 : j'.pgrp = j.pgrp) (h3 : j'.procs = j.procs) : JInv os j' := by
  refine ⟨?_, ?_, ?_, ?_⟩
  · rw [h3]; exact J.nz
  · rw [h3]; exact J.aw
  · rw [h1, h2]; exact J.mon
  · rw [h1, h2, h3]; exact J.un

theorem modify_map {β : Type} (f : Job → Job) (g : Job → β) (h : ∀ j, g (f j) = g j) :
    ∀ (l : List Job) (n : Nat), (l.modify n f).map g = l.map g
  | [], n => by simp
  | j :: l, 0 => by simp [h]
  | j :: l, n + 1 => by simp [modify_map f g h l n]

theorem mem_modify {f : Job → Job} : ∀ {l : List Job} {n : Nat} {j : Job},
    j ∈ l.modify n f → j ∈ l ∨ ∃ j' ∈ l, j = f j'
  | [], n, j, h => by simp at h
  | x :: l, 0, j, h => by
    simp only [List.modify_zero_cons, List.mem_cons] at h
    rcases h with rfl | h
    · exact .inr ⟨x, by simp, rfl⟩
    · exact .inl (by simp [h])
  | x :: l, n + 1, j, h => by
    simp only [List.modify_succ_cons, List.mem_cons] at h
    rcases h with rfl | h
    · exact .inl (by simp)
    · rcases mem_modify h with h | ⟨j', h, e⟩
      · exact .inl (by simp [h])
      · exact .inr ⟨j', by simp [h], e⟩

theorem remembered_erase : ∀ (l : List Job) (n : Nat),
    (remembered (l.eraseIdx n)).Sublist (remembered l)
  | [], n => by simp [remembered]
  | j :: l, 0 => by
    simp only [List.eraseIdx_cons_zero, remembered, List.flatMap_cons]
    exact List.sublist_append_right _ _
  | j :: l, n + 1 => by
    simp only [List.eraseIdx_cons_succ, remembered, List.flatMap_cons]
    exact List.Sublist.append (List.Sublist.refl _) (remembered_erase l n)

theorem Inv.step {w w' : W} {e : Ev} (h : Inv w) (s : Step w e w') : Inv w' := by
  cases s with
  | start hf hr hn hg => exact h.start hf hr hn hg
  | fork ha hz hf => exact h.fork ha hf
  | move ha hz hm hp => exact h.move ha hm hp
  | exit ha hz hm => exact h.exit ha hm
  | reap ha hz => exact h.reap ha hz
  | @change n s fg =>
    refine ⟨?_, ?_, ?_, h.taglt, h.shell, ?_⟩
    · have := modify_map (fun j => { j with state := s, fg := fg }) (·.procs.map (·.pid))
        (fun _ => rfl) w.jobs n
      simp only [remembered, List.flatMap, this]
      exact h.nd
    · simp only [modify_map (fun j => { j with state := s, fg := fg }) (·.id) (fun _ => rfl)]
      exact h.ids
    · intro j hj
      rcases mem_modify hj with hj | ⟨j', hj', rfl⟩
      · exact h.idlt j hj
      · exact h.idlt j' hj'
    · intro j hj
      rcases mem_modify hj with hj | ⟨j', hj', rfl⟩
      · exact h.jobs j hj
      · exact (h.jobs j' hj').congr rfl rfl rfl
  | @drop n =>
    have hsub : (w.jobs.eraseIdx n).Sublist w.jobs := List.eraseIdx_sublist ..
    refine ⟨?_, ?_, ?_, h.taglt, h.shell, ?_⟩
    · exact h.nd.sublist (remembered_erase w.jobs n)
    · exact h.ids.sublist (hsub.map _)
    · exact fun j hj => h.idlt j (hsub.subset hj)
    · exact fun j hj => h.jobs j (hsub.subset hj)

theorem Inv.steps {w w' : W} (h : Inv w) (s : Steps w w') : Inv w' := by
  induction s with
  | refl => exact h
  | step e _ s ih => exact ih.step s

/-! ## Lemmas -/

theorem Gets.append {os : Os} {l l' : List Act} {sig : Sig} {q : Nat} :
    Gets os (l ++ l') sig q ↔ Gets os l sig q ∨ Gets os l' sig q := by
  simp only [Gets, List.mem_append]
  constructor
  · rintro ⟨a, h1, h2, (h | h) | (h | h)⟩
    · exact .inl ⟨a, h1, h2, .inl h⟩
    · exact .inr ⟨a, h1, h2, .inl h⟩
    · exact .inl ⟨a, h1, h2, .inr h⟩
    · exact .inr ⟨a, h1, h2, .inr h⟩
  · rintro (⟨a, h1, h2, h | h⟩ | ⟨a, h1, h2, h | h⟩)
    · exact ⟨a, h1, h2, .inl (.inl h)⟩
    · exact ⟨a, h1, h2, .inr (.inl h)⟩
    · exact ⟨a, h1, h2, .inl (.inr h)⟩
    · exact ⟨a, h1, h2, .inr (.inr h)⟩

theorem Gets.nil {os : Os} {sig : Sig} {q : Nat} : ¬ Gets os [] sig q := by
  rintro ⟨a, _, _, h | h⟩ <;> simp at h

theorem gets_group {os : Os} {g q : Nat} {sig sig' : Sig} :
    Gets os [.group g sig] sig' q ↔
      sig' = sig ∧ ∃ a, os q = some a ∧ a.zombie = false ∧ a.pgrp = g := by
  constructor
  · rintro ⟨a, h1, h2, h | h⟩
    · simp at h
    · simp only [List.mem_singleton, Act.group.injEq] at h
      exact ⟨h.2, a, h1, h2, h.1⟩
  · rintro ⟨rfl, a, h1, h2, rfl⟩
    exact ⟨a, h1, h2, .inr (by simp)⟩

theorem gets_killJob {os : Os} {j : Job} (J : JInv os j) (hp : j.pgrp = 0) (hk : Known os j)
    {q : Nat} {sig sig' : Sig} :
    Gets os (killJob j sig) sig' q ↔ sig' = sig ∧ Belongs os j q := by
  obtain ⟨u1, u2⟩ := J.un hp
  simp only [Known, hp, if_true] at hk
  constructor
  · rintro ⟨a, h1, h2, h | h⟩
    · simp only [killJob, List.mem_map, List.mem_filter, Act.proc.injEq] at h
      obtain ⟨p, ⟨hp', _⟩, rfl, rfl⟩ := h
      refine ⟨rfl, a, h1, h2, ?_⟩
      rcases p with ⟨pid, d⟩
      cases d
      · exact u2 _ _ hp' h1
      · have := hk _ hp' rfl
        simp only at this h1
        rw [this] at h1
        cases h1
    · simp [killJob] at h
  · rintro ⟨rfl, a, h1, h2, h⟩
    refine ⟨a, h1, h2, .inl ?_⟩
    simp only [killJob, List.mem_map, List.mem_filter, Act.proc.injEq, and_true, bne_iff_ne]
    have := u1 q a h1 h
    exact ⟨_, ⟨this, J.nz _ this⟩, rfl⟩

theorem group_belongs {os : Os} {j : Job} (J : JInv os j) (hp : j.pgrp ≠ 0) (hk : Known os j)
    {q : Nat} : (∃ a, os q = some a ∧ a.zombie = false ∧ a.pgrp = j.pgrp) ↔ Belongs os j q := by
  obtain ⟨m1, m2⟩ := J.mon hp
  simp only [Known, hp, if_false] at hk
  obtain ⟨m, b, hb, ht⟩ := hk
  obtain ⟨n1, _⟩ := m2 m b hb ht
  constructor
  · rintro ⟨a, h1, h2, h⟩
    exact ⟨a, h1, h2, n1 q a h1 h⟩
  · rintro ⟨a, h1, h2, h⟩
    exact ⟨a, h1, h2, m1 q a h1 h⟩

theorem gets_signalJob {os : Os} {j : Job} (J : JInv os j) (hk : Known os j) {q : Nat}
    {sig sig' : Sig} : Gets os (signalJob j sig) sig' q ↔ sig' = sig ∧ Belongs os j q := by
  unfold signalJob
  by_cases hp : j.pgrp = 0
  · simp only [hp, beq_self_eq_true, if_true]
    exact gets_killJob J hp hk
  · simp only [beq_iff_eq, hp, if_false]
    rw [gets_group, group_belongs J hp hk]

/-! ## Properties -/

/-- `kill` on a job reaches the processes of the job and no others, whatever has happened
since it was started.  Partial: see `Known`, `stranger_hit` and `stranger_group`. -/
theorem kill_reaches_partial {w w' : W} (hi : Init w) (hs : Steps w w') (j : Job)
    (hj : j ∈ w'.jobs) (hk : Known w'.os j) (sig : Sig) (q : Nat) :
    Gets w'.os (jKill j sig) sig q ↔ Belongs w'.os j q := by
  have J := ((Inv.init hi).steps hs).jobs j hj
  unfold jKill
  by_cases hp : j.pgrp = 0
  · simp only [hp, beq_self_eq_true, if_true]
    rw [gets_killJob J hp hk]
    simp
  · simp only [beq_iff_eq, hp, if_false]
    rw [Gets.append, gets_group, group_belongs J hp hk]
    constructor
    · rintro (h | h)
      · split at h
        · rw [gets_group, group_belongs J hp hk] at h
          exact h.2
        · exact absurd h Gets.nil
      · exact h.2
    · exact fun h => .inr ⟨rfl, h⟩

/-- A stopped job that has a process group is also continued when it is sent TERM or HUP, so
that it can act on it; with any other signal, or when it is not stopped, nothing is sent but
the signal itself. -/
theorem kill_continues_partial {w w' : W} (hi : Init w) (hs : Steps w w') (j : Job)
    (hj : j ∈ w'.jobs) (hk : Known w'.os j) (hp : j.pgrp ≠ 0) (sig : Sig) (hc : sig ≠ .cont)
    (q : Nat) : Gets w'.os (jKill j sig) .cont q ↔
      (j.state = .stopped ∧ (sig = .term ∨ sig = .hup)) ∧ Belongs w'.os j q := by
  have J := ((Inv.init hi).steps hs).jobs j hj
  unfold jKill
  simp only [beq_iff_eq, hp, if_false, Bool.and_eq_true, Bool.or_eq_true]
  rw [Gets.append, gets_group, group_belongs J hp hk]
  by_cases hst : j.state = .stopped ∧ (sig = .term ∨ sig = .hup)
  · rw [if_pos hst, gets_group, group_belongs J hp hk]
    simp [hst, Ne.symm hc]
  · rw [if_neg hst]
    simp [hst, Gets.nil, Ne.symm hc]

/-- Is the job hung up when the shell leaves?  If it is this process's own, and stopped, in
the foreground, or running under a login shell without nohup that is not a subshell. -/
def HungUp (m : Me) (j : Job) : Prop :=
  j.ppid = m.procpid ∧ (j.state = .stopped ∨ (j.state = .running ∧ (j.fg = true ∨
    (m.login = true ∧ m.nohup = false ∧ m.procpid = m.kshpid))))

theorem doomed_iff (m : Me) (j : Job) : doomed m j = true ↔ HungUp m j := by
  simp only [doomed, HungUp, Bool.and_eq_true, Bool.or_eq_true, beq_iff_eq, Bool.not_eq_true']
  simp only [and_assoc]

theorem gets_jExit {os : Os} {m : Me} {sig : Sig} {q : Nat} : ∀ {l : List Job},
    (∀ j ∈ l, JInv os j) → (∀ j ∈ l, HungUp m j → Known os j) →
    (Gets os (jExit m l) sig q ↔ ∃ j ∈ l, HungUp m j ∧ Belongs os j q ∧
      (sig = .hup ∨ (sig = .cont ∧ j.state = .stopped)))
  | [], _, _ => by simp [jExit, Gets.nil]
  | j :: l, hJ, hk => by
    have ih := gets_jExit (os := os) (m := m) (sig := sig) (q := q) (l := l)
      (fun x hx => hJ x (List.mem_cons_of_mem _ hx))
      (fun x hx => hk x (List.mem_cons_of_mem _ hx))
    have J := hJ j List.mem_cons_self
    rw [jExit, Gets.append, ih]
    have : Gets os (if doomed m j then hangup j else []) sig q ↔
        HungUp m j ∧ Belongs os j q ∧ (sig = .hup ∨ (sig = .cont ∧ j.state = .stopped)) := by
      by_cases hd : HungUp m j
      · have hK := hk j List.mem_cons_self hd
        rw [if_pos ((doomed_iff m j).2 hd), hangup, Gets.append, gets_signalJob J hK]
        by_cases hst : j.state = .stopped
        · simp only [hst, beq_self_eq_true, if_true, and_true]
          rw [gets_signalJob J hK]
          constructor
          · rintro (⟨h, h'⟩ | ⟨h, h'⟩)
            · exact ⟨hd, h', .inl h⟩
            · exact ⟨hd, h', .inr h⟩
          · rintro ⟨_, h', h | h⟩
            · exact .inl ⟨h, h'⟩
            · exact .inr ⟨h, h'⟩
        · simp only [beq_iff_eq, hst, if_false, Gets.nil, or_false, and_false]
          exact ⟨fun h => ⟨hd, h.2, h.1⟩, fun h => ⟨h.2.2, h.2.1⟩⟩
      · rw [if_neg (fun h => hd ((doomed_iff m j).1 h))]
        simp [Gets.nil, hd]
    rw [this]
    simp only [List.mem_cons, exists_eq_or_imp]

/-- When the shell leaves, a process gets HUP exactly if it belongs to a job that is hung up,
CONT exactly if that job is stopped, and no other signal; a process of no job gets none. -/
theorem exit_hangup_partial {w w' : W} (hi : Init w) (hs : Steps w w') (m : Me)
    (hk : ∀ j ∈ w'.jobs, HungUp m j → Known w'.os j) (sig : Sig) (q : Nat) :
    Gets w'.os (jExit m w'.jobs) sig q ↔ ∃ j ∈ w'.jobs, HungUp m j ∧ Belongs w'.os j q ∧
      (sig = .hup ∨ (sig = .cont ∧ j.state = .stopped)) :=
  gets_jExit ((Inv.init hi).steps hs).jobs hk

/-- A process without jobs of its own, such as a subshell that has only those of its parent,
signals nobody. -/
theorem subshell_spares (m : Me) : ∀ (l : List Job), (∀ j ∈ l, j.ppid ≠ m.procpid) →
    jExit m l = []
  | [], _ => rfl
  | j :: l, h => by
    have hj := h j List.mem_cons_self
    simp [jExit, doomed, hj, subshell_spares m l (fun x hx => h x (List.mem_cons_of_mem _ hx))]

theorem stoppedRunning_iff (m : Me) : ∀ (l : List Job),
    ((stoppedRunning m l).1 = true ↔ ∃ j ∈ l, j.ppid = m.procpid ∧ j.state = .stopped) ∧
    ((stoppedRunning m l).2 = true ↔ ∃ j ∈ l, j.ppid = m.procpid ∧ j.state = .running ∧
      m.login = true ∧ m.nohup = false ∧ m.procpid = m.kshpid)
  | [] => by simp [stoppedRunning]
  | j :: l => by
    obtain ⟨h1, h2⟩ := stoppedRunning_iff m l
    constructor
    · simp only [stoppedRunning, Bool.or_eq_true, h1, Bool.and_eq_true, beq_iff_eq,
        List.mem_cons, exists_eq_or_imp]
      exact Or.comm
    · simp only [stoppedRunning, Bool.or_eq_true, h2, Bool.and_eq_true, beq_iff_eq,
        List.mem_cons, exists_eq_or_imp, Bool.not_eq_true']
      constructor
      · rintro (h | ⟨⟨⟨⟨a, b⟩, c⟩, d⟩, e⟩)
        · exact .inr h
        · exact .inl ⟨d, e, a, b, c⟩
      · rintro (⟨d, e, a, b, c⟩ | h)
        · exact .inr ⟨⟨⟨⟨a, b⟩, c⟩, d⟩, e⟩
        · exact .inl h

/-- The first `exit` is refused exactly if leaving would hang up a job that is not running in
the foreground of its own accord: a stopped one, or any running one under a login shell. -/
theorem warned (m : Me) (jobs : List Job) : leave m false .exit jobs = none ↔
    ∃ j ∈ jobs, HungUp m j ∧ HungUp m { j with fg := false } := by
  have hs := stoppedRunning_iff m jobs
  have key : (leave m false .exit jobs = none) ↔
      ((stoppedRunning m jobs).1 = true ∨ (stoppedRunning m jobs).2 = true) := by
    simp only [leave, Bool.not_false, Bool.true_and, Bool.or_eq_true]
    constructor
    · intro h
      by_cases hc : (stoppedRunning m jobs).1 = true ∨ (stoppedRunning m jobs).2 = true
      · exact hc
      · rw [if_neg hc] at h
        cases h
    · intro h
      rw [if_pos h]
  rw [key, hs.1, hs.2]
  constructor
  · rintro (⟨j, hj, h1, h2⟩ | ⟨j, hj, h1, h2, h3⟩)
    · exact ⟨j, hj, ⟨h1, .inl h2⟩, ⟨h1, .inl h2⟩⟩
    · exact ⟨j, hj, ⟨h1, .inr ⟨h2, .inr h3⟩⟩, ⟨h1, .inr ⟨h2, .inr h3⟩⟩⟩
  · rintro ⟨j, hj, ⟨h1, _⟩, ⟨_, h3 | ⟨h3, h4 | h4⟩⟩⟩
    · exact .inl ⟨j, hj, h1, h3⟩
    · cases h4
    · exact .inr ⟨j, hj, h1, h3, h4⟩

/-- A job in the background gets no signal from an `exit` that was not announced. -/
theorem unwarned_spares {w w' : W} (hi : Init w) (hs : Steps w w') (m : Me)
    (hk : ∀ j ∈ w'.jobs, HungUp m j → Known w'.os j) (hfg : ∀ j ∈ w'.jobs, j.fg = false)
    (l : List Act) (h : leave m false .exit w'.jobs = some l) (sig : Sig) (q : Nat) :
    ¬ Gets w'.os l sig q := by
  have hl : l = jExit m w'.jobs := by
    simp only [leave] at h
    split at h
    · cases h
    · cases h
      rfl
  subst hl
  intro hg
  rw [exit_hangup_partial hi hs m hk] at hg
  obtain ⟨j, hj, hh, _⟩ := hg
  have : leave m false .exit w'.jobs = none := by
    rw [warned]
    refine ⟨j, hj, hh, ?_⟩
    have := hfg j hj
    rcases j with ⟨a, b, c, d, e, f⟩
    simp only at this
    subst this
    exact hh
  rw [this] at h
  cases h

/-! ## Cases, and where the code falls short -/

/-- The shell is process 1 and there is nobody else. -/
def alone : W := ⟨fun q => if q = 1 then some ⟨1, none, false⟩ else none, [], 0, 1⟩

theorem alone_init : Init alone := by
  refine ⟨rfl, ?_, ⟨1, none, false⟩, rfl, rfl⟩
  intro q a h
  simp only [alone] at h
  split at h
  · cases h; rfl
  · cases h

/-- A pipeline of processes 5 and 6 in the background. -/
def piped (mon : Bool) : W :=
  { alone with
    os := addAll alone.os [5, 6] ⟨if mon then 5 else 1, some 0, false⟩
    jobs := [⟨0, if mon then 5 else 0, 1, [⟨5, false⟩, ⟨6, false⟩], .running, false⟩]
    next := 1 }

theorem alone_free (q : Nat) (h : q ≠ 0) (h1 : q ≠ 1) : Free alone.os q := by
  refine ⟨h, by simp [alone, h1], ?_⟩
  intro x a ha
  simp only [alone] at ha
  split at ha
  · cases ha
    exact Ne.symm h1
  · cases ha

theorem piped_steps (mon : Bool) : Steps alone (piped mon) := by
  refine .step (.start mon false [5, 6]) (.refl _) ?_
  have := Step.start (w := alone) (mon := mon) (fg := false) (p := 5) (ps := [6])
    (g := ⟨1, none, false⟩)
    (by
      intro q hq
      apply alone_free <;> simp at hq <;> omega)
    (by simp [remembered, alone]) (by decide) rfl
  exact this

/-- The first of them has ended and was waited for. -/
def half (mon : Bool) : W :=
  { piped mon with
    os := upd (upd (piped mon).os 5 (some ⟨if mon then 5 else 1, some 0, true⟩)) 5 none
    jobs := mark 5 (piped mon).jobs }

theorem half_steps (mon : Bool) : Steps alone (half mon) := by
  refine .step (w' := { piped mon with
      os := upd (piped mon).os 5 (some ⟨if mon then 5 else 1, some 0, true⟩) })
    (.reap 5) (.step (.exit 5) (piped_steps mon) ?_) ?_
  · have := Step.exit (w := piped mon) (q := 5) (a := ⟨if mon then 5 else 1, some 0, false⟩)
      (by simp [piped, addAll]) rfl (by simp [piped, alone])
    have e : awaited (piped mon).jobs 5 = true := by simp [awaited, piped]
    simpa only [e, if_true] using this
  · exact Step.reap (w := { piped mon with
        os := upd (piped mon).os 5 (some ⟨if mon then 5 else 1, some 0, true⟩) }) (q := 5) (a := ⟨if mon then 5 else 1, some 0, true⟩) (by simp [upd]) rfl

-- both jobs are `Known`, and `kill` reaches process 6
example (mon : Bool) : ∀ j ∈ (half mon).jobs, Known (half mon).os j := by
  cases mon
  · intro j hj
    simp only [half, piped, mark, markP] at hj
    simp at hj
    subst hj
    simp [Known, half, upd]
  · intro j hj
    simp only [half, piped, mark, markP] at hj
    simp at hj
    subst hj
    exact ⟨6, ⟨5, some 0, false⟩, by simp [half, upd, piped, addAll], rfl⟩

example : Gets (half false).os
    (jKill ⟨0, 0, 1, [⟨5, true⟩, ⟨6, false⟩], .running, false⟩ .term) .term 6 :=
  ⟨⟨1, some 0, false⟩, by simp [half, upd, piped, addAll], rfl, .inl (by decide)⟩

/-- A job without a process group: another process may have got the number of one that was
waited for, while the rest of the job still runs.  `kill` hits it. -/
theorem stranger_hit : ∃ w w' j q, Init w ∧ Steps w w' ∧ j ∈ w'.jobs ∧ j.state = .running ∧
    Gets w'.os (jKill j .term) .term q ∧ ¬ Belongs w'.os j q := by
  refine ⟨alone, { half false with os := upd (half false).os 5 (some ⟨1, none, false⟩) },
    ⟨0, 0, 1, [⟨5, true⟩, ⟨6, false⟩], .running, false⟩, 5, alone_init, ?_, ?_, rfl, ?_, ?_⟩
  · refine .step (.fork 1 5) (half_steps false) ?_
    have := Step.fork (w := half false) (q := 1) (c := 5) (a := ⟨1, none, false⟩)
      (by simp [half, upd, piped, addAll, alone]) rfl ⟨by decide, by simp [half, upd], ?_⟩
    · exact this
    · intro q a ha
      simp only [half, upd, piped, addAll, alone] at ha
      split at ha
      · cases ha
      · split at ha
        · cases ha
          simp
        · split at ha
          · cases ha
            simp
          · cases ha
  · decide
  · exact ⟨⟨1, none, false⟩, by simp [upd], rfl, .inl (by decide)⟩
  · rintro ⟨a, h1, h2, h3⟩
    simp only [upd, if_true] at h1
    cases h1
    cases h3

/-- A job of one process, 5, with a process group; it has ended and was waited for, and is in
the table because it has not been reported. -/
def over : W :=
  { alone with
    os := upd (upd (addAll alone.os [5] ⟨5, some 0, false⟩) 5 (some ⟨5, some 0, true⟩)) 5 none
    jobs := [⟨0, 5, 1, [⟨5, true⟩], .exited, false⟩]
    next := 1 }

theorem over_steps : Steps alone over := by
  have h1 := Step.start (w := alone) (mon := true) (fg := false) (p := 5) (ps := [])
    (g := ⟨1, none, false⟩)
    (by
      intro q hq
      apply alone_free <;> simp at hq <;> omega)
    (by simp [remembered, alone]) (by decide) rfl
  have h2 := Steps.step _ (.refl _) h1
  have h3 := h2.step _ (Step.exit (q := 5) (a := ⟨5, some 0, false⟩)
    (by simp [addAll, alone]) rfl (by decide))
  have h4 := h3.step _ (Step.reap (q := 5) (a := ⟨5, some 0, true⟩)
    (by simp [upd, awaited]) rfl)
  have h5 := h4.step _ (Step.change (n := 0) (s := .exited) (fg := false))
  exact h5

/-- A job with a process group that is over but not yet reported: another process may have
got the number and a group of its own.  `kill` hits it. -/
theorem stranger_group : ∃ w w' j q, Init w ∧ Steps w w' ∧ j ∈ w'.jobs ∧
    Gets w'.os (jKill j .term) .term q ∧ ¬ Belongs w'.os j q := by
  have hf : Free over.os 5 := by
    refine ⟨by decide, by simp [over, upd], ?_⟩
    intro q a ha
    simp only [over, upd, addAll, alone] at ha
    split at ha
    · cases ha
    · rename_i h
      simp only [List.mem_singleton, h, if_false] at ha
      split at ha
      · cases ha
        simp
      · cases ha
  have h1 := over_steps.step _ (Step.fork (q := 1) (c := 5) (a := ⟨1, none, false⟩)
    (by simp [over, upd, addAll, alone]) rfl hf)
  have h2 := h1.step _ (Step.move (q := 5) (a := ⟨1, none, false⟩)
    (by simp [upd, inherits]) rfl (by decide) (by decide))
  refine ⟨alone, _, ⟨0, 5, 1, [⟨5, true⟩], .exited, false⟩, 5, alone_init, h2, by decide, ?_, ?_⟩
  · exact ⟨⟨5, none, false⟩, by simp [upd, inherits], rfl, .inr (by decide)⟩
  · rintro ⟨a, g1, g2, g3⟩
    simp only [upd, if_true] at g1
    cases g1
    simp [inherits] at g3

/-- A signal to a job without a process group reaches what is left of it, but `kill` reports
failure because a process that was already waited for is not found. -/
theorem kill_reports_failure : ∃ w w' j, Init w ∧ Steps w w' ∧ j ∈ w'.jobs ∧
    Known w'.os j ∧ Gets w'.os (jKill j .term) .term 6 ∧ jKillFails w'.os j = true := by
  refine ⟨alone, half false, ⟨0, 0, 1, [⟨5, true⟩, ⟨6, false⟩], .running, false⟩, alone_init,
    half_steps false, by decide, ?_, ?_, ?_⟩
  · simp [Known, half, upd]
  · exact ⟨⟨1, some 0, false⟩, by simp [half, upd, piped, addAll], rfl, .inl (by decide)⟩
  · simp [jKillFails, killOk, half, upd]

/-- A stopped job without a process group is not continued by `kill`. -/
theorem not_continued (os : Os) (j : Job) (hp : j.pgrp = 0) (q : Nat) :
    ¬ Gets os (jKill j .term) .cont q := by
  rintro ⟨a, _, _, h | h⟩ <;> simp [jKill, hp, killJob] at h

/-- `exec` hangs up stopped jobs without any warning. -/
theorem exec_unwarned :
    leave ⟨1, 1, false, false⟩ false .exit [⟨0, 5, 1, [⟨5, false⟩], .stopped, false⟩] = none ∧
    leave ⟨1, 1, false, false⟩ false .exec [⟨0, 5, 1, [⟨5, false⟩], .stopped, false⟩] =
      some [.group 5 .hup, .group 5 .cont] := by decide

end Ksh.Hangup
