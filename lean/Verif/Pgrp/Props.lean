import Verif.Pgrp.Model

/-!
# The process group of a pipeline: proofs
-/
namespace Ksh.Pgrp

/-- The condition on the run: the first child is not killed before it has called setpgid, or the system lets
the shell put a child that has ended into a group. -/
def Fair (zok : Bool) (as : List Act) : Prop := zok = true ∨ Act.killed 0 ∉ as

/-- The shell is past setpgid for child `i`. -/
def Past (s : St) (i : Nat) : Prop := i + 1 < s.m ∨ (i + 1 = s.m ∧ s.sh ≠ .group)

structure Inv (zok : Bool) (n : Nat) (s : St) : Prop where
  /-- A child that has called setpgid is in the group. -/
  own : ∀ i, i < s.m → (s.kids i).ph ≠ .new → (s.kids i).grp = .job
  /-- So is one that the shell has dealt with, if it has not ended. -/
  shell : ∀ i, Past s i → (s.kids i).life = .alive → (s.kids i).grp = .job
  first : Past s 0 → (s.kids 0).grp = .job
  young : ∀ i, i < s.m → (s.kids i).life ≠ .alive → (s.kids i).ph = .new → i ≠ 0 ∨ zok = true
  waits : s.started = false → ∀ i, i < s.m → (s.kids i).life ≠ .gone
  count : s.m ≤ n
  one : s.sh ≠ .fork → s.sh ≠ .failed → 1 ≤ s.m
  rest : s.sh = .back → ∀ i, i < s.m → (s.kids i).life = .gone

theorem kid_set (s : St) (i : Nat) (k : Kid) (j : Nat) : (setKid s i k).kids j = if j = i then k else s.kids j := rfl

theorem exists_first {zok n s} (h : Inv zok n s) (hp : Past s 0) (hs : s.started = false) : Exists s := by
  refine ⟨0, ?_, h.first hp, h.waits hs 0 ?_⟩ <;> · unfold Past at hp; omega

theorem setpgid_other {zok s i self t} (h : Setpgid zok s i self t) :
    t.m = s.m ∧ t.sh = s.sh ∧ t.tty = s.tty ∧ (∀ j, j ≠ i → t.kids j = s.kids j) ∧
    (t.kids i).ph = (s.kids i).ph ∧ (t.kids i).life = (s.kids i).life ∧
    ((t.kids i).grp = .job ∨ (t.kids i).grp = (s.kids i).grp) := by
  cases h with
  | done => refine ⟨rfl, rfl, rfl, ?_, ?_, ?_, ?_⟩ <;> simp +contextual [kid_set]
  | ended => simp
  | executed => simp
  | nogroup => simp

theorem tcset_other {s t} (h : Tcset s t) : t.m = s.m ∧ t.sh = s.sh ∧ t.kids = s.kids := by
  cases h <;> simp

/-- Changing one child. -/
theorem inv_kid {zok n s i k} (h : Inv zok n s) (hi : i < s.m) (h1 : k.ph ≠ .new → k.grp = .job)
    (h2 : (s.kids i).grp = .job → k.grp = .job) (h3 : k.life = .alive → (s.kids i).life = .alive)
    (h4 : k.life ≠ .alive → k.ph = .new → i ≠ 0 ∨ zok = true) (h5 : s.started = false → k.life ≠ .gone)
    (h6 : s.sh = .back → k.life = .gone) : Inv zok n (setKid s i k) := by
  obtain ⟨own, shell, first, young, waits, count, one, rest⟩ := h
  refine ⟨?_, ?_, ?_, ?_, ?_, count, one, ?_⟩
  · intro j hj hp
    rw [kid_set] at hp ⊢
    split at hp
    · rename_i e; rw [if_pos e]; exact h1 hp
    · rename_i e; rw [if_neg e]; exact own j hj hp
  · intro j hj hl
    rw [kid_set] at hl ⊢
    split at hl
    · rename_i e; rw [if_pos e]; subst e; exact h2 (shell j hj (h3 hl))
    · rename_i e; rw [if_neg e]; exact shell j hj hl
  · intro hp
    rw [kid_set]
    split
    · rename_i e; subst e; exact h2 (first hp)
    · exact first hp
  · intro j hj hl hp
    rw [kid_set] at hl hp
    split at hl
    · rename_i e; rw [if_pos e] at hp; subst e; exact h4 hl hp
    · rename_i e; rw [if_neg e] at hp; exact young j hj hl hp
  · intro hst j hj
    rw [kid_set]
    split
    · exact h5 hst
    · exact waits hst j hj
  · intro hb j hj
    rw [kid_set]
    split
    · exact h6 hb
    · exact rest hb j hj

theorem not_back {zok n s i} (h : Inv zok n s) (hi : i < s.m) (hl : (s.kids i).life ≠ .gone) : s.sh ≠ .back :=
  fun e => hl (h.rest e i hi)

/-- setpgid by the shell: a child that lives is in the group after, and the first in any case. -/
theorem shSet_key {zok n s t} (h : Inv zok n s) (e : s.sh = .group) (hset : Setpgid zok s (s.m - 1) false t)
    (hcase : (s.kids (s.m - 1)).life = .alive ∨ s.m - 1 = 0) : (t.kids (s.m - 1)).grp = .job := by
  have hm1 : 1 ≤ s.m := h.one (by rw [e]; simp) (by rw [e]; simp)
  cases hset with
  | done => simp [kid_set]
  | ended hl hz =>
    rcases hcase with hc | hc
    · exact absurd hc hl
    · have hg := h.waits (by simp [St.started, e]) (s.m - 1) (by omega)
      rcases hz with hz | hz
      · exact absurd hz hg
      · by_cases hph : (s.kids (s.m - 1)).ph = .new
        · rcases h.young (s.m - 1) (by omega) hl hph with h | h
          · exact absurd hc h
          · rw [hz] at h; simp at h
        · exact h.own _ (by omega) hph
  | executed _ hr => exact h.own _ (by omega) (by rw [hr]; simp)
  | nogroup h0 hne =>
    exact absurd (exists_first h (by unfold Past; omega) (by simp [St.started, e])) hne

/-- setpgid by a child: it is in the group after. -/
theorem kidSet_key {zok n s i t} (h : Inv zok n s) (hi : i < s.m) (hl : (s.kids i).life = .alive)
    (hset : Setpgid zok s i true t) : (t.kids i).grp = .job := by
  cases hset with
  | done => simp [kid_set]
  | ended he _ => exact absurd hl he
  | executed hx => simp at hx
  | nogroup h0 hne =>
    exfalso
    by_cases hp : Past s i
    · exact hne ⟨i, hi, h.shell i hp hl, by rw [hl]; simp⟩
    · have : s.sh = .group ∧ i + 1 = s.m := by
        unfold Past at hp
        by_cases hg : s.sh = .group
        · exact ⟨hg, by omega⟩
        · simp only [hg, ne_eq, not_false_eq_true, and_true] at hp; omega
      exact hne (exists_first h (by unfold Past; omega) (by simp [St.started, this.1]))

theorem step_inv {zok n fg s a t} (h : Inv zok n s) (hf : zok = true ∨ a ≠ .killed 0) (hs : Step zok n fg s a t) :
    Inv zok n t := by
  have h' := h
  obtain ⟨own, shell, first, young, waits, count, one, rest⟩ := h
  cases hs with
  | fork e hm =>
    refine ⟨?_, ?_, ?_, ?_, ?_, ?_, ?_, ?_⟩
    · intro i hi hp
      simp only [kid_set] at hp ⊢
      split at hp
      · simp at hp
      · rename_i hne
        simp only [hne, if_false]
        exact own i (by simp only at hi; omega) hp
    · intro i hi hl
      simp only [Past, kid_set, ne_eq, not_true_eq_false, and_false, or_false] at hi hl ⊢
      have hne : ¬ i = s.m := by omega
      simp only [hne, if_false] at hl ⊢
      exact shell i (by unfold Past; rw [e]; simp; omega) hl
    · intro hp
      simp only [Past, kid_set, ne_eq, not_true_eq_false, and_false, or_false] at hp ⊢
      have hne : ¬ 0 = s.m := by omega
      simp only [hne, if_false]
      exact first (by unfold Past; rw [e]; simp; omega)
    · intro i hi hl hp
      simp only [kid_set] at hl hp
      split at hl
      · simp at hl
      · rename_i hne
        simp only [hne, if_false] at hp
        exact young i (by simp only at hi; omega) hl hp
    · intro _ i hi
      simp only [kid_set]
      split
      · simp
      · rename_i hne
        exact waits (by simp [St.started, e]) i (by simp only at hi; omega)
    · exact hm
    · intro _ _; simp
    · intro hb; simp at hb
  | forkFails e hm =>
    refine ⟨own, ?_, ?_, young, ?_, count, ?_, ?_⟩
    · intro i hi hl
      exact shell i (by unfold Past at hi ⊢; rw [e]; simp at hi ⊢; exact hi) hl
    · intro hp
      exact first (by unfold Past at hp ⊢; rw [e]; simp at hp ⊢; exact hp)
    · intro _; exact waits (by simp [St.started, e])
    · intro _ hne; simp at hne
    · intro hb; simp at hb
  | shSet e hset =>
    rename_i t
    have hm1 : 1 ≤ s.m := one (by rw [e]; simp) (by rw [e]; simp)
    have key := shSet_key h' e hset
    obtain ⟨em, esh, etty, eoth, eph, elife, egrp⟩ := setpgid_other hset
    have hk : ∀ j, (t.kids j).ph = (s.kids j).ph ∧ (t.kids j).life = (s.kids j).life ∧
        ((t.kids j).grp = .job ∨ (t.kids j).grp = (s.kids j).grp) := by
      intro j
      by_cases hj : j = s.m - 1
      · subst hj; exact ⟨eph, elife, egrp⟩
      · rw [eoth j hj]; simp
    refine ⟨?_, ?_, ?_, ?_, ?_, ?_, ?_, ?_⟩
    · intro j hj hp
      simp only [em] at hj
      have := hk j
      rw [this.1] at hp
      rcases this.2.2 with h | h
      · exact h
      · exact h.trans (own j hj hp)
    · intro j hj hl
      simp only [Past, em] at hj
      have := hk j
      simp only [this.2.1] at hl
      by_cases hjm : j = s.m - 1
      · subst hjm; exact key (Or.inl hl)
      · simp only [eoth j hjm]
        exact shell j (by unfold Past; omega) hl
    · intro hp
      simp only [Past, em] at hp
      by_cases hjm : 0 = s.m - 1
      · have := key (Or.inr hjm.symm)
        rw [← hjm] at this
        exact this
      · simp only [eoth 0 hjm]
        exact first (by unfold Past; omega)
    · intro j hj hl hp
      simp only [em] at hj
      simp only [(hk j).1, (hk j).2.1] at hl hp
      exact young j hj hl hp
    · intro _ j hj
      simp only [em] at hj
      simp only [(hk j).2.1]
      exact waits (by simp [St.started, e]) j hj
    · simpa only [em] using count
    · intro _ _; simp only [em]; exact hm1
    · intro hb; simp at hb
  | shTty e ht =>
    rename_i t
    have hm1 : 1 ≤ s.m := one (by rw [e]; simp) (by rw [e]; simp)
    have hkid : t.m = s.m ∧ t.kids = s.kids := by
      split at ht
      · have := tcset_other ht; exact ⟨this.1, this.2.2⟩
      · subst ht; exact ⟨rfl, rfl⟩
    obtain ⟨em, ek⟩ := hkid
    simp only [em, ek]
    refine ⟨own, ?_, ?_, young, ?_, count, ?_, ?_⟩
    · intro j hj hl
      exact shell j (by unfold Past at hj ⊢; rw [e]; simp at hj ⊢; omega) hl
    · intro hp
      exact first (by unfold Past at hp ⊢; rw [e]; simp at hp ⊢; omega)
    · intro _; exact waits (by simp [St.started, e])
    · intro _ _; exact hm1
    · intro hb; simp only at hb; split at hb <;> simp at hb
  | kidSet hi hl hp hset =>
    rename_i t i
    have key := kidSet_key h' hi hl hset
    obtain ⟨em, esh, etty, eoth, eph, elife, egrp⟩ := setpgid_other hset
    have e : setKid t i { t.kids i with ph := .grouped } = setKid s i { t.kids i with ph := .grouped } := by
      have : t = setKid s i (t.kids i) := by
        obtain ⟨tk, tm, tsh, tt⟩ := t
        simp only at em esh etty eoth
        subst em esh etty
        simp only [setKid, St.mk.injEq, and_true]
        funext j
        by_cases hj : j = i
        · simp [hj]
        · simp [hj, eoth j hj]
      conv => lhs; rw [this]
      simp only [setKid, St.mk.injEq, and_true]
      funext j
      by_cases hj : j = i <;> simp [hj]
    rw [e]
    refine inv_kid h' hi (fun _ => key) (fun _ => key) (fun _ => hl) ?_ ?_ ?_
    · intro hx; simp only [elife] at hx; exact absurd hl hx
    · intro _; simp only [elife, hl]; simp
    · intro hb; exact absurd hb (not_back h' hi (by rw [hl]; simp))
  | kidTty hi hl hp ht =>
    rename_i t i
    have hkid : t.m = s.m ∧ t.kids = s.kids ∧ t.sh = s.sh := by
      split at ht
      · have := tcset_other ht; exact ⟨this.1, this.2.2, this.2.1⟩
      · subst ht; exact ⟨rfl, rfl, rfl⟩
    obtain ⟨em, ek, es⟩ := hkid
    have hg := own i hi (by rw [hp]; simp)
    have h2 : Inv zok n (setKid s i { s.kids i with ph := .ready }) := by
      refine inv_kid h' hi (fun _ => hg) (fun _ => hg) (fun _ => hl) ?_ ?_ ?_
      · intro hx; exact absurd hl hx
      · intro _; simp only [hl]; simp
      · intro hb; exact absurd hb (not_back h' hi (by rw [hl]; simp))
    obtain ⟨a1, a2, a3, a4, a5, a6, a7, a8⟩ := h2
    obtain ⟨tk, tm, tsh, tt⟩ := t
    simp only at em ek es
    subst em ek es
    exact ⟨a1, a2, a3, a4, a5, a6, a7, a8⟩
  | exec hi hl hp =>
    rename_i i
    have hg := own i hi (by rw [hp]; simp)
    refine inv_kid h' hi (fun _ => hg) (fun _ => hg) (fun _ => hl) ?_ ?_ ?_
    · intro hx; exact absurd hl hx
    · intro _; simp only [hl]; simp
    · intro hb; exact absurd hb (not_back h' hi (by rw [hl]; simp))
  | ends hi hl hp =>
    rename_i i
    have hg := own i hi hp
    refine inv_kid h' hi (fun _ => hg) (fun _ => hg) (fun _ => hl) ?_ ?_ ?_
    · intro _ hx; exact absurd hx hp
    · intro _; simp
    · intro hb; exact absurd hb (not_back h' hi (by rw [hl]; simp))
  | killed hi hl hp =>
    rename_i i
    refine inv_kid h' hi (fun hx => absurd hp hx) (fun hx => hx) (fun _ => hl) ?_ ?_ ?_
    · intro _ _
      rcases hf with hf | hf
      · exact Or.inr hf
      · left
        intro e
        subst e
        exact hf rfl
    · intro _; simp
    · intro hb; exact absurd hb (not_back h' hi (by rw [hl]; simp))
  | reap hi hl hst =>
    rename_i i
    refine inv_kid h' hi (fun hx => own i hi hx) (fun hx => hx) (fun hx => by simp at hx) ?_ ?_ ?_
    · intro _ hx; exact young i hi (by rw [hl]; simp) hx
    · intro hx; rw [hst] at hx; simp at hx
    · intro _; rfl
  | take hi hl hp => exact ⟨own, shell, first, young, waits, count, one, rest⟩
  | waited e hall =>
    refine ⟨own, ?_, ?_, young, ?_, count, ?_, ?_⟩
    · intro j hj hl
      exact shell j (by unfold Past at hj ⊢; rw [e]; simp at hj ⊢; omega) hl
    · intro hp
      exact first (by unfold Past at hp ⊢; rw [e]; simp at hp ⊢; omega)
    · intro hx; simp [St.started] at hx
    · intro _ _; exact one (by rw [e]; simp) (by rw [e]; simp)
    · intro _; exact hall

theorem inv_start (zok n) : Inv zok n {} :=
  ⟨by simp, by simp [Past], by simp [Past], by simp, by simp, by simp, by simp, by simp⟩

theorem run_inv {zok n fg} : ∀ {as s t}, Inv zok n s → Fair zok as → Run zok n fg s as t → Inv zok n t := by
  intro as
  induction as with
  | nil => intro s t h _ hr; cases hr; exact h
  | cons a as ih =>
    intro s t h hf hr
    cases hr with
    | cons h1 h2 =>
      refine ih (step_inv h ?_ h1) ?_ h2
      · rcases hf with hf | hf
        · exact Or.inl hf
        · exact Or.inr (fun e => hf (by simp [e]))
      · rcases hf with hf | hf
        · exact Or.inl hf
        · exact Or.inr (fun hm => hf (by simp [hm]))

/-! ## The groups -/

/-- **C146.**  Every process of a pipeline runs its program in the group of the job, in whichever order the shell and the
children get to run, however many have ended already.  Missing: a first child that is killed before it has called
setpgid, on systems where a process that has ended cannot be put into a group. -/
theorem same_group_partial {zok n fg as s} (hr : Run zok n fg {} as s) (hf : Fair zok as) (i : Nat) (hi : i < s.m)
    (hx : (s.kids i).ph = .runs) : (s.kids i).grp = .job :=
  (run_inv (inv_start zok n) hf hr).own i hi (by rw [hx]; simp)

/-- When the shell has started the job, all its processes that live are in the group, also those that have not
come to their own call: a signal to the group reaches them. -/
theorem all_reached_partial {zok n fg as s} (hr : Run zok n fg {} as s) (hf : Fair zok as) (hw : s.sh = .wait) (i : Nat)
    (hi : i < s.m) (hl : (s.kids i).life = .alive) : (s.kids i).grp = .job :=
  (run_inv (inv_start zok n) hf hr).shell i (by unfold Past; rw [hw]; simp; omega) hl

/-- No child is lost to the shell: nothing is reaped before the job is started. -/
theorem none_reaped {zok n fg as s} (hr : Run zok n fg {} as s) (hf : Fair zok as) (hs : s.started = false) (i : Nat)
    (hi : i < s.m) : (s.kids i).life ≠ .gone :=
  (run_inv (inv_start zok n) hf hr).waits hs i hi

/-! ## The terminal -/

/-- Whose the terminal is, as long as no program takes it. -/
structure TInv (fg : Bool) (s : St) : Prop where
  bg : fg = false → s.tty = .shell
  fore : fg = true → s.sh ≠ .back →
    (1 ≤ s.m ∧ (s.kids 0).ph ≠ .new ∧ (s.kids 0).ph ≠ .grouped ∨ 2 ≤ s.m ∨ s.m = 1 ∧ s.sh ≠ .group ∧ s.sh ≠ .tty) → s.tty = .job
  back : s.sh = .back → s.tty = .shell
  ours : s.tty ≠ .other

theorem tcset_exists {s t} (h : Tcset s t) (he : Exists s) : t = { s with tty := .job } := by
  cases h with
  | done => rfl
  | nogroup hn => exact absurd he hn

theorem tstep {zok n fg s a t} (h : Inv zok n s) (ht : TInv fg s) (ha : ∀ i, a ≠ .take i) (hs : Step zok n fg s a t) :
    TInv fg t := by
  obtain ⟨bg, fore, back, ours⟩ := ht
  cases hs with
  | fork e hm =>
    refine ⟨bg, fun hfg _ hc => ?_, fun hb => by simp at hb, ours⟩
    have : s.m ≠ 0 := by
      intro e0
      rcases hc with ⟨_, hc, _⟩ | hc | hc
      · simp [kid_set, e0] at hc
      · simp [e0] at hc
      · simp at hc
    exact fore hfg (by rw [e]; simp) (by rw [e]; simp; omega)
  | forkFails e hm =>
    refine ⟨bg, fun hfg _ hc => ?_, fun hb => by simp at hb, ours⟩
    exact fore hfg (by rw [e]; simp) (by rw [e]; simpa using hc)
  | shSet e hset =>
    rename_i t
    obtain ⟨em, esh, etty, eoth, eph, elife, egrp⟩ := setpgid_other hset
    have hp0 : (t.kids 0).ph = (s.kids 0).ph := by
      by_cases h0 : 0 = s.m - 1
      · rw [← h0] at eph; exact eph
      · rw [eoth 0 h0]
    simp only [etty]
    refine ⟨bg, fun hfg _ hc => ?_, fun hb => by simp at hb, ours⟩
    simp only [em, hp0] at hc
    exact fore hfg (by rw [e]; simp) (by rw [e]; simpa using hc)
  | shTty e htt =>
    rename_i t
    have hm1 : 1 ≤ s.m := h.one (by rw [e]; simp) (by rw [e]; simp)
    split at htt
    · rename_i hc
      have hx := tcset_exists htt (exists_first h (by unfold Past; rw [e]; simp; omega) (by simp [St.started, e]))
      subst hx
      refine ⟨fun hb => by rw [hb] at hc; simp at hc, fun _ _ _ => rfl, ?_, by simp⟩
      intro hb; simp only at hb; split at hb <;> simp at hb
    · rename_i hc
      subst htt
      refine ⟨bg, fun hfg _ hcc => ?_, ?_, ours⟩
      · have : 2 ≤ t.m := by
          have : ¬ t.m = 1 := fun h1 => hc ⟨hfg, h1⟩
          omega
        exact fore hfg (by rw [e]; simp) (Or.inr (Or.inl this))
      · intro hb; simp only at hb; split at hb <;> simp at hb
  | kidSet hi hl hp hset =>
    rename_i t i
    obtain ⟨em, esh, etty, eoth, eph, elife, egrp⟩ := setpgid_other hset
    have hnb := not_back h hi (by rw [hl]; simp)
    refine ⟨fun hb => etty.trans (bg hb), fun hfg _ hc => ?_, fun hb => absurd (esh.symm.trans hb) hnb, fun hx => ours (etty.symm.trans hx)⟩
    refine etty.trans (fore hfg hnb ?_)
    simp only [setKid, em, esh] at hc
    rcases hc with ⟨h1, h2, h3⟩ | hc
    · by_cases h0 : 0 = i
      · simp [← h0] at h3
      · simp only [h0, if_false, eoth 0 h0] at h2 h3
        exact Or.inl ⟨h1, h2, h3⟩
    · exact Or.inr hc
  | kidTty hi hl hp htt =>
    rename_i t i
    have hnb := not_back h hi (by rw [hl]; simp)
    split at htt
    · rename_i hc
      obtain ⟨hfg, h0⟩ := hc
      have hx := tcset_exists htt ⟨i, hi, h.own i hi (by rw [hp]; simp), by rw [hl]; simp⟩
      subst hx
      exact ⟨fun hb => by rw [hb] at hfg; simp at hfg, fun _ _ _ => rfl, fun hb => absurd hb hnb, by simp [setKid]⟩
    · rename_i hc
      subst htt
      refine ⟨bg, fun hfg _ hcc => ?_, fun hb => absurd hb hnb, ours⟩
      have h0 : ¬ 0 = i := fun e => hc ⟨hfg, e.symm⟩
      simp only [setKid, h0, if_false] at hcc
      exact fore hfg hnb hcc
  | exec hi hl hp =>
    rename_i i
    have hnb := not_back h hi (by rw [hl]; simp)
    refine ⟨bg, fun hfg _ hc => fore hfg hnb ?_, fun hb => absurd hb hnb, ours⟩
    simp only [setKid] at hc
    by_cases h0 : 0 = i
    · left; subst h0; rw [hp]; simp; omega
    · simpa only [h0, if_false] using hc
  | ends hi hl hp =>
    rename_i i
    have hnb := not_back h hi (by rw [hl]; simp)
    refine ⟨bg, fun hfg _ hc => fore hfg hnb ?_, fun hb => absurd hb hnb, ours⟩
    simp only [setKid] at hc
    by_cases h0 : 0 = i
    · subst h0; simpa using hc
    · simpa only [h0, if_false] using hc
  | killed hi hl hp =>
    rename_i i
    have hnb := not_back h hi (by rw [hl]; simp)
    refine ⟨bg, fun hfg _ hc => fore hfg hnb ?_, fun hb => absurd hb hnb, ours⟩
    simp only [setKid] at hc
    by_cases h0 : 0 = i
    · subst h0; simpa using hc
    · simpa only [h0, if_false] using hc
  | reap hi hl hst =>
    rename_i i
    refine ⟨bg, fun hfg hb hc => fore hfg hb ?_, back, ours⟩
    simp only [setKid] at hc
    by_cases h0 : 0 = i
    · subst h0; simpa using hc
    · simpa only [h0, if_false] using hc
  | take hi hl hp => rename_i i; exact absurd rfl (ha i)
  | waited e hall =>
    refine ⟨fun hb => by simp [hb, bg hb], fun _ hb => absurd rfl hb, fun _ => ?_, ?_⟩
    · cases fg with
      | true => rfl
      | false => exact bg rfl
    · cases fg with
      | true => simp
      | false => exact ours

theorem run_tty {zok n fg} : ∀ {as s t}, Inv zok n s → TInv fg s → Fair zok as → (∀ i, Act.take i ∉ as) → Run zok n fg s as t → TInv fg t := by
  intro as
  induction as with
  | nil => intro s t _ h _ _ hr; cases hr; exact h
  | cons a as ih =>
    intro s t hi h hf hn hr
    cases hr with
    | cons h1 h2 =>
      have hf1 : zok = true ∨ a ≠ .killed 0 := by
        rcases hf with hf | hf
        · exact Or.inl hf
        · exact Or.inr (fun e => hf (by simp [e]))
      have hf2 : Fair zok as := by
        rcases hf with hf | hf
        · exact Or.inl hf
        · exact Or.inr (fun hm => hf (by simp [hm]))
      exact ih (step_inv hi hf1 h1) (tstep hi h (fun i e => hn i (by simp [e])) h1) hf2 (fun i hm => hn i (by simp [hm])) h2

theorem tinv_start (fg) : TInv fg {} := ⟨fun _ => rfl, by simp, by simp, by simp⟩

/-- **C146.**  Every program of a job in the foreground finds the terminal in its own group when it is executed, and of
one in the background in that of the shell; as long as no program takes it. -/
theorem terminal_partial {zok n fg as s} (hr : Run zok n fg {} as s) (hf : Fair zok as) (hn : ∀ i, Act.take i ∉ as) (i : Nat)
    (hi : i < s.m) (hx : (s.kids i).ph = .ready ∨ (s.kids i).ph = .runs) (hb : s.sh ≠ .back) :
    s.tty = if fg then (s.kids i).grp else .shell := by
  have hI := run_inv (inv_start zok n) hf hr
  have hT := run_tty (inv_start zok n) (tinv_start fg) hf hn hr
  cases fg with
  | false => simpa using hT.bg rfl
  | true =>
    have hg := hI.own i hi (by rcases hx with h | h <;> rw [h] <;> simp)
    simp only [if_true, hg]
    refine hT.fore rfl hb ?_
    by_cases h0 : i = 0
    · subst h0
      left
      rcases hx with h | h <;> rw [h] <;> simp <;> omega
    · right; left; omega

/-- After the job the shell has it, even if programs of the job took it. -/
theorem regained {zok n as s t} (_ : Run zok n true {} as s) (hs : Step zok n true s .waited t) : t.tty = .shell := by
  cases hs
  rfl

/-! ## Where it goes wrong -/

/-- The fork of a later process of a pipeline fails: the shell goes on, and the terminal belongs to the group of the
processes it has killed; the next read of the shell fails, as it is in the background. -/
theorem fork_fails_loses_terminal {zok n as s t} (hr : Run zok n true {} as s) (hf : Fair zok as) (hn : ∀ i, Act.take i ∉ as)
    (hm : 1 ≤ s.m) (hs : Step zok n true s .forkFails t) : t.sh = .failed ∧ t.tty = .job := by
  have hT := run_tty (inv_start zok n) (tinv_start true) hf hn hr
  cases hs with
  | forkFails e _ =>
    refine ⟨rfl, hT.fore rfl (by rw [e]; simp) ?_⟩
    rw [e]
    simp
    omega

/-- One step, computed; for the cases below. -/
def existsB (s : St) : Bool := (List.range s.m).any fun i => (s.kids i).grp == .job && (s.kids i).life != .gone

theorem existsB_iff (s : St) : existsB s = true ↔ Exists s := by
  simp [existsB, Exists]

def setpgidB (zok : Bool) (s : St) (i : Nat) (self : Bool) : St :=
  if (s.kids i).life ≠ .alive ∧ ((s.kids i).life = .gone ∨ zok = false) then s
  else if self = false ∧ (s.kids i).ph = .runs then s
  else if i ≠ 0 ∧ existsB s = false then s
  else setKid s i { s.kids i with grp := .job }

theorem setpgidB_sound (zok s i self) : Setpgid zok s i self (setpgidB zok s i self) := by
  unfold setpgidB
  split
  · rename_i h; exact .ended h.1 h.2
  · rename_i h1
    split
    · rename_i h; exact .executed h.1 h.2
    · rename_i h2
      split
      · rename_i h
        refine .nogroup h.1 (fun he => ?_)
        rw [(existsB_iff s).2 he] at h
        simp at h
      · rename_i h3
        refine .done ?_ ?_ ?_
        · cases hl : (s.kids i).life with
          | alive => exact Or.inl rfl
          | zombie => rw [hl] at h1; right; simpa using h1
          | gone => rw [hl] at h1; simp at h1
        · cases self with
          | true => exact Or.inl rfl
          | false => right; intro hr; exact h2 ⟨rfl, hr⟩
        · by_cases h0 : i = 0
          · exact Or.inl h0
          · right
            cases he : existsB s with
            | true => exact (existsB_iff s).1 he
            | false => exact absurd ⟨h0, he⟩ h3

def tcsetB (s : St) : St := if existsB s then { s with tty := .job } else s

theorem tcsetB_sound (s) : Tcset s (tcsetB s) := by
  unfold tcsetB
  split
  · rename_i h; exact .done ((existsB_iff s).1 h)
  · rename_i h; exact .nogroup (fun he => h ((existsB_iff s).2 he))

def act (zok : Bool) (n : Nat) (fg : Bool) (s : St) : Act → Option St
  | .fork => if s.sh = .fork ∧ s.m < n then some { setKid s s.m {} with m := s.m + 1, sh := .group } else none
  | .shSet => if s.sh = .group then some { setpgidB zok s (s.m - 1) false with sh := .tty } else none
  | .shTty => if s.sh = .tty then
      some { (if fg = true ∧ s.m = 1 then tcsetB s else s) with sh := if s.m = n then .wait else .fork } else none
  | .kidSet i => if i < s.m ∧ (s.kids i).life = .alive ∧ (s.kids i).ph = .new then
      some (setKid (setpgidB zok s i true) i { (setpgidB zok s i true).kids i with ph := .grouped }) else none
  | .kidTty i => if i < s.m ∧ (s.kids i).life = .alive ∧ (s.kids i).ph = .grouped then
      (let t := if fg = true ∧ i = 0 then tcsetB s else s; some (setKid t i { t.kids i with ph := .ready })) else none
  | .exec i => if i < s.m ∧ (s.kids i).life = .alive ∧ (s.kids i).ph = .ready then
      some (setKid s i { s.kids i with ph := .runs }) else none
  | .ends i => if i < s.m ∧ (s.kids i).life = .alive ∧ (s.kids i).ph ≠ .new then
      some (setKid s i { s.kids i with life := .zombie }) else none
  | .killed i => if i < s.m ∧ (s.kids i).life = .alive ∧ (s.kids i).ph = .new then
      some (setKid s i { s.kids i with life := .zombie }) else none
  | .reap i => if i < s.m ∧ (s.kids i).life = .zombie ∧ s.started = true then
      some (setKid s i { s.kids i with life := .gone }) else none
  | .take i => if i < s.m ∧ (s.kids i).life = .alive ∧ (s.kids i).ph = .runs then some { s with tty := .other } else none
  | _ => none

theorem act_sound {zok n fg s a t} (h : act zok n fg s a = some t) : Step zok n fg s a t := by
  cases a <;> simp only [act] at h <;> (try split at h) <;> simp only [Option.some.injEq, reduceCtorEq] at h
  · rename_i c; subst h; exact .fork c.1 c.2
  · rename_i c; subst h; exact .shSet c (setpgidB_sound _ _ _ _)
  · rename_i c; subst h
    refine .shTty c ?_
    split
    · exact tcsetB_sound s
    · rfl
  · rename_i c; subst h; exact .kidSet c.1 c.2.1 c.2.2 (setpgidB_sound _ _ _ _)
  · rename_i c; subst h
    refine .kidTty c.1 c.2.1 c.2.2 ?_
    split
    · exact tcsetB_sound s
    · rfl
  · rename_i c; subst h; exact .exec c.1 c.2.1 c.2.2
  · rename_i c; subst h; exact .ends c.1 c.2.1 c.2.2
  · rename_i c; subst h; exact .killed c.1 c.2.1 c.2.2
  · rename_i c; subst h; exact .reap c.1 c.2.1 c.2.2
  · rename_i c; subst h; exact .take c.1 c.2.1 c.2.2

def acts (zok : Bool) (n : Nat) (fg : Bool) : List Act → St → Option St
  | [], s => some s
  | a :: as, s => (act zok n fg s a).bind (acts zok n fg as)

theorem acts_sound {zok n fg} : ∀ {as s t}, acts zok n fg as s = some t → Run zok n fg s as t := by
  intro as
  induction as with
  | nil => intro s t h; simp only [acts, Option.some.injEq] at h; subst h; exact .nil
  | cons a as ih =>
    intro s t h
    simp only [acts] at h
    cases ha : act zok n fg s a with
    | none => rw [ha] at h; simp at h
    | some u => rw [ha] at h; exact .cons (act_sound ha) (ih h)

/-- Of a run that can be made, what is true at its end. -/
theorem witness {zok n fg as} (P : St → Bool) (h : (acts zok n fg as {}).any P = true) : ∃ s, Run zok n fg {} as s ∧ P s = true := by
  cases he : acts zok n fg as {} with
  | none => rw [he] at h; simp at h
  | some s => rw [he] at h; exact ⟨s, acts_sound he, by simpa using h⟩

/-- `true | cat` where the first child is killed as soon as it is there (by a ^C, say): on a system that does not
let the shell put it into a group, cat runs in the group of the shell. -/
theorem killed_first : ∃ s, Run false 2 true {}
      [.fork, .killed 0, .shSet, .shTty, .fork, .shSet, .shTty, .kidSet 1, .kidTty 1, .exec 1] s ∧
    ((s.kids 1).ph == .runs && (s.kids 1).grp == .shell && s.tty == .shell) = true :=
  witness (fun s => (s.kids 1).ph == .runs && (s.kids 1).grp == .shell && s.tty == .shell) (by decide +kernel)

/-- The shell is slow: the program it has started, an interactive shell, has taken the terminal for a job of its own, when the
shell gives it back to the group of the program, which then is in the background of its own terminal. -/
theorem late_shell : ∃ s, Run true 1 true {} [.fork, .kidSet 0, .kidTty 0, .exec 0, .take 0, .shSet, .shTty] s ∧
    (s.tty == .job && s.sh == .wait) = true :=
  witness (fun s => s.tty == .job && s.sh == .wait) (by decide +kernel)

/-! ## Cases -/

/-- Both have run and ended before the shell gets to its call for the second; the first is still there for the second
to join. -/
example : ∃ s, Run false 2 true {}
      [.fork, .kidSet 0, .kidTty 0, .exec 0, .ends 0, .shSet, .shTty, .fork, .kidSet 1, .kidTty 1, .exec 1, .shSet, .shTty,
       .reap 0] s ∧
    ((s.kids 1).grp == .job && s.tty == .job && (s.kids 0).life == .gone) = true :=
  witness (fun s => (s.kids 1).grp == .job && s.tty == .job && (s.kids 0).life == .gone) (by decide +kernel)

/-- The shell is first, and the first child is reaped before the second has come to its own call. -/
example : ∃ s, Run false 2 false {}
      [.fork, .shSet, .shTty, .fork, .shSet, .shTty, .kidSet 0, .kidTty 0, .exec 0, .ends 0, .reap 0, .kidSet 1, .kidTty 1, .exec 1] s ∧
    ((s.kids 1).grp == .job && s.tty == .shell) = true :=
  witness (fun s => (s.kids 1).grp == .job && s.tty == .shell) (by decide +kernel)

example : Fair false [.fork, .killed 1] := Or.inr (by simp)

end Ksh.Pgrp
