import Verif.Pipes.Model

/-!
# The pipes of pipelines and command substitutions: proofs
-/
namespace Ksh.Pipes

/-! ## The calls -/

theorem free_some {lim b n : Nat} {t : Tab} (h : free lim b t = some n) :
    b ≤ n ∧ n < lim ∧ t n = none := by
  have h1 := List.find?_some h
  have h2 := List.mem_of_find?_eq_some h
  rw [List.mem_range'_1] at h2
  refine ⟨h2.1, by omega, ?_⟩
  simpa using h1

theorem moveUp_ok {lim a p : Nat} {t t' : Tab} {o : Obj} (ht : t a = some (o, false))
    (h : moveUp lim a t = .ok (p, t')) :
    10 ≤ p ∧ (p = a ∨ t p = none ∧ p < lim) ∧ t' = put (put t a none) p (some (o, true)) := by
  simp only [moveUp, savefd, ht] at h
  by_cases ha : a < 10
  · rw [if_pos ha] at h
    cases hf : free lim 10 t with
    | none => rw [hf] at h; cases h
    | some n =>
      rw [hf] at h
      simp only [Except.ok.injEq, Prod.mk.injEq] at h
      obtain ⟨rfl, rfl⟩ := h
      obtain ⟨h1, h2, h3⟩ := free_some hf
      have hne : ¬ n = a := by omega
      refine ⟨h1, Or.inr ⟨h3, h2⟩, ?_⟩
      rw [if_neg hne]
      funext d
      simp only [close, put]
      grind
  · rw [if_neg ha] at h
    simp only [Except.ok.injEq, Prod.mk.injEq] at h
    obtain ⟨rfl, rfl⟩ := h
    refine ⟨by omega, Or.inl rfl, ?_⟩
    funext d
    by_cases hd : d = a <;> simp [put, hd]

theorem openpipe_ok {lim i p q : Nat} {t t' : Tab} (h : openpipe lim i t = .ok (p, q, t')) :
    10 ≤ p ∧ p < lim ∧ 10 ≤ q ∧ p ≠ q ∧ t p = none ∧ t q = none ∧
      t' = put (put t p (some (.rd i, true))) q (some (.wr i, true)) := by
  simp only [openpipe, pipe] at h
  cases ha : free lim 0 t with
  | none => rw [ha] at h; cases h
  | some a =>
    simp only [ha] at h
    cases hb : free lim 0 (put t a (some (.rd i, false))) with
    | none => rw [hb] at h; cases h
    | some b =>
      simp only [hb] at h
      obtain ⟨_, ha2, ha3⟩ := free_some ha
      obtain ⟨_, _, hb3⟩ := free_some hb
      have hab : b ≠ a := by
        intro e
        subst e
        simp [put] at hb3
      have hb4 : t b = none := by simpa [put, hab] using hb3
      cases h1 : moveUp lim a (put (put t a (some (.rd i, false))) b (some (.wr i, false))) with
      | error _ => rw [h1] at h; cases h
      | ok r =>
        obtain ⟨p', t1⟩ := r
        simp only [h1] at h
        have hta : put (put t a (some (.rd i, false))) b (some (.wr i, false)) a =
            some (.rd i, false) := by simp [put, hab.symm]
        obtain ⟨p1, p2, rfl⟩ := moveUp_ok hta h1
        have hp : t p' = none ∧ p' ≠ b ∧ p' < lim := by
          rcases p2 with rfl | ⟨p2, p3⟩
          · exact ⟨ha3, hab.symm, ha2⟩
          · simp only [put] at p2
            by_cases e1 : p' = b
            · simp [e1] at p2
            · by_cases e2 : p' = a
              · simp [e2, hab.symm] at p2
              · simp [e1, e2] at p2
                exact ⟨p2, e1, p3⟩
        cases h2 : moveUp lim b (put (put (put (put t a (some (.rd i, false))) b
            (some (.wr i, false))) a none) p' (some (.rd i, true))) with
        | error _ => rw [h2] at h; cases h
        | ok r =>
          obtain ⟨q', t2⟩ := r
          simp only [h2, Except.ok.injEq, Prod.mk.injEq] at h
          obtain ⟨rfl, rfl, rfl⟩ := h
          have htb : put (put (put (put t a (some (.rd i, false))) b
            (some (.wr i, false))) a none) p' (some (.rd i, true)) b = some (.wr i, false) := by
            simp [put, hp.2.1.symm, hab]
          obtain ⟨q1, q2, rfl⟩ := moveUp_ok htb h2
          have hq : t q' = none ∧ q' ≠ p' := by
            rcases q2 with rfl | ⟨q2, _⟩
            · exact ⟨hb4, hp.2.1.symm⟩
            · simp only [put] at q2
              by_cases e1 : q' = p'
              · simp [e1] at q2
              · by_cases e2 : q' = a
                · exact ⟨e2 ▸ ha3, e1⟩
                · by_cases e3 : q' = b
                  · simp [e3, hab, hp.2.1.symm] at q2
                  · simp [e1, e2, e3] at q2
                    exact ⟨q2, e1⟩
          refine ⟨p1, hp.2.2, q1, hq.2.symm, hp.1, hq.1, ?_⟩
          funext d
          simp only [put]
          grind

theorem cleanup_at : ∀ (l : List Nat) (t : Tab) (d : Nat),
    cleanup l t d = if d ∈ l then none else t d
  | [], t, d => by simp [cleanup]
  | n :: l, t, d => by
    have ih := cleanup_at l (close n t) d
    simp only [cleanup, List.foldl_cons] at ih ⊢
    rw [ih]
    by_cases h1 : d ∈ l
    · simp [h1]
    · by_cases h2 : d = n
      · simp [h2, close, put]
      · simp [h1, h2, close, put]


theorem free_exists {lim b n : Nat} {t : Tab} (h1 : b ≤ n) (h2 : n < lim) (h3 : t n = none) :
    ∃ m, free lim b t = some m := by
  cases hf : free lim b t with
  | some m => exact ⟨m, rfl⟩
  | none =>
    have := List.find?_eq_none.1 hf n (by rw [List.mem_range'_1]; omega)
    simp [h3] at this

theorem toNull_eq {lim n : Nat} {t : Tab} (h2 : n < lim) (h3 : t n = none) :
    toNull lim t = put t 0 (some (.null, false)) := by
  obtain ⟨m, hm⟩ := free_exists (Nat.zero_le n) h2 h3
  obtain ⟨_, _, hm3⟩ := free_some hm
  simp only [toNull, hm]
  by_cases h0 : m = 0
  · simp [h0]
  · rw [if_neg h0]
    funext d
    have h0' : ¬ 0 = m := fun e => h0 e.symm
    by_cases hd : d = m
    · subst hd
      simp [close, put, h0, hm3]
    · by_cases hd0 : d = 0 <;> simp [close, dup2, put, h0, h0', hd, hd0]

/-! ## The loop -/

theorem stage_ok {lim i : Nat} {fork : Nat → Bool} {bg : Bool} {saved : List Nat} {t c p : Tab}
    (hs : ∀ d ∈ saved, 10 ≤ d) (h : stage lim fork bg saved i t = .ok (c, p)) :
    (c 0 = if bg = true ∧ i = 0 then some (.null, false) else t 0) ∧ c 1 = some (.wr i, false) ∧
    (∃ q, 10 ≤ q ∧ t q = none ∧ ∀ d, 2 ≤ d → c d = if d ∈ saved then none else
      if d = q then some (.wr i, true) else t d) ∧
    p 0 = some (.rd i, false) ∧ p 1 = some (.wr i, false) ∧ ∀ d, 2 ≤ d → p d = t d := by
  simp only [stage] at h
  cases ho : openpipe lim i t with
  | error _ => rw [ho] at h; cases h
  | ok r =>
    obtain ⟨p', q', t'⟩ := r
    obtain ⟨hp, hpl, hq, hpq, htp, htq, rfl⟩ := openpipe_ok ho
    simp only [ho] at h
    by_cases hf : fork i = true
    · rw [if_pos hf] at h
      simp only [Except.ok.injEq, Prod.mk.injEq] at h
      obtain ⟨hc, rfl⟩ := h
      have h0p : ¬ 0 = p' := by omega
      have h0q : ¬ 0 = q' := by omega
      have h1p : ¬ 1 = p' := by omega
      have h1q : ¬ 1 = q' := by omega
      have hq1 : ¬ q' = 1 := by omega
      have hp0 : ¬ p' = 0 := by omega
      have hp1 : ¬ p' = 1 := by omega
      have d1 : dup2 q' 1 (put (put t p' (some (.rd i, true))) q' (some (.wr i, true))) =
          put (put (put t p' (some (.rd i, true))) q' (some (.wr i, true))) 1
            (some (.wr i, false)) := by
        simp [dup2, put, hq1]
      rw [d1] at hc ⊢
      have d2 : dup2 p' 0 (put (put (put t p' (some (.rd i, true))) q' (some (.wr i, true))) 1
            (some (.wr i, false))) = put (put (put (put t p' (some (.rd i, true))) q'
            (some (.wr i, true))) 1 (some (.wr i, false))) 0 (some (.rd i, false)) := by
        simp [dup2, put, hp0, hp1, hpq]
      rw [d2]
      have hclean : ∀ d, cleanup saved (close p' (put (put (put t p' (some (.rd i, true))) q'
          (some (.wr i, true))) 1 (some (.wr i, false)))) d =
          if d ∈ saved then none else if d = p' then none else if d = 1 then some (.wr i, false)
          else if d = q' then some (.wr i, true) else t d := by
        intro d
        rw [cleanup_at]
        by_cases hd : d ∈ saved
        · simp [hd]
        · simp only [hd, if_false, close, put]
          by_cases e1 : d = p'
          · simp [e1]
          · simp [e1]
      have hcn : cleanup saved (close p' (put (put (put t p' (some (.rd i, true))) q'
          (some (.wr i, true))) 1 (some (.wr i, false)))) p' = none := by
        rw [hclean]
        simp
      have h0s : 0 ∉ saved := fun h => by have := hs 0 h; omega
      have h1s : 1 ∉ saved := fun h => by have := hs 1 h; omega
      have hc' : ∀ d, c d = if d = 0 then (if bg = true ∧ i = 0 then some (.null, false) else t 0)
          else if d ∈ saved then none else if d = p' then none else if d = 1 then
            some (.wr i, false) else if d = q' then some (.wr i, true) else t d := by
        intro d
        rw [← hc]
        by_cases hb : bg = true ∧ i = 0
        · have : (bg && i == 0) = true := by simp [hb.1, hb.2]
          rw [if_pos this, toNull_eq hpl hcn]
          by_cases hd : d = 0
          · simp [put, hd, hb]
          · simp only [put, hd, if_false]
            exact hclean d
        · have : (bg && i == 0) = false := by
            cases bg <;> simp_all
          rw [this]
          simp only [Bool.false_eq_true, if_false]
          rw [hclean]
          by_cases hd : d = 0
          · simp [hd, h0s, h0p, h0q, hb]
          · simp [hd]
      refine ⟨by simp [hc'], by simp [hc', h1s, h1p], ⟨q', hq, htq, fun d hd => ?_⟩, ?_, ?_,
        fun d hd => ?_⟩
      · have e0 : ¬ d = 0 := by omega
        have e1 : ¬ d = 1 := by omega
        rw [hc']
        simp only [e0, e1, if_false]
        by_cases e2 : d ∈ saved
        · simp [e2]
        · by_cases e3 : d = p'
          · subst e3
            simp [e2, hpq, htp]
          · simp [e2, e3]
      · simp [close, put, h0p, h0q]
      · simp [close, put, h1p, h1q]
      · have e0 : ¬ d = 0 := by omega
        have e1 : ¬ d = 1 := by omega
        simp only [close, put, e0, e1, if_false]
        by_cases e2 : d = q'
        · simp [e2, htq]
        · by_cases e3 : d = p'
          · simp [e2, e3, htp]
          · simp [e2, e3]
    · rw [if_neg hf] at h
      cases h

/-- The table a child of the loop gets. -/
structure Kid (t : Tab) (bg : Bool) (saved : List Nat) (i j : Nat) (c : Tab) : Prop where
  zero : c 0 = if j = 0 then (if bg = true ∧ i = 0 then some (.null, false) else t 0) else
    some (.rd (i + j - 1), false)
  one : c 1 = some (.wr (i + j), false)
  rest : ∃ q, 10 ≤ q ∧ t q = none ∧ ∀ d, 2 ≤ d → c d = if d ∈ saved then none else
      if d = q then some (.wr (i + j), true) else t d

theorem stages_ok {lim : Nat} {fork : Nat → Bool} {bg : Bool} {saved : List Nat}
    (hs : ∀ d ∈ saved, 10 ≤ d) : ∀ (n i : Nat) (t t' : Tab),
    (stages lim fork bg saved n i t).2 = .ok t' →
    (stages lim fork bg saved n i t).1.length = n ∧
    (∀ j c, (stages lim fork bg saved n i t).1[j]? = some c → Kid t bg saved i j c) ∧
    (∀ d, 2 ≤ d → t' d = t d) ∧
    (n ≠ 0 → t' 0 = some (.rd (i + n - 1), false) ∧ t' 1 = some (.wr (i + n - 1), false))
  | 0, i, t, t', h => by
    simp only [stages, Except.ok.injEq] at h
    subst h
    exact ⟨rfl, fun j c hj => by simp [stages] at hj, fun _ _ => rfl, fun h => absurd rfl h⟩
  | n + 1, i, t, t', h => by
    simp only [stages] at h ⊢
    cases hst : stage lim fork bg saved i t with
    | error _ => rw [hst] at h; cases h
    | ok r =>
      obtain ⟨c0, t1⟩ := r
      simp only [hst] at h ⊢
      obtain ⟨k0, k1, k2, s0, s1, s2⟩ := stage_ok hs hst
      obtain ⟨a1, a2, a3, a4⟩ := stages_ok hs n (i + 1) t1 t' h
      refine ⟨by simp [a1], fun j c hj => ?_, fun d hd => (a3 d hd).trans (s2 d hd), fun _ => ?_⟩
      · cases j with
        | zero =>
          simp only [List.getElem?_cons_zero, Option.some.injEq] at hj
          subst hj
          exact ⟨by simp [k0], k1, k2⟩
        | succ j =>
          simp only [List.getElem?_cons_succ] at hj
          obtain ⟨b0, b1, q, q1, q2, q3⟩ := a2 j c hj
          refine ⟨?_, ?_, q, q1, ?_, fun d hd => ?_⟩
          · rw [b0]
            by_cases hj0 : j = 0
            · simp [hj0, s0]
            · simp only [hj0, if_false, Nat.add_eq_zero_iff, Nat.one_ne_zero, and_false]
              congr 3
              omega
          · rw [b1]
            congr 3
            omega
          · rw [← s2 q (by omega)]
            exact q2
          · rw [q3 d hd, s2 d hd]
            have : i + 1 + j = i + (j + 1) := by omega
            rw [this]
      · by_cases hn : n = 0
        · subst hn
          simp only [stages, Except.ok.injEq] at h
          subst h
          exact ⟨s0, s1⟩
        · obtain ⟨b1, b2⟩ := a4 hn
          have : i + 1 + n - 1 = i + (n + 1) - 1 := by omega
          rw [this] at b1 b2
          exact ⟨b1, b2⟩

/-! ## Saving -/

/-- What saving a low descriptor does. -/
theorem savefd_ok {lim fd : Nat} {t t' : Tab} {s : Option Nat} (hfd : fd < 10)
    (h : savefd lim fd t = .ok (s, t')) :
    (t fd = none ∧ s = none ∧ t' = t) ∨
    ∃ o b n, t fd = some (o, b) ∧ s = some n ∧ 10 ≤ n ∧ t n = none ∧ t' = put t n (some (o, true)) := by
  simp only [savefd, hfd, if_true] at h
  cases ht : t fd with
  | none =>
    rw [ht] at h
    simp only [Except.ok.injEq, Prod.mk.injEq] at h
    exact Or.inl ⟨rfl, h.1.symm, h.2.symm⟩
  | some v =>
    obtain ⟨o, b⟩ := v
    simp only [ht] at h
    cases hf : free lim 10 t with
    | none => rw [hf] at h; cases h
    | some n =>
      simp only [hf, Except.ok.injEq, Prod.mk.injEq] at h
      obtain ⟨h1, _, h3⟩ := free_some hf
      exact Or.inr ⟨o, b, n, rfl, h.1.symm, h1, h3, h.2.symm⟩

/-- The table with the copies of 0 and 1. -/
structure Saved (T t : Tab) (s0 s1 : Option Nat) : Prop where
  low : ∀ d, d < 10 → t d = T d
  zero : ∀ n, s0 = some n → 10 ≤ n ∧ T n = none ∧ ∃ o b, T 0 = some (o, b) ∧ t n = some (o, true)
  one : ∀ n, s1 = some n → 10 ≤ n ∧ T n = none ∧ ∃ o b, T 1 = some (o, b) ∧ t n = some (o, true)
  none0 : s0 = none → T 0 = none
  none1 : s1 = none → T 1 = none
  differ : ∀ n, s0 = some n → s1 = some n → False
  other : ∀ d, s0 ≠ some d → s1 ≠ some d → t d = T d

theorem saved_of {lim : Nat} {T t1 t2 : Tab} {s0 s1 : Option Nat}
    (h0 : savefd lim 0 T = .ok (s0, t1)) (h1 : savefd lim 1 t1 = .ok (s1, t2)) :
    Saved T t2 s0 s1 := by
  rcases savefd_ok (by omega) h0 with ⟨a1, rfl, rfl⟩ | ⟨o, b, n, a1, rfl, a2, a3, rfl⟩
  · rcases savefd_ok (by omega) h1 with ⟨b1, rfl, rfl⟩ | ⟨o', b', m, b1, rfl, b2, b3, rfl⟩
    · constructor <;> intros <;> simp_all
    · constructor
      · intro d hd
        have : ¬ d = m := by omega
        simp [put, this]
      · intro k hk; cases hk
      · intro k hk
        simp only [Option.some.injEq] at hk
        subst hk
        exact ⟨b2, b3, o', b', b1, by simp [put]⟩
      · exact fun _ => a1
      · intro h; cases h
      · intro k hk; cases hk
      · intro d _ hd
        have : ¬ d = m := fun e => hd (by rw [e])
        simp [put, this]
  · have hn1 : ¬ 1 = n := by omega
    rcases savefd_ok (by omega) h1 with ⟨b1, rfl, rfl⟩ | ⟨o', b', m, b1, rfl, b2, b3, rfl⟩
    · have b1' : T 1 = none := by simpa [put, hn1] using b1
      constructor
      · intro d hd
        have : ¬ d = n := by omega
        simp [put, this]
      · intro k hk
        simp only [Option.some.injEq] at hk
        subst hk
        exact ⟨a2, a3, o, b, a1, by simp [put]⟩
      · intro k hk; cases hk
      · intro h; cases h
      · exact fun _ => b1'
      · intro k _ hk; cases hk
      · intro d hd _
        have : ¬ d = n := fun e => hd (by rw [e])
        simp [put, this]
    · have b1' : T 1 = some (o', b') := by simpa [put, hn1] using b1
      have hmn : ¬ m = n := by
        intro e
        subst e
        simp [put] at b3
      have b3' : T m = none := by simpa [put, hmn] using b3
      have hnm : ¬ n = m := fun e => hmn e.symm
      constructor
      · intro d hd
        have e1 : ¬ d = n := by omega
        have e2 : ¬ d = m := by omega
        simp [put, e1, e2]
      · intro k hk
        simp only [Option.some.injEq] at hk
        subst hk
        exact ⟨a2, a3, o, b, a1, by simp [put, hnm]⟩
      · intro k hk
        simp only [Option.some.injEq] at hk
        subst hk
        exact ⟨b2, b3', o', b', b1', by simp [put]⟩
      · intro h; cases h
      · intro h; cases h
      · intro k hk hk'
        simp only [Option.some.injEq] at hk hk'
        omega
      · intro d hd hd'
        have e1 : ¬ d = n := fun e => hd (by rw [e])
        have e2 : ¬ d = m := fun e => hd' (by rw [e])
        simp [put, e1, e2]

/-- Restoring from a copy that is still there. -/
theorem restfd_at {fd : Nat} (hfd : fd < 10) {s : Option Nat} {t : Tab} {v : Option (Obj × Bool)}
    (hc : ∀ o, v ≠ some (o, true)) (h0 : s = none → v = none)
    (h1 : ∀ n, s = some n → 10 ≤ n ∧ ∃ o b, v = some (o, b) ∧ t n = some (o, true)) (d : Nat) :
    restfd fd s t d = if d = fd then v else if s = some d then none else t d := by
  cases s with
  | none =>
    rw [h0 rfl]
    simp [restfd, close, put]
  | some n =>
    obtain ⟨hn, o, b, hv, ht⟩ := h1 n rfl
    have hne : ¬ fd = n := by omega
    have hb : b = false := by
      cases b with
      | false => rfl
      | true => exact absurd hv (hc o)
    have hnf : ¬ n = fd := by omega
    simp only [restfd, hne, if_false, close, dup2, ht, put, hnf]
    by_cases hd : d = fd
    · subst hd
      simp [hne, hv, hb]
    · by_cases hdn : d = n
      · subst hdn
        simp [hd]
      · have : ¬ n = d := fun e => hdn e.symm
        simp [hd, hdn, this]

/-! ## Properties -/

/-- What the j-th command of a pipeline with `n` pipes is to find. -/
def wants (T : Tab) (bg : Bool) (n j : Nat) : Nat → Option Obj := fun d =>
  if d = 0 then (if j = 0 then (if bg then some .null else execd T 0) else some (.rd (j - 1)))
  else if d = 1 then (if j = n then execd T 1 else some (.wr j))
  else execd T d

/-- Descriptors 0 and 1 are not closed by `execve`, those the environments saved are. -/
structure Usual (T : Tab) (outer : List Nat) : Prop where
  zero : ∀ o, T 0 ≠ some (o, true)
  one : ∀ o, T 1 ≠ some (o, true)
  outer : ∀ d ∈ outer, 10 ≤ d ∧ T d ≠ none ∧ ∀ o, T d ≠ some (o, false)

/-- Every command of a pipeline reads from the pipe before it and writes to the pipe after it,
and has no other end of any pipe open; the shell has afterwards what it had before. -/
theorem connects {lim : Nat} {fork : Nat → Bool} {bg : Bool} {outer : List Nat} {n : Nat} {T : Tab}
    (hT : Usual T outer) (h : (pipeline lim fork bg outer n T).ok = true) :
    (pipeline lim fork bg outer n T).kids.map execd =
      (List.range (n + 2)).map (wants T bg (n + 1)) ∧
    (pipeline lim fork bg outer n T).shell = T := by
  simp only [pipeline] at h ⊢
  cases e0 : savefd lim 0 T with
  | error _ => rw [e0] at h; cases h
  | ok r =>
    obtain ⟨s0, t1⟩ := r
    simp only [e0] at h ⊢
    cases e1 : savefd lim 1 t1 with
    | error _ => rw [e1] at h; cases h
    | ok r =>
      obtain ⟨s1, t2⟩ := r
      simp only [e1] at h ⊢
      have sv := saved_of e0 e1
      have hs : ∀ d ∈ s0.toList ++ s1.toList ++ outer, 10 ≤ d := by
        intro d hd
        simp only [List.mem_append, Option.mem_toList, Option.mem_def] at hd
        rcases hd with (hd | hd) | hd
        · exact (sv.zero d hd).1
        · exact (sv.one d hd).1
        · exact (hT.outer d hd).1
      cases e2 : (stages lim fork bg (s0.toList ++ s1.toList ++ outer) (n + 1) 0 t2).2 with
      | error _ => rw [e2] at h; cases h
      | ok t3 =>
        simp only [e2] at h ⊢
        obtain ⟨a1, a2, a3, a4⟩ := stages_ok hs (n + 1) 0 t2 t3 e2
        by_cases hf : fork (n + 1) = true
        · rw [if_pos hf]
          obtain ⟨z0, z1⟩ := a4 (by omega)
          -- the table after 1 is restored
          have r1 := restfd_at (fd := 1) (by omega) (s := s1) (t := t3) (v := T 1) hT.one sv.none1
            (fun m hm => by
              obtain ⟨b1, b2, o, b, b3, b4⟩ := sv.one m hm
              exact ⟨b1, o, b, b3, by rw [a3 m (by omega)]; exact b4⟩)
          have t2at : ∀ d, 2 ≤ d → s0 ≠ some d → s1 ≠ some d → t3 d = T d :=
            fun d hd h1 h2 => (a3 d hd).trans (sv.other d h1 h2)
          refine ⟨?_, ?_⟩
          · apply List.ext_getElem?
            intro j
            rw [List.getElem?_map, List.getElem?_map]
            by_cases hj : j < n + 1
            · rw [List.getElem?_append_left (by omega), List.getElem?_range (by omega)]
              cases hc : (stages lim fork bg (s0.toList ++ s1.toList ++ outer) (n + 1) 0 t2).1[j]? with
              | none => exact absurd (List.getElem?_eq_none_iff.1 hc) (by omega)
              | some c =>
                obtain ⟨k0, k1, q, q1, q2, q3⟩ := a2 j c hc
                simp only [Option.map_some, Option.some.injEq]
                funext d
                simp only [wants]
                by_cases d0 : d = 0
                · subst d0
                  simp only [if_true, execd]
                  rw [k0, sv.low 0 (by omega)]
                  by_cases hj0 : j = 0
                  · subst hj0
                    cases bg <;> simp
                  · simp [hj0]
                · by_cases d1 : d = 1
                  · subst d1
                    have : ¬ j = n + 1 := by omega
                    simp only [execd, k1, this, if_false, if_true]
                    simp
                  · simp only [d0, d1, if_false, execd]
                    rw [q3 d (by omega)]
                    by_cases hm : d ∈ s0.toList ++ s1.toList ++ outer
                    · simp only [hm, if_true]
                      simp only [List.mem_append, Option.mem_toList, Option.mem_def] at hm
                      rcases hm with (hm | hm) | hm
                      · rw [(sv.zero d hm).2.1]
                      · rw [(sv.one d hm).2.1]
                      · have := (hT.outer d hm).2.2
                        cases hTd : T d with
                        | none => rfl
                        | some v =>
                          obtain ⟨o, b⟩ := v
                          cases b with
                          | false => exact absurd hTd (this o)
                          | true => rfl
                    · simp only [hm, if_false]
                      have hm' : s0 ≠ some d ∧ s1 ≠ some d := by
                        simp only [List.mem_append, Option.mem_toList, Option.mem_def, not_or] at hm
                        exact hm.1
                      have hTd := sv.other d hm'.1 hm'.2
                      by_cases hq : d = q
                      · subst hq
                        rw [← hTd, q2]
                        simp
                      · simp [hq, hTd]
            · by_cases hj2 : j = n + 1
              · subst hj2
                rw [List.getElem?_append_right (by omega), a1, List.getElem?_range (by omega)]
                simp only [Nat.sub_self, List.getElem?_cons_zero, Option.map_some,
                  Option.some.injEq]
                funext d
                simp only [wants, execd]
                rw [cleanup_at, r1]
                by_cases d0 : d = 0
                · subst d0
                  have n1 : ¬ 0 ∈ s0.toList ++ outer := fun hm => by
                    have := hs 0 (by
                      simp only [List.mem_append] at hm ⊢
                      rcases hm with hm | hm
                      · exact Or.inl (Or.inl hm)
                      · exact Or.inr hm)
                    omega
                  have n2 : ¬ s1 = some 0 := fun e => by
                    have := (sv.one 0 e).1
                    omega
                  simp only [n1, n2, if_false, z0]
                  simp
                · by_cases d1 : d = 1
                  · subst d1
                    have n1 : ¬ 1 ∈ s0.toList ++ outer := fun hm => by
                      have := hs 1 (by
                        simp only [List.mem_append] at hm ⊢
                        rcases hm with hm | hm
                        · exact Or.inl (Or.inl hm)
                        · exact Or.inr hm)
                      omega
                    simp only [n1, if_false, if_true]
                    simp
                  · simp only [d0, d1, if_false]
                    by_cases hm : d ∈ s0.toList ++ outer
                    · simp only [hm, if_true]
                      simp only [List.mem_append, Option.mem_toList, Option.mem_def] at hm
                      rcases hm with hm | hm
                      · rw [(sv.zero d hm).2.1]
                      · have := (hT.outer d hm).2.2
                        cases hTd : T d with
                        | none => rfl
                        | some v =>
                          obtain ⟨o, b⟩ := v
                          cases b with
                          | false => exact absurd hTd (this o)
                          | true => rfl
                    · simp only [hm, if_false]
                      by_cases h1d : s1 = some d
                      · simp only [h1d, if_true]
                        rw [(sv.one d h1d).2.1]
                      · simp only [h1d, if_false]
                        rw [t2at d (by omega) (fun e => hm (by simp [e])) h1d]
              · rw [List.getElem?_eq_none (by rw [List.length_append, a1]; simp; omega),
                  List.getElem?_eq_none (by simp; omega)]
                rfl
          · simp only [quit]
            funext d
            rw [restfd_at (fd := 0) (by omega) (v := T 0) hT.zero sv.none0 (fun m hm => by
              obtain ⟨b1, b2, o, b, b3, b4⟩ := sv.zero m hm
              refine ⟨b1, o, b, b3, ?_⟩
              have m0 : ¬ m = 0 := by omega
              have m1 : ¬ m = 1 := by omega
              have m2 : ¬ s1 = some m := fun e => sv.differ m hm e
              simp only [close, put, m0, if_false]
              rw [r1]
              simp only [m1, m2, if_false]
              rw [a3 m (by omega)]
              exact b4)]
            by_cases d0 : d = 0
            · simp [d0]
            · by_cases h0d : s0 = some d
              · simp only [d0, h0d, if_false, if_true]
                rw [(sv.zero d h0d).2.1]
              · simp only [d0, h0d, if_false, close, put]
                rw [r1]
                by_cases d1 : d = 1
                · simp [d1]
                · by_cases h1d : s1 = some d
                  · simp only [d1, h1d, if_false, if_true]
                    rw [(sv.one d h1d).2.1]
                  · simp only [d1, h1d, if_false]
                    exact t2at d (by omega) h0d h1d
        · rw [if_neg hf] at h
          cases h

/-- None of the descriptors is an end of a pipe. -/
def Plain (T : Tab) : Prop := ∀ d b i, T d ≠ some (.rd i, b) ∧ T d ≠ some (.wr i, b)

/-- Once the commands of a pipeline run, pipe `i` is written to by command `i` alone, on
descriptor 1, and read by command `i + 1` alone, on descriptor 0: end of file comes when command
`i` has gone, and SIGPIPE when command `i + 1` has. -/
theorem only_ends {lim : Nat} {fork : Nat → Bool} {bg : Bool} {outer : List Nat} {n : Nat} {T : Tab}
    (hT : Usual T outer) (hp : Plain T) (h : (pipeline lim fork bg outer n T).ok = true) :
    (pipeline lim fork bg outer n T).kids.length = n + 2 ∧
    (∀ j c, (pipeline lim fork bg outer n T).kids[j]? = some c → ∀ d i,
      (execd c d = some (.wr i) ↔ d = 1 ∧ j = i ∧ i ≤ n) ∧
      (execd c d = some (.rd i) ↔ d = 0 ∧ j = i + 1)) ∧
    Plain (pipeline lim fork bg outer n T).shell := by
  obtain ⟨h1, h2⟩ := connects hT h
  have he : ∀ d i, execd T d ≠ some (.wr i) ∧ execd T d ≠ some (.rd i) := by
    intro d i
    simp only [execd]
    cases hd : T d with
    | none => simp
    | some v =>
      obtain ⟨o, b⟩ := v
      cases b with
      | true => simp
      | false =>
        refine ⟨fun e => ?_, fun e => ?_⟩
        · simp only [Option.some.injEq] at e
          subst e
          exact (hp d false i).2 hd
        · simp only [Option.some.injEq] at e
          subst e
          exact (hp d false i).1 hd
  have hlen : (pipeline lim fork bg outer n T).kids.length = n + 2 := by
    have := congrArg List.length h1
    simpa using this
  refine ⟨hlen, fun j c hc d i => ?_, by rw [h2]; exact hp⟩
  have hj : j < n + 2 := by
    rw [← hlen]
    exact (List.getElem?_eq_some_iff.1 hc).1
  have hw : execd c = wants T bg (n + 1) j := by
    have := congrArg (fun l => l[j]?) h1
    simp only [List.getElem?_map, hc, List.getElem?_range hj, Option.map_some,
      Option.some.injEq] at this
    exact this
  rw [hw]
  simp only [wants]
  by_cases d0 : d = 0
  · subst d0
    simp only [if_true]
    by_cases hj0 : j = 0
    · subst hj0
      cases bg
      · have := he 0 i
        simp [this.1, this.2]
      · simp
    · simp only [hj0, if_false]
      refine ⟨by simp, ?_⟩
      simp only [Option.some.injEq, Obj.rd.injEq, true_and]
      omega
  · by_cases d1 : d = 1
    · subst d1
      simp only [if_true]
      by_cases hjn : j = n + 1
      · have := he 1 i
        simp only [hjn, if_true, this.1, this.2, Nat.one_ne_zero, if_false]
        refine ⟨⟨fun e => e.elim, fun ⟨_, e1, e2⟩ => by omega⟩, ⟨fun e => e.elim, fun e => by simp at e⟩⟩
      · simp only [hjn, if_false, Nat.one_ne_zero]
        refine ⟨?_, by simp⟩
        simp only [Option.some.injEq, Obj.wr.injEq, true_and]
        omega
    · have := he d i
      simp [d0, d1, this.1, this.2]

/-- But before it executes a program every command of a pipeline except the last has its pipe
open for writing a second time, on a descriptor the script cannot name: a subshell that closes its
standard output, `{ exec >&-; sleep 100; } | cat`, does not give the reader end of file. -/
theorem writes_twice {lim : Nat} {fork : Nat → Bool} {bg : Bool} {outer : List Nat} {n : Nat}
    {T : Tab} (hT : Usual T outer) (h : (pipeline lim fork bg outer n T).ok = true) (j : Nat)
    (hj : j ≤ n) (c : Tab) (hc : (pipeline lim fork bg outer n T).kids[j]? = some c) :
    ∃ q, 10 ≤ q ∧ c q = some (.wr j, true) ∧ close 1 c q = some (.wr j, true) := by
  simp only [pipeline] at h hc
  cases e0 : savefd lim 0 T with
  | error _ => rw [e0] at h; cases h
  | ok r =>
    obtain ⟨s0, t1⟩ := r
    simp only [e0] at h hc
    cases e1 : savefd lim 1 t1 with
    | error _ => rw [e1] at h; cases h
    | ok r =>
      obtain ⟨s1, t2⟩ := r
      simp only [e1] at h hc
      have sv := saved_of e0 e1
      have hs : ∀ d ∈ s0.toList ++ s1.toList ++ outer, 10 ≤ d ∧ t2 d ≠ none := by
        intro d hd
        simp only [List.mem_append, Option.mem_toList] at hd
        rcases hd with (hd | hd) | hd
        · obtain ⟨a, _, o, b, _, e⟩ := sv.zero d hd
          exact ⟨a, by simp [e]⟩
        · obtain ⟨a, _, o, b, _, e⟩ := sv.one d hd
          exact ⟨a, by simp [e]⟩
        · obtain ⟨a, b, _⟩ := hT.outer d hd
          refine ⟨a, ?_⟩
          rw [sv.other d (fun e => b (sv.zero d e).2.1) (fun e => b (sv.one d e).2.1)]
          exact b
      cases e2 : (stages lim fork bg (s0.toList ++ s1.toList ++ outer) (n + 1) 0 t2).2 with
      | error _ => rw [e2] at h; cases h
      | ok t3 =>
        simp only [e2] at h hc
        obtain ⟨a1, a2, _, _⟩ := stages_ok (fun d hd => (hs d hd).1) (n + 1) 0 t2 t3 e2
        by_cases hf : fork (n + 1) = true
        · rw [if_pos hf] at hc
          simp only at hc
          rw [List.getElem?_append_left (by omega)] at hc
          obtain ⟨_, _, q, q1, q2, q3⟩ := a2 j c hc
          have hq : q ∉ s0.toList ++ s1.toList ++ outer := fun hm => (hs q hm).2 q2
          have hcq : c q = some (.wr j, true) := by
            rw [q3 q (by omega), if_neg hq]
            simp
          have : ¬ q = 1 := by omega
          exact ⟨q, q1, hcq, by simp [close, put, this, hcq]⟩
        · rw [if_neg hf] at h
          cases h

/-! ## Failure -/

theorem savefd_err {lim fd : Nat} {t t' : Tab} (h : savefd lim fd t = .error t') : t' = t := by
  simp only [savefd] at h
  split at h
  · split at h
    · cases h
    · split at h
      · cases h; rfl
      · cases h
  · cases h

theorem moveUp_err {lim a : Nat} {t t' : Tab} (h : moveUp lim a t = .error t') : t' = t := by
  simp only [moveUp] at h
  split at h
  · cases h
    exact savefd_err (by assumption)
  · cases h
  · cases h

/-- What was open stays open when a pipe cannot be had. -/
theorem openpipe_err {lim i : Nat} {t t' : Tab} (h : openpipe lim i t = .error t') (d : Nat)
    (hd : t d ≠ none) : t' d = t d := by
  simp only [openpipe, pipe] at h
  cases ha : free lim 0 t with
  | none => rw [ha] at h; cases h; rfl
  | some a =>
    simp only [ha] at h
    obtain ⟨_, _, ha3⟩ := free_some ha
    have hda : ¬ d = a := fun e => hd (e ▸ ha3)
    cases hb : free lim 0 (put t a (some (.rd i, false))) with
    | none => rw [hb] at h; cases h; rfl
    | some b =>
      simp only [hb] at h
      obtain ⟨_, _, hb3⟩ := free_some hb
      have hab : b ≠ a := by
        intro e
        subst e
        simp [put] at hb3
      have hb4 : t b = none := by simpa [put, hab] using hb3
      have hdb : ¬ d = b := fun e => hd (e ▸ hb4)
      cases h1 : moveUp lim a (put (put t a (some (.rd i, false))) b (some (.wr i, false))) with
      | error t1 =>
        simp only [h1, Except.error.injEq] at h
        subst h
        rw [moveUp_err h1]
        simp [put, hda, hdb]
      | ok r =>
        obtain ⟨p', t1⟩ := r
        simp only [h1] at h
        have hta : put (put t a (some (.rd i, false))) b (some (.wr i, false)) a =
            some (.rd i, false) := by simp [put, hab.symm]
        obtain ⟨p1, p2, rfl⟩ := moveUp_ok hta h1
        have hdp : ¬ d = p' := by
          intro e
          rcases p2 with p2 | ⟨p2, _⟩
          · exact hda (e.trans p2)
          · rw [← e] at p2
            simp only [put, hda, hdb, if_false] at p2
            exact hd p2
        cases h2 : moveUp lim b (put (put (put (put t a (some (.rd i, false))) b
            (some (.wr i, false))) a none) p' (some (.rd i, true))) with
        | ok r => rw [h2] at h; cases h
        | error t2 =>
          simp only [h2, Except.error.injEq] at h
          subst h
          rw [moveUp_err h2]
          simp [put, hda, hdb, hdp]

theorem stage_err {lim i : Nat} {fork : Nat → Bool} {bg : Bool} {saved : List Nat} {t t' : Tab}
    (h : stage lim fork bg saved i t = .error t') (d : Nat) (h2 : 2 ≤ d) (hd : t d ≠ none) :
    t' d = t d := by
  simp only [stage] at h
  cases ho : openpipe lim i t with
  | error t1 =>
    simp only [ho, Except.error.injEq] at h
    subst h
    exact openpipe_err ho d hd
  | ok r =>
    obtain ⟨p', q', t1⟩ := r
    obtain ⟨hp, hpl, hq, hpq, htp, htq, rfl⟩ := openpipe_ok ho
    simp only [ho] at h
    split at h
    · cases h
    · simp only [Except.error.injEq] at h
      subst h
      have e1 : ¬ d = 1 := by omega
      have e2 : ¬ d = p' := fun e => hd (e ▸ htp)
      have e3 : ¬ d = q' := fun e => hd (e ▸ htq)
      have e4 : ¬ q' = 1 := by omega
      simp [dup2, put, e1, e2, e3, e4]

theorem stages_err {lim : Nat} {fork : Nat → Bool} {bg : Bool} {saved : List Nat}
    (hs : ∀ d ∈ saved, 10 ≤ d) : ∀ (n i : Nat) (t t' : Tab),
    (stages lim fork bg saved n i t).2 = .error t' → ∀ d, 2 ≤ d → t d ≠ none → t' d = t d
  | 0, _, _, _, h => by cases h
  | n + 1, i, t, t', h => by
    intro d h2 hd
    simp only [stages] at h
    cases hst : stage lim fork bg saved i t with
    | error t1 =>
      simp only [hst, Except.error.injEq] at h
      subst h
      exact stage_err hst d h2 hd
    | ok r =>
      obtain ⟨c0, t1⟩ := r
      simp only [hst] at h
      obtain ⟨_, _, _, _, _, s2⟩ := stage_ok hs hst
      rw [stages_err hs n (i + 1) t1 t' h d h2 (by rw [s2 d h2]; exact hd), s2 d h2]

/-- Whatever fails in a pipeline, every descriptor the shell had open is afterwards as it was. -/
theorem failure_restores {lim : Nat} {fork : Nat → Bool} {bg : Bool} {outer : List Nat} {n : Nat}
    {T : Tab} (hT : Usual T outer) (d : Nat) (hd : T d ≠ none) :
    (pipeline lim fork bg outer n T).shell d = T d := by
  by_cases hok : (pipeline lim fork bg outer n T).ok = true
  · rw [(connects hT hok).2]
  simp only [pipeline] at hok ⊢
  cases e0 : savefd lim 0 T with
  | error t =>
    rw [savefd_err e0]
    rfl
  | ok r =>
    obtain ⟨s0, t1⟩ := r
    simp only [e0] at hok ⊢
    cases e1 : savefd lim 1 t1 with
    | error t =>
      rw [savefd_err e1]
      simp only [quit]
      rcases savefd_ok (by omega) e0 with ⟨a1, rfl, rfl⟩ | ⟨o, b, m, a1, rfl, a2, a3, rfl⟩
      · have : ¬ d = 0 := fun e => hd (e ▸ a1)
        simp [restfd, close, put, this]
      · rw [restfd_at (by omega) (v := T 0) hT.zero (by simp) (fun k hk => by
          simp only [Option.some.injEq] at hk
          subst hk
          exact ⟨a2, o, b, a1, by simp [put]⟩)]
        have hm : ¬ m = d := fun e => hd (e ▸ a3)
        have hm' : ¬ d = m := fun e => hm e.symm
        by_cases d0 : d = 0
        · simp [d0]
        · simp [d0, hm, hm', put]
    | ok r =>
      obtain ⟨s1, t2⟩ := r
      simp only [e1] at hok ⊢
      have sv := saved_of e0 e1
      have hs : ∀ d ∈ s0.toList ++ s1.toList ++ outer, 10 ≤ d := by
        intro d hd
        simp only [List.mem_append, Option.mem_toList] at hd
        rcases hd with (hd | hd) | hd
        · exact (sv.zero d hd).1
        · exact (sv.one d hd).1
        · exact (hT.outer d hd).1
      have hd0 : s0 ≠ some d := fun e => hd (sv.zero d e).2.1
      have hd1 : s1 ≠ some d := fun e => hd (sv.one d e).2.1
      cases e2 : (stages lim fork bg (s0.toList ++ s1.toList ++ outer) (n + 1) 0 t2).2 with
      | error t3 =>
        simp only [quit]
        have keep := stages_err hs (n + 1) 0 t2 t3 e2
        have r0 := restfd_at (fd := 0) (by omega) (s := s0) (t := t3) (v := T 0) hT.zero sv.none0
          (fun m hm => by
            obtain ⟨b1, b2, o, b, b3, b4⟩ := sv.zero m hm
            exact ⟨b1, o, b, b3, by rw [keep m (by omega) (by simp [b4])]; exact b4⟩)
        rw [restfd_at (fd := 1) (by omega) (v := T 1) hT.one sv.none1 (fun m hm => by
            obtain ⟨b1, b2, o, b, b3, b4⟩ := sv.one m hm
            refine ⟨b1, o, b, b3, ?_⟩
            have m0 : ¬ m = 0 := by omega
            have m1 : ¬ s0 = some m := fun e => sv.differ m e hm
            rw [r0]
            simp only [m0, m1, if_false]
            rw [keep m (by omega) (by simp [b4])]
            exact b4)]
        by_cases d1 : d = 1
        · simp [d1]
        · simp only [d1, hd1, if_false]
          rw [r0]
          by_cases d0 : d = 0
          · simp [d0]
          · simp only [d0, hd0, if_false]
            have ht : t2 d = T d := sv.other d hd0 hd1
            rw [keep d (by omega) (by rw [ht]; exact hd), ht]
      | ok t3 =>
        simp only [e2] at hok ⊢
        obtain ⟨_, _, a3, _⟩ := stages_ok hs (n + 1) 0 t2 t3 e2
        by_cases hf : fork (n + 1) = true
        · rw [if_pos hf] at hok
          exact absurd rfl hok
        · rw [if_neg hf]
          simp only [quit]
          have r1 := restfd_at (fd := 1) (by omega) (s := s1) (t := t3) (v := T 1) hT.one sv.none1
            (fun m hm => by
              obtain ⟨b1, b2, o, b, b3, b4⟩ := sv.one m hm
              exact ⟨b1, o, b, b3, by rw [a3 m (by omega)]; exact b4⟩)
          rw [restfd_at (fd := 0) (by omega) (v := T 0) hT.zero sv.none0 (fun m hm => by
            obtain ⟨b1, b2, o, b, b3, b4⟩ := sv.zero m hm
            refine ⟨b1, o, b, b3, ?_⟩
            have m1 : ¬ m = 1 := by omega
            have m2 : ¬ s1 = some m := fun e => sv.differ m hm e
            rw [r1]
            simp only [m1, m2, if_false]
            rw [a3 m (by omega)]
            exact b4)]
          by_cases d0 : d = 0
          · simp [d0]
          · simp only [d0, hd0, if_false]
            rw [r1]
            by_cases d1 : d = 1
            · simp [d1]
            · simp only [d1, hd1, if_false]
              rw [a3 d (by omega)]
              exact sv.other d hd0 hd1

/-! ## Command substitution -/

/-- The command of a command substitution writes to the pipe the shell reads, the shell has no
end for writing, and apart from the end it reads everything is as before. -/
theorem comsub_connects {lim : Nat} {outer : List Nat} {T : Tab} {p : Nat} {cs : List Tab}
    {t : Tab} (hT : Usual T outer) (h : comsub lim true outer T = (cs, t, some p)) :
    T p = none ∧ 10 ≤ p ∧ t = put T p (some (.rd 0, true)) ∧
    ∃ c, cs = [c] ∧ execd c = fun d => if d = 1 then some (.wr 0) else execd T d := by
  simp only [comsub] at h
  cases ho : openpipe lim 0 T with
  | error _ => rw [ho] at h; simp at h
  | ok r =>
    obtain ⟨p', q', t1⟩ := r
    obtain ⟨hp, hpl, hq, hpq, htp, htq, rfl⟩ := openpipe_ok ho
    simp only [ho] at h
    cases hsv : savefd lim 1 (put (put T p' (some (.rd 0, true))) q' (some (.wr 0, true))) with
    | error _ => rw [hsv] at h; simp at h
    | ok r =>
      obtain ⟨s, t2⟩ := r
      simp only [hsv, if_true, Prod.mk.injEq, Option.some.injEq] at h
      obtain ⟨rfl, rfl, rfl⟩ := h
      have q1 : ¬ q' = 1 := by omega
      have q1' : ¬ 1 = q' := by omega
      have p1' : ¬ 1 = p' := by omega
      rw [if_neg q1]
      have hout : ∀ d ∈ outer, 10 ≤ d ∧ T d ≠ none := fun d hd =>
        ⟨(hT.outer d hd).1, (hT.outer d hd).2.1⟩
      have h1o : 1 ∉ outer := fun h => by have := (hout 1 h).1; omega
      have hTo : ∀ d ∈ outer, execd T d = none := by
        intro d hd
        have := (hT.outer d hd).2.2
        unfold execd
        split
        · exact absurd (by assumption) (this _)
        · rfl
      rcases savefd_ok (by omega) hsv with ⟨a1, rfl, rfl⟩ | ⟨o, b, m, a1, rfl, a2, a3, rfl⟩
      · have T1 : T 1 = none := by simpa [put, q1', p1'] using a1
        refine ⟨htp, hp, ?_, _, rfl, ?_⟩
        · funext d
          simp only [restfd, close, dup2, put, q1, if_true, if_false]
          by_cases d1 : d = 1
          · simp [d1, p1', T1]
          · by_cases dq : d = q'
            · have : ¬ q' = p' := fun e => hpq e.symm
              simp [dq, q1, this, htq]
            · simp [d1, dq]
        · funext d
          simp only [execd, cleanup_at, close, dup2, put, q1, if_true, if_false]
          by_cases d1 : d = 1
          · simp [d1, q1', h1o]
          · by_cases dm : d ∈ outer
            · have := hTo d dm
              simp only [execd] at this
              simp [d1, dm, this]
            · by_cases dq : d = q'
              · simp [dq, q1, htq]
              · by_cases dp : d = p'
                · have : ¬ p' = 1 := by omega
                  simp [dp, this, hpq, htp]
                · simp [d1, dm, dq, dp]
      · have T1 : T 1 = some (o, b) := by simpa [put, q1', p1'] using a1
        have hb : b = false := by
          cases b with
          | false => rfl
          | true => exact absurd T1 (hT.one o)
        have mq : ¬ m = q' := fun e => by simp [put, e] at a3
        have mp : ¬ m = p' := fun e => by simp [put, e, hpq] at a3
        have a3' : T m = none := by simpa [put, mq, mp] using a3
        have m1 : ¬ m = 1 := by omega
        have m1' : ¬ 1 = m := by omega
        have mq' : ¬ q' = m := fun e => mq e.symm
        have mp' : ¬ p' = m := fun e => mp e.symm
        have qp : ¬ q' = p' := fun e => hpq e.symm
        refine ⟨htp, hp, ?_, _, rfl, ?_⟩
        · funext d
          simp only [restfd, close, dup2, put, q1, m1, m1', mq, mq', if_true, if_false]
          by_cases d1 : d = 1
          · simp [d1, m1', p1', T1, hb]
          · by_cases dm : d = m
            · simp [dm, mp, a3']
            · by_cases dq : d = q'
              · simp [dq, q1, mq', qp, htq]
              · simp [d1, dm, dq]
        · funext d
          simp only [execd, cleanup_at, close, dup2, put, q1, mq', if_true, if_false]
          by_cases d1 : d = 1
          · simp [d1, q1', h1o]
          · by_cases dm : d ∈ outer
            · have := hTo d dm
              simp only [execd] at this
              simp [d1, dm, this]
            · by_cases dq : d = q'
              · simp [dq, q1, htq]
              · by_cases dm2 : d = m
                · simp [dm2, m1, mq, a3']
                · by_cases dp : d = p'
                  · have : ¬ p' = 1 := by omega
                    simp [dp, this, hpq, mp', htp]
                  · simp [d1, dm, dq, dp, dm2]

/-- When the fork of a command substitution fails, nothing gives the shell its standard output
back: it keeps the end of a pipe that nobody reads. -/
theorem comsub_fork_lost {lim : Nat} {outer : List Nat} {T : Tab}
    (h : ∃ p q t s t', openpipe lim 0 T = .ok (p, q, t) ∧ savefd lim 1 t = .ok (s, t')) :
    (comsub lim false outer T).2.1 1 = some (.wr 0, false) := by
  obtain ⟨p', q', t1, s, t2, ho, hsv⟩ := h
  obtain ⟨hp, hpl, hq, hpq, htp, htq, rfl⟩ := openpipe_ok ho
  have q1 : ¬ q' = 1 := by omega
  have q1' : ¬ 1 = q' := by omega
  have hq2 : t2 q' = some (.wr 0, true) := by
    rcases savefd_ok (by omega) hsv with ⟨a1, _, rfl⟩ | ⟨o, b, m, a1, _, a2, a3, rfl⟩
    · simp [put]
    · have mq : ¬ q' = m := fun e => by simp [put, ← e] at a3
      simp [put, mq]
  simp [comsub, ho, hsv, q1, q1', close, dup2, put, hq2]

/-! ## Examples -/

/-- A shell with its standard descriptors and the script on 10. -/
def sh : Tab := fun d =>
  if d < 3 then some (.file d, false) else if d = 10 then some (.file 10, true) else none

theorem sh_usual : Usual sh [] := ⟨by simp [sh], by simp [sh], by simp⟩

theorem sh_plain : Plain sh := by
  intro d b i
  simp only [sh]
  split
  · simp
  · split <;> simp

def show16 (t : Tab) : List (Option (Obj × Bool)) := (List.range 20).map t

/-- `a | b | c` in the foreground. -/
example : (pipeline 20 (fun _ => true) false [] 1 sh).ok = true ∧
    (pipeline 20 (fun _ => true) false [] 1 sh).kids.map (fun c => (List.range 20).map (execd c) |>.take 3)
      = [[some (.file 0), some (.wr 0), some (.file 2)], [some (.rd 0), some (.wr 1), some (.file 2)],
         [some (.rd 1), some (.file 1), some (.file 2)]] := by decide

/-- `echo $(a)` -/
example : (comsub 20 true [] sh).2.2 = some 11 ∧
    show16 (comsub 20 true [] sh).2.1 = show16 (put sh 11 (some (.rd 0, true))) := by decide

/-- A fork that fails leaves both ends of a pipe open in the shell for ever. -/
theorem fork_leaks : (pipeline 20 (fun _ => false) false [] 0 sh).ok = false ∧
    ∃ p q, sh p = none ∧ sh q = none ∧
      (pipeline 20 (fun _ => false) false [] 0 sh).shell p = some (.rd 0, true) ∧
      (pipeline 20 (fun _ => false) false [] 0 sh).shell q = some (.wr 0, true) :=
  ⟨by decide, 13, 14, by decide⟩

/-- So does a pipe of which one end cannot be moved up. -/
theorem limit_leaks : (pipeline 14 (fun _ => true) false [] 0 sh).ok = false ∧
    ∃ q, sh q = none ∧
      (pipeline 14 (fun _ => true) false [] 0 sh).shell q = some (.wr 0, false) :=
  ⟨by decide, 4, by decide⟩

end Ksh.Pipes
