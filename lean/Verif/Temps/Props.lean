import Verif.Temps.Model

/-!
# Temporary files are removed by the shell that made them, and by no other (C124)
-/

namespace Ksh.Temps

/-! ## Specification -/

/-- Nothing is killed. -/
def Op.isKill : Op → Bool
  | .kill _ => true
  | _ => false

/-- What the shell counts on: `mkstemp` and `execve` do not fail. -/
def Op.fails : Op → Bool
  | .mkfail _ _ => true
  | .exec _ false => true
  | _ => false

/-- No process number is given a second time. -/
def NoReuse (used : List Pid) : List Op → Prop
  | [] => True
  | .fork _ c :: r => c ∉ used ∧ NoReuse (c :: used) r
  | _ :: r => NoReuse used r

/-- The events by which the process `p` leaves an environment, or itself. -/
def leaves (p : Pid) : Op → Prop
  | .quitenv q => q = p
  | .reclaim q => q = p
  | .exec q _ => q = p
  | _ => False

/-- Does the event respect `NoReuse`? -/
def freshOp (used : List Pid) : Op → Prop
  | .fork _ c => c ∉ used
  | _ => True

/-! ## Proofs -/

theorem removeTemps_procs (p : Pid) (l : List Temp) (w : World) :
    (removeTemps p l w).procs = w.procs ∧ (removeTemps p l w).used = w.used := by
  induction l generalizing w with
  | nil => exact ⟨rfl, rfl⟩
  | cons t r ih =>
    rw [removeTemps]
    obtain ⟨a, b⟩ := ih (if t.pid = p then unlink p t.name w else w)
    rw [a, b]
    split <;> exact ⟨rfl, rfl⟩

theorem removeTemps_files (p : Pid) (l : List Temp) (w : World) (m : Name) :
    (removeTemps p l w).files m = if (⟨m, p⟩ : Temp) ∈ l then none else w.files m := by
  induction l generalizing w with
  | nil => rfl
  | cons t r ih =>
    rw [removeTemps, ih]
    by_cases h1 : (⟨m, p⟩ : Temp) ∈ r
    · rw [if_pos h1, if_pos (List.mem_cons_of_mem _ h1)]
    · rw [if_neg h1]
      by_cases h2 : t.pid = p
      · rw [if_pos h2]
        by_cases h3 : m = t.name
        · have : (⟨m, p⟩ : Temp) = t := by cases t; simp_all
          rw [if_pos (by rw [this]; exact List.mem_cons_self)]
          simp [unlink, h3]
        · rw [if_neg]
          · simp [unlink, h3]
          · intro hc
            rcases List.mem_cons.1 hc with e | e
            · exact h3 (by rw [← e])
            · exact h1 e
      · rw [if_neg h2, if_neg]
        intro hc
        rcases List.mem_cons.1 hc with e | e
        · exact h2 (by rw [← e])
        · exact h1 e

theorem removeTemps_append (p : Pid) (a b : List Temp) (w : World) :
    removeTemps p (a ++ b) w = removeTemps p b (removeTemps p a w) := by
  induction a generalizing w with
  | nil => rfl
  | cons t r ih => rw [List.cons_append, removeTemps, ih, removeTemps]

theorem cleanup_eq (p : Pid) (s : List (List Temp)) (w : World) :
    cleanupProcEnv p s w = removeTemps p s.flatten w := by
  induction s generalizing w with
  | nil => rfl
  | cons e r ih => rw [cleanupProcEnv, ih, List.flatten_cons, removeTemps_append]

/-- The names in a list which belong to the process. -/
def own (p : Pid) : List Temp → List Name
  | [] => []
  | t :: r => if t.pid = p then t.name :: own p r else own p r

theorem mem_own (p : Pid) (l : List Temp) (n : Name) : n ∈ own p l ↔ (⟨n, p⟩ : Temp) ∈ l := by
  induction l with
  | nil => simp [own]
  | cons t r ih =>
    rw [own]
    by_cases h : t.pid = p
    · rw [if_pos h, List.mem_cons, List.mem_cons, ih]
      have : n = t.name ↔ (⟨n, p⟩ : Temp) = t := by
        cases t; simp_all
      rw [this]
    · rw [if_neg h, ih, List.mem_cons]
      constructor
      · exact Or.inr
      · rintro (e | e)
        · exact absurd (by rw [← e]) h
        · exact e

theorem own_append (p : Pid) (a b : List Temp) : own p (a ++ b) = own p a ++ own p b := by
  induction a with
  | nil => rfl
  | cons t r ih => rw [List.cons_append, own, own, ih]; split <;> rfl

theorem removeTemps_log (p : Pid) (l : List Temp) (w : World) (hn : (own p l).Nodup)
    (hf : ∀ n ∈ own p l, w.files n = some (.shell p)) :
    ∀ e ∈ (removeTemps p l w).log, e ∈ w.log ∨ (e.1 = p ∧ e.2.2 = some (.shell p)) := by
  induction l generalizing w with
  | nil => exact fun e he => Or.inl he
  | cons t r ih =>
    intro e he
    rw [removeTemps] at he
    by_cases h : t.pid = p
    · rw [if_pos h] at he
      rw [own, if_pos h] at hn hf
      rw [List.nodup_cons] at hn
      have := ih (unlink p t.name w) hn.2 (by
        intro n hm
        have hne : n ≠ t.name := by rintro rfl; exact hn.1 hm
        simp only [unlink, if_neg hne]
        exact hf n (List.mem_cons_of_mem _ hm)) e he
      rcases this with h1 | h1
      · simp only [unlink, List.mem_append, List.mem_singleton] at h1
        rcases h1 with h2 | h2
        · exact Or.inl h2
        · subst h2
          exact Or.inr ⟨rfl, hf _ List.mem_cons_self⟩
      · exact Or.inr h1
    · rw [if_neg h] at he
      rw [own, if_neg h] at hn hf
      exact ih w hn hf e he

/-- Every file of a shell is in the lists of its process, which is alive. -/
structure Listed (w : World) : Prop where
  ne : ∀ p s, w.procs p = some s → s ≠ []
  file : ∀ n p, w.files n = some (.shell p) → ∃ s, w.procs p = some s ∧ (⟨n, p⟩ : Temp) ∈ s.flatten

theorem setProc_self (p : Pid) (e : Option (List (List Temp))) (w : World) :
    (setProc p e w).procs p = e := by simp [setProc]

theorem setProc_ne (p q : Pid) (e : Option (List (List Temp))) (w : World) (h : q ≠ p) :
    (setProc p e w).procs q = w.procs q := by simp [setProc, h]

theorem flatten_split (s : List (List Temp)) (hs : s ≠ []) :
    s.flatten = s.headD [] ++ s.tail.flatten := by
  cases s with
  | nil => exact absurd rfl hs
  | cons e r => rfl

theorem Listed.removed {w : World} (h : Listed w) (p : Pid) (s : List (List Temp))
    (hp : w.procs p = some s) (l : List Temp) (s' : Option (List (List Temp)))
    (hne : ∀ x, s' = some x → x ≠ [])
    (hk : ∀ t ∈ s.flatten, t ∉ l → ∃ x, s' = some x ∧ t ∈ x.flatten) :
    Listed (setProc p s' (removeTemps p l w)) := by
  obtain ⟨e1, -⟩ := removeTemps_procs p l w
  constructor
  · intro q x hq
    by_cases e : q = p
    · subst e; rw [setProc_self] at hq; exact hne x hq
    · rw [setProc_ne _ _ _ _ e, e1] at hq; exact h.ne q x hq
  · intro n q hf
    have hf : (removeTemps p l w).files n = some (.shell q) := hf
    rw [removeTemps_files] at hf
    by_cases hm : (⟨n, p⟩ : Temp) ∈ l
    · rw [if_pos hm] at hf; cases hf
    · rw [if_neg hm] at hf
      obtain ⟨x, hx, ht⟩ := h.file n q hf
      by_cases e : q = p
      · subst e
        rw [hp] at hx; cases hx
        rw [setProc_self]
        exact hk _ ht hm
      · rw [setProc_ne _ _ _ _ e, e1]; exact ⟨x, hx, ht⟩

theorem Listed.step {w : World} (h : Listed w) (o : Op) (ho : o.isKill = false) :
    Listed (Temps.step w o) := by
  cases o with
  | kill p => cases ho
  | newenv p =>
    rcases hp : w.procs p with _ | s <;> simp only [Temps.step, hp]
    · exact h
    · refine h.removed p s hp [] _ (fun x hx => by cases hx; simp) (fun t ht _ => ⟨_, rfl, ?_⟩)
      simpa using ht
  | quitenv p =>
    rcases hp : w.procs p with _ | s <;> simp only [Temps.step, hp]
    · exact h
    · have hs := h.ne p s hp
      rcases s with _ | ⟨e, _ | ⟨f, r⟩⟩
      · exact absurd rfl hs
      · refine h.removed p _ hp e none (fun x hx => by cases hx) (fun t ht hn => ?_)
        simp at ht; exact absurd ht hn
      · refine h.removed p _ hp e (some (f :: r)) (fun x hx => by cases hx; simp)
          (fun t ht hn => ⟨_, rfl, ?_⟩)
        rw [List.flatten_cons, List.mem_append] at ht
        exact ht.resolve_left hn
  | reclaim p =>
    rcases hp : w.procs p with _ | s <;> simp only [Temps.step, hp]
    · exact h
    · have hs := h.ne p s hp
      rcases s with _ | ⟨e, r⟩
      · exact absurd rfl hs
      · refine h.removed p _ hp e (some ([] :: r)) (fun x hx => by cases hx; simp)
          (fun t ht hn => ⟨_, rfl, ?_⟩)
        rw [List.flatten_cons, List.mem_append] at ht
        simpa using ht.resolve_left hn
  | mktemp p n =>
    rcases hp : w.procs p with _ | s <;> simp only [Temps.step, hp]
    · exact h
    · rcases hf : w.files n with _ | m <;> simp only
      · have hs := h.ne p s hp
        rcases s with _ | ⟨e, r⟩
        · exact absurd rfl hs
        · constructor
          · intro q x hq
            by_cases e1 : q = p
            · subst e1; simp only [setProc_self] at hq; cases hq; simp [record]
            · simp only [setProc_ne _ _ _ _ e1] at hq; exact h.ne q x hq
          · intro m q hm
            simp only [setProc] at hm
            by_cases e1 : m = n
            · subst e1
              rw [if_pos rfl] at hm
              cases hm
              exact ⟨_, setProc_self _ _ _, by simp [record]⟩
            · rw [if_neg e1] at hm
              obtain ⟨x, hx, ht⟩ := h.file m q hm
              by_cases e2 : q = p
              · subst e2
                rw [hp] at hx; cases hx
                refine ⟨_, setProc_self _ _ _, ?_⟩
                rw [record, List.flatten_cons, List.cons_append]
                exact List.mem_cons_of_mem _ ht
              · exact ⟨x, by simpa only [setProc_ne _ _ _ _ e2] using hx, ht⟩
      · exact h
  | mkfail p n =>
    rcases hp : w.procs p with _ | s <;> simp only [Temps.step, hp]
    · exact h
    · have hs := h.ne p s hp
      rcases s with _ | ⟨e, r⟩
      · exact absurd rfl hs
      · refine h.removed p _ hp [] (some (record p n (e :: r))) (fun x hx => by cases hx; simp [record])
          (fun t ht _ => ⟨_, rfl, ?_⟩)
        rw [record, List.flatten_cons, List.cons_append]
        exact List.mem_cons_of_mem _ ht
  | fork p c =>
    rcases hp : w.procs p with _ | s <;> simp only [Temps.step, hp]
    · exact h
    · rcases hc : w.procs c with _ | x <;> simp only
      · have hs := h.ne p s hp
        constructor
        · intro q x hq
          by_cases e1 : q = c
          · subst e1; simp only [setProc_self] at hq; cases hq
            cases s with
            | nil => exact absurd rfl hs
            | cons e r => simp [childEnv]
          · simp only [setProc_ne _ _ _ _ e1] at hq; exact h.ne q x hq
        · intro m q hm
          obtain ⟨x, hx, ht⟩ := h.file m q hm
          have e1 : q ≠ c := by rintro rfl; rw [hc] at hx; cases hx
          exact ⟨x, by simpa only [setProc_ne _ _ _ _ e1] using hx, ht⟩
      · exact h
  | exec p ok =>
    rcases hp : w.procs p with _ | s <;> simp only [Temps.step, hp]
    · exact h
    · simp only [cleanup_eq]
      refine h.removed p s hp _ _ (fun x hx => ?_) (fun t ht hn => absurd ht hn)
      cases ok
      · simp at hx; subst hx; exact h.ne p s hp
      · simp at hx
  | create n =>
    rcases hf : w.files n with _ | m <;> simp only [Temps.step, hf]
    · refine ⟨h.ne, fun m q hm => ?_⟩
      simp only at hm
      by_cases e : m = n
      · rw [if_pos e] at hm; cases hm
      · rw [if_neg e] at hm; exact h.file m q hm
    · exact h

/-- The lists of a process name, of its own files, each once and only files it made. -/
structure Own (w : World) : Prop where
  ne : ∀ p s, w.procs p = some s → s ≠ []
  live : ∀ p s, w.procs p = some s → p ∈ w.used
  inherited : ∀ p s t, w.procs p = some s → t ∈ s.flatten → t.pid ∈ w.used
  nodup : ∀ p s, w.procs p = some s → (own p s.flatten).Nodup
  file : ∀ p s n, w.procs p = some s → n ∈ own p s.flatten → w.files n = some (.shell p)

theorem Own.removed {w : World} (h : Own w) (p : Pid) (s : List (List Temp))
    (hp : w.procs p = some s) (a b : List Temp) (hab : s.flatten = a ++ b)
    (s' : Option (List (List Temp))) (hne : ∀ x, s' = some x → x ≠ [])
    (hk : ∀ x, s' = some x → x.flatten = b) :
    Own (setProc p s' (removeTemps p a w)) ∧
      ∀ e ∈ (setProc p s' (removeTemps p a w)).log,
        e ∈ w.log ∨ e.2.2 = some (.shell e.1) := by
  obtain ⟨e1, e2⟩ := removeTemps_procs p a w
  have hnd := h.nodup p s hp
  rw [hab, own_append, List.nodup_append] at hnd
  have hfa : ∀ n ∈ own p a, w.files n = some (.shell p) := fun n hn =>
    h.file p s n hp (by rw [hab, own_append]; exact List.mem_append_left _ hn)
  refine ⟨⟨?_, ?_, ?_, ?_, ?_⟩, ?_⟩
  · intro q x hq
    by_cases e : q = p
    · subst e; rw [setProc_self] at hq; exact hne x hq
    · rw [setProc_ne _ _ _ _ e, e1] at hq; exact h.ne q x hq
  · intro q x hq
    show q ∈ (removeTemps p a w).used
    rw [e2]
    by_cases e : q = p
    · subst e; exact h.live q s hp
    · rw [setProc_ne _ _ _ _ e, e1] at hq; exact h.live q x hq
  · intro q x t hq ht
    show t.pid ∈ (removeTemps p a w).used
    rw [e2]
    by_cases e : q = p
    · subst e
      rw [setProc_self] at hq
      rw [hk x hq] at ht
      exact h.inherited q s t hp (by rw [hab]; exact List.mem_append_right _ ht)
    · rw [setProc_ne _ _ _ _ e, e1] at hq; exact h.inherited q x t hq ht
  · intro q x hq
    by_cases e : q = p
    · subst e
      rw [setProc_self] at hq
      rw [hk x hq]; exact hnd.2.1
    · rw [setProc_ne _ _ _ _ e, e1] at hq; exact h.nodup q x hq
  · intro q x n hq hn
    show (removeTemps p a w).files n = _
    rw [removeTemps_files]
    by_cases e : q = p
    · subst e
      rw [setProc_self] at hq
      rw [hk x hq] at hn
      rw [if_neg]
      · exact h.file q s n hp (by rw [hab, own_append]; exact List.mem_append_right _ hn)
      · rw [← mem_own]
        intro hc
        exact hnd.2.2 n hc n hn rfl
    · rw [setProc_ne _ _ _ _ e, e1] at hq
      have := h.file q x n hq hn
      rw [if_neg]
      · exact this
      · rw [← mem_own]
        intro hc
        rw [hfa n hc] at this
        cases this
        exact e rfl
  · intro e he
    have := removeTemps_log p a w hnd.1 hfa e he
    rcases this with h1 | ⟨h1, h2⟩
    · exact Or.inl h1
    · exact Or.inr (by rw [h1, h2])

theorem Own.step {w : World} (h : Own w) (o : Op) (ho : o.fails = false)
    (hr : freshOp w.used o) :
    Own (Temps.step w o) ∧
      ∀ e ∈ (Temps.step w o).log, e ∈ w.log ∨ e.2.2 = some (.shell e.1) := by
  have triv : Own w ∧ ∀ e ∈ w.log, e ∈ w.log ∨ e.2.2 = some (.shell e.1) :=
    ⟨h, fun _ he => Or.inl he⟩
  cases o with
  | kill p =>
    have hq : ∀ q x, (setProc p none w).procs q = some x → w.procs q = some x := by
      intro q x hx
      by_cases e : q = p
      · subst e; rw [setProc_self] at hx; cases hx
      · rwa [setProc_ne _ _ _ _ e] at hx
    exact ⟨⟨fun q x hx => h.ne q x (hq q x hx), fun q x hx => h.live q x (hq q x hx),
      fun q x t hx => h.inherited q x t (hq q x hx), fun q x hx => h.nodup q x (hq q x hx),
      fun q x n hx => h.file q x n (hq q x hx)⟩, fun _ he => Or.inl he⟩
  | newenv p =>
    rcases hp : w.procs p with _ | s <;> simp only [Temps.step, hp]
    · exact triv
    · exact h.removed p s hp [] s.flatten rfl _ (fun x hx => by cases hx; simp)
        (fun x hx => by cases hx; rfl)
  | quitenv p =>
    rcases hp : w.procs p with _ | s <;> simp only [Temps.step, hp]
    · exact triv
    · have hs := h.ne p s hp
      rcases s with _ | ⟨e, _ | ⟨f, r⟩⟩
      · exact absurd rfl hs
      · exact h.removed p _ hp e [] (by simp) none (fun x hx => by cases hx)
          (fun x hx => by cases hx)
      · exact h.removed p _ hp e (f :: r).flatten (by simp) (some (f :: r))
          (fun x hx => by cases hx; simp) (fun x hx => by cases hx; rfl)
  | reclaim p =>
    rcases hp : w.procs p with _ | s <;> simp only [Temps.step, hp]
    · exact triv
    · have hs := h.ne p s hp
      rcases s with _ | ⟨e, r⟩
      · exact absurd rfl hs
      · exact h.removed p _ hp e r.flatten (by simp) (some ([] :: r))
          (fun x hx => by cases hx; simp) (fun x hx => by cases hx; rfl)
  | mktemp p n =>
    rcases hp : w.procs p with _ | s <;> simp only [Temps.step, hp]
    · exact triv
    · rcases hf : w.files n with _ | m <;> simp only
      · have hs := h.ne p s hp
        have hno : ∀ q x, w.procs q = some x → n ∉ own q x.flatten := by
          intro q x hq hc
          rw [h.file q x n hq hc] at hf; cases hf
        have hrec : (record p n s).flatten = ⟨n, p⟩ :: s.flatten := by
          cases s with
          | nil => exact absurd rfl hs
          | cons e r => rfl
        refine ⟨⟨?_, ?_, ?_, ?_, ?_⟩, fun _ he => Or.inl he⟩
        · intro q x hq
          by_cases e1 : q = p
          · subst e1; simp only [setProc_self] at hq; cases hq
            intro hc; rw [hc] at hrec; cases hrec
          · simp only [setProc_ne _ _ _ _ e1] at hq; exact h.ne q x hq
        · intro q x hq
          by_cases e1 : q = p
          · subst e1; exact h.live q s hp
          · simp only [setProc_ne _ _ _ _ e1] at hq; exact h.live q x hq
        · intro q x t hq ht
          by_cases e1 : q = p
          · subst e1; simp only [setProc_self] at hq; cases hq
            rw [hrec] at ht
            rcases List.mem_cons.1 ht with e | e
            · subst e; exact h.live _ s hp
            · exact h.inherited _ s t hp e
          · simp only [setProc_ne _ _ _ _ e1] at hq; exact h.inherited q x t hq ht
        · intro q x hq
          by_cases e1 : q = p
          · subst e1; simp only [setProc_self] at hq; cases hq
            rw [hrec, own, if_pos rfl, List.nodup_cons]
            exact ⟨hno _ s hp, h.nodup _ s hp⟩
          · simp only [setProc_ne _ _ _ _ e1] at hq; exact h.nodup q x hq
        · intro q x m hq hm
          simp only [setProc]
          by_cases e1 : q = p
          · subst e1; simp only [setProc_self] at hq; cases hq
            rw [hrec, own, if_pos rfl] at hm
            rcases List.mem_cons.1 hm with e | e
            · rw [if_pos e]
            · rw [if_neg]
              · exact h.file _ s m hp e
              · rintro rfl; exact hno _ s hp e
          · simp only [setProc_ne _ _ _ _ e1] at hq
            rw [if_neg]
            · exact h.file q x m hq hm
            · rintro rfl; exact hno q x hq hm
      · exact triv
  | mkfail p n => cases ho
  | fork p c =>
    rcases hp : w.procs p with _ | s <;> simp only [Temps.step, hp]
    · exact triv
    · rcases hc : w.procs c with _ | x <;> simp only
      · have hs := h.ne p s hp
        have hsub : ∀ t ∈ (childEnv s).flatten, t ∈ s.flatten := by
          cases s with
          | nil => exact fun t ht => ht
          | cons e r => intro t ht; simp [childEnv] at ht; simp [ht]
        have hno : own c (childEnv s).flatten = [] := by
          rw [List.eq_nil_iff_forall_not_mem]
          intro n hn
          rw [mem_own] at hn
          exact hr (h.inherited p s _ hp (hsub _ hn))
        refine ⟨⟨?_, ?_, ?_, ?_, ?_⟩, fun _ he => Or.inl he⟩
        · intro q x hq
          by_cases e1 : q = c
          · subst e1; simp only [setProc_self] at hq; cases hq
            cases s with
            | nil => exact absurd rfl hs
            | cons e r => simp [childEnv]
          · simp only [setProc_ne _ _ _ _ e1] at hq; exact h.ne q x hq
        · intro q x hq
          by_cases e1 : q = c
          · subst e1; exact List.mem_cons_self
          · simp only [setProc_ne _ _ _ _ e1] at hq
            exact List.mem_cons_of_mem _ (h.live q x hq)
        · intro q x t hq ht
          by_cases e1 : q = c
          · subst e1; simp only [setProc_self] at hq; cases hq
            exact List.mem_cons_of_mem _ (h.inherited p s t hp (hsub t ht))
          · simp only [setProc_ne _ _ _ _ e1] at hq
            exact List.mem_cons_of_mem _ (h.inherited q x t hq ht)
        · intro q x hq
          by_cases e1 : q = c
          · subst e1; simp only [setProc_self] at hq; cases hq
            rw [hno]; exact List.nodup_nil
          · simp only [setProc_ne _ _ _ _ e1] at hq; exact h.nodup q x hq
        · intro q x n hq hn
          by_cases e1 : q = c
          · subst e1; simp only [setProc_self] at hq; cases hq
            rw [hno] at hn; cases hn
          · simp only [setProc_ne _ _ _ _ e1] at hq; exact h.file q x n hq hn
      · exact triv
  | exec p ok =>
    cases ok with
    | false => cases ho
    | true =>
      rcases hp : w.procs p with _ | s <;> simp only [Temps.step, hp]
      · exact triv
      · simp only [cleanup_eq]
        exact h.removed p s hp s.flatten [] (by simp) _ (fun x hx => by simp at hx)
          (fun x hx => by simp at hx)
  | create n =>
    rcases hf : w.files n with _ | m <;> simp only [Temps.step, hf]
    · refine ⟨⟨h.ne, h.live, h.inherited, h.nodup, ?_⟩, fun _ he => Or.inl he⟩
      intro q x m hq hm
      have := h.file q x m hq hm
      simp only
      rw [if_neg]
      · exact this
      · rintro rfl; rw [hf] at this; cases this
    · exact triv

theorem step_used (w : World) (o : Op) (h : ∀ p c, o ≠ .fork p c) : (step w o).used = w.used := by
  cases o with
  | fork p c => exact absurd rfl (h p c)
  | create n =>
    simp only [step]; split <;> rfl
  | mktemp p n => simp only [step]; split <;> rfl
  | kill p => rfl
  | newenv p => simp only [step]; split <;> rfl
  | mkfail p n => simp only [step]; split <;> rfl
  | quitenv p =>
    simp only [step]; split
    · rfl
    · exact (removeTemps_procs _ _ _).2
  | reclaim p =>
    simp only [step]; split
    · rfl
    · exact (removeTemps_procs _ _ _).2
  | exec p ok =>
    simp only [step]; split
    · rfl
    · rw [cleanup_eq]; exact (removeTemps_procs _ _ _).2

theorem NoReuse.mono (l : List Op) : ∀ {u v : List Pid}, (∀ x ∈ v, x ∈ u) → NoReuse u l → NoReuse v l := by
  induction l with
  | nil => exact fun _ _ => trivial
  | cons o r ih =>
    intro u v huv h
    cases o with
    | fork p c =>
      refine ⟨fun hc => h.1 (huv _ hc), ih (fun x hx => ?_) h.2⟩
      rcases List.mem_cons.1 hx with e | e
      · exact e ▸ List.mem_cons_self
      · exact List.mem_cons_of_mem _ (huv x e)
    | _ => exact ih huv h

theorem NoReuse.head {u : List Pid} {o : Op} {r : List Op} (h : NoReuse u (o :: r)) :
    freshOp u o := by
  cases o <;> first | exact h.1 | trivial

theorem NoReuse.next {w : World} {o : Op} {r : List Op} (h : NoReuse w.used (o :: r)) :
    NoReuse (step w o).used r := by
  cases o with
  | fork p c =>
    refine NoReuse.mono _ (u := c :: w.used) ?_ h.2
    intro x hx
    unfold step at hx
    rcases hp : w.procs p with _ | s
    · simp only [hp] at hx; exact List.mem_cons_of_mem _ hx
    · rcases hc : w.procs c with _ | y
      · simpa only [hp, hc, setProc] using hx
      · simp only [hp, hc] at hx; exact List.mem_cons_of_mem _ hx
  | newenv _ => rw [step_used _ _ (by intros; simp)]; exact h
  | quitenv _ => rw [step_used _ _ (by intros; simp)]; exact h
  | reclaim _ => rw [step_used _ _ (by intros; simp)]; exact h
  | mktemp _ _ => rw [step_used _ _ (by intros; simp)]; exact h
  | mkfail _ _ => rw [step_used _ _ (by intros; simp)]; exact h
  | exec _ _ => rw [step_used _ _ (by intros; simp)]; exact h
  | kill _ => rw [step_used _ _ (by intros; simp)]; exact h
  | create _ => rw [step_used _ _ (by intros; simp)]; exact h

theorem start_own (p : Pid) (f : Name → Bool) : Own (start p f) := by
  have hs : ∀ q x, (start p f).procs q = some x → q = p ∧ x = [[]] := by
    intro q x h
    simp only [start] at h
    by_cases e : q = p
    · rw [if_pos e] at h; cases h; exact ⟨e, rfl⟩
    · rw [if_neg e] at h; cases h
  refine ⟨?_, ?_, ?_, ?_, ?_⟩ <;> intro q x
  · intro h; obtain ⟨-, e⟩ := hs q x h; simp [e]
  · intro h; obtain ⟨e, -⟩ := hs q x h; simp [e, start]
  · intro t h ht; obtain ⟨-, e⟩ := hs q x h; simp [e] at ht
  · intro h; obtain ⟨-, e⟩ := hs q x h; simp [e, own]
  · intro n h hn; obtain ⟨-, e⟩ := hs q x h; simp [e, own] at hn

theorem start_listed (p : Pid) (f : Name → Bool) : Listed (start p f) := by
  refine ⟨(start_own p f).ne, ?_⟩
  intro n q h
  simp only [start] at h
  split at h <;> cases h

theorem run_listed (l : List Op) (w : World) (h : Listed w) (hk : ∀ o ∈ l, o.isKill = false) :
    Listed (run w l) := by
  induction l generalizing w with
  | nil => exact h
  | cons o r ih =>
    exact ih _ (h.step o (hk o List.mem_cons_self)) fun o ho => hk o (List.mem_cons_of_mem _ ho)

theorem run_own (l : List Op) (w : World) (h : Own w) (hf : ∀ o ∈ l, o.fails = false)
    (hr : NoReuse w.used l) (hl : ∀ e ∈ w.log, e.2.2 = some (.shell e.1)) :
    Own (run w l) ∧ ∀ e ∈ (run w l).log, e.2.2 = some (.shell e.1) := by
  induction l generalizing w with
  | nil => exact ⟨h, hl⟩
  | cons o r ih =>
    obtain ⟨h1, h2⟩ := h.step o (hf o List.mem_cons_self) hr.head
    exact ih _ h1 (fun o ho => hf o (List.mem_cons_of_mem _ ho)) hr.next
      fun e he => (h2 e he).elim (hl e) id

/-! ## Theorems -/

/-- **C124.**  Whatever happens short of a process being killed, a temporary file which is still
there was made by a shell which is still running: when a shell has left, or has been replaced by
another program, all its temporary files are gone.  Missing from the full claim: a shell which is
killed leaves its files (`killed_leaves`). -/
theorem gone_partial (p : Pid) (others : Name → Bool) (l : List Op)
    (hk : ∀ o ∈ l, o.isKill = false) (n : Name) (q : Pid)
    (hn : (run (start p others) l).files n = some (.shell q)) :
    (run (start p others) l).procs q ≠ none := by
  obtain ⟨s, hs, -⟩ := (run_listed l _ (start_listed p others) hk).file n q hn
  rw [hs]; simp

/-- **C124.**  No shell removes a file of another: each `unlink` is of a file which is there and
which that very process made.  Missing from the full claim: it fails after a failed `execve`
(`exec_fails`), after a failed `mkstemp` (`mkstemp_fails`) and when a process number comes round
again (`pid_reused`). -/
theorem own_only_partial (p : Pid) (others : Name → Bool) (l : List Op)
    (hf : ∀ o ∈ l, o.fails = false) (hr : NoReuse [p] l) :
    ∀ e ∈ (run (start p others) l).log, e.2.2 = some (.shell e.1) :=
  (run_own l _ (start_own p others) hf hr (by intro e he; cases he)).2

/-- **C124.**  A temporary file is there until its maker leaves an environment or itself: nothing
else, and nobody else, takes it away. -/
theorem stays_partial (p : Pid) (others : Name → Bool) (l : List Op)
    (hf : ∀ o ∈ l, o.fails = false) (hr : NoReuse [p] l) (o : Op) (ho : o.fails = false)
    (hfr : freshOp (run (start p others) l).used o) (n : Name) (q : Pid)
    (hn : (run (start p others) l).files n = some (.shell q)) (hl : ¬ leaves q o) :
    (step (run (start p others) l) o).files n = some (.shell q) := by
  obtain ⟨hO, -⟩ := run_own l _ (start_own p others) hf hr (by intro e he; cases he)
  generalize run (start p others) l = w at *
  have hrm : ∀ r s, w.procs r = some s → r ≠ q → ∀ a, (∀ t ∈ a, t ∈ s.flatten) →
      (removeTemps r a w).files n = some (.shell q) := by
    intro r s hs hne a ha
    rw [removeTemps_files, if_neg]
    · exact hn
    · intro hc
      have := hO.file r s n hs ((mem_own _ _ _).2 (ha _ hc))
      rw [hn] at this; cases this; exact hne rfl
  have hhead : ∀ s : List (List Temp), ∀ t ∈ s.headD [], t ∈ s.flatten := by
    intro s t ht
    cases s with
    | nil => cases ht
    | cons e r => simp at ht; simp [ht]
  cases o with
  | kill r => exact hn
  | newenv r => simp only [step]; split <;> exact hn
  | mkfail r m => cases ho
  | fork r c => simp only [step]; split <;> exact hn
  | quitenv r =>
    rcases hp : w.procs r with _ | s <;> simp only [step, hp]
    · exact hn
    · exact hrm r s hp (fun e => hl e) _ (hhead s)
  | reclaim r =>
    rcases hp : w.procs r with _ | s <;> simp only [step, hp]
    · exact hn
    · exact hrm r s hp (fun e => hl e) _ (hhead s)
  | exec r ok =>
    rcases hp : w.procs r with _ | s <;> simp only [step, hp]
    · exact hn
    · simp only [cleanup_eq]
      exact hrm r s hp (fun e => hl e) _ (fun t ht => ht)
  | mktemp r m =>
    rcases hp : w.procs r with _ | s <;> simp only [step, hp]
    · exact hn
    · rcases hm : w.files m with _ | x <;> simp only
      · simp only [setProc]
        rw [if_neg]
        · exact hn
        · rintro rfl; rw [hm] at hn; cases hn
      · exact hn
  | create m =>
    rcases hm : w.files m with _ | x <;> simp only [step, hm]
    · rw [if_neg]
      · exact hn
      · rintro rfl; rw [hm] at hn; cases hn
    · exact hn

/-- **C124.**  Leaving an environment takes away only the files made in it: the commands around it
keep theirs. -/
theorem outer_stays (w : World) (q : Pid) (e : List Temp) (r : List (List Temp)) (n : Name)
    (hp : w.procs q = some (e :: r)) (hne : (⟨n, q⟩ : Temp) ∉ e)
    (hn : w.files n = some (.shell q)) :
    (step w (.quitenv q)).files n = some (.shell q) ∧
      (step w (.reclaim q)).files n = some (.shell q) := by
  simp only [step, hp]
  refine ⟨?_, ?_⟩
  all_goals
    show (removeTemps q e w).files n = _
    rw [removeTemps_files, if_neg hne, hn]

/-! ## Witnesses -/

/-- `cat <<EOF` in a child: the child makes, execs, and the file is gone; the parent's stays until
the parent leaves the command. -/
def session : List Op :=
  [.newenv 1, .mktemp 1 7, .fork 1 2, .mktemp 2 8, .fork 2 3, .quitenv 3, .exec 2 true,
    .quitenv 1, .quitenv 1]

example : (run (start 1 (fun _ => false)) session).log =
    [(2, 8, some (.shell 2)), (1, 7, some (.shell 1))] := by decide +kernel
example : ∀ e ∈ (run (start 1 (fun _ => false)) session).log, e.2.2 = some (.shell e.1) :=
  own_only_partial 1 _ session (by decide) (by simp [NoReuse, session])
example : (run (start 1 (fun _ => false)) (session.take 6)).files 7 = some (.shell 1) ∧
    (run (start 1 (fun _ => false)) (session.take 6)).files 8 = some (.shell 2) := by decide +kernel

example : (run (start 1 (fun _ => false))
    [.newenv 1, .mktemp 1 7, .newenv 1, .mktemp 1 8, .quitenv 1]).files 7 = some (.shell 1) ∧
    (run (start 1 (fun _ => false))
    [.newenv 1, .mktemp 1 7, .newenv 1, .mktemp 1 8, .quitenv 1]).files 8 = none := by decide +kernel

/-- A shell that is killed leaves its file behind. -/
theorem killed_leaves :
    (run (start 1 (fun _ => false)) [.newenv 1, .mktemp 1 7, .kill 1]).files 7 = some (.shell 1) ∧
    (run (start 1 (fun _ => false)) [.newenv 1, .mktemp 1 7, .kill 1]).procs 1 = none := by
  decide +kernel

/-- After a failed `execve` the names are removed a second time, whoever has them now. -/
theorem exec_fails :
    (run (start 1 (fun _ => false))
      [.newenv 1, .mktemp 1 7, .exec 1 false, .create 7, .quitenv 1]).log =
      [(1, 7, some (.shell 1)), (1, 7, some .other)] := by decide +kernel

/-- After a failed `mkstemp` a file is removed which the shell did not make. -/
theorem mkstemp_fails :
    (run (start 1 (fun n => n == 7)) [.newenv 1, .mkfail 1 7, .quitenv 1]).log =
      [(1, 7, some .other)] := by decide +kernel

/-- Process 1 makes a file and forks 2; 1 is killed, and 2 forks a child whose number is 1
again: leaving, it removes the file. -/
theorem pid_reused :
    (run (start 1 (fun _ => false))
      [.newenv 1, .mktemp 1 7, .fork 1 2, .kill 1, .fork 2 1, .quitenv 1]).files 7 = none := by
  decide +kernel

end Ksh.Temps
