import Verif.Trap.Model

namespace Ksh.Trap

/-! ### What the events mean -/

/-- The signal has arrived and has not been taken notice of since (the newest event
is the first). -/
def Waiting (n : Nat) (log : List Ev) : Prop :=
  ∃ l1 l2, log = l1 ++ .arrive n :: l2 ∧ Ev.handled n ∉ l1

/-- The action for `n` that the last `trap` command has set. -/
def Current (n : Nat) (log : List Ev) (a : Option (List Char)) : Prop :=
  (∃ l1 l2, log = l1 ++ .set n a :: l2 ∧ ∀ b, Ev.set n b ∉ l1) ∨ (a = none ∧ ∀ b, Ev.set n b ∉ log)

theorem waiting_cons_ne {n : Nat} {e : Ev} {l : List Ev} (h : e ≠ .handled n) (h' : e ≠ .arrive n) :
    Waiting n (e :: l) ↔ Waiting n l := by
  constructor
  · rintro ⟨l1, l2, e1, hn⟩
    cases l1 with
    | nil => simp only [List.nil_append, List.cons.injEq] at e1; exact absurd e1.1 h'
    | cons x l1 =>
      simp only [List.cons_append, List.cons.injEq] at e1
      exact ⟨l1, l2, e1.2, fun hm => hn (List.mem_cons_of_mem _ hm)⟩
  · rintro ⟨l1, l2, rfl, hn⟩
    exact ⟨e :: l1, l2, rfl, by
      intro hm
      rcases List.mem_cons.1 hm with hm | hm
      · exact h hm.symm
      · exact hn hm⟩

theorem waiting_arrive {n : Nat} {l : List Ev} : Waiting n (.arrive n :: l) := ⟨[], l, rfl, by simp⟩

theorem waiting_handled {n : Nat} {l : List Ev} : ¬Waiting n (.handled n :: l) := by
  rintro ⟨l1, l2, e, hn⟩
  cases l1 with
  | nil => simp at e
  | cons x l1 =>
    simp only [List.cons_append, List.cons.injEq] at e
    exact hn (by rw [← e.1]; exact List.mem_cons_self)

theorem current_cons_ne {n : Nat} {e : Ev} {l : List Ev} (h : ∀ b, e ≠ .set n b) (a) :
    Current n (e :: l) a ↔ Current n l a := by
  constructor
  · rintro (⟨l1, l2, e1, hn⟩ | ⟨ha, hn⟩)
    · cases l1 with
      | nil => simp only [List.nil_append, List.cons.injEq] at e1; exact absurd e1.1 (h a)
      | cons x l1 =>
        simp only [List.cons_append, List.cons.injEq] at e1
        exact Or.inl ⟨l1, l2, e1.2, fun b hm => hn b (List.mem_cons_of_mem _ hm)⟩
    · exact Or.inr ⟨ha, fun b hm => hn b (List.mem_cons_of_mem _ hm)⟩
  · rintro (⟨l1, l2, rfl, hn⟩ | ⟨ha, hn⟩)
    · refine Or.inl ⟨e :: l1, l2, rfl, ?_⟩
      intro b hm
      rcases List.mem_cons.1 hm with hm | hm
      · exact h b hm.symm
      · exact hn b hm
    · refine Or.inr ⟨ha, ?_⟩
      intro b hm
      rcases List.mem_cons.1 hm with hm | hm
      · exact h b hm.symm
      · exact hn b hm

theorem current_set {n : Nat} {l : List Ev} {a b} : Current n (.set n b :: l) a ↔ a = b := by
  constructor
  · rintro (⟨l1, l2, e1, hn⟩ | ⟨_, hn⟩)
    · cases l1 with
      | nil => simp only [List.nil_append, List.cons.injEq, Ev.set.injEq] at e1; exact e1.1.2.symm
      | cons x l1 =>
        simp only [List.cons_append, List.cons.injEq] at e1
        exact absurd (by rw [← e1.1]; exact List.mem_cons_self) (hn b)
    · exact absurd List.mem_cons_self (hn b)
  · rintro rfl
    exact Or.inl ⟨[], l, rfl, by simp⟩

/-- There is one current action. -/
theorem Current.unique {n : Nat} : ∀ {l : List Ev} {a b}, Current n l a → Current n l b → a = b
  | [], a, b, ha, hb => by
    have h : ∀ {c}, Current n [] c → c = none := by
      rintro c (⟨l1, l2, e, _⟩ | ⟨h, _⟩)
      · simp at e
      · exact h
    rw [h ha, h hb]
  | e :: l, a, b, ha, hb => by
    by_cases h : ∃ c, e = .set n c
    · obtain ⟨c, rfl⟩ := h
      rw [current_set] at ha hb
      rw [ha, hb]
    · have h : ∀ c, e ≠ .set n c := fun c hc => h ⟨c, hc⟩
      rw [current_cons_ne h] at ha hb
      exact Current.unique ha hb

/-! ### The pending flag -/

/-- `p->set` says that the signal is waiting, and nothing was taken notice of that was
not waiting. -/
structure Flags (s : S) : Prop where
  set : ∀ n, (s.tr n).set = true ↔ Waiting n s.log
  once : ∀ n l1 l2, s.log = l1 ++ .handled n :: l2 → Waiting n l2

theorem once_cons {l : List Ev} {e : Ev} (h : ∀ n l1 l2, l = l1 ++ .handled n :: l2 → Waiting n l2)
    (he : ∀ n, e = .handled n → Waiting n l) : ∀ n l1 l2, e :: l = l1 ++ .handled n :: l2 → Waiting n l2 := by
  intro n l1 l2 h1
  cases l1 with
  | nil =>
    simp only [List.nil_append, List.cons.injEq] at h1
    rw [← h1.2]
    exact he n h1.1
  | cons x l1 =>
    simp only [List.cons_append, List.cons.injEq] at h1
    exact h n l1 l2 h1.2

theorem Flags.congr {s t : S} (h : Flags s) (h1 : ∀ n, (t.tr n).set = (s.tr n).set) (h2 : t.log = s.log) : Flags t :=
  ⟨fun n => by rw [h1, h2]; exact h.set n, by rw [h2]; exact h.once⟩

/-- Another event that is not about signals. -/
theorem Flags.ev {s t : S} {e : Ev} (h : Flags s) (h1 : ∀ n, (t.tr n).set = (s.tr n).set) (h2 : t.log = e :: s.log)
    (ha : ∀ n, e ≠ .arrive n) (hh : ∀ n, e ≠ .handled n) : Flags t := by
  refine ⟨?_, ?_⟩
  · intro n
    rw [h1, h2, waiting_cons_ne (hh n) (ha n)]
    exact h.set n
  · rw [h2]
    exact once_cons h.once (fun n hn => absurd hn (hh n))

/-- runtrap, before it decides what to do. -/
def noticed (s : S) (n : Nat) : S :=
  { (s.upd n (fun t => { t with set := false })) with log := .handled n :: s.log }

theorem Flags.noticed {s : S} {n} (h : Flags s) (hs : Waiting n s.log) : Flags (noticed s n) := by
  refine ⟨?_, once_cons h.once ?_⟩
  · intro k
    show ((if k = n then _ else s.tr k : T)).set = true ↔ Waiting k (.handled n :: s.log)
    by_cases hk : k = n
    · subst hk
      simp [waiting_handled]
    · rw [if_neg hk, waiting_cons_ne (by simp [Ne.symm hk]) (by simp)]
      exact h.set k
  · intro k hk
    simp only [Ev.handled.injEq] at hk
    subst hk
    exact hs

theorem runtrap_eq (s : S) (n : Nat) : runtrap s n = match (s.tr n).act with
    | none => if (s.tr n).fatal then { noticed s n with exstat := 128 + n, gone := true } else noticed s n
    | some [] => noticed s n
    | some str =>
      { (if s.special n then (noticed s n).upd n (fun t => { t with act := none, changed := false }) else noticed s n) with
        stack := .action n str s.exstat (s.special n && (s.tr n).changed) :: s.stack,
        log := .ran n str :: .handled n :: s.log } := by
  unfold runtrap
  simp only
  split
  · rename_i h
    rw [h]
    simp [S.upd, noticed]
  · rename_i h
    rw [h]
    rfl
  · rename_i str hne h
    rw [h]
    cases str with
    | nil => exact absurd rfl (hne)
    | cons c cs =>
      simp only [S.special, S.upd, noticed]
      split <;> simp

theorem Flags.runtrap {s : S} {n} (h : Flags s) (hs : Waiting n s.log) : Flags (runtrap s n) := by
  have h1 := h.noticed hs
  rw [runtrap_eq]
  split
  · split
    · exact h1.congr (fun _ => rfl) rfl
    · exact h1
  · exact h1
  · refine h1.ev (e := .ran n _) ?_ rfl (by simp) (by simp)
    intro k
    split
    · simp only [S.upd]
      split <;> rfl
    · rfl

theorem Flags.act {s : S} {op} (h : Flags s) (hh : ∀ i st, s.stack = .hit i :: st → (s.tr i).set = true) : Flags (act s op) := by
  cases op with
  | arrive n => exact h
  | unwind k => exact h
  | settrap n a =>
    simp only [Trap.act]
    split
    · refine h.ev (e := .set n a) ?_ rfl (by simp) (by simp)
      intro k
      simp only [settrap, S.upd]
      split <;> rfl
    · exact h
  | status v =>
    simp only [Trap.act]
    split
    · exact h.congr (fun _ => rfl) rfl
    · exact h
  | safe =>
    simp only [Trap.act]
    split
    · exact h.congr (fun _ => rfl) rfl
    · exact h
  | step =>
    simp only [Trap.act]
    split
    · split
      · exact h.congr (fun _ => rfl) rfl
      · exact h.congr (fun _ => rfl) rfl
    · rename_i i st e
      refine Flags.runtrap (h.congr (fun _ => rfl) rfl) ?_
      exact (h.set i).1 (hh i st e)
    · exact h
  | finish =>
    simp only [Trap.act]
    split
    · refine h.congr ?_ ?_
      · intro k
        simp only [afterAction, S.upd]
        split
        · simp only
          split <;> rfl
        · rfl
      · simp only [afterAction, S.upd]
        split <;> rfl
    · exact h
  | exit =>
    simp only [Trap.act]
    split
    · -- the arrival and the notice in one step
      have key : Flags (Trap.noticed { s with log := .arrive 0 :: s.log } 0) := by
        refine ⟨?_, once_cons (once_cons h.once (by simp)) ?_⟩
        · intro k
          show ((if k = 0 then _ else s.tr k : T)).set = true ↔ Waiting k (.handled 0 :: .arrive 0 :: s.log)
          by_cases hk : k = 0
          · subst hk
            simp [waiting_handled]
          · rw [if_neg hk, waiting_cons_ne (by simp [Ne.symm hk]) (by simp),
              waiting_cons_ne (by simp) (by simp [Ne.symm hk])]
            exact h.set k
        · intro k hk
          simp only [Ev.handled.injEq] at hk
          subst hk
          exact waiting_arrive
      rw [runtrap_eq]
      split
      · split
        · exact key.congr (fun _ => rfl) rfl
        · exact key
      · exact key
      · refine key.ev (e := .ran 0 _) ?_ rfl (by simp) (by simp)
        intro k
        split
        · simp only [S.upd]
          split <;> rfl
        · rfl
    · exact h

/-- A `hit` frame is on top, and only if the flag is set. -/
structure Hits (s : S) : Prop where
  top : ∀ i st, s.stack = .hit i :: st → (s.tr i).set = true
  tail : ∀ f st, s.stack = f :: st → ∀ i, Frame.hit i ∉ st

theorem Hits.user {s : S} (h : Hits s) (hu : user s.stack = true) : ∀ i, Frame.hit i ∉ s.stack := by
  intro i hm
  cases hs : s.stack with
  | nil => rw [hs] at hm; simp at hm
  | cons f st =>
    rw [hs] at hm hu
    rcases List.mem_cons.1 hm with e | hm
    · rw [← e] at hu
      simp [Trap.user] at hu
    · exact h.tail f st hs i hm

theorem hits_of_none {s : S} (h : ∀ i, Frame.hit i ∉ s.stack) : Hits s :=
  ⟨fun i st e => absurd (by rw [e]; exact List.mem_cons_self) (h i),
   fun f st e i hm => h i (by rw [e]; exact List.mem_cons_of_mem _ hm)⟩

theorem runtrap_stack (s : S) (n : Nat) : ∃ top, (runtrap s n).stack = top ++ s.stack ∧ top.length ≤ 1 ∧
    (∀ f ∈ top, ∃ a e c, f = .action n a e c) := by
  rw [runtrap_eq]
  split
  · split
    · exact ⟨[], rfl, by simp, by simp⟩
    · exact ⟨[], rfl, by simp, by simp⟩
  · exact ⟨[], rfl, by simp, by simp⟩
  · refine ⟨[_], rfl, by simp, ?_⟩
    intro f hf
    exact ⟨_, _, _, List.mem_singleton.1 hf⟩

theorem Hits.act {s : S} {op} (h : Hits s) : Hits (act s op) := by
  cases op with
  | arrive n => exact h
  | unwind k => exact h
  | settrap n a =>
    simp only [Trap.act]
    split
    · rename_i hu
      exact hits_of_none (h.user hu)
    · exact h
  | status v =>
    simp only [Trap.act]
    split
    · exact ⟨h.top, h.tail⟩
    · exact h
  | safe =>
    simp only [Trap.act]
    split
    · rename_i hu
      simp only [Bool.and_eq_true] at hu
      refine hits_of_none ?_
      intro i hm
      rcases List.mem_cons.1 hm with e | hm
      · simp at e
      · exact h.user hu.1 i hm
    · exact h
  | step =>
    simp only [Trap.act]
    split
    · rename_i i st e
      split
      · refine ⟨?_, ?_⟩
        · intro k st' e'
          simp only [List.cons.injEq] at e'
          have e1 := e'.1
          split at e1
          · rename_i hs
            simp only [Frame.hit.injEq] at e1
            rw [← e1]
            exact hs
          · simp at e1
        · intro f st' e'
          simp only [List.cons.injEq] at e'
          rw [← e'.2]
          exact h.tail _ st e
      · exact hits_of_none (h.tail _ st e)
    · rename_i i st e
      obtain ⟨top, e1, _, ht⟩ := runtrap_stack { s with stack := .loop (i + 1) :: st } i
      refine hits_of_none ?_
      rw [e1]
      intro k hm
      rcases List.mem_append.1 hm with hm | hm
      · obtain ⟨_, _, _, e2⟩ := ht _ hm
        simp at e2
      · rcases List.mem_cons.1 hm with e2 | hm
        · simp at e2
        · exact h.tail _ st e k hm
    · exact h
  | finish =>
    simp only [Trap.act]
    split
    · rename_i n str oex och st e
      refine hits_of_none ?_
      have : (afterAction { s with stack := st } n str oex och).stack = st := by
        simp only [afterAction, S.upd]
        split <;> rfl
      rw [this]
      exact h.tail _ st e
    · exact h
  | exit =>
    simp only [Trap.act]
    split
    · rename_i hu
      obtain ⟨top, e1, _, ht⟩ := runtrap_stack { s with log := .arrive 0 :: s.log } 0
      refine hits_of_none ?_
      rw [e1]
      intro k hm
      rcases List.mem_append.1 hm with hm | hm
      · obtain ⟨_, _, _, e2⟩ := ht _ hm
        simp at e2
      · exact h.user hu k hm
    · exact h

theorem mem_of_drop {i : Nat} {l : List Frame} {k} (h : Frame.hit i ∈ l.drop k) : Frame.hit i ∈ l :=
  List.mem_of_mem_drop h

theorem Hits.step {s : S} {op} (h : Hits s) : Hits (step s op) := by
  unfold Trap.step
  split
  · split
    · refine ⟨?_, h.tail⟩
      intro i st e
      simp only [trapsig, S.upd] at e ⊢
      split
      · rfl
      · exact h.top i st e
    · exact h
  · rename_i k
    split
    · rename_i hu
      simp only [Bool.and_eq_true] at hu
      refine ⟨?_, ?_⟩
      · intro i st e
        simp only at e
        rw [e] at hu
        simp [Trap.user] at hu
      · intro f st e i hm
        simp only at e
        cases k with
        | zero =>
          rw [List.drop_zero] at e
          exact h.tail f st e i hm
        | succ k =>
          cases hs : s.stack with
          | nil => rw [hs] at e; simp at e
          | cons g r =>
            rw [hs, List.drop_succ_cons] at e
            refine h.tail g r hs i (List.mem_of_mem_drop (i := k) ?_)
            rw [e]
            exact List.mem_cons_of_mem _ hm
    · exact h
  · split
    · exact h
    · exact h.act

theorem Flags.step {s : S} {op} (h : Flags s) (hh : Hits s) : Flags (step s op) := by
  unfold Trap.step
  split
  · rename_i n
    split
    · refine ⟨?_, once_cons h.once (by simp)⟩
      intro k
      show ((if k = n then _ else s.tr k : T)).set = true ↔ Waiting k (.arrive n :: s.log)
      by_cases hk : k = n
      · subst hk
        simp [waiting_arrive]
      · rw [if_neg hk, waiting_cons_ne (by simp) (by simp [Ne.symm hk])]
        exact h.set k
    · exact h
  · split
    · exact h.congr (fun _ => rfl) rfl
    · exact h
  · split
    · exact h
    · exact h.act hh.top

theorem run_inv {P : S → Prop} (hs : ∀ s op, P s → P (step s op)) : ∀ (l : List Op) (s : S), P s → P (run s l)
  | [], _, h => h
  | op :: l, s, h => run_inv hs l (step s op) (hs s op h)

theorem flags_run (nsig : Nat) (f : Nat → Bool) (l : List Op) :
    Flags (run (init nsig f) l) ∧ Hits (run (init nsig f) l) := by
  refine run_inv (P := fun s => Flags s ∧ Hits s) (fun s op h => ⟨h.1.step h.2, h.2.step⟩) l _ ?_
  refine ⟨⟨?_, ?_⟩, hits_of_none (by simp [init])⟩
  · intro n
    constructor
    · intro h; simp [init] at h
    · rintro ⟨l1, l2, e, _⟩; simp [init] at e
  · intro n l1 l2 e
    simp [init] at e

/-- **C38** Every signal that is taken notice of has arrived since the last time: one
arrival leads to at most one run of the action.  For every history, whatever the signals
interrupt. -/
theorem handled_once (nsig : Nat) (f : Nat → Bool) (l : List Op) (n : Nat) (l1 l2 : List Ev)
    (h : (run (init nsig f) l).log = l1 ++ .handled n :: l2) : Waiting n l2 :=
  (flags_run nsig f l).1.once n l1 l2 h

end Ksh.Trap
