import Verif.Trap.Props

namespace Ksh.Trap

/-! ### What one step does to the log and to the flags -/

/-- Events are only added, and a flag goes out only with an event. -/
def Grow (m m' : S) : Prop :=
  m'.nsig = m.nsig ∧ ∃ new, m'.log = new ++ m.log ∧ ∀ n, (m.tr n).set = true → (m'.tr n).set = true ∨ Ev.handled n ∈ new

theorem Grow.rfl' (m : S) : Grow m m := ⟨rfl, [], rfl, fun _ h => Or.inl h⟩

theorem Grow.same {m m' : S} (h0 : m'.nsig = m.nsig) (h1 : m'.log = m.log) (h2 : ∀ n, (m'.tr n).set = (m.tr n).set) : Grow m m' :=
  ⟨h0, [], h1, fun n h => Or.inl (by rw [h2]; exact h)⟩

theorem Grow.trans {a b c : S} (h : Grow a b) (h' : Grow b c) : Grow a c := by
  obtain ⟨e0, n1, e1, s1⟩ := h
  obtain ⟨e0', n2, e2, s2⟩ := h'
  refine ⟨e0'.trans e0, n2 ++ n1, by rw [e2, e1, List.append_assoc], ?_⟩
  intro n hn
  rcases s1 n hn with h | h
  · rcases s2 n h with h | h
    · exact Or.inl h
    · exact Or.inr (List.mem_append_left _ h)
  · exact Or.inr (List.mem_append_right _ h)

theorem grow_noticed (m : S) (n : Nat) : Grow m (noticed m n) := by
  refine ⟨rfl, [.handled n], rfl, ?_⟩
  intro k hk
  by_cases h : k = n
  · exact Or.inr (by rw [h]; exact List.mem_singleton_self _)
  · refine Or.inl ?_
    show ((if k = n then _ else m.tr k : T)).set = true
    rw [if_neg h]
    exact hk

theorem grow_runtrap (m : S) (n : Nat) : Grow (noticed m n) (runtrap m n) := by
  rw [runtrap_eq]
  split
  · split
    · exact Grow.same rfl rfl (fun _ => rfl)
    · exact Grow.rfl' _
  · exact Grow.rfl' _
  · refine ⟨?_, [.ran n _], rfl, ?_⟩
    · split <;> rfl
    · intro k hk
      refine Or.inl ?_
      show ((ite _ _ _ : S).tr k).set = true
      split
      · simp only [S.upd]
        split <;> exact hk
      · exact hk

theorem grow_step (m : S) (op : Op) : Grow m (step m op) := by
  unfold step
  split
  · rename_i n
    split
    · refine ⟨rfl, [.arrive n], rfl, ?_⟩
      intro k hk
      refine Or.inl ?_
      simp only [trapsig, S.upd]
      split
      · rfl
      · exact hk
    · exact Grow.rfl' _
  · split
    · exact Grow.same rfl rfl (fun _ => rfl)
    · exact Grow.rfl' _
  · rename_i op _ _
    split
    · exact Grow.rfl' _
    · unfold act
      split
      · split
        · rename_i n a _ _ _
          refine ⟨rfl, [.set n a], rfl, ?_⟩
          intro k hk
          refine Or.inl ?_
          simp only [settrap, S.upd]
          split <;> exact hk
        · exact Grow.rfl' _
      · split
        · exact Grow.same rfl rfl (fun _ => rfl)
        · exact Grow.rfl' _
      · split
        · exact Grow.same rfl rfl (fun _ => rfl)
        · exact Grow.rfl' _
      · split
        · split
          · exact Grow.same rfl rfl (fun _ => rfl)
          · exact Grow.same rfl rfl (fun _ => rfl)
        · rename_i i st _
          refine Grow.trans ?_ (grow_runtrap _ _)
          exact (Grow.same rfl rfl (fun _ => rfl) : Grow m { m with stack := .loop (i + 1) :: st }).trans (grow_noticed _ _)
        · exact Grow.rfl' _
      · split
        · refine Grow.same ?_ ?_ ?_
          · simp only [afterAction, S.upd]; split <;> rfl
          · simp only [afterAction, S.upd]; split <;> rfl
          · intro k
            simp only [afterAction, S.upd]
            split
            · simp only
              split <;> rfl
            · rfl
        · exact Grow.rfl' _
      · split
        · refine Grow.trans ?_ (grow_runtrap _ _)
          refine Grow.trans (b := { m with log := .arrive 0 :: m.log }) ⟨rfl, [.arrive 0], rfl, fun _ h => Or.inl h⟩ (grow_noticed _ _)
        · exact Grow.rfl' _
      · exact Grow.rfl' _

/-! ### What one step does to the stack -/

/-- As long as the frame of an action is on the stack, what is below stays; it is left
by the end of the action or by a jump. -/
theorem keep_action {m : S} {op : Op} {u rest : List Frame} {k a e c} (h : m.stack = u ++ .action k a e c :: rest) :
    (∃ u', (step m op).stack = u' ++ .action k a e c :: rest) ∨
    (u = [] ∧ op = .finish ∧ step m op = afterAction { m with stack := rest } k a e c) ∨
    (∃ j, (step m op).stack = rest.drop j ∧ user (rest.drop j) = true) := by
  have keep : ∀ {m' : S}, m'.stack = m.stack → ∃ u', m'.stack = u' ++ .action k a e c :: rest :=
    fun hm => ⟨u, by rw [hm, h]⟩
  unfold step
  split
  · split
    · exact Or.inl (keep rfl)
    · exact Or.inl (keep rfl)
  · rename_i j
    split
    · rename_i hu
      simp only [Bool.and_eq_true] at hu
      simp only
      rw [h] at hu ⊢
      rw [List.drop_append] at hu ⊢
      by_cases hj : j ≤ u.length
      · have : j - u.length = 0 := by omega
        rw [this, List.drop_zero]
        exact Or.inl ⟨_, rfl⟩
      · refine Or.inr (Or.inr ⟨j - u.length - 1, ?_, ?_⟩)
        · rw [List.drop_eq_nil_of_le (by omega), List.nil_append]
          have : j - u.length = (j - u.length - 1) + 1 := by omega
          rw [this, List.drop_succ_cons]
          simp
        · have h2 := hu.2
          rw [List.drop_eq_nil_of_le (by omega), List.nil_append] at h2
          have : j - u.length = (j - u.length - 1) + 1 := by omega
          rw [this, List.drop_succ_cons] at h2
          exact h2
    · exact Or.inl (keep rfl)
  · split
    · exact Or.inl (keep rfl)
    · rename_i op _ _ _
      unfold act
      split
      · split
        · exact Or.inl (keep rfl)
        · exact Or.inl (keep rfl)
      · split
        · exact Or.inl (keep rfl)
        · exact Or.inl (keep rfl)
      · split
        · exact Or.inl ⟨.loop 0 :: u, by simp [h]⟩
        · exact Or.inl (keep rfl)
      · split
        · rename_i i st es
          rw [h] at es
          cases u with
          | nil => simp at es
          | cons f u =>
            simp only [List.cons_append, List.cons.injEq] at es
            split
            · exact Or.inl ⟨(if (m.tr i).set then Frame.hit i else Frame.loop (i + 1)) :: u, by simp [es.2]⟩
            · exact Or.inl ⟨u, by simp [es.2]⟩
        · rename_i i st es
          rw [h] at es
          cases u with
          | nil => simp at es
          | cons f u =>
            simp only [List.cons_append, List.cons.injEq] at es
            obtain ⟨top, e1, _, _⟩ := runtrap_stack { m with stack := .loop (i + 1) :: st } i
            exact Or.inl ⟨top ++ .loop (i + 1) :: u, by rw [e1]; simp [es.2]⟩
        · exact Or.inl (keep rfl)
      · split
        · rename_i n' str oex och st es
          cases u with
          | nil =>
            refine Or.inr (Or.inl ⟨rfl, rfl, ?_⟩)
            rw [h] at es
            simp only [List.nil_append, List.cons.injEq, Frame.action.injEq] at es
            obtain ⟨⟨e1, e2, e3, e4⟩, e5⟩ := es
            subst e1 e2 e3 e4 e5
            rfl
          | cons f u =>
            rw [h] at es
            simp only [List.cons_append, List.cons.injEq] at es
            have : (afterAction { m with stack := st } n' str oex och).stack = st := by
              simp only [afterAction, S.upd]
              split <;> rfl
            exact Or.inl ⟨u, by rw [this]; exact es.2.symm⟩
        · exact Or.inl (keep rfl)
      · split
        · obtain ⟨top, e1, _, _⟩ := runtrap_stack { m with log := .arrive 0 :: m.log } 0
          exact Or.inl ⟨top ++ u, by rw [e1]; simp [h]⟩
        · exact Or.inl (keep rfl)
      · exact Or.inl (keep rfl)

/-! ### A safe point -/

/-- Execution that stays above a depth of the stack. -/
inductive During (depth : Nat) (s : S) : S → Prop
  | refl : During depth s s
  | snoc {m op} : During depth s m → depth < (step m op).stack.length → During depth s (step m op)

/-- In the call of runtraps made in `s0`, about to look at `i`. -/
structure Rest (s0 m : S) (i : Nat) : Prop where
  nsig : m.nsig = s0.nsig
  log : ∃ new, m.log = new ++ s0.log ∧
    ∀ n, n ≤ s0.nsig → Waiting n s0.log → (i ≤ n ∧ (m.tr n).set = true) ∨ Ev.handled n ∈ new

theorem Rest.grow {s0 m m' : S} {i} (h : Rest s0 m i) (g : Grow m m') : Rest s0 m' i := by
  obtain ⟨e0, n2, e2, s2⟩ := g
  obtain ⟨n1, e1, s1⟩ := h.log
  refine ⟨e0.trans h.nsig, n2 ++ n1, by rw [e2, e1, List.append_assoc], ?_⟩
  intro n hn hw
  rcases s1 n hn hw with h | h
  · rcases s2 n h.2 with h2 | h2
    · exact Or.inl ⟨h.1, h2⟩
    · exact Or.inr (List.mem_append_left _ h2)
  · exact Or.inr (List.mem_append_right _ h)

inductive At (s0 m : S) : Prop
  | loop (i : Nat) : m.stack = .loop i :: s0.stack → m.gone = true ∨ m.exstat = s0.exstat → Rest s0 m i → At s0 m
  | hit (i : Nat) : m.stack = .hit i :: s0.stack → m.exstat = s0.exstat → Rest s0 m i → At s0 m
  | inner (u k a c i) : m.stack = u ++ .action k a s0.exstat c :: .loop i :: s0.stack → Rest s0 m i → At s0 m

theorem runtrap_cases (m : S) (n : Nat) :
    ((runtrap m n).stack = m.stack ∧ ((runtrap m n).gone = true ∨ (runtrap m n).exstat = m.exstat)) ∨
    (∃ a c, (runtrap m n).stack = .action n a m.exstat c :: m.stack) := by
  rw [runtrap_eq]
  split
  · split
    · exact Or.inl ⟨rfl, Or.inl rfl⟩
    · exact Or.inl ⟨rfl, Or.inr rfl⟩
  · exact Or.inl ⟨rfl, Or.inr rfl⟩
  · exact Or.inr ⟨_, _, rfl⟩

/-- The steps that do not touch the top frame of runtraps. -/
theorem top_loop {m : S} {op : Op} {f : Frame} {st} (hf : user (f :: st) = false) (h : m.stack = f :: st) :
    op = .step ∨ ((step m op).stack = m.stack ∧ (step m op).gone = m.gone ∧ (step m op).exstat = m.exstat) ∨
    (∃ k, (step m op).stack = st.drop k) := by
  have hu : user m.stack = false := by rw [h]; exact hf
  cases op with
  | step => exact Or.inl rfl
  | arrive n =>
    simp only [step]
    split
    · exact Or.inr (Or.inl ⟨rfl, rfl, rfl⟩)
    · exact Or.inr (Or.inl ⟨rfl, rfl, rfl⟩)
  | unwind k =>
    simp only [step]
    split
    · rename_i hc
      simp only [Bool.and_eq_true] at hc
      cases k with
      | zero => rw [List.drop_zero, hu] at hc; simp at hc
      | succ k => exact Or.inr (Or.inr ⟨k, by simp [h]⟩)
    · exact Or.inr (Or.inl ⟨rfl, rfl, rfl⟩)
  | settrap n a => simp [step, act, hu]
  | status v => simp [step, act, hu]
  | safe => simp [step, act, hu]
  | exit => simp [step, act, hu]
  | finish =>
    refine Or.inr (Or.inl ?_)
    simp only [step, act, h]
    split
    · exact ⟨h, rfl, rfl⟩
    · cases f <;> simp [user] at hf ⊢ <;> simp [h]

/-- What follows from one more step, if it does not leave runtraps by a jump. -/
theorem At.next {s0 m : S} {op : Op} (h : At s0 m) (hd : s0.stack.length < (step m op).stack.length) : At s0 (step m op) := by
  have g := grow_step m op
  cases h with
  | loop i hs he hr =>
    have hr' := hr.grow g
    rcases top_loop (op := op) (by rfl) hs with rfl | ⟨e1, e2, e3⟩ | ⟨k, e⟩
    · -- the loop goes on
      cases hg : m.gone with
      | true =>
        have : step m .step = m := by simp [step, hg]
        rw [this]
        exact .loop i hs he hr
      | false =>
        have he : m.exstat = s0.exstat := by simpa [hg] using he
        have e : step m .step = act m .step := by simp [step, hg]
        rw [e] at hd hr' g ⊢
        simp only [act, hs] at hd hr' g ⊢
        split at hd
        · rename_i hi
          simp only [hi, if_true] at hr' g ⊢
          by_cases hset : (m.tr i).set = true
          · simp only [hset, if_true] at hr' ⊢
            exact .hit i rfl he hr'
          · simp only [hset, if_false, Bool.false_eq_true] at hr' ⊢
            refine .loop (i + 1) rfl (Or.inr he) ⟨hr'.nsig, ?_⟩
            obtain ⟨new, e1, h1⟩ := hr.log
            refine ⟨new, e1, ?_⟩
            intro n hn hw
            rcases h1 n hn hw with h | h
            · refine Or.inl ⟨?_, h.2⟩
              have : i ≠ n := by
                intro e
                rw [e] at hset
                exact hset h.2
              omega
            · exact Or.inr h
        · exact absurd hd (by simp)
    · exact .loop i (by rw [e1, hs]) (by rw [e2, e3]; exact he) hr'
    · rw [e, List.length_drop] at hd
      omega
  | hit i hs he hr =>
    have hr' := hr.grow g
    rcases top_loop (op := op) (by rfl) hs with rfl | ⟨e1, e2, e3⟩ | ⟨k, e⟩
    · cases hg : m.gone with
      | true =>
        have : step m .step = m := by simp [step, hg]
        rw [this]
        exact .hit i hs he hr
      | false =>
        have e : step m .step = runtrap { m with stack := .loop (i + 1) :: s0.stack } i := by
          simp [step, hg, act, hs]
        rw [e] at hd ⊢
        -- the signal `i` is taken notice of
        have hr2 : Rest s0 (noticed { m with stack := .loop (i + 1) :: s0.stack } i) (i + 1) := by
          refine ⟨hr.nsig, ?_⟩
          obtain ⟨new, e1, h1⟩ := hr.log
          refine ⟨.handled i :: new, by show Ev.handled i :: m.log = _; rw [e1]; rfl, ?_⟩
          intro n hn hw
          by_cases hi : n = i
          · exact Or.inr (by rw [hi]; exact List.mem_cons_self)
          · rcases h1 n hn hw with h | h
            · refine Or.inl ⟨by omega, ?_⟩
              show ((if n = i then _ else m.tr n : T)).set = true
              rw [if_neg hi]
              exact h.2
            · exact Or.inr (List.mem_cons_of_mem _ h)
        have hr3 := hr2.grow (grow_runtrap _ _)
        rcases runtrap_cases { m with stack := .loop (i + 1) :: s0.stack } i with ⟨e1, e2⟩ | ⟨a, c, e1⟩
        · refine .loop (i + 1) e1 ?_ hr3
          rcases e2 with e2 | e2
          · exact Or.inl e2
          · exact Or.inr (e2.trans he)
        · exact .inner [] i a c (i + 1) (by rw [e1]; simp [he]) hr3
    · exact .hit i (by rw [e1, hs]) (by rw [e3]; exact he) hr'
    · rw [e, List.length_drop] at hd
      omega
  | inner u k a c i hs hr =>
    have hr' := hr.grow g
    rcases keep_action (op := op) hs with ⟨u', e⟩ | ⟨rfl, rfl, e⟩ | ⟨j, e, hu⟩
    · exact .inner u' k a c i e hr'
    · refine .loop i ?_ (Or.inr ?_) hr'
      · rw [e]
        simp only [afterAction, S.upd]
        split <;> rfl
      · rw [e]
        simp only [afterAction, S.upd]
        split <;> rfl
    · cases j with
      | zero => rw [List.drop_zero] at hu; simp [user] at hu
      | succ j =>
        rw [e, List.drop_succ_cons, List.length_drop] at hd
        omega

/-- **C38** When the shell reaches a safe point with `trap` set and the call of runtraps
returns, every signal that was waiting has been taken notice of, and `$?` is what it was.
Between the two any signals may arrive, and the actions may do anything that does not leave
runtraps by a jump. -/
theorem safe_point (nsig : Nat) (f : Nat → Bool) (l : List Op) {s m : S} (hs : s = run (init nsig f) l)
    (hu : user s.stack = true) (hg : s.gone = false) (ht : s.trap = true)
    (hd : During s.stack.length (step s .safe) m) (he : (step m .step).stack.length ≤ s.stack.length) :
    (step m .step).stack = s.stack ∧ (step m .step).exstat = s.exstat ∧
    ∃ new, (step m .step).log = new ++ s.log ∧ ∀ n, n ≤ s.nsig → Waiting n s.log → Ev.handled n ∈ new := by
  have hF : Flags s := by rw [hs]; exact (flags_run nsig f l).1
  have e0 : step s .safe = { s with trap := false, stack := .loop 0 :: s.stack } := by
    simp [step, hg, act, hu, ht]
  have hat : At s m := by
    clear he
    induction hd with
    | refl =>
      rw [e0]
      exact .loop 0 rfl (Or.inr rfl) ⟨rfl, [], rfl, fun n _ hw => Or.inl ⟨Nat.zero_le _, (hF.set n).2 hw⟩⟩
    | snoc _ hl ih => exact ih.next hl
  have hcontra : ∀ {x : Frame}, (step m .step).stack = x :: s.stack → False := by
    intro x e
    rw [e] at he
    simp at he
    omega
  cases hat with
  | loop i hst hex hr =>
    cases hg' : m.gone with
    | true =>
      have : step m .step = m := by simp [step, hg']
      rw [this] at hcontra
      exact (hcontra hst).elim
    | false =>
      by_cases hi : i ≤ m.nsig
      · exact (hcontra (x := if (m.tr i).set then Frame.hit i else Frame.loop (i + 1)) (by simp [step, hg', act, hst, hi])).elim
      · have e : step m .step = { m with stack := s.stack } := by simp [step, hg', act, hst, hi]
        rw [e]
        refine ⟨rfl, by simpa [hg'] using hex, ?_⟩
        obtain ⟨new, e1, h1⟩ := hr.log
        refine ⟨new, e1, ?_⟩
        intro n hn hw
        rcases h1 n hn hw with h | h
        · exfalso
          have := hr.nsig
          omega
        · exact h
  | hit i hst hex hr =>
    exfalso
    cases hg' : m.gone with
    | true =>
      have : step m .step = m := by simp [step, hg']
      rw [this] at hcontra
      exact hcontra hst
    | false =>
      have e : step m .step = runtrap { m with stack := .loop (i + 1) :: s.stack } i := by
        simp [step, hg', act, hst]
      obtain ⟨top, e1, _, _⟩ := runtrap_stack { m with stack := .loop (i + 1) :: s.stack } i
      rw [e, e1] at he
      simp at he
      omega
  | inner u k a c i hst hr =>
    exfalso
    rcases keep_action (op := .step) hst with ⟨u', e⟩ | ⟨_, e, _⟩ | ⟨j, e, huj⟩
    · rw [e] at he
      simp at he
      omega
    · simp at e
    · cases j with
      | zero => rw [List.drop_zero] at huj; simp [user] at huj
      | succ j =>
        have : (step m .step).stack.length ≤ s.stack.length := he
        -- `step` never shortens the stack by a jump
        cases hg' : m.gone with
        | true =>
          have e2 : step m .step = m := by simp [step, hg']
          rw [e2, hst, List.drop_succ_cons] at e
          have := congrArg List.length e
          simp at this
          omega
        | false =>
          have e2 : step m .step = act m .step := by simp [step, hg']
          have hlen : m.stack.length ≤ (act m .step).stack.length + 1 := by
            simp only [act]
            split
            · rename_i h; split <;> simp [h]
            · rename_i i' st' h
              obtain ⟨top, e1, _, _⟩ := runtrap_stack { m with stack := .loop (i' + 1) :: st' } i'
              rw [e1]; simp [h]; omega
            · omega
          rw [← e2, e, hst, List.drop_succ_cons] at hlen
          simp at hlen
          omega

/-! ### Nothing is forgotten -/

def Live (s : S) : Prop := ∀ n, (s.tr n).set = true → n ≤ s.nsig → s.trap = true ∨
  ∃ i, (Frame.loop i ∈ s.stack ∨ Frame.hit i ∈ s.stack) ∧ i ≤ n

theorem Live.congr {s t : S} (h : Live s) (h0 : t.nsig = s.nsig) (h1 : ∀ n, (t.tr n).set = true → (s.tr n).set = true)
    (h2 : t.trap = s.trap) (h3 : ∀ f ∈ s.stack, user [f] = false → f ∈ t.stack) : Live t := by
  intro n hn hle
  rcases h n (h1 n hn) (by rw [← h0]; exact hle) with h | ⟨i, h | h, hi⟩
  · exact Or.inl (by rw [h2]; exact h)
  · exact Or.inr ⟨i, Or.inl (h3 _ h rfl), hi⟩
  · exact Or.inr ⟨i, Or.inr (h3 _ h rfl), hi⟩

theorem noticed_live {s : S} {n} (h : Live s) : Live (noticed s n) := by
  refine h.congr rfl ?_ rfl (fun f hf _ => hf)
  intro k hk
  simp only [noticed, S.upd] at hk
  split at hk
  · simp at hk
  · exact hk

theorem runtrap_live {s : S} {n} (h : Live (noticed s n)) : Live (runtrap s n) := by
  rw [runtrap_eq]
  split
  · split
    · exact h.congr rfl (fun _ h => h) rfl (fun f hf _ => hf)
    · exact h
  · exact h
  · refine h.congr ?_ ?_ ?_ ?_
    · split <;> rfl
    · intro k
      show ((ite _ _ _ : S).tr k).set = true → _
      split
      · simp only [S.upd]
        split <;> exact fun h => h
      · exact fun h => h
    · show (ite _ _ _ : S).trap = _
      split <;> rfl
    · intro f hf _
      exact List.mem_cons_of_mem _ hf

theorem Live.step {s : S} {op} (h : Live s) (hop : ∀ k, op ≠ .unwind k) : Live (step s op) := by
  unfold Trap.step
  split
  · split
    · intro n _ _
      exact Or.inl rfl
    · exact h
  · exact absurd rfl (hop _)
  · split
    · exact h
    · unfold act
      split
      · split
        · refine h.congr rfl ?_ rfl (fun f hf _ => hf)
          intro k hk
          simp only [settrap, S.upd] at hk
          split at hk <;> exact hk
        · exact h
      · split
        · exact h.congr rfl (fun _ h => h) rfl (fun f hf _ => hf)
        · exact h
      · split
        · intro n _ _
          exact Or.inr ⟨0, Or.inl List.mem_cons_self, Nat.zero_le _⟩
        · exact h
      · split
        · rename_i i st e
          split
          · rename_i hi
            intro n hn hle
            rcases h n hn hle with h1 | ⟨j, hj, hjn⟩
            · exact Or.inl h1
            · have old : ∀ {g : Frame}, g ∈ s.stack → g ≠ .loop i → g ∈ ((if (s.tr i).set then Frame.hit i else Frame.loop (i + 1)) :: st) := by
                intro g hg hne
                rw [e] at hg
                rcases List.mem_cons.1 hg with hg | hg
                · exact absurd hg hne
                · exact List.mem_cons_of_mem _ hg
              by_cases hji : j = i ∧ Frame.loop j ∈ s.stack
              · -- the frame that moves
                by_cases hset : (s.tr i).set = true
                · exact Or.inr ⟨i, Or.inr (by simp [hset]), by omega⟩
                · refine Or.inr ⟨i + 1, Or.inl (by simp [hset]), ?_⟩
                  have : i ≠ n := by
                    intro e1
                    rw [e1] at hset
                    exact hset hn
                  omega
              · rcases hj with hj | hj
                · exact Or.inr ⟨j, Or.inl (old hj (by intro e1; simp only [Frame.loop.injEq] at e1; exact hji ⟨e1, hj⟩)), hjn⟩
                · exact Or.inr ⟨j, Or.inr (old hj (by simp)), hjn⟩
          · rename_i hi
            intro n hn hle
            rcases h n hn hle with h1 | ⟨j, hj, hjn⟩
            · exact Or.inl h1
            · have hle : n ≤ s.nsig := hle
              rw [e] at hj
              rcases hj with hj | hj
              · rcases List.mem_cons.1 hj with e1 | hj
                · simp only [Frame.loop.injEq] at e1
                  omega
                · exact Or.inr ⟨j, Or.inl hj, hjn⟩
              · rcases List.mem_cons.1 hj with e1 | hj
                · simp at e1
                · exact Or.inr ⟨j, Or.inr hj, hjn⟩
        · rename_i i st e
          refine runtrap_live ?_
          intro n hn hle
          simp only [noticed, S.upd] at hn
          split at hn
          · simp at hn
          · rename_i hne
            rcases h n hn hle with h1 | ⟨j, hj, hjn⟩
            · exact Or.inl h1
            · rw [e] at hj
              rcases hj with hj | hj
              · rcases List.mem_cons.1 hj with e1 | hj
                · simp at e1
                · exact Or.inr ⟨j, Or.inl (List.mem_cons_of_mem _ hj), hjn⟩
              · rcases List.mem_cons.1 hj with e1 | hj
                · simp only [Frame.hit.injEq] at e1
                  exact Or.inr ⟨i + 1, Or.inl List.mem_cons_self, by omega⟩
                · exact Or.inr ⟨j, Or.inr (List.mem_cons_of_mem _ hj), hjn⟩
        · exact h
      · split
        · rename_i n str oex och st e
          refine h.congr ?_ ?_ ?_ ?_
          · simp only [afterAction, S.upd]; split <;> rfl
          · intro k hk
            simp only [afterAction, S.upd] at hk
            split at hk
            · simp only at hk
              split at hk <;> exact hk
            · exact hk
          · simp only [afterAction, S.upd]; split <;> rfl
          · intro f hf hfu
            have : (afterAction { s with stack := st } n str oex och).stack = st := by
              simp only [afterAction, S.upd]
              split <;> rfl
            rw [this]
            rw [e] at hf
            rcases List.mem_cons.1 hf with e1 | hf
            · rw [e1] at hfu; simp [user] at hfu
            · exact hf
        · exact h
      · split
        · refine runtrap_live (noticed_live ?_)
          exact h.congr rfl (fun _ h => h) rfl (fun f hf _ => hf)
        · exact h
      · exact h

/-- **C38** When the shell executes the script and `trap` is not set, no signal is
waiting: a safe point that finds `trap` unset misses nothing.

Partial: no jump has left a call of runtraps, see `return_forgets`. -/
theorem nothing_forgotten_partial (nsig : Nat) (f : Nat → Bool) (l : List Op) (hl : ∀ op ∈ l, ∀ k, op ≠ .unwind k)
    {n : Nat} (hn : n ≤ nsig) (hs : (run (init nsig f) l).stack = []) (ht : (run (init nsig f) l).trap = false) :
    ¬Waiting n (run (init nsig f) l).log := by
  have hlive : ∀ (l : List Op) (s : S), Live s → (∀ op ∈ l, ∀ k, op ≠ .unwind k) → Live (run s l) := by
    intro l
    induction l with
    | nil => exact fun s h _ => h
    | cons op l ih =>
      intro s h hl
      exact ih (step s op) (h.step (hl op List.mem_cons_self)) (fun o ho => hl o (List.mem_cons_of_mem _ ho))
  have hL := hlive l (init nsig f) (by intro n hn; simp [init] at hn) hl
  have hN : ∀ (l : List Op) (s : S), (run s l).nsig = s.nsig := by
    intro l
    induction l with
    | nil => exact fun _ => rfl
    | cons op l ih => exact fun s => (ih (step s op)).trans (grow_step s op).1
  intro hw
  have hset := ((flags_run nsig f l).1.set n).2 hw
  rcases hL n hset (by rw [hN]; exact hn) with h | ⟨i, h | h, _⟩
  · rw [ht] at h; simp at h
  · rw [hs] at h; simp at h
  · rw [hs] at h; simp at h

/-- In a function, with `trap 'return' 2` and `trap ... 3`: both signals arrive, the
action for 2 returns from the function. -/
def returned : S :=
  run (init 64 (fun _ => false)) [.settrap 2 (some "return".toList), .settrap 3 (some "echo 3".toList),
    .arrive 3, .arrive 2, .safe, .step, .step, .step, .step, .unwind 2]

/-- **C38** The action for 3 is not run: the signal still waits, but `trap` is not set,
so that the next safe point does not look. -/
theorem return_forgets : returned.stack = [] ∧ returned.gone = false ∧ Waiting 3 returned.log ∧
    step returned .safe = returned := by
  refine ⟨by decide, by decide, ⟨[.ran 2 "return".toList, .handled 2, .arrive 2], [.set 3 (some "echo 3".toList), .set 2 (some "return".toList)],
    by decide, by decide⟩, ?_⟩
  have : returned.trap = false := by decide
  simp [step, act, this]

end Ksh.Trap
