import Verif.Tmout.Model

/-!
# C129: TMOUT
-/
namespace Ksh.Tmout

/-! ## Lemmas -/

/-- What holds at all times. -/
structure Inv (s : S) : Prop where
  exec : s.phase = .exec → s.st = .executing
  gone : s.phase = .gone → s.asked ≠ 0 ∧ s.asked ≤ s.waited
  read : s.st = .reading → s.asked ≠ 0 ∧
    match s.alarm with
    | none => s.asked ≤ s.waited
    | some n => n + s.waited = s.asked ∧ n ≠ 0
  leave : s.st = .leaving → s.asked ≠ 0 ∧ s.asked ≤ s.waited
  on : s.st ≠ .executing → s.tmout ≠ 0

theorem Inv.init : Inv init := ⟨fun _ => rfl, by decide, by simp [Tmout.init], by decide, by decide⟩

theorem act_fields (s : S) (v : Option Int) : (act s v).phase = s.phase ∧
    (act s v).st = s.st ∧ (act s v).alarm = s.alarm ∧ (act s v).waited = s.waited ∧
    (act s v).asked = s.asked ∧ (act s v).trap = s.trap := by
  cases v <;> simp [act, setTm]

theorem Inv.act {s : S} (h : Inv s) (he : s.st = .executing) (v : Option Int) :
    Inv (act s v) := by
  obtain ⟨h1, h2, h3, h4, h5, h6⟩ := act_fields s v
  refine ⟨?_, ?_, ?_, ?_, fun e => absurd (h2.trans he) e⟩
  · rw [h1, h2]; exact h.exec
  · rw [h1, h4, h5]; exact h.gone
  · rw [h2, h3, h4, h5]; exact h.read
  · rw [h2, h4, h5]; exact h.leave

theorem Inv.runtraps {s : S} (h : Inv s) (v : Option Int) : Inv (runtraps s v) := by
  unfold Tmout.runtraps
  split
  · rename_i hl
    exact ⟨by simp, fun _ => h.leave hl, by simp, by simp, by simp⟩
  · apply Inv.act
    · exact ⟨by simp, h.gone, by simp, by simp, by simp⟩
    · rfl

theorem Inv.trap {s : S} (h : Inv s) (b : Bool) : Inv { s with trap := b } :=
  ⟨h.exec, h.gone, h.read, h.leave, h.on⟩

theorem Inv.interrupted {s : S} (h : Inv s) (v : Option Int) : Inv (interrupted s v) := by
  unfold Tmout.interrupted
  split
  · split
    · exact h.runtraps v
    · exact h
  · exact h

theorem Inv.alarmCatcher {s : S} (h : Inv s) : Inv (alarmCatcher s) := by
  unfold Tmout.alarmCatcher
  simp only
  split
  · rename_i hr
    have := h.read hr
    have he : s.phase ≠ .exec := by
      intro e
      have := h.exec e
      rw [hr] at this
      cases this
    split
    · rename_i ha
      rw [ha] at this
      exact ⟨fun e => absurd e he, h.gone, by simp, fun _ => this,
        fun _ => h.on (by simp [hr])⟩
    · rename_i n ha
      rw [ha] at this
      exact ⟨h.exec, h.gone, fun _ => this, h.leave, h.on⟩
  · exact h.trap true

theorem Inv.tick {s : S} (h : Inv s) : Inv (tick s) := by
  unfold Tmout.tick
  simp only
  have hw : ∀ a : Option Nat, (s.st = .reading → s.asked ≠ 0 ∧
      match a with
      | none => s.asked ≤ s.waited + 1
      | some n => n + (s.waited + 1) = s.asked ∧ n ≠ 0) →
      Inv { s with waited := s.waited + 1, alarm := a } := by
    intro a ha
    exact ⟨h.exec, fun e => ⟨(h.gone e).1, Nat.le_succ_of_le (h.gone e).2⟩, ha,
      fun e => ⟨(h.leave e).1, Nat.le_succ_of_le (h.leave e).2⟩, h.on⟩
  split
  · rename_i ha
    refine hw s.alarm ?_
    intro hr
    have := h.read hr
    rw [ha] at this ⊢
    exact ⟨this.1, Nat.le_succ_of_le this.2⟩
  · rename_i ha
    refine hw s.alarm ?_
    intro hr
    have := h.read hr
    rw [ha] at this ⊢
    exact absurd rfl this.2.2
  · rename_i ha
    apply Inv.interrupted
    apply Inv.alarmCatcher
    refine hw none ?_
    intro hr
    have := h.read hr
    rw [ha] at this
    refine ⟨this.1, ?_⟩
    have := this.2.1
    simp only
    omega
  · rename_i n ha
    refine hw (some (n + 1)) ?_
    intro hr
    have := h.read hr
    rw [ha] at this
    refine ⟨this.1, ?_, by omega⟩
    have := this.2.1
    omega

theorem Inv.step {s : S} (h : Inv s) (e : Ev) : Inv (step s e) := by
  cases e with
  | prompt =>
    simp only [Tmout.step]
    split
    · rename_i hp
      have he := h.exec hp
      split
      · rename_i ht
        exact ⟨by simp, by simp, fun _ => ⟨ht, by simp, ht⟩, by simp, fun _ => ht⟩
      · exact ⟨by simp, by simp, by simp [he], by simp [he], by simp [he]⟩
    · exact h
  | read =>
    simp only [Tmout.step]
    split
    · exact ⟨by simp, by simp, h.read, h.leave, h.on⟩
    · exact h
  | key =>
    simp only [Tmout.step]
    split
    · exact ⟨by simp, by simp, h.read, h.leave, h.on⟩
    · exact h
  | line =>
    simp only [Tmout.step]
    split
    · split
      · exact ⟨by simp, by simp, by simp, by simp, by simp⟩
      · rename_i ht
        have he : s.st = .executing := by
          apply Classical.byContradiction
          intro e
          exact ht (h.on e)
        exact ⟨fun _ => he, by simp, by simp [he], by simp [he], by simp [he]⟩
    · exact h
  | tick =>
    simp only [Tmout.step]
    split
    · exact h
    · exact h.tick
  | alrm =>
    simp only [Tmout.step]
    split
    · exact h
    · exact h.alarmCatcher.interrupted none
  | sig v =>
    simp only [Tmout.step]
    split
    · exact h
    · exact (h.trap true).interrupted v
  | intr =>
    simp only [Tmout.step]
    split
    · have := (h.trap true).runtraps none
      split
      · exact this
      · refine ⟨fun _ => ?_, by simp, this.read, this.leave, this.on⟩
        unfold Tmout.runtraps at *
        split
        · rfl
        · simp [Tmout.act]
    · exact h
  | command =>
    simp only [Tmout.step]
    split
    · exact h.runtraps none
    · exact h
  | assign v =>
    simp only [Tmout.step]
    split
    · rename_i hp
      exact h.act (h.exec hp) (some v)
    · exact h
  | unset =>
    simp only [Tmout.step]
    split
    · exact ⟨h.exec, h.gone, h.read, h.leave, h.on⟩
    · exact h

theorem inv_run : ∀ (l : List Ev) (s : S), Inv s → Inv (run s l)
  | [], _, h => h
  | e :: l, s, h => inv_run l (step s e) (h.step e)

/-! ## Properties -/

/-- The shell never leaves early: when it has left, TMOUT was in force at the last prompt and
that many seconds have passed since. -/
theorem not_early (l : List Ev) (h : (run init l).phase = .gone) :
    (run init l).asked ≠ 0 ∧ (run init l).asked ≤ (run init l).waited :=
  (inv_run l init Inv.init).gone h

/-- It leaves only while it waits for input, never while it executes a command: a step that
ends it starts in a `read`. -/
theorem only_waiting (l : List Ev) (e : Ev) (h0 : (run init l).phase ≠ .gone)
    (h : (step (run init l) e).phase = .gone) : (run init l).phase = .blocked := by
  have I : Inv (run init l) := inv_run l init Inv.init
  generalize run init l = s at *
  have hint : ∀ (t : S) (v : Option Int), t.phase = s.phase →
      (interrupted t v).phase = .gone → s.phase = .blocked := by
    intro t v ht hg
    unfold interrupted at hg
    split at hg
    · rename_i hb
      exact ht ▸ hb
    · exact absurd (ht ▸ hg) h0
  have hal : ∀ t : S, (alarmCatcher t).phase = t.phase := by
    intro t
    simp only [alarmCatcher]
    split
    · split <;> rfl
    · rfl
  cases e with
  | prompt =>
    simp only [step] at h
    split at h
    · split at h <;> cases h
    · exact absurd h h0
  | read =>
    simp only [step] at h
    split at h
    · cases h
    · exact absurd h h0
  | key =>
    simp only [step] at h
    split at h
    · cases h
    · exact absurd h h0
  | line =>
    simp only [step] at h
    split at h
    · split at h <;> cases h
    · exact absurd h h0
  | tick =>
    simp only [step, h0, if_false, tick] at h
    split at h
    · exact absurd h h0
    · exact absurd h h0
    · exact hint (alarmCatcher { s with waited := s.waited + 1, alarm := none }) _ (hal _) h
    · exact absurd h h0
  | alrm =>
    simp only [step, h0, if_false] at h
    exact hint _ _ (hal _) h
  | sig v =>
    simp only [step, h0, if_false] at h
    exact hint { s with trap := true } _ rfl h
  | intr =>
    simp only [step] at h
    split at h
    · rename_i hb
      exact hb
    · exact absurd h h0
  | command =>
    simp only [step] at h
    split at h
    · rename_i hp
      simp only [Bool.and_eq_true, decide_eq_true_eq] at hp
      simp only [runtraps, I.exec hp.1] at h
      simp only [act] at h
      rw [if_neg (by simp)] at h
      exact absurd h h0
    · exact absurd h h0
  | assign v =>
    simp only [step] at h
    split at h
    · exact absurd h h0
    · exact absurd h h0
  | unset =>
    simp only [step] at h
    split at h
    · exact absurd h h0
    · exact absurd h h0

/-- Events of a user who has not finished the line, and of the clock. -/
def calm : Ev → Bool
  | .read | .key | .tick => true
  | _ => false

/-- Number of seconds in a list of events. -/
def seconds : List Ev → Nat
  | [] => 0
  | .tick :: l => seconds l + 1
  | _ :: l => seconds l

/-- While the line is being typed the alarm is kept. -/
theorem calm_keeps : ∀ (l : List Ev) (s : S) (n : Nat), (∀ e ∈ l, calm e = true) →
    s.st = .reading → s.phase ≠ .gone → s.alarm = some n → seconds l < n →
    (run s l).st = .reading ∧ (run s l).phase ≠ .gone ∧
      (run s l).alarm = some (n - seconds l)
  | [], s, n, _, h1, h2, h3, _ => by simp [run, seconds, h1, h2, h3]
  | e :: l, s, n, hc, h1, h2, h3, h4 => by
    have hl : ∀ x ∈ l, calm x = true := fun x hx => hc x (List.mem_cons_of_mem _ hx)
    have he := hc e List.mem_cons_self
    cases e <;> simp only [calm, Bool.false_eq_true] at he
    · -- read
      simp only [run, seconds]
      refine calm_keeps l _ n hl ?_ ?_ ?_ h4 <;> simp only [step] <;> split <;> simp_all
    · simp only [run, seconds]
      refine calm_keeps l _ n hl ?_ ?_ ?_ h4 <;> simp only [step] <;> split <;> simp_all
    · simp only [seconds] at h4
      obtain ⟨m, rfl⟩ : ∃ m, n = m + 2 := ⟨n - 2, by omega⟩
      have := calm_keeps l { s with waited := s.waited + 1, alarm := some (m + 1) } (m + 1) hl
        h1 h2 rfl (by omega)
      simp only [run, step, h2, if_false, tick, h3, seconds]
      refine ⟨this.1, this.2.1, ?_⟩
      rw [this.2.2]
      congr 1
      omega

theorem run_append (s : S) : ∀ (l l' : List Ev), run s (l ++ l') = run (run s l) l'
  | [], _ => rfl
  | e :: l, l' => by
    simp only [List.cons_append, run]
    exact run_append _ l l'

/-- A shell with TMOUT in force leaves once so many seconds have passed since the prompt
without a whole line, whatever was typed.  Partial: no signal is caught in between, and the
shell waits in `read` when the time is over; see `child_ends` and `missed`. -/
theorem leaves_partial (s : S) (l : List Ev) (hp : s.phase = .exec) (ht : s.tmout ≠ 0)
    (hc : ∀ e ∈ l, calm e = true) (hs : seconds l + 1 = s.tmout)
    (hb : (run s (.prompt :: l)).phase = .blocked) :
    (run s (.prompt :: l ++ [.tick])).phase = .gone := by
  rw [run_append]
  have h0 : step s .prompt = (⟨.busy, .reading, some s.tmout, s.trap, s.tmout,
      s.var, 0, s.tmout⟩ : S) := by
    simp [step, hp, ht]
  simp only [run, h0] at hb ⊢
  obtain ⟨k1, k2, k3⟩ := calm_keeps l (⟨.busy, .reading, some s.tmout, s.trap, s.tmout,
      s.var, 0, s.tmout⟩ : S) s.tmout hc rfl (by simp) rfl (by omega)
  have e1 : s.tmout - seconds l = 1 := by omega
  rw [e1] at k3
  simp only [step, tick, k3, alarmCatcher, k1, if_true, interrupted, hb, runtraps]
  rw [if_neg (by simp)]

/-- With TMOUT zero or never set the shell waits for ever. -/
theorem never (s : S) (l : List Ev) (hs : Inv s) (hp : s.phase ≠ .gone)
    (hz : s.st = .executing) (ht : s.tmout = 0)
    (ha : ∀ e ∈ l, (∀ v, e ≠ .assign v) ∧ ∀ v, e ≠ .sig (some v)) :
    (run s l).phase ≠ .gone := by
  induction l generalizing s with
  | nil => exact hp
  | cons e l ih =>
    have hl : ∀ x ∈ l, (∀ v, x ≠ .assign v) ∧ ∀ v, x ≠ .sig (some v) :=
      fun x hx => ha x (List.mem_cons_of_mem _ hx)
    have he := ha e List.mem_cons_self
    have key : (step s e).phase ≠ .gone ∧ (step s e).st = .executing ∧ (step s e).tmout = 0 := by
      have hrt : ∀ t : S, t.phase ≠ .gone → t.st = .executing → t.tmout = 0 →
          (runtraps t none).phase ≠ .gone ∧ (runtraps t none).st = .executing ∧
            (runtraps t none).tmout = 0 := by
        intro t a b c
        simp only [runtraps, b, act]
        rw [if_neg (by simp)]
        exact ⟨a, rfl, c⟩
      have hint : ∀ t : S, t.phase ≠ .gone → t.st = .executing → t.tmout = 0 →
          (interrupted t none).phase ≠ .gone ∧ (interrupted t none).st = .executing ∧
            (interrupted t none).tmout = 0 := by
        intro t a b c
        unfold interrupted
        split
        · split
          · exact hrt t a b c
          · exact ⟨a, b, c⟩
        · exact ⟨a, b, c⟩
      have hal : ∀ t : S, t.st = .executing → alarmCatcher t = { t with trap := true } := by
        intro t b
        simp only [alarmCatcher, b]
        rw [if_neg (by simp)]
      cases e with
      | prompt =>
        simp only [step]
        split
        · simp [ht, hz]
        · exact ⟨hp, hz, ht⟩
      | read => simp only [step]; split <;> simp_all
      | key => simp only [step]; split <;> simp_all
      | line => simp only [step]; split <;> simp_all
      | tick =>
        simp only [step, hp, if_false, tick]
        split
        · exact ⟨hp, hz, ht⟩
        · exact ⟨hp, hz, ht⟩
        · rw [hal { s with waited := s.waited + 1, alarm := none } hz]
          exact hint ⟨_, _, _, _, _, _, _, _⟩ hp hz ht
        · exact ⟨hp, hz, ht⟩
      | alrm =>
        simp only [step, hp, if_false]
        rw [hal s hz]
        exact hint { s with trap := true } hp hz ht
      | sig v =>
        simp only [step, hp, if_false]
        cases v with
        | none => exact hint { s with trap := true } hp hz ht
        | some v => exact absurd rfl (he.2 v)
      | intr =>
        simp only [step]
        split
        · have := hrt { s with trap := true } hp hz ht
          rw [if_neg this.1]
          exact ⟨by simp, this.2.1, this.2.2⟩
        · exact ⟨hp, hz, ht⟩
      | command =>
        simp only [step]
        split
        · exact hrt s hp hz ht
        · exact ⟨hp, hz, ht⟩
      | assign v => exact absurd rfl (he.1 v)
      | unset => simp only [step, unsetTm]; split <;> simp_all
    exact ih (step s e) (hs.step e) key.1 key.2.1 key.2.2 hl

/-- No alarm is left when a line was read, so that none reaches a program the shell turns into
by `exec`.  Partial: no trap for a signal caught while reading assigns to TMOUT or leads back to
the main loop; see `left_over`. -/
theorem no_alarm_partial (l : List Ev) (hl : ∀ e ∈ l, e ≠ .intr ∧ ∀ v, e ≠ .sig (some v))
    (hp : (run init l).phase = .exec) : (run init l).alarm = none := by
  have key : ∀ (l : List Ev) (s : S), (∀ e ∈ l, e ≠ .intr ∧ ∀ v, e ≠ .sig (some v)) →
      (s.alarm ≠ none → s.tmout ≠ 0 ∧ s.phase ≠ .exec) →
      ((run s l).alarm ≠ none → (run s l).tmout ≠ 0 ∧ (run s l).phase ≠ .exec) := by
    intro l
    induction l with
    | nil => exact fun _ _ h => h
    | cons e l ih =>
      intro s hl hs
      have he := hl e List.mem_cons_self
      refine ih (step s e) (fun x hx => hl x (List.mem_cons_of_mem _ hx)) ?_
      have hrt : ∀ t : S, (t.alarm ≠ none → t.tmout ≠ 0 ∧ t.phase ≠ .exec) →
          ((runtraps t none).alarm ≠ none →
            (runtraps t none).tmout ≠ 0 ∧ (runtraps t none).phase ≠ .exec) := by
        intro t ht
        unfold runtraps
        split
        · exact fun h => ⟨(ht h).1, by simp⟩
        · exact ht
      have hint : ∀ t : S, (t.alarm ≠ none → t.tmout ≠ 0 ∧ t.phase ≠ .exec) →
          ((interrupted t none).alarm ≠ none →
            (interrupted t none).tmout ≠ 0 ∧ (interrupted t none).phase ≠ .exec) := by
        intro t ht
        unfold interrupted
        split
        · split
          · exact hrt t ht
          · exact ht
        · exact ht
      have hal : ∀ t : S, (t.alarm ≠ none → t.tmout ≠ 0 ∧ t.phase ≠ .exec) →
          ((alarmCatcher t).alarm ≠ none →
            (alarmCatcher t).tmout ≠ 0 ∧ (alarmCatcher t).phase ≠ .exec) := by
        intro t ht
        simp only [alarmCatcher]
        split
        · split
          · rename_i h
            exact fun h' => absurd h h'
          · rename_i n h
            exact fun _ => ht (by simp_all)
        · exact ht
      cases e with
      | prompt =>
        simp only [step]
        split
        · rename_i hx
          split
          · rename_i h
            exact fun _ => ⟨h, by simp⟩
          · exact fun h => absurd hx (hs h).2
        · exact hs
      | read =>
        simp only [step]
        split
        · exact fun h => ⟨(hs h).1, by simp⟩
        · exact hs
      | key =>
        simp only [step]
        split
        · exact fun h => ⟨(hs h).1, by simp⟩
        · exact hs
      | line =>
        simp only [step]
        split
        · split
          · simp
          · rename_i h
            exact fun h' => absurd (hs h').1 h
        · exact hs
      | tick =>
        simp only [step]
        split
        · exact hs
        · simp only [tick]
          split
          · exact hs
          · exact hs
          · exact hint _ (hal _ (by simp))
          · rename_i h
            exact fun _ => hs (by simp [h])
      | alrm =>
        simp only [step]
        split
        · exact hs
        · exact hint _ (hal _ hs)
      | sig v =>
        simp only [step]
        split
        · exact hs
        · cases v with
          | none => exact hint _ hs
          | some v => exact absurd rfl (he.2 v)
      | intr => exact absurd rfl he.1
      | command =>
        simp only [step]
        split
        · exact hrt s hs
        · exact hs
      | assign v =>
        simp only [step]
        split
        · rename_i h
          exact fun h' => absurd h (hs h').2
        · exact hs
      | unset =>
        simp only [step]
        split
        · exact hs
        · exact hs
  apply Classical.byContradiction
  intro h
  exact (key l init hl (by simp [init]) h).2 hp

/-! ## Cases, and where the code falls short -/

-- TMOUT=3: typing does not start the time anew, and the whole line in time saves the shell
example : (run init [.assign 3, .command, .prompt, .read, .tick, .key, .read, .tick, .key, .read,
    .tick]).phase = .gone := by decide
example : (run init [.assign 3, .command, .prompt, .read, .tick, .tick, .line, .tick, .tick,
    .tick, .command, .prompt, .read, .tick, .tick]).phase = .blocked := by decide
-- an ALRM from somebody else does not make it leave
example : (run init [.assign 3, .command, .prompt, .read, .tick, .alrm]).phase = .blocked := by
  decide

/-- A signal caught while the shell waits, such as CHLD when a job in the background ends,
switches the timeout off until the next prompt, however long that takes. -/
theorem child_ends (n : Nat) : (run (run init [.assign 2, .command, .prompt, .read,
    .sig none]) (List.replicate n .tick)).phase = .blocked := by
  have key : ∀ (n : Nat) (s : S), s.phase = .blocked → s.st = .executing →
      (run s (List.replicate n .tick)).phase = .blocked := by
    intro n
    induction n with
    | zero => exact fun s h _ => h
    | succ n ih =>
      intro s h h'
      simp only [List.replicate_succ, run]
      have hn : s.phase ≠ .gone := by simp [h]
      have : (step s .tick).phase = .blocked ∧ (step s .tick).st = .executing := by
        simp only [step, hn, if_false, tick]
        split
        · exact ⟨h, h'⟩
        · exact ⟨h, h'⟩
        · simp only [alarmCatcher, h']
          rw [if_neg (by simp)]
          simp [interrupted, h, runtraps, act]
        · exact ⟨h, h'⟩
      exact ih _ this.1 this.2
  exact key n _ (by decide) (by decide)

/-- When the time is over while a key is being handled, nothing looks for it before the line
is complete, and then it is forgotten. -/
theorem missed : (run init [.assign 2, .command, .prompt, .read, .tick, .key, .tick, .read,
    .tick, .tick, .tick, .tick]).phase = .blocked ∧
    (run init [.assign 2, .command, .prompt, .read, .tick, .key, .tick, .read,
    .tick, .tick, .line, .command]).phase = .exec := by decide

/-- An interrupt at the prompt, or a trap that sets TMOUT to zero there, leaves the alarm on. -/
theorem left_over : (run init [.assign 9, .command, .prompt, .read, .intr]).alarm = some 9 ∧
    (run init [.assign 9, .command, .prompt, .read, .sig (some 0), .line]).alarm = some 9 ∧
    (run init [.assign 9, .command, .prompt, .read, .sig (some 0), .line]).phase = .exec := by
  decide

/-- `unset TMOUT` does not end the timeout. -/
theorem unset_keeps : (run init [.assign 2, .command, .unset, .command, .prompt, .read, .tick,
    .tick]).phase = .gone := by decide

/-- A large TMOUT may be taken for a small one. -/
theorem truncated : (run init [.assign 4294967298, .command, .prompt, .read, .tick,
    .tick]).phase = .gone := by decide

end Ksh.Tmout
