import Verif.Jobs.Lemmas

namespace Ksh.Jobs
open Spec

/-! ### Exit status of a pipeline (C36) -/

theorem value_code {x : PS} (h : x ≠ .running) : Value x x.code := by
  cases x with
  | running => exact absurd rfl h
  | did w => cases w <;> constructor

theorem fold_status (l : List Proc) (hn : ∀ p ∈ l, p.st ≠ .running) (r : Nat) :
    ((∀ p ∈ l, Value p.st 0) ∧ l.foldl (fun rv p => if p.st.code ≠ 0 then p.st.code else rv) r = r) ∨
    ∃ a p b, l = a ++ p :: b ∧ p.st.code ≠ 0 ∧ (∀ q ∈ b, Value q.st 0) ∧
      l.foldl (fun rv p => if p.st.code ≠ 0 then p.st.code else rv) r = p.st.code := by
  induction l generalizing r with
  | nil => exact Or.inl ⟨by simp, rfl⟩
  | cons p l ih =>
    rw [List.foldl_cons]
    rcases ih (fun q hq => hn q (List.mem_cons_of_mem _ hq)) (if p.st.code ≠ 0 then p.st.code else r) with ⟨h1, h2⟩ | ⟨a, q, b, h1, h2, h3, h4⟩
    · by_cases hc : p.st.code ≠ 0
      · rw [if_pos hc] at h2
        exact Or.inr ⟨[], p, l, rfl, hc, h1, by rw [if_pos hc]; exact h2⟩
      · rw [if_neg hc] at h2
        refine Or.inl ⟨?_, by rw [if_neg hc]; exact h2⟩
        intro q hq
        rcases List.mem_cons.1 hq with rfl | hq
        · have := value_code (hn q (by simp))
          have h0 : q.st.code = 0 := by omega
          rw [h0] at this
          exact this
        · exact h1 q hq
    · exact Or.inr ⟨p :: a, q, b, by rw [h1]; rfl, h2, h3, h4⟩

theorem waitValue_status {j : Job} (hok : JobOk j) (hs : j.started = true) (hn : ∀ p ∈ j.procs, p.st ≠ .running) :
    Status j.pipefail (j.procs.map Proc.st) (waitValue j) := by
  unfold waitValue
  cases hpf : j.pipefail with
  | false =>
    simp only [Bool.false_eq_true, if_false]
    rw [(hok.done hs hn).2]
    have hl := hok.ne
    have e : j.procs = j.procs.dropLast ++ [j.procs.getLast hl] := (List.dropLast_concat_getLast hl).symm
    have : lastCode j.procs = (j.procs.getLast hl).st.code := by
      unfold lastCode
      rw [List.getLast?_eq_some_getLast hl]
    rw [this]
    conv => arg 2; rw [e]
    rw [List.map_append]
    exact Status.last _ _ _ (value_code (hn _ (List.getLast_mem hl)))
  | true =>
    simp only [if_true]
    rcases fold_status j.procs hn 0 with ⟨h1, h2⟩ | ⟨a, p, b, h1, h2, h3, h4⟩
    · rw [h2]
      refine Status.allZero _ ?_
      intro y hy
      obtain ⟨p, hp, rfl⟩ := List.mem_map.1 hy
      exact h1 p hp
    · rw [h4, h1, List.map_append, List.map_cons]
      refine Status.failed _ _ _ _ (value_code (hn p (by rw [h1]; simp))) h2 ?_
      intro y hy
      obtain ⟨q, hq, rfl⟩ := List.mem_map.1 hy
      exact h3 q hq

theorem maxRank_ge (ps : List Proc) : ∀ a, a ≤ ps.foldl (fun a p => if p.st.rank > a then p.st.rank else a) a ∧
    ∀ p ∈ ps, p.st.rank ≤ ps.foldl (fun a p => if p.st.rank > a then p.st.rank else a) a := by
  induction ps with
  | nil => intro a; exact ⟨Nat.le_refl _, by simp⟩
  | cons q ps ih =>
    intro a
    rw [List.foldl_cons]
    have ⟨h1, h2⟩ := ih (if q.st.rank > a then q.st.rank else a)
    have h3 : a ≤ (if q.st.rank > a then q.st.rank else a) ∧ q.st.rank ≤ (if q.st.rank > a then q.st.rank else a) := by
      split <;> omega
    refine ⟨by omega, ?_⟩
    intro p hp
    rcases List.mem_cons.1 hp with rfl | hp
    · omega
    · exact h2 p hp

theorem maxRank_mem (ps : List Proc) : ∀ a, ps.foldl (fun a p => if p.st.rank > a then p.st.rank else a) a = a ∨
    ∃ p ∈ ps, p.st.rank = ps.foldl (fun a p => if p.st.rank > a then p.st.rank else a) a := by
  induction ps with
  | nil => intro a; exact Or.inl rfl
  | cons q ps ih =>
    intro a
    rw [List.foldl_cons]
    rcases ih (if q.st.rank > a then q.st.rank else a) with h | ⟨p, hp, h⟩
    · rw [h]
      split
      · exact Or.inr ⟨q, by simp, rfl⟩
      · exact Or.inl rfl
    · exact Or.inr ⟨p, List.mem_cons_of_mem _ hp, h⟩

theorem state_zero {j : Job} (hok : JobOk j) (h : j.state ≠ 0) : j.started = true ∧ ∀ p ∈ j.procs, p.st ≠ .running := by
  constructor
  · cases e : j.started with
    | true => rfl
    | false => exact absurd (hok.fresh e).1 h
  · intro p hp hr
    exact h (hok.run ⟨p, hp, hr⟩)

theorem waitEnd_some {s : S} {i an rv s'} (h : waitEnd s i an = some (rv, s')) : ∃ j, s.get i = some j ∧
    j.state ≠ 0 ∧ (s.monitor = false → j.state ≠ 3) ∧ rv = waitValue j := by
  unfold waitEnd at h
  split at h
  · simp at h
  · rename_i j e
    split at h
    · simp at h
    · rename_i hc
      simp only [Bool.or_eq_true, decide_eq_true_eq, Bool.and_eq_true, Bool.not_eq_true', beq_iff_eq, not_or, not_and] at hc
      simp only [Option.some.injEq, Prod.mk.injEq] at h
      exact ⟨j, e, hc.1, hc.2, h.1.symm⟩

/-- **C36** What j_waitj returns for a job is the status of the pipeline, as the
system calls so far tell it: at that moment no process of the job is running (and
without job control none is stopped either), and the value is that of the last
process, or with `pipefail` that of the last one that failed.  It holds after any
history of the table, in whatever order the children were reported.

Partial: it is assumed (`Fresh` in `Reach`) that a new process does not get the pid of a process that is still
in the table, see `pid_reuse_hangs`. -/
theorem pipeline_status_partial {cm : Nat} {s : S} (hr : Reach cm s) {i an rv s'}
    (h : waitEnd s i an = some (rv, s')) :
    ∃ j ∈ s.jobs, j.id = i ∧ j.procs ≠ [] ∧
      (∀ p ∈ j.procs, fate s.log p.pid ≠ .running ∧ (s.monitor = false → ∀ n, fate s.log p.pid ≠ .did (.stopped n))) ∧
      Status j.pipefail (j.procs.map (fun p => fate s.log p.pid)) rv := by
  have g := hr.good
  obtain ⟨j, e, h0, h3, hv⟩ := waitEnd_some h
  have ⟨hj, hid⟩ := get_some e
  have hok := g.ok j hj
  have ⟨hst, hn⟩ := state_zero hok h0
  have hf := (g.one j hj).fate
  refine ⟨j, hj, hid, hok.ne, ?_, ?_⟩
  · intro p hp
    rw [← hf p hp]
    refine ⟨hn p hp, ?_⟩
    intro hm n hs
    have h1 := (maxRank_ge j.procs 0).2 p hp
    have h2 := (hok.done hst hn).1
    have h4 := h3 hm
    rw [hs] at h1
    have h1 : 3 ≤ _ := h1
    unfold maxRank at h2
    rcases maxRank_mem j.procs 0 with h5 | ⟨q, hq, h5⟩
    · omega
    · have : q.st.rank ≤ 3 := by cases q.st with
        | running => simp [PS.rank]
        | did w => cases w <;> simp [PS.rank]
      omega
  · have : j.procs.map (fun p => fate s.log p.pid) = j.procs.map Proc.st :=
      List.map_congr_left (fun p hp => (hf p hp).symm)
    rw [this, hv]
    exact waitValue_status hok hst hn

/-- **C36** A job is complete when its processes are: when none is running or
stopped, j_waitj returns. -/
theorem complete_returns {cm : Nat} {s : S} (hr : Reach cm s) {j} (hj : j ∈ s.jobs) (hs : j.started = true)
    (hd : ∀ p ∈ j.procs, (∃ n, fate s.log p.pid = .did (.exited n)) ∨ ∃ n, fate s.log p.pid = .did (.signalled n))
    (an : Bool) : ∃ r, waitEnd s j.id an = some r := by
  have g := hr.good
  have hok := g.ok j hj
  have hf := (g.one j hj).fate
  have hrank : ∀ p ∈ j.procs, p.st.rank = 1 ∨ p.st.rank = 2 := by
    intro p hp
    rw [hf p hp]
    rcases hd p hp with ⟨n, e⟩ | ⟨n, e⟩ <;> rw [e] <;> simp [PS.rank]
  have hn : ∀ p ∈ j.procs, p.st ≠ .running := by
    intro p hp hr
    have := hrank p hp
    rw [hr] at this
    simp [PS.rank] at this
  have hm := (hok.done hs hn).1
  have h12 : j.state = 1 ∨ j.state = 2 := by
    rw [hm]
    unfold maxRank
    obtain ⟨p, ps, hps⟩ := List.exists_cons_of_ne_nil hok.ne
    have hp : p ∈ j.procs := by rw [hps]; simp
    have h1 := (maxRank_ge j.procs 0).2 p hp
    have h2 := hrank p hp
    rcases maxRank_mem j.procs 0 with h5 | ⟨q, hq, h5⟩
    · omega
    · have := hrank q hq
      omega
  unfold waitEnd
  rw [get_of_mem g hj]
  have : (decide (j.state = 0) || (!s.monitor && j.state == 3)) = false := by
    rcases h12 with e | e <;> simp [e]
  simp only [this, Bool.false_eq_true, if_false]
  exact ⟨_, rfl⟩

/-! ### The processes of a pipeline -/

theorem get_upd {s : S} {i k : Nat} {f : Job → Job} (hf : ∀ j, (f j).id = j.id) :
    (s.upd k f).get i = (s.get i).map (fun j => if j.id == k then f j else j) := by
  unfold S.upd S.get
  simp only
  induction s.jobs with
  | nil => rfl
  | cons a l ih =>
    rw [List.map_cons, List.find?_cons, List.find?_cons]
    have : (if a.id == k then f a else a).id = a.id := by split; exact hf a; rfl
    rw [this]
    split
    · rfl
    · exact ih

theorem get_set {s : S} {i k : Nat} {c x : Job} (hc : c.id = k) (hk : s.get k = some x) :
    (s.upd k (fun _ => c)).get i = if i = k then some c else s.get i := by
  unfold S.upd S.get at *
  simp only at *
  generalize s.jobs = L at *
  induction L with
  | nil => simp at hk
  | cons a L ih =>
    rw [List.find?_cons] at hk
    rw [List.map_cons, List.find?_cons, List.find?_cons]
    by_cases ha : a.id = k
    · by_cases hi : i = k
      · simp [ha, hc, hi]
      · have h1 : (c.id == i) = false := by rw [hc]; simpa using Ne.symm hi
        have h2 : (a.id == i) = false := by rw [ha]; simpa using Ne.symm hi
        simp only [ha, beq_self_eq_true, if_true, h1, if_neg hi]
        rw [ha] at h2
        simp only [h2]
        clear ih hk h1
        induction L with
        | nil => rfl
        | cons b L ih =>
          rw [List.map_cons, List.find?_cons, List.find?_cons, ih]
          by_cases hb : b.id = k
          · have : (k == i) = false := h2
            simp [hb, hc, this]
          · have : (b.id == k) = false := by simpa using hb
            simp [this]
    · have hb : (a.id == k) = false := by simpa using ha
      simp only [hb, Bool.false_eq_true, if_false] at hk ⊢
      rw [ih hk]
      by_cases hi : i = k
      · rw [hi, hb]
      · simp [hi]

theorem find_filter_ne {i k : Nat} (h : i ≠ k) (l : List Job) :
    (l.filter (fun j => j.id != k)).find? (fun j => j.id == i) = l.find? (fun j => j.id == i) := by
  induction l with
  | nil => rfl
  | cons a l ih =>
    rw [List.filter_cons]
    by_cases hk : a.id = k
    · have hi : (a.id == i) = false := by simp [hk, Ne.symm h]
      simp only [hk, bne_self_eq_false, Bool.false_eq_true, if_false]
      rw [ih, List.find?_cons, hi]
    · have : (a.id != k) = true := by simpa using hk
      rw [if_pos this, List.find?_cons, List.find?_cons, ih]

theorem get_remove {s : S} {i k : Nat} (h : i ≠ k) : (removeJob s k).get i = s.get i := by
  unfold removeJob
  split
  · rfl
  · exact find_filter_ne h s.jobs

theorem find_pastStopped {i : Nat} (j : Job) (l : List Job) (h : ∀ k ∈ l, k.id ≠ j.id) :
    (pastStopped j l).find? (fun j => j.id == i) = if j.id = i then some j else l.find? (fun j => j.id == i) := by
  induction l with
  | nil => simp only [pastStopped, List.find?_cons, List.find?_nil]; by_cases e : j.id = i <;> simp [e]; split <;> simp_all
  | cons a l ih =>
    unfold pastStopped
    split
    · rw [List.find?_cons, List.find?_cons, ih (fun k hk => h k (List.mem_cons_of_mem _ hk))]
      by_cases e : a.id = i
      · have : ¬ j.id = i := fun e' => h a (by simp) (by rw [e, e'])
        simp [e, this]
      · have : (a.id == i) = false := by simpa using e
        simp [this]
    · rw [List.find?_cons]
      by_cases e : j.id = i
      · simp [e]
      · have : (j.id == i) = false := by simpa using e
        simp [this, e]

theorem get_put {s : S} {j : Job} {b : Bool} {i : Nat} :
    (putJob s j b).get i = if j.id = i then some j else s.get i := by
  have hl : ∀ k ∈ s.jobs.filter (fun c => c.id != j.id), k.id ≠ j.id := by
    intro k hk
    simpa using (List.mem_filter.1 hk).2
  unfold putJob S.get
  cases b
  · simp only [Bool.false_eq_true, if_false]
    rw [find_pastStopped j _ hl]
    by_cases e : j.id = i
    · rw [if_pos e, if_pos e]
    · rw [if_neg e, if_neg e]
      exact find_filter_ne (Ne.symm e) s.jobs
  · simp only [if_true]
    rw [List.find?_cons]
    by_cases e : j.id = i
    · simp [e]
    · have : (j.id == i) = false := by simpa using e
      rw [this, if_neg e]
      exact find_filter_ne (Ne.symm e) s.jobs

theorem oldest_ne {s : S} {keep i} (h : oldest s keep = some i) : keep ≠ i := by
  unfold oldest at h
  have := List.min?_mem h
  obtain ⟨j, hj, rfl⟩ := List.mem_map.1 this
  have := (List.mem_filter.1 hj).2
  simp only [Bool.and_eq_true, bne_iff_ne, ne_eq] at this
  exact Ne.symm this.2

theorem get_purge (cm keep : Nat) : ∀ f (s : S), (purge cm keep f s).get keep = s.get keep
  | 0, _ => rfl
  | f + 1, s => by
    unfold purge
    split
    · split
      · rfl
      · rename_i i e
        rw [get_purge cm keep f, get_remove (oldest_ne e)]
    · rfl

theorem get_setAsync {cm : Nat} {s : S} {j : Job} (h : s.get j.id = some j) (hz : j.zombie = false) :
    (setAsync cm s j).get j.id = some j := by
  unfold setAsync
  simp only
  have h1 : S.get (match s.async with
    | none => s
    | some a => match s.get a with
      | none => removeJob s a
      | some ja => if ja.zombie && !ja.known then removeJob s a else s) j.id = some j := by
    split
    · exact h
    · rename_i a _
      split
      · rename_i e
        have : j.id ≠ a := by intro e'; rw [e', e] at h; simp at h
        rw [get_remove this]; exact h
      · rename_i ja e
        split
        · rename_i hza
          have : j.id ≠ a := by
            intro e'
            rw [e', e] at h
            simp only [Option.some.injEq] at h
            rw [h, hz] at hza
            simp at hza
          rw [get_remove this]; exact h
        · exact h
  split
  · exact h1
  · rw [get_purge]
    exact h1

theorem get_finish {cm : Nat} {s : S} {i : Nat} {bg} {j : Job} (h : s.get i = some j) (hz : j.zombie = false) :
    (finish cm s i bg).get i = some { j with started := true } := by
  have hid := (get_some h).2
  subst hid
  have h1 : (s.upd j.id (fun j => { j with started := true })).get j.id = some { j with started := true } := by
    rw [get_upd ?_]
    rotate_left
    · exact fun _ => rfl
    rw [h]
    simp
  unfold finish
  simp only
  split
  · rw [h1]
    simp only
    exact get_setAsync (cm := cm) (s := s.upd j.id (fun j => { j with started := true })) (j := { j with started := true })
      h1 hz
  · exact h1

/-- The operations for the processes of a pipeline after the first; before each
of them the signal handler may run. -/
def later (bg : Bool) : List (Nat × List Char × List (Nat × W)) → List Op
  | [] => []
  | (pid, cmd, l) :: r => .sigchld l :: .pipe pid cmd bg r.isEmpty :: later bg r

theorem held {s : S} {i j l} (h : s.get i = some j) (hs : j.started = false) : sigchld s l = s := by
  unfold sigchld
  rw [if_pos]
  rw [List.any_eq_true]
  exact ⟨j, (get_some h).1, by simp [hs]⟩

theorem later_get {cm : Nat} {bg : Bool} : ∀ (r : List (Nat × List Char × List (Nat × W))) {s : S} {i : Nat} {j : Job},
    r ≠ [] → s.get i = some j → s.last = some i → j.started = false → j.zombie = false →
    (run cm s (later bg r)).get i =
      some { j with started := true, procs := j.procs ++ r.map (fun x => ⟨x.1, x.2.1, .running⟩) }
  | [], _, _, _, h, _, _, _, _ => absurd rfl h
  | (pid, cmd, l) :: r, s, i, j, _, h, hl, hs, hz => by
    have hid := (get_some h).2
    have e1 : ∀ x, ({ s with log := x } : S).get i = some j := fun _ => h
    have e2 : (S.upd { s with log := .born pid :: s.log } i
        (fun j => { j with procs := j.procs ++ [{ pid := pid, cmd := cmd, st := .running }] })).get i =
        some { j with procs := j.procs ++ [⟨pid, cmd, .running⟩] } := by
      rw [get_upd ?_]
      rotate_left
      · exact fun _ => rfl
      rw [e1]
      simp [hid]
    have e3 : step cm (step cm s (.sigchld l)) (.pipe pid cmd bg r.isEmpty) =
        if r.isEmpty then finish cm (S.upd { s with log := .born pid :: s.log } i
        (fun j => { j with procs := j.procs ++ [{ pid := pid, cmd := cmd, st := .running }] })) i bg else
        S.upd { s with log := .born pid :: s.log } i
        (fun j => { j with procs := j.procs ++ [{ pid := pid, cmd := cmd, st := .running }] }) := by
      simp only [step, held h hs, pipe, hl, Option.bind_some, h, hs, Bool.false_eq_true, if_false, hid]
    simp only [run, later, List.foldl_cons]
    rw [e3]
    cases r with
    | nil =>
      simp only [List.isEmpty_nil, if_true, later, List.foldl_nil, List.map_cons, List.map_nil]
      exact get_finish e2 hz
    | cons x r =>
      simp only [List.isEmpty_cons, Bool.false_eq_true, if_false]
      have := later_get (cm := cm) (bg := bg) (x :: r) (by simp) e2 hl hs hz
      simp only [run] at this
      rw [this]
      simp [List.append_assoc]

/-- **C36** The job of a pipeline consists of its processes, in their order, and
remembers whether `pipefail` was set when it was started; this whatever the
table was before and whatever is reported in between. -/
theorem pipeline_members (cm : Nat) (s : S) (pid : Nat) (cmd : List Char) (bg xx : Bool)
    (r : List (Nat × List Char × List (Nat × W))) :
    ∃ j, (run cm s (.fork pid cmd bg xx r.isEmpty :: later bg r)).get s.next = some j ∧ j.started = true ∧
      j.pipefail = s.pipefail ∧ j.procs.map (fun p => (p.pid, p.cmd)) = (pid, cmd) :: r.map (fun x => (x.1, x.2.1)) := by
  have e : S.get (putJob { s with next := s.next + 1, last := some s.next, log := .born pid :: s.log }
      (newJob s pid cmd bg xx) false) s.next = some (newJob s pid cmd bg xx) := by
    rw [get_put]
    exact if_pos rfl
  simp only [run, List.foldl_cons, step, fork]
  cases r with
  | nil =>
    simp only [List.isEmpty_nil, if_true, later, List.foldl_nil, List.map_nil]
    exact ⟨_, get_finish e rfl, rfl, rfl, rfl⟩
  | cons x r =>
    simp only [List.isEmpty_cons, Bool.false_eq_true, if_false]
    have := later_get (cm := cm) (bg := bg) (x :: r) (by simp) e rfl rfl rfl
    simp only [run] at this
    refine ⟨_, this, rfl, rfl, ?_⟩
    simp [newJob]

/-! ### Nothing is taken away from a waiting shell -/

theorem settle_keeps {s : S} {k : Job} {i : Nat} {j : Job} (h : s.get i = some j) (hw : j.waiting = true)
    (hk : s.get k.id = some k) : ∃ j', (settle s k).get i = some j' ∧ j'.waiting = true ∧ j'.started = j.started ∧
      j'.procs = j.procs := by
  have hid := (get_some h).2
  have hput : (if k.state = 3 then putJob s k true else s).get i = some j := by
    split
    · rw [get_put]
      split
      · rename_i e
        rw [e, h] at hk
        simpa using hk.symm
      · exact h
    · exact h
  have hne : k.waiting = false → i ≠ k.id := by
    intro hf e
    rw [e, hk] at h
    simp only [Option.some.injEq] at h
    rw [← h, hf] at hw
    simp at hw
  unfold settle
  simp only
  generalize (if k.state = 3 then putJob s k true else s) = s2 at hput ⊢
  have h3 : ∃ j', (s2.upd k.id (fun j => { j with changed := false })).get i = some j' ∧ j'.waiting = true ∧
      j'.started = j.started ∧ j'.procs = j.procs := by
    rw [get_upd ?_]
    rotate_left
    · exact fun _ => rfl
    rw [hput]
    simp only [Option.map_some, Option.some.injEq, exists_eq_left']
    split
    · exact ⟨hw, rfl, rfl⟩
    · exact ⟨hw, rfl, rfl⟩
  split
  · split
    · exact ⟨j, h, hw, rfl, rfl⟩
    · split
      · split
        · rename_i hc
          simp only [Bool.and_eq_true, Bool.not_eq_true'] at hc
          rw [get_remove (hne hc.1)]
          exact h3
        · exact h3
      · exact ⟨j, hput, hw, rfl, rfl⟩
  · split
    · rename_i hc
      simp only [Bool.and_eq_true, Bool.not_eq_true', Bool.or_eq_false_iff] at hc
      split
      · rw [get_upd ?_]
        rotate_left
        · exact fun _ => rfl
        rw [h]
        simp only [Option.map_some, Option.some.injEq, exists_eq_left']
        split
        · exact ⟨hw, rfl, rfl⟩
        · exact ⟨hw, rfl, rfl⟩
      · rw [get_remove (hne hc.1.1)]
        exact ⟨j, h, hw, rfl, rfl⟩
    · exact ⟨j, h, hw, rfl, rfl⟩

theorem reap_keeps {s : S} {pid : Nat} {w : W} {i : Nat} {j : Job} (h : s.get i = some j) (hw : j.waiting = true) :
    ∃ j', (reap s pid w).get i = some j' ∧ j'.waiting = true ∧ j'.started = j.started ∧
      j'.procs.map Proc.pid = j.procs.map Proc.pid := by
  have hid := (get_some h).2
  unfold reap
  simp only
  split
  · exact ⟨j, h, hw, rfl, rfl⟩
  · rename_i k _
    have h1 : ∃ j1, (S.upd { s with log := .report pid w :: s.log } k.id
        (fun j => { j with procs := setProc pid (.did w) j.procs })).get i = some j1 ∧ j1.waiting = true ∧
        j1.started = j.started ∧ j1.procs.map Proc.pid = j.procs.map Proc.pid := by
      rw [get_upd ?_]
      rotate_left
      · exact fun _ => rfl
      have : ({ s with log := .report pid w :: s.log } : S).get i = some j := h
      rw [this]
      simp only [Option.map_some, Option.some.injEq, exists_eq_left']
      split
      · exact ⟨hw, rfl, setProc_pids _ _ _⟩
      · exact ⟨hw, rfl, rfl⟩
    obtain ⟨j1, e1, w1, s1, p1⟩ := h1
    generalize S.upd { s with log := .report pid w :: s.log } k.id
        (fun j => { j with procs := setProc pid (.did w) j.procs }) = s' at e1 ⊢
    unfold checkJob
    split
    · exact ⟨j1, e1, w1, s1, p1⟩
    · rename_i k' ek
      split
      · exact ⟨j1, e1, w1, s1, p1⟩
      · split
        · exact ⟨j1, e1, w1, s1, p1⟩
        · have hkid := (get_some ek).2
          have hset := fun i => get_set (i := i) (c := settled k') hkid ek
          have e2 : ∃ j2, (s'.upd k.id (fun _ => settled k')).get i = some j2 ∧ j2.waiting = true ∧
              j2.started = j.started ∧ j2.procs.map Proc.pid = j.procs.map Proc.pid := by
            rw [hset]
            split
            · rename_i hi
              rw [← hi, e1] at ek
              simp only [Option.some.injEq] at ek
              subst ek
              exact ⟨settled j1, rfl, w1, s1, p1⟩
            · exact ⟨j1, e1, w1, s1, p1⟩
          obtain ⟨j2, g2, w2, s2, p2⟩ := e2
          have gk : (s'.upd k.id (fun _ => settled k')).get (settled k').id = some (settled k') := by
            rw [hset]
            exact if_pos hkid
          obtain ⟨j3, g3, w3, s3, p3⟩ := settle_keeps g2 w2 gk
          exact ⟨j3, g3, w3, by rw [s3, s2], by rw [p3, p2]⟩

/-- **C36** A job that is waited for stays in the table, with the same processes,
whatever the handler reports: j_waitj never looks at a removed job. -/
theorem waited_job_stays {s : S} {l : List (Nat × W)} {i : Nat} {j : Job} (h : s.get i = some j) (hw : j.waiting = true) :
    ∃ j', (sigchld s l).get i = some j' ∧ j'.waiting = true ∧ j'.started = j.started ∧
      j'.procs.map Proc.pid = j.procs.map Proc.pid := by
  unfold sigchld
  split
  · exact ⟨j, h, hw, rfl, rfl⟩
  · rename_i hx
    clear hx
    induction l generalizing s j with
    | nil => exact ⟨j, h, hw, rfl, rfl⟩
    | cons e l ih =>
      obtain ⟨j1, g1, w1, s1, p1⟩ := reap_keeps (pid := e.1) (w := e.2) h hw
      obtain ⟨j2, g2, w2, s2, p2⟩ := ih g1 w1
      exact ⟨j2, g2, w2, by rw [s2, s1], by rw [p2, p1]⟩

end Ksh.Jobs
