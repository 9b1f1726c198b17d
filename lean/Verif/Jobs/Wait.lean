import Verif.Jobs.Names
/-!
# The built-in `wait` (c_sh.c:230-250, jobs.c:618-668)

`waitfor` without its `j_waitj` is `target`; what happens while it waits are calls of the handler of SIGCHLD.  Operands
are given as the texts they are.  Jobs of a parent process (`ppid != procpid`) are not in the table, see Model.
-/

namespace Ksh.Jobs
open Spec

/-! ## Model -/

/-- waitfor up to the call of j_waitj, jobs.c:629-657: the job and `JW_ASYNCNOTIFY`. -/
def target (s : S) : Option (List Char) → Option (Nat × Bool)
  | none => (s.jobs.find? (fun j => j.state == 0)).map (fun j => (j.id, true))
  | some cp =>
    match lookup s.jobs cp with
    | .found j => some (j.id, false)
    | _ => none

/-- waitfor, jobs.c:619-668: the value returned and `*sigp`.  `JW_INTERRUPT` is set, so a trap may end it at any time.  That
a trap that is pending already ends it at the next signal is not said: there are fewer runs than these. -/
inductive WaitFor : S → Option (List Char) → Int → Nat → S → Prop
  | noJob {s cp} : target s cp = none → WaitFor s cp (-1) 0 s
  | done {s cp i an rv s'} (evs : List (List (Nat × W))) : target s cp = some (i, an) →
      waitEnd (evs.foldl sigchld (waitBegin s i an)) i an = some (rv, s') → WaitFor s cp rv 0 s'
  | trap {s cp i an} (evs : List (List (Nat × W))) (sig : Nat) : target s cp = some (i, an) → 0 < sig →
      WaitFor s cp (-(sig : Int)) (128 + sig) (waitIntr (evs.foldl sigchld (waitBegin s i an)) i)

/-- The loops of c_wait, c_sh.c:240-247; the last values of `rv` and `sig`. -/
inductive WaitAll : S → Nat → S → Prop
  | again {s s' s'' rv sig n} : WaitFor s none rv sig s' → 0 ≤ rv → WaitAll s' n s'' → WaitAll s n s''
  | stop {s s' rv sig} : WaitFor s none rv sig s' → rv < 0 → WaitAll s sig s'

inductive WaitEach : S → List (List Char) → Int → Nat → S → Prop
  | last {s cp rv sig s'} : WaitFor s (some cp) rv sig s' → WaitEach s [cp] rv sig s'
  | next {s cp rv sig s' l rv' sig' s''} : WaitFor s (some cp) rv sig s' → l ≠ [] → WaitEach s' l rv' sig' s'' →
      WaitEach s (cp :: l) rv' sig' s''

/-- c_sh.c:247-248 -/
def waitResult (rv : Int) (sig : Nat) : Nat := if rv < 0 then (if sig ≠ 0 then sig else 127) else rv.toNat

/-- c_wait, c_sh.c:230-250, after the options. -/
inductive Wait : S → List (List Char) → Nat → S → Prop
  | all {s n s'} : WaitAll s n s' → Wait s [] n s'
  | each {s l rv sig s'} : WaitEach s l rv sig s' → Wait s l (waitResult rv sig) s'

/-! ## A job whose number was asked for stays -/

/-- What does not change of a started job: the option `pipefail` at the time and the processes. -/
def sig (j : Job) : Bool × List Nat := (j.pipefail, j.procs.map Proc.pid)

/-- The job `i` with these processes is in the table and `$!` was asked for. -/
def Kept (s : S) (i : Nat) (pids : Bool × List Nat) : Prop :=
  ∃ j, s.get i = some j ∧ j.started = true ∧ j.known = true ∧ sig j = pids

theorem Kept.upd {s : S} {i pids k f} (h : Kept s i pids) (h1 : ∀ j, (f j).id = j.id) (h2 : ∀ j, j.started = true → (f j).started = true)
    (h3 : ∀ j, j.known = true → (f j).known = true) (h4 : ∀ j, j.started = true → sig (f j) = sig j) :
    Kept (s.upd k f) i pids := by
  obtain ⟨j, e, a, b, c⟩ := h
  rw [Kept]
  rw [get_upd h1, e]
  simp only [Option.map_some, Option.some.injEq, exists_eq_left']
  split
  · exact ⟨h2 _ a, h3 _ b, (h4 _ a).trans c⟩
  · exact ⟨a, b, c⟩

theorem Kept.remove {s : S} {i pids k} (h : Kept s i pids) (hk : i ≠ k) : Kept (removeJob s k) i pids := by
  obtain ⟨j, e, a⟩ := h
  exact ⟨j, by rw [get_remove hk]; exact e, a⟩

theorem Kept.congr {s s' : S} {i pids} (h : Kept s i pids) (e : s'.jobs = s.jobs) : Kept s' i pids := by
  obtain ⟨j, g, a⟩ := h
  exact ⟨j, by unfold S.get at g ⊢; rw [e]; exact g, a⟩

theorem Kept.put {s : S} {i pids} {j : Job} {b} (h : Kept s i pids) (hj : j.id ≠ i ∨ s.get i = some j) : Kept (putJob s j b) i pids := by
  obtain ⟨k, e, a⟩ := h
  refine ⟨k, ?_, a⟩
  rw [get_put]
  split
  · rename_i hi
    rcases hj with hj | hj
    · exact absurd hi hj
    · rw [← e, hj]
  · exact e

/-! ### The handler -/

theorem removeJob_monitor (s : S) (k) : (removeJob s k).monitor = s.monitor := by
  unfold removeJob; split <;> rfl

theorem Kept.settle {s : S} {i pids} {k : Job} (h : Kept s i pids) (hm : s.monitor = false) (hk : s.get k.id = some k) :
    Kept (settle s k) i pids ∧ (settle s k).monitor = false := by
  unfold Jobs.settle
  rw [if_neg (by simp [hm])]
  split
  · rename_i hc
    split
    · refine ⟨h.upd (fun _ => rfl) (fun _ h => h) (fun _ h => h) (fun _ _ => rfl), hm⟩
    · rename_i ha
      refine ⟨h.remove ?_, by rw [removeJob_monitor]; exact hm⟩
      rintro rfl
      obtain ⟨j, e, -, b, -⟩ := h
      rw [hk] at e
      cases e
      exact ha (by simp [b])
  · exact ⟨h, hm⟩

theorem Kept.check {s : S} {i pids k} (h : Kept s i pids) (hm : s.monitor = false) :
    Kept (checkJob s k) i pids ∧ (checkJob s k).monitor = false := by
  unfold checkJob
  split
  · exact ⟨h, hm⟩
  · rename_i j e
    split
    · exact ⟨h, hm⟩
    · split
      · exact ⟨h, hm⟩
      · have hkid := (get_some e).2
        have hset := fun i => get_set (i := i) (c := settled j) hkid e
        refine Kept.settle ?_ hm (by rw [hset]; exact if_pos hkid)
        obtain ⟨x, g, a, b, c⟩ := h
        by_cases hi : i = k
        · subst hi
          rw [e] at g
          cases g
          exact ⟨settled j, by rw [hset, if_pos rfl], a, b, c⟩
        · exact ⟨x, by rw [hset, if_neg hi]; exact g, a, b, c⟩

theorem Kept.reap {s : S} {i pids pid w} (h : Kept s i pids) (hm : s.monitor = false) :
    Kept (reap s pid w) i pids ∧ (reap s pid w).monitor = false := by
  unfold Jobs.reap
  dsimp only
  have h' : Kept { s with log := .report pid w :: s.log } i pids := h.congr rfl
  split
  · exact ⟨h', hm⟩
  · refine Kept.check (h'.upd (fun _ => rfl) (fun _ h => h) (fun _ h => h) (fun j _ => by rw [sig, setProc_pids]; rfl)) hm

theorem Kept.sigchld {s : S} {i pids} {l : List (Nat × W)} (h : Kept s i pids) (hm : s.monitor = false) :
    Kept (sigchld s l) i pids ∧ (sigchld s l).monitor = false := by
  unfold Jobs.sigchld
  split
  · exact ⟨h, hm⟩
  · rename_i hx
    clear hx
    induction l generalizing s with
    | nil => exact ⟨h, hm⟩
    | cons e l ih =>
      obtain ⟨a, b⟩ := h.reap (pid := e.1) (w := e.2) hm
      exact ih a b

/-! ### New jobs -/

theorem purge_small {cm keep : Nat} : ∀ f {s : S}, nzombie s ≤ cm → purge cm keep f s = s
  | 0, _, _ => rfl
  | f + 1, s, h => by
    unfold purge
    rw [if_neg (by omega)]

theorem nzombie_remove (s : S) (k) : nzombie (removeJob s k) ≤ nzombie s := by
  unfold removeJob nzombie
  split
  · exact Nat.le_refl _
  · exact (List.filter_sublist).countP_le

theorem Kept.setAsync {cm : Nat} {s : S} {i pids} {j : Job} (h : Kept s i pids) (hz : nzombie s ≤ cm) (hm : s.monitor = false) :
    Kept (setAsync cm s j) i pids ∧ (setAsync cm s j).monitor = false := by
  unfold Jobs.setAsync
  dsimp only
  have h1 : ∀ s', s' = (match s.async with
      | none => s
      | some a => match s.get a with
        | none => removeJob s a
        | some ja => if ja.zombie && !ja.known then removeJob s a else s) → Kept s' i pids ∧ nzombie s' ≤ cm ∧ s'.monitor = false := by
    rintro s' rfl
    split
    · exact ⟨h, hz, hm⟩
    · rename_i a _
      split
      · rename_i e
        refine ⟨h.remove ?_, Nat.le_trans (nzombie_remove _ _) hz, by rw [removeJob_monitor]; exact hm⟩
        rintro rfl
        obtain ⟨x, g, -⟩ := h
        rw [e] at g; cases g
      · rename_i ja e
        split
        · rename_i hc
          refine ⟨h.remove ?_, Nat.le_trans (nzombie_remove _ _) hz, by rw [removeJob_monitor]; exact hm⟩
          rintro rfl
          obtain ⟨x, g, -, b, -⟩ := h
          rw [e] at g; cases g
          simp [b] at hc
        · exact ⟨h, hz, hm⟩
  obtain ⟨a, b, c⟩ := h1 _ rfl
  split
  · exact ⟨a, c⟩
  · rw [purge_small]
    · exact ⟨a.congr rfl, c⟩
    · exact b

theorem nzombie_upd {s : S} {k f} (hf : ∀ j, (f j).zombie = j.zombie) : nzombie (s.upd k f) = nzombie s := by
  unfold nzombie S.upd
  dsimp only
  rw [List.countP_map]
  congr 1
  funext j
  simp only [Function.comp_apply]
  split
  · exact hf j
  · rfl

theorem Kept.finish {cm : Nat} {s : S} {i pids k bg} (h : Kept s i pids) (hz : nzombie s ≤ cm) (hm : s.monitor = false) :
    Kept (finish cm s k bg) i pids ∧ (finish cm s k bg).monitor = false := by
  unfold Jobs.finish
  dsimp only
  have h1 : Kept (s.upd k (fun j => { j with started := true })) i pids := h.upd (fun _ => rfl) (fun _ _ => rfl) (fun _ h => h) (fun _ _ => rfl)
  have h2 : nzombie (s.upd k (fun j => { j with started := true })) ≤ cm := by rw [nzombie_upd ?_]; exact hz; exact fun _ => rfl
  split
  · split
    · exact h1.setAsync h2 hm
    · exact ⟨h1, hm⟩
  · exact ⟨h1, hm⟩

theorem Kept.removeAll {i pids} : ∀ (l : List Nat) {s : S}, Kept s i pids → i ∉ l → s.monitor = false →
    Kept (removeAll s l) i pids ∧ (removeAll s l).monitor = false
  | [], _, h, _, hm => ⟨h, hm⟩
  | k :: l, s, h, hi, hm => by
    rw [Jobs.removeAll]
    rw [List.mem_cons, not_or] at hi
    exact Kept.removeAll l (h.remove hi.1) hi.2 (by rw [removeJob_monitor]; exact hm)

/-- What a script may do without the job `i` being forgotten: everything but to wait for it, to turn on job control, to
be shown it as done by `jobs`, or to start a background job while more than `child_max` ended ones are remembered.  The
messages before a prompt (`notify`) belong to interactive shells. -/
def Tame (cm i : Nat) (s : S) : Op → Prop
  | .notify => False
  | .set m _ _ => m = false
  | .jobs o _ z => ∀ j ∈ s.jobs, j.id = i → (o = none ∨ o = some i) → j.zombie = true ∧ z = false ∨ j.state = 0 ∨ j.state = 3
  | .waitEnd k _ => k ≠ i
  | .fork .. => nzombie s ≤ cm
  | .pipe .. => nzombie s ≤ cm
  | _ => True

theorem Kept.step {cm : Nat} {s : S} {i pids} {op : Op} (g : G JobOk s) (h : Kept s i pids) (hm : s.monitor = false)
    (ht : Tame cm i s op) : Kept (step cm s op) i pids ∧ (step cm s op).monitor = false := by
  obtain ⟨j0, e0, a0, b0, c0⟩ := id h
  have hid := (get_some e0).2
  have hmem := (get_some e0).1
  cases op with
  | fork pid cmd bg xx e =>
    simp only [Jobs.step, Jobs.fork]
    have hlt : i < s.next := by rw [← hid]; exact (g.one j0 hmem).lt
    have h1 : Kept (putJob { s with next := s.next + 1, last := some (newJob s pid cmd bg xx).id, log := .born pid :: s.log }
        (newJob s pid cmd bg xx) false) i pids := by
      refine Kept.put (h.congr rfl) (.inl ?_)
      show s.next ≠ i
      omega
    have h2 : nzombie (putJob { s with next := s.next + 1, last := some (newJob s pid cmd bg xx).id, log := .born pid :: s.log }
        (newJob s pid cmd bg xx) false) ≤ cm := by
      refine Nat.le_trans ?_ ht
      unfold nzombie
      rw [(putJob_perm _ _ _).countP_eq, List.countP_cons]
      show _ + 0 ≤ _
      exact (List.filter_sublist).countP_le
    split
    · exact h1.finish h2 hm
    · exact ⟨h1, hm⟩
  | pipe pid cmd bg e =>
    simp only [Jobs.step, Jobs.pipe]
    split
    · exact ⟨h, hm⟩
    · rename_i j ej
      split
      · exact ⟨h, hm⟩
      · rename_i hns
        have h1 : Kept (S.upd { s with log := .born pid :: s.log } j.id
            (fun j => { j with procs := j.procs ++ [{ pid := pid, cmd := cmd, st := .running }] })) i pids := by
          have hji : j.id ≠ i := by
            intro e
            cases hl : s.last with
            | none => rw [hl] at ej; simp at ej
            | some k =>
              rw [hl] at ej
              have ej : s.get k = some j := ej
              have := (get_some ej).2
              rw [← this, e, e0] at ej
              cases ej
              exact hns a0
          refine ⟨j0, ?_, a0, b0, c0⟩
          rw [get_upd ?_]
          rotate_left
          · exact fun _ => rfl
          have : ({ s with log := .born pid :: s.log } : S).get i = some j0 := e0
          rw [this]
          simp only [Option.map_some, Option.some.injEq]
          split
          · rename_i hh
            have hh : i = j.id := by simpa [hid] using hh
            exact absurd hh.symm hji
          · rfl
        split
        · refine h1.finish ?_ hm
          rw [nzombie_upd ?_]
          · exact ht
          · exact fun _ => rfl
        · exact ⟨h1, hm⟩
  | forkFail l =>
    simp only [Jobs.step, Jobs.forkFail]
    split
    · split
      · exact ⟨h, hm⟩
      · rename_i j ej
        split
        · exact ⟨h, hm⟩
        · rename_i hns
          refine ⟨h.remove ?_, by rw [removeJob_monitor]; exact hm⟩
          intro e
          cases hl : s.last with
          | none => rw [hl] at ej; simp at ej
          | some k =>
            rw [hl] at ej
            have ej : s.get k = some j := ej
            have := (get_some ej).2
            rw [← this, ← e, e0] at ej
            cases ej
            exact hns a0
    · exact ⟨h.congr rfl, hm⟩
  | startlast =>
    simp only [Jobs.step, Jobs.startlast]
    split
    · exact ⟨h, hm⟩
    · exact ⟨h.upd (fun _ => rfl) (fun _ _ => rfl) (fun _ h => h) (fun _ _ => rfl), hm⟩
  | sigchld l => exact h.sigchld hm
  | waitBegin k an => exact ⟨h.upd (fun _ => rfl) (fun _ h => h) (fun _ h => h) (fun _ _ => rfl), hm⟩
  | waitIntr k => exact ⟨h.upd (fun _ => rfl) (fun _ h => h) (fun _ h => h) (fun _ _ => rfl), hm⟩
  | waitEnd k an =>
    have hk : k ≠ i := ht
    simp only [Jobs.step]
    split
    · rename_i r e
      unfold waitEnd at e
      split at e
      · simp at e
      · split at e
        · simp at e
        · simp only [Option.some.injEq] at e
          rw [← e]
          have h1 : Kept (s.upd k (fun j => { j with waiting := false, asyncN := false, fg := false })) i pids :=
            h.upd (fun _ => rfl) (fun _ h => h) (fun _ h => h) (fun _ _ => rfl)
          dsimp only
          split
          · exact ⟨h1.remove (Ne.symm hk), by rw [removeJob_monitor]; exact hm⟩
          · exact ⟨h1, hm⟩
    · exact ⟨h, hm⟩
  | resume k bg =>
    simp only [Jobs.step, hm, Bool.false_eq_true, if_false]
    exact ⟨h, trivial⟩
  | jobs o n z =>
    simp only [Jobs.step, Jobs.jobsCmd]
    refine Kept.removeAll _ ?_ ?_ hm
    · have := h.upd (k := i) (f := fun j => if ((listed s o n z).map Job.id).contains j.id then { j with changed := false } else j)
        (fun j => by split <;> rfl) (fun j h => by split <;> exact h) (fun j h => by split <;> exact h) (fun j _ => by split <;> rfl)
      obtain ⟨j, e, a⟩ := this
      have e2 : (s.upd i (fun j => if ((listed s o n z).map Job.id).contains j.id then { j with changed := false } else j)).get i =
          S.get { s with jobs := s.jobs.map (fun j => if ((listed s o n z).map Job.id).contains j.id then { j with changed := false } else j) } i := by
        unfold S.get S.upd
        dsimp only
        rw [List.find?_map, List.find?_map]
        have hf : ∀ l : List Job, l.find? ((fun j => j.id == i) ∘ fun j => if (j.id == i) = true then
            (if ((listed s o n z).map Job.id).contains j.id then { j with changed := false } else j) else j) = l.find? (fun j => j.id == i) := by
          intro l; congr 1; funext j; simp only [Function.comp_apply]; split <;> (try split) <;> rfl
        have hf' : ∀ l : List Job, l.find? ((fun j => j.id == i) ∘ fun j =>
            (if ((listed s o n z).map Job.id).contains j.id then { j with changed := false } else j)) = l.find? (fun j => j.id == i) := by
          intro l; congr 1; funext j; simp only [Function.comp_apply]; split <;> rfl
        rw [hf, hf']
        cases hx : s.jobs.find? (fun j => j.id == i) with
        | none => rfl
        | some x =>
          have := List.find?_some hx
          simp only [Option.map_some]
          rw [if_pos this]
      exact ⟨j, by rw [← e2]; exact e, a⟩
    · intro hi
      obtain ⟨j, hj, hji⟩ := List.mem_map.1 hi
      obtain ⟨hj1, hj2⟩ := List.mem_filter.1 hj
      obtain ⟨hj3, hj4⟩ := List.mem_filter.1 hj1
      simp only [Bool.and_eq_true, Bool.or_eq_true, Bool.not_eq_true', beq_iff_eq, decide_eq_true_eq] at hj2 hj4
      have := ht j hj3 hji (by rw [← hji]; exact hj4.2)
      rcases this with ⟨h1, h2⟩ | h1 | h1
      · rcases hj4.1.1 with h3 | h3
        · rw [h1] at h3; cases h3
        · rw [h2] at h3; cases h3
      · omega
      · omega
  | notify => exact absurd ht (by simp [Tame])
  | bang =>
    simp only [Jobs.step, Jobs.dollarBang]
    split
    · exact ⟨h, hm⟩
    · exact ⟨h.upd (fun _ => rfl) (fun _ h => h) (fun _ _ => rfl) (fun _ _ => rfl), hm⟩
  | set m n p =>
    have : m = false := ht
    subst this
    exact ⟨h.congr rfl, rfl⟩

/-- A history in which every step is possible and tame. -/
inductive History (cm i : Nat) : S → S → Prop
  | refl {s} : History cm i s s
  | step {s s' op} : History cm i s s' → Fresh s' op → Tame cm i s' op → History cm i s (step cm s' op)

theorem History.keeps {cm i : Nat} {s s' : S} (h : History cm i s s') (hr : Reach cm s) {pids} (hk : Kept s i pids) (hm : s.monitor = false) :
    Reach cm s' ∧ Kept s' i pids ∧ s'.monitor = false := by
  induction h with
  | refl => exact ⟨hr, hk, hm⟩
  | step _ hf ht ih =>
    obtain ⟨a, b, c⟩ := ih
    obtain ⟨d, e⟩ := b.step a.good c ht
    exact ⟨.step a hf, d, e⟩

/-- Asking for `$!` is what keeps the last background job. -/
theorem bang_keeps {s : S} {i : Nat} {j : Job} (ha : s.async = some i) (hg : s.get i = some j) (hs : j.started = true) :
    Kept (dollarBang s) i (sig j) := by
  refine ⟨{ j with known := true }, ?_, hs, rfl, rfl⟩
  simp only [dollarBang, ha]
  rw [get_upd ?_, hg]
  · simp [(get_some hg).2]
  · exact fun _ => rfl

/-- The number of a process, as `$!` gives it, names its job. -/
theorem lookup_pid {cm : Nat} {s : S} (hr : Reach cm s) {j : Job} (hj : j ∈ s.jobs) (hs : j.started = true) {n : Nat}
    (hl : (j.procs.map Proc.pid).getLast? = some n) (h1 : 1 ≤ n) (h2 : n ≤ 2147483647) :
    lookup s.jobs (Nat.toDigits 10 n) = .found j := by
  have g := hr.good
  obtain ⟨c, r, e, hc⟩ := toDigits_head n
  have hn := strtonum_digits h1 h2
  rw [e] at hn
  unfold lookup
  simp only [e, hc, if_true, hn]
  rw [List.getLast?_map] at hl
  cases hf : s.jobs.find? (fun j => j.started && (j.procs.getLast?.map Proc.pid == some n)) with
  | none =>
    rw [List.find?_eq_none] at hf
    exact absurd (by simp [hs, hl]) (hf j hj)
  | some k =>
    have hk : k ∈ s.jobs := List.mem_of_find?_eq_some hf
    have hkn := List.find?_some hf
    simp only [Bool.and_eq_true, beq_iff_eq] at hkn
    dsimp only
    by_cases hne : k = j
    · rw [hne]
    · exfalso
      have hrel := rel_of_ne g.rel hk hj hne
      cases hq : j.procs.getLast? with
      | none => rw [hq] at hl; simp at hl
      | some q =>
        cases hp : k.procs.getLast? with
        | none => rw [hp] at hkn; simp at hkn
        | some p =>
          rw [hq] at hl
          rw [hp] at hkn
          simp only [Option.map_some, Option.some.injEq] at hl hkn
          exact hrel.pid p (List.mem_of_getLast? hp) q (List.mem_of_getLast? hq) (by rw [hkn.2, hl])

/-- The history of one `wait`. -/
theorem reach_events {cm : Nat} : ∀ (evs : List (List (Nat × W))) {s : S}, Reach cm s → Reach cm (evs.foldl sigchld s)
  | [], _, h => h
  | l :: evs, s, h => reach_events evs (s := sigchld s l) (.step (op := .sigchld l) h trivial)

theorem kept_events {i pids} : ∀ (evs : List (List (Nat × W))) {s : S}, Kept s i pids → s.monitor = false →
    Kept (evs.foldl sigchld s) i pids ∧ (evs.foldl sigchld s).monitor = false
  | [], _, h, hm => ⟨h, hm⟩
  | l :: evs, s, h, hm => by
    obtain ⟨a, b⟩ := h.sigchld (l := l) hm
    exact kept_events evs a b

theorem waitEnd_log {s : S} {i an rv s'} (h : waitEnd s i an = some (rv, s')) : s'.log = s.log := by
  unfold waitEnd at h
  split at h
  · simp at h
  · split at h
    · simp at h
    · simp only [Option.some.injEq, Prod.mk.injEq] at h
      rw [← h.2]
      split
      · rw [remove_log]; rfl
      · rfl

/-- **C115** In a script, after `$!` has been asked for, `wait` with this number finds the job, however many other jobs were
started, waited for, ended or reported since.  It returns when no process of the job is running or stopped, with the status
of the pipeline as the system calls tell it; or, if a trapped signal came, with 128 plus its number.

Partial: as far as the history is `Tame`; see `notified_forgotten`, `jobs_z_forgets` and `too_many_forgotten`. -/
theorem wait_reports_partial {cm i : Nat} {s s' : S} (hr : Reach cm s) {pf : Bool} {pids : List Nat} {n : Nat} (hk : Kept s i (pf, pids))
    (hm : s.monitor = false) (hh : History cm i s s') (hn : pids.getLast? = some n) (h1 : 1 ≤ n) (h2 : n ≤ 2147483647)
    {st : Nat} {s'' : S} (hw : Wait s' [Nat.toDigits 10 n] st s'') :
    (Status pf (pids.map (fate s''.log)) st ∧ ∀ p ∈ pids, fate s''.log p ≠ .running ∧ ∀ m, fate s''.log p ≠ .did (.stopped m)) ∨
    (∃ sig, 0 < sig ∧ st = 128 + sig) := by
  obtain ⟨hr', ⟨j, e, a, b, c⟩, hm'⟩ := hh.keeps hr hk hm
  have ⟨hj, hid⟩ := get_some e
  have hl := lookup_pid hr' hj a (by rw [show j.procs.map Proc.pid = pids from congrArg Prod.snd c]; exact hn) h1 h2
  have ht : target s' (some (Nat.toDigits 10 n)) = some (i, false) := by
    simp only [target, hl, hid]
  cases hw with
  | each h =>
    rename_i rv sig
    have hone : WaitFor s' (some (Nat.toDigits 10 n)) rv sig s'' := by
      cases h with
      | last h => exact h
      | next h hne _ => exact absurd rfl hne
    clear h
    cases hone with
    | noJob h => rw [ht] at h; cases h
    | done evs h hend =>
      rename_i i' an rv
      rw [ht] at h
      obtain ⟨rfl, rfl⟩ : i = i' ∧ false = an := by simpa using h
      have hrb : Reach cm (waitBegin s' i false) := .step (op := .waitBegin i false) hr' trivial
      have hre := reach_events evs hrb
      have hkb : Kept (waitBegin s' i false) i (pf, pids) := Kept.upd ⟨j, e, a, b, c⟩ (fun _ => rfl) (fun _ h => h) (fun _ h => h) (fun _ _ => rfl)
      obtain ⟨⟨j', e', -, -, c'⟩, hme⟩ := kept_events evs hkb hm'
      obtain ⟨k, hk, hkid, -, hrun, hstat⟩ := pipeline_status_partial hre hend
      have hkj : k = j' := by
        have ⟨hj', hid'⟩ := get_some e'
        by_cases hne : k = j'
        · exact hne
        · exact absurd (hkid.trans hid'.symm) (rel_of_ne hre.good.rel hk hj' hne).id
      subst hkj
      rw [sig, Prod.mk.injEq] at c'
      obtain ⟨c1, c2⟩ := c'
      left
      rw [waitEnd_log hend]
      refine ⟨?_, ?_⟩
      · rw [← c2, ← c1, List.map_map]
        show Status k.pipefail (k.procs.map fun p => fate _ p.pid) (waitResult (rv : Int) 0)
        rw [waitResult, if_neg (by omega)]
        exact hstat
      · intro p hp
        rw [← c2] at hp
        obtain ⟨q, hq, rfl⟩ := List.mem_map.1 hp
        exact ⟨(hrun q hq).1, (hrun q hq).2 hme⟩
    | trap evs sig h h0 =>
      refine .inr ⟨sig, h0, ?_⟩
      rw [waitResult, if_pos (by omega), if_pos (by omega)]

/-- **C115** A number that is not that of a job is answered with 127, at once. -/
theorem wait_unknown {s : S} {cp : List Char} (h : ∀ j, lookup s.jobs cp ≠ .found j) {st : Nat} {s' : S} :
    Wait s [cp] st s' ↔ st = 127 ∧ s' = s := by
  have ht : target s (some cp) = none := by simp only [target]
  constructor
  · intro hw
    cases hw with
    | each hw =>
      cases hw with
      | last hw =>
        cases hw with
        | noJob _ => exact ⟨rfl, rfl⟩
        | done _ h _ => rw [ht] at h; cases h
        | trap _ _ h _ => rw [ht] at h; cases h
      | next _ hne _ => exact absurd rfl hne
  · rintro ⟨rfl, rfl⟩
    exact .each (rv := -1) (sig := 0) (.last (.noJob ht))

/-- **C115** `wait` without operands: when it returns 0 no job is running (those that are stopped are left alone); otherwise
a trapped signal came and it returns 128 plus its number. -/
theorem wait_all {s s' : S} {n : Nat} (h : Wait s [] n s') : (n = 0 ∧ ∀ j ∈ s'.jobs, j.state ≠ 0) ∨ ∃ sig, 0 < sig ∧ n = 128 + sig := by
  cases h with
  | each h => cases h
  | all h =>
    induction h with
    | again _ _ _ ih => exact ih
    | stop hw hneg =>
      cases hw with
      | noJob h =>
        refine .inl ⟨rfl, fun j hj h0 => ?_⟩
        simp only [target, Option.map_eq_none_iff, List.find?_eq_none] at h
        exact h j hj (by simp [h0])
      | done evs h hend => omega
      | trap evs sig h h0 => exact .inr ⟨sig, h0, rfl⟩

/-- **C115** With several operands the status is that of the last: each is waited for unless a signal came. -/
theorem wait_last {s : S} {l : List (List Char)} {rv : Int} {sig : Nat} {s' : S} (h : WaitEach s l rv sig s') :
    ∃ s0 cp, l.getLast? = some cp ∧ WaitFor s0 (some cp) rv sig s' := by
  induction h with
  | last h => exact ⟨_, _, rfl, h⟩
  | next _ hne _ ih =>
    obtain ⟨s0, cp, h1, h2⟩ := ih
    exact ⟨s0, cp, by rw [List.getLast?_cons, h1]; rfl, h2⟩

/-! ### What is forgotten -/

/-- `false & false & : $!` -/
def two : S := run 100 {} [.fork 10 ['f'] true false true, .bang, .fork 11 ['g'] true false true, .bang]

/-- **C115** The whole claim fails: a trapped signal does not end `wait 10 11`.  The wait for the first is given up, though it
still runs, and the status is that of the second, which has ended before. -/
theorem trap_goes_on : ∃ s', Wait (run 100 two [.sigchld [(11, .exited 1)]]) [['1', '0'], ['1', '1']] 1 s' ∧
    ∃ j, s'.get 0 = some j ∧ j.state = 0 := by
  refine ⟨_, .each (rv := 1) (sig := 0) (.next (rv := -2) (sig := 130) (.trap (i := 0) (an := false) [] 2 (by decide) (by decide)) (by simp)
    (.last (.done (i := 1) (an := false) (rv := 1) [] (by decide) rfl))), ?_⟩
  exact ⟨_, rfl, rfl⟩

/-- **C115** An interactive shell forgets the job as soon as it has shown a prompt, though `$!` was asked for. -/
theorem notified_forgotten : (two.get 0).map Job.known = some true ∧
    Wait (run 100 two [.sigchld [(10, .exited 1)], .notify]) [['1', '0']] 127 (run 100 two [.sigchld [(10, .exited 1)], .notify]) := by
  refine ⟨by decide, (wait_unknown fun j h => ?_).mpr ⟨rfl, rfl⟩⟩
  have : lookup (run 100 two [.sigchld [(10, .exited 1)], .notify]).jobs ['1', '0'] = .noSuch := by decide
  rw [this] at h; cases h

/-- **C115** As does `jobs -z`. -/
theorem jobs_z_forgets : Wait (run 100 two [.sigchld [(10, .exited 1)], .jobs none false true]) [['1', '0']] 127
    (run 100 two [.sigchld [(10, .exited 1)], .jobs none false true]) := by
  refine (wait_unknown fun j h => ?_).mpr ⟨rfl, rfl⟩
  have : lookup (run 100 two [.sigchld [(10, .exited 1)], .jobs none false true]).jobs ['1', '0'] = .noSuch := by decide
  rw [this] at h; cases h

/-- **C115** The oldest is forgotten when more jobs than processes allowed per user have ended (here with a limit of 1). -/
theorem too_many_forgotten : Wait (run 1 two [.sigchld [(10, .exited 1), (11, .exited 1)], .fork 12 ['h'] true false true]) [['1', '0']] 127
    (run 1 two [.sigchld [(10, .exited 1), (11, .exited 1)], .fork 12 ['h'] true false true]) := by
  refine (wait_unknown fun j h => ?_).mpr ⟨rfl, rfl⟩
  have : lookup (run 1 two [.sigchld [(10, .exited 1), (11, .exited 1)], .fork 12 ['h'] true false true]).jobs ['1', '0'] = .noSuch := by decide
  rw [this] at h; cases h

/-- The first of two jobs ends before a third is started, and is found all the same. -/
example : ∃ s', Wait (run 100 two [.sigchld [(10, .exited 3)], .fork 12 ['h'] true false true, .sigchld [(12, .signalled 9)]]) [['1', '0']] 3 s' :=
  ⟨_, .each (rv := 3) (sig := 0) (.last (.done (i := 0) (an := false) (rv := 3) [] (by decide) rfl))⟩

end Ksh.Jobs
