import Verif.Jobs.Props

namespace Ksh.Jobs
open Spec

/-! ### The shell does not wait for ever -/

@[simp] theorem upd_log (s : S) (i f) : (s.upd i f).log = s.log := rfl

@[simp] theorem remove_log (s : S) (i) : (removeJob s i).log = s.log := by
  unfold removeJob
  split <;> rfl

theorem settle_log (s : S) (j) : (settle s j).log = s.log := by
  unfold settle
  simp only
  have : (if j.state = 3 then putJob s j true else s).log = s.log := by split <;> rfl
  generalize (if j.state = 3 then putJob s j true else s) = s2 at this ⊢
  repeat' split
  all_goals simp [this]

theorem check_log (s : S) (i) : (checkJob s i).log = s.log := by
  unfold checkJob
  repeat' split
  all_goals first | rfl | (rw [settle_log]; rfl)

theorem reap_log (s : S) (pid w) : (reap s pid w).log = .report pid w :: s.log := by
  unfold reap
  simp only
  split
  · rfl
  · rw [check_log]; rfl

/-- The last thing `l` says of `pid` is `w`. -/
def Reported (l : List (Nat × W)) (pid : Nat) (w : W) : Prop :=
  ∃ a b, l = a ++ (pid, w) :: b ∧ ∀ e ∈ b, e.1 ≠ pid

theorem fold_fate : ∀ (l : List (Nat × W)) (s : S) (pid : Nat),
    (∀ e ∈ l, e.1 ≠ pid) → fate (l.foldl (fun s e => reap s e.1 e.2) s).log pid = fate s.log pid
  | [], _, _, _ => rfl
  | e :: l, s, pid, h => by
    rw [List.foldl_cons, fold_fate l _ _ (fun x hx => h x (List.mem_cons_of_mem _ hx)), reap_log]
    simp only [fate]
    rw [if_neg (h e (by simp))]

theorem reported_fate {l : List (Nat × W)} {s : S} {pid : Nat} {w : W} (h : Reported l pid w) :
    fate (l.foldl (fun s e => reap s e.1 e.2) s).log pid = .did w := by
  obtain ⟨a, b, rfl, hb⟩ := h
  rw [List.foldl_append, List.foldl_cons, fold_fate b _ _ hb, reap_log]
  simp [fate]

/-- **C61** Once the handler is told that the processes of a job have ended, the
shell that waits for the job goes on.

Partial: no job may be half started.  A pipeline whose start was given up leaves
such a job behind, see `abandoned_pipeline_hangs`. -/
theorem wait_returns_partial {cm : Nat} {s : S} (hr : Reach cm s) (hs : AllStarted s) {i j} (hj : s.get i = some j)
    (hw : j.waiting = true) (l : List (Nat × W))
    (hl : ∀ p ∈ j.procs, ∃ w, Reported l p.pid w ∧ ∀ n, w ≠ .stopped n) (an : Bool) :
    ∃ r, waitEnd (sigchld s l) i an = some r := by
  have hr' : Reach cm (sigchld s l) := Reach.step (op := .sigchld l) hr trivial
  obtain ⟨j', g', _, st', pd'⟩ := waited_job_stays (l := l) hj hw
  have ⟨m', id'⟩ := get_some g'
  rw [← id']
  refine complete_returns hr' m' (by rw [st']; exact hs j (get_some hj).1) ?_ an
  intro p hp
  have : p.pid ∈ j'.procs.map Proc.pid := List.mem_map_of_mem hp
  rw [pd'] at this
  obtain ⟨q, hq, e⟩ := List.mem_map.1 this
  obtain ⟨w, h1, h2⟩ := hl q hq
  have hany : ¬ (s.jobs.any (fun j => !j.started)) = true := by
    intro ha
    obtain ⟨k, hk, hk2⟩ := List.any_eq_true.1 ha
    rw [hs k hk] at hk2
    simp at hk2
  have hf : fate (sigchld s l).log p.pid = .did w := by
    unfold sigchld
    rw [if_neg hany, ← e]
    exact reported_fate h1
  rw [hf]
  cases w with
  | exited n => exact Or.inl ⟨n, rfl⟩
  | signalled n => exact Or.inr ⟨n, rfl⟩
  | stopped n => exact absurd rfl (h2 n)

/-- **C61** `a | b | c` where the second pipe cannot be made (openpipe, io.c, calls
errorf between the calls of exchild): the job stays half started, and from
then on nothing is reaped: the next command has ended, its status is offered to
every call of the handler, but the wait for it does not return. -/
theorem abandoned_pipeline_hangs :
    ∃ s : S, Reach 100 s ∧ (∃ j, s.get 1 = some j ∧ j.started = true ∧ j.waiting = true ∧ j.procs.map Proc.pid = [11]) ∧
      ∀ ls : List (List (Nat × W)), waitEnd (run 100 s (ls.map Op.sigchld)) 1 false = none := by
  refine ⟨run 100 {} [.fork 10 ['a'] false false false, .fork 11 ['d'] false false true, .waitBegin 1 false], ?_,
    ⟨_, rfl, rfl, rfl, rfl⟩, ?_⟩
  · refine Reach.step (op := .waitBegin 1 false) (Reach.step (op := .fork 11 ['d'] false false true)
      (Reach.step (op := .fork 10 ['a'] false false false) .init ?_) ?_) trivial
    · intro j hj; simp at hj
    · intro j hj p hp
      have : (step 100 {} (.fork 10 ['a'] false false false)).jobs.all (fun j => j.procs.all (fun p => p.pid != 11)) = true := by decide
      rw [List.all_eq_true] at this
      have := this j hj
      rw [List.all_eq_true] at this
      simpa using this p hp
  · intro ls
    have h : ∀ (ls : List (List (Nat × W))) (s : S), s.jobs.any (fun j => !j.started) = true →
        run 100 s (ls.map Op.sigchld) = s := by
      intro ls
      induction ls with
      | nil => intro s _; rfl
      | cons l ls ih =>
        intro s hs
        have : sigchld s l = s := by unfold sigchld; rw [if_pos hs]
        simp only [run, List.map_cons, List.foldl_cons, step]
        rw [this]
        exact ih s hs
    rw [h ls _ (by decide)]
    decide

/-- A job that is stopped with one process gone; the pid of that process is
given to a new one.  `[1] a | b` was stopped after `a` (10) ended, `c` gets 10. -/
def reused : S :=
  run 100 {} [.set true false false, .fork 10 ['a'] false false false, .pipe 11 ['b'] false true, .waitBegin 0 false,
    .sigchld [(10, .exited 0), (11, .stopped 18)], .waitEnd 0 false, .fork 10 ['c'] false false true, .waitBegin 1 false]

/-- **C36** Without `Fresh` the table can be misled: the end of the new process 10
is noted for the first job, and the shell goes on waiting for `c`. -/
theorem pid_reuse_hangs : (∃ j, (sigchld reused [(10, .exited 0)]).get 1 = some j ∧ j.procs.map Proc.pid = [10]) ∧
    waitEnd (sigchld reused [(10, .exited 0)]) 1 false = none := by
  refine ⟨⟨_, rfl, rfl⟩, by decide⟩

/-! ### Job numbers (C37) -/

/-- **C37** Two jobs that `jobs` lists have different numbers, and they are positive. -/
theorem numbers_distinct {cm : Nat} {s : S} (hr : Reach cm s) :
    (∀ a ∈ listed s none false false, 1 ≤ a.num) ∧
    (listed s none false false).Pairwise (fun a b => a.num ≠ b.num) := by
  have g := hr.good
  have hm : ∀ a ∈ listed s none false false, a ∈ s.jobs ∧ a.zombie = false := by
    intro a ha
    unfold listed at ha
    rw [List.mem_filter] at ha
    simpa using ha
  refine ⟨fun a ha => (g.one a (hm a ha).1).pos (hm a ha).2, ?_⟩
  have : (listed s none false false).Pairwise Rel := g.rel.sublist List.filter_sublist
  refine List.Pairwise.imp_of_mem ?_ this
  intro a b ha hb hab
  rcases hab.num with h | h | h
  · rw [(hm a ha).2] at h; simp at h
  · rw [(hm b hb).2] at h; simp at h
  · exact h

/-- **C37** A new job gets the smallest positive number that no job has. -/
theorem new_number (cm : Nat) (s : S) (pid : Nat) (cmd : List Char) (bg xx e : Bool) :
    ∃ (j : Job) (n : Nat), (fork cm s pid cmd bg xx e).get s.next = some j ∧ j.num = n ∧ 1 ≤ n ∧ (∀ k ∈ s.jobs, k.num ≠ n) ∧
      ∀ m : Nat, 1 ≤ m → m < n → ∃ k ∈ s.jobs, k.num = m := by
  have ⟨a, b, c⟩ := newNum_spec s.jobs
  have e1 : S.get (putJob { s with next := s.next + 1, last := some s.next, log := .born pid :: s.log }
      (newJob s pid cmd bg xx) false) s.next = some (newJob s pid cmd bg xx) := by
    rw [get_put]
    exact if_pos rfl
  unfold fork
  simp only
  split
  · exact ⟨_, newNum s.jobs, get_finish e1 rfl, rfl, a, b, c⟩
  · exact ⟨_, newNum s.jobs, e1, rfl, a, b, c⟩

theorem strtonum_digits {n : Nat} (h1 : 1 ≤ n) (h2 : n ≤ 2147483647) : strtonum (Nat.toDigits 10 n) = some n := by
  unfold strtonum
  have hd : (Nat.toDigits 10 n).all isDigit = true := by
    rw [List.all_eq_true]
    intro c hc
    have := Nat.isDigit_of_mem_toDigits (by omega) (by omega) hc
    unfold Char.isDigit at this
    unfold isDigit
    simp only [Bool.and_eq_true, decide_eq_true_eq] at this ⊢
    exact this
  have hv : (Nat.toDigits 10 n).foldl (fun a c => a * 10 + (c.toNat - 48)) 0 = n := by
    have h := Nat.ofDigitChars_toDigits (b := 10) (n := n) (by omega) (by omega)
    rw [Nat.ofDigitChars_eq_foldl] at h
    refine Eq.trans ?_ h
    congr 1
    funext a c
    rw [Nat.mul_comm]
    rfl
  simp only [hd, if_true, hv]
  rw [if_pos ⟨h1, h2⟩]

theorem toDigits_head (n : Nat) : ∃ c r, Nat.toDigits 10 n = c :: r ∧ isDigit c = true := by
  obtain ⟨c, r, e⟩ := List.exists_cons_of_ne_nil (Nat.toDigits_ne_nil (n := n) (b := 10))
  refine ⟨c, r, e, ?_⟩
  have := Nat.isDigit_of_mem_toDigits (n := n) (b := 10) (c := c) (by omega) (by omega) (by rw [e]; simp)
  unfold Char.isDigit at this
  unfold isDigit
  simp only [Bool.and_eq_true, decide_eq_true_eq] at this ⊢
  exact this

theorem digit_not {c : Char} (h : isDigit c = true) : c ≠ '+' ∧ c ≠ '%' ∧ c ≠ '-' ∧ c ≠ '?' := by
  refine ⟨?_, ?_, ?_, ?_⟩ <;> (rintro rfl; revert h; decide)

/-- **C37** `%n` is the job with the number `n`, and there is at most one. -/
theorem percent_number {cm : Nat} {s : S} (hr : Reach cm s) {n : Nat} (h1 : 1 ≤ n) (h2 : n ≤ 2147483647) (j : Job) :
    lookup s.jobs ('%' :: Nat.toDigits 10 n) = .found j ↔ j ∈ s.jobs ∧ j.num = n := by
  have g := hr.good
  obtain ⟨c, r, e, hc⟩ := toDigits_head n
  have hs := strtonum_digits h1 h2
  have ⟨d1, d2, d3, _⟩ := digit_not hc
  rw [e] at hs
  have hp : isDigit '%' = false := by decide
  unfold lookup
  simp only [hp, Bool.false_eq_true, if_false, ne_eq, not_true, e, d1, d2, d3, decide_false, Bool.or_self, hc, if_true, hs]
  cases hf : s.jobs.find? (fun j => j.num == (n : Int)) with
  | none =>
    simp only [reduceCtorEq, false_iff, not_and]
    intro hj hn
    rw [List.find?_eq_none] at hf
    exact hf j hj (by simp [hn])
  | some k =>
    have hk : k ∈ s.jobs := List.mem_of_find?_eq_some hf
    have hkn : k.num = n := by simpa using List.find?_some hf
    simp only [Look.found.injEq]
    constructor
    · rintro rfl; exact ⟨hk, hkn⟩
    · rintro ⟨hj, hn⟩
      by_cases hne : k = j
      · exact hne
      · exfalso
        have hr' := rel_of_ne g.rel hk hj hne
        rcases hr'.num with h | h | h
        · have := (g.one k hk).zomb h; omega
        · have := (g.one j hj).zomb h; omega
        · omega

/-- **C37** `%+`, `%%` and `%` are the first job of the list, `%-` is the second; so
they are never the same job. -/
theorem percent_signs {cm : Nat} {s : S} (hr : Reach cm s) (a b : Job)
    (ha : lookup s.jobs ['%', '+'] = .found a) (hb : lookup s.jobs ['%', '-'] = .found b) :
    a ∈ s.jobs ∧ b ∈ s.jobs ∧ a.id ≠ b.id ∧ lookup s.jobs ['%', '%'] = .found a ∧ lookup s.jobs ['%'] = .found a := by
  have g := hr.good
  have hp : isDigit '%' = false := by decide
  have hm : isDigit '-' = false := by decide
  revert ha hb
  have hrel := g.rel
  unfold lookup
  simp only [hp, Bool.false_eq_true, if_false, ne_eq, not_true]
  generalize s.jobs = L at hrel ⊢
  cases L with
  | nil => simp
  | cons x L =>
    cases L with
    | nil => simp
    | cons y L =>
      simp only [List.head?_cons, List.drop_succ_cons, List.drop_zero]
      intro ha hb
      simp at ha hb
      subst ha
      subst hb
      refine ⟨by simp, by simp, ?_, by simp, by simp⟩
      exact ((List.pairwise_cons.1 hrel).1 y (by simp)).id

/-- **C37** With job control a job that stops becomes the current job. -/
theorem stopped_is_current {s : S} {j : Job} (hm : s.monitor = true) (hx : j.xxcom = false) (hs : j.state = 3) :
    ∃ k, lookup (settle s j).jobs ['%', '+'] = .found k ∧ k.id = j.id ∧ k.procs = j.procs := by
  have hp : isDigit '%' = false := by decide
  have h : ∃ k L, (settle s j).jobs = k :: L ∧ k.id = j.id ∧ k.procs = j.procs := by
    unfold settle
    simp only [hm, if_true, hx, Bool.false_eq_true, if_false, hs]
    split
    · unfold putJob S.upd
      simp
    · unfold putJob
      simp
  obtain ⟨k, L, e, h1, h2⟩ := h
  refine ⟨k, ?_, h1, h2⟩
  unfold lookup
  simp [hp, e]

/-- Two background jobs of a shell without job control; the last one has ended. -/
def ended : S :=
  run 100 {} [.fork 10 ['a'] true false true, .fork 11 ['b'] true false true, .sigchld [(11, .exited 0)]]

/-- **C37** `%+` may be a job that `jobs` does not list and that has no number: the last
background job, kept after its end for `wait $!`. -/
theorem plus_unlisted : ∃ j, lookup ended.jobs ['%', '+'] = .found j ∧ j.num = -1 ∧ j ∉ listed ended none false false := by
  refine ⟨_, rfl, by decide, by decide⟩

/-! ### Jobs by their command (C59) -/

theorem lastMatch_some (l : List Job) (j : Job) : lastMatch l (some j) = if l = [] then .found j else .ambig := by
  cases l <;> simp [lastMatch]

theorem lastMatch_none : ∀ l : List Job, lastMatch l none =
    match l with | [] => .noSuch | [j] => .found j | _ => .ambig
  | [] => rfl
  | [_] => rfl
  | _ :: _ :: _ => rfl

theorem contains_iff (s t : List Char) : contains s t = true ↔ ∃ a b, s = a ++ t ++ b := by
  induction s with
  | nil =>
    simp only [contains, List.isPrefixOf_iff_prefix, List.prefix_nil]
    constructor
    · rintro rfl; exact ⟨[], [], rfl⟩
    · rintro ⟨a, b, h⟩
      have := congrArg List.length h
      simp at this
      exact List.length_eq_zero_iff.1 (by omega)
  | cons c s ih =>
    simp only [contains, Bool.or_eq_true, List.isPrefixOf_iff_prefix, ih]
    constructor
    · rintro (⟨b, h⟩ | ⟨a, b, h⟩)
      · exact ⟨[], b, by simpa using h.symm⟩
      · exact ⟨c :: a, b, by rw [h]; simp⟩
    · rintro ⟨a, b, h⟩
      cases a with
      | nil => exact Or.inl ⟨b, by simpa using h.symm⟩
      | cons x a =>
        simp only [List.cons_append, List.cons.injEq] at h
        exact Or.inr ⟨a, b, by simpa using h.2⟩

theorem eq_of_filter_single {p : Job → Bool} {l : List Job} {j : Job} (h : l.filter p = [j]) :
    j ∈ l ∧ p j = true ∧ ∀ k ∈ l, p k = true → k = j := by
  have h1 : j ∈ l.filter p := by rw [h]; simp
  refine ⟨(List.mem_filter.1 h1).1, (List.mem_filter.1 h1).2, ?_⟩
  intro k hk hp
  have : k ∈ l.filter p := List.mem_filter.2 ⟨hk, hp⟩
  rw [h] at this
  simpa using this

/-- **C59** `%string` is the job whose command begins with the string, if there is
exactly one: it is found, not found, or ambiguous, as it should be. -/
theorem percent_string {cm : Nat} {s : S} (hr : Reach cm s) (d : Char) (more : List Char)
    (h1 : d ≠ '+') (h2 : d ≠ '%') (h3 : d ≠ '-') (h4 : d ≠ '?') (h5 : ¬ ('0' ≤ d ∧ d ≤ '9')) :
    let M := fun j : Job => ∃ p ps t, j.procs = p :: ps ∧ p.cmd = d :: more ++ t
    (∀ j, lookup s.jobs ('%' :: d :: more) = .found j ↔ j ∈ s.jobs ∧ M j ∧ ∀ k ∈ s.jobs, M k → k = j) ∧
    (lookup s.jobs ('%' :: d :: more) = .noSuch ↔ ∀ j ∈ s.jobs, ¬ M j) ∧
    (lookup s.jobs ('%' :: d :: more) = .ambig ↔ ∃ j ∈ s.jobs, ∃ k ∈ s.jobs, j ≠ k ∧ M j ∧ M k) := by
  intro M
  have g := hr.good
  have hp : isDigit '%' = false := by decide
  have hd : isDigit d = false := by
    unfold isDigit
    simpa using h5
  have e : lookup s.jobs ('%' :: d :: more) = lastMatch (s.jobs.filter (fun j => match j.procs.head? with
            | some p => isPrefix (d :: more) p.cmd
            | none => false)) none := by
    unfold lookup
    simp only [hp, Bool.false_eq_true, if_false, ne_eq, not_true, h1, h2, h3, h4, decide_false, Bool.or_self, hd]
    rfl
  have hM : ∀ j : Job, (match j.procs.head? with | some p => isPrefix (d :: more) p.cmd | none => false) = true ↔ M j := by
    intro j
    cases hpr : j.procs with
    | nil => simp [M, hpr]
    | cons p ps =>
      simp only [List.head?_cons, isPrefix, List.isPrefixOf_iff_prefix, M, hpr, List.cons.injEq]
      constructor
      · rintro ⟨t, h⟩; exact ⟨p, ps, t, ⟨rfl, rfl⟩, h.symm⟩
      · rintro ⟨p', ps', t, ⟨rfl, rfl⟩, h⟩; exact ⟨t, h.symm⟩
  rw [e]
  generalize hq : (fun j : Job => match j.procs.head? with | some p => isPrefix (d :: more) p.cmd | none => false) = q at hM
  have hM : ∀ j, q j = true ↔ M j := by subst hq; exact hM
  have hnd : (s.jobs.filter q).Pairwise Rel := g.rel.sublist List.filter_sublist
  rw [lastMatch_none]
  rcases hf : s.jobs.filter q with _ | ⟨a, _ | ⟨b, L⟩⟩
  · have hnone : ∀ j ∈ s.jobs, ¬ M j := by
      intro j hj hm
      have : j ∈ s.jobs.filter q := List.mem_filter.2 ⟨hj, (hM j).2 hm⟩
      rw [hf] at this
      simp at this
    simp only [reduceCtorEq, false_iff, true_iff]
    refine ⟨?_, hnone, ?_⟩
    · rintro j ⟨hj, hm, _⟩; exact hnone j hj hm
    · rintro ⟨j, hj, k, hk, _, hm, _⟩; exact hnone j hj hm
  · obtain ⟨ha, hma, hu⟩ := eq_of_filter_single hf
    simp only [reduceCtorEq, false_iff, Look.found.injEq]
    refine ⟨?_, ?_, ?_⟩
    · intro j
      constructor
      · rintro rfl; exact ⟨ha, (hM a).1 hma, fun k hk hm => hu k hk ((hM k).2 hm)⟩
      · rintro ⟨_, _, h⟩; exact h a ha ((hM a).1 hma)
    · intro h; exact h a ha ((hM a).1 hma)
    · rintro ⟨j, hj, k, hk, hne, hm, hm'⟩
      exact hne ((hu j hj ((hM j).2 hm)).trans (hu k hk ((hM k).2 hm')).symm)
  · have ha : a ∈ s.jobs.filter q := by rw [hf]; simp
    have hb : b ∈ s.jobs.filter q := by rw [hf]; simp
    rw [List.mem_filter] at ha hb
    have hab : a ≠ b := by
      rw [hf] at hnd
      intro e
      exact ((List.pairwise_cons.1 hnd).1 b (by simp)).id (by rw [e])
    simp only [reduceCtorEq, false_iff, true_iff]
    refine ⟨?_, ?_, ⟨a, ha.1, b, hb.1, hab, (hM a).1 ha.2, (hM b).1 hb.2⟩⟩
    · rintro j ⟨_, _, h⟩
      exact hab ((h a ha.1 ((hM a).1 ha.2)).trans (h b hb.1 ((hM b).1 hb.2)).symm)
    · intro h; exact h a ha.1 ((hM a).1 ha.2)

/-- **C59** `%?string` finds only the one job with a command that contains the
string, and finds it if only one of its processes has such a command.

Partial: with two such processes the job is called ambiguous although it is the
only one, see `one_job_ambiguous`. -/
theorem percent_substring_partial {cm : Nat} {s : S} (hr : Reach cm s) (more : List Char) :
    let M := fun p : Proc => ∃ a b, p.cmd = a ++ more ++ b
    (∀ j, lookup s.jobs ('%' :: '?' :: more) = .found j →
      j ∈ s.jobs ∧ (∃ p ∈ j.procs, M p) ∧ ∀ k ∈ s.jobs, (∃ p ∈ k.procs, M p) → k = j) ∧
    (∀ j ∈ s.jobs, ∀ a p b, j.procs = a ++ p :: b → M p → (∀ q ∈ a ++ b, ¬ M q) →
      (∀ k ∈ s.jobs, k ≠ j → ∀ q ∈ k.procs, ¬ M q) → lookup s.jobs ('%' :: '?' :: more) = .found j) ∧
    (lookup s.jobs ('%' :: '?' :: more) = .noSuch ↔ ∀ j ∈ s.jobs, ∀ p ∈ j.procs, ¬ M p) := by
  intro M
  have g := hr.good
  have hp : isDigit '%' = false := by decide
  have hd : isDigit '?' = false := by decide
  have e : lookup s.jobs ('%' :: '?' :: more) = lastMatch (s.jobs.flatMap
      (fun j => (j.procs.filter (fun p => contains p.cmd more)).map (fun _ => j))) none := by
    unfold lookup
    simp [hp, hd]
  have hmem : ∀ k, k ∈ s.jobs.flatMap (fun j => (j.procs.filter (fun p => contains p.cmd more)).map (fun _ => j)) ↔
      k ∈ s.jobs ∧ ∃ p ∈ k.procs, M p := by
    intro k
    simp only [List.mem_flatMap, List.mem_map, List.mem_filter, contains_iff]
    constructor
    · rintro ⟨j, hj, p, ⟨hp, hc⟩, rfl⟩; exact ⟨hj, p, hp, hc⟩
    · rintro ⟨hk, p, hp, hc⟩; exact ⟨k, hk, p, ⟨hp, hc⟩, rfl⟩
  rw [e, lastMatch_none]
  generalize hL : s.jobs.flatMap (fun j => (j.procs.filter (fun p => contains p.cmd more)).map (fun _ => j)) = L at hmem
  refine ⟨?_, ?_, ?_⟩
  · rcases L with _ | ⟨a, _ | ⟨b, L⟩⟩
    · simp
    · intro j hj
      simp only [Look.found.injEq] at hj
      subst hj
      have h1 := (hmem a).1 (by simp)
      refine ⟨h1.1, h1.2, ?_⟩
      intro k hk hm
      simpa using (hmem k).2 ⟨hk, hm⟩
    · simp
  · intro j hj a p b hpr hm hrest hothers
    have hf : ∀ k ∈ s.jobs, k ≠ j → k.procs.filter (fun p => contains p.cmd more) = [] := by
      intro k hk hne
      rw [List.filter_eq_nil_iff]
      intro q hq hc
      exact hothers k hk hne q hq ((contains_iff _ _).1 hc)
    have hfj : j.procs.filter (fun p => contains p.cmd more) = [p] := by
      rw [hpr, List.filter_append, List.filter_cons, if_pos ((contains_iff _ _).2 hm)]
      have h1 : a.filter (fun p => contains p.cmd more) = [] := by
        rw [List.filter_eq_nil_iff]
        intro q hq hc
        exact hrest q (List.mem_append_left _ hq) ((contains_iff _ _).1 hc)
      have h2 : b.filter (fun p => contains p.cmd more) = [] := by
        rw [List.filter_eq_nil_iff]
        intro q hq hc
        exact hrest q (List.mem_append_right _ hq) ((contains_iff _ _).1 hc)
      rw [h1, h2]
      rfl
    have : L = [j] := by
      rw [← hL]
      have hrel := g.rel
      clear hL hmem e hothers
      generalize s.jobs = J at *
      induction J with
      | nil => simp at hj
      | cons x J ih =>
        rw [List.flatMap_cons]
        have hx := List.pairwise_cons.1 hrel
        by_cases hxj : x = j
        · subst hxj
          rw [hfj]
          have : J.flatMap (fun j => (j.procs.filter (fun p => contains p.cmd more)).map (fun _ => j)) = [] := by
            rw [List.flatMap_eq_nil_iff]
            intro k hk
            rw [hf k (List.mem_cons_of_mem _ hk) (fun e => (hx.1 k hk).id (by rw [e]))]
            rfl
          rw [this]
          rfl
        · rw [hf x (by simp) hxj]
          rcases List.mem_cons.1 hj with hj' | hj'
          · exact absurd hj'.symm hxj
          · exact ih hj' (fun k hk => hf k (List.mem_cons_of_mem _ hk)) hx.2
    rw [this]
  · constructor
    · intro h j hj p hp hm
      have := (hmem j).2 ⟨hj, p, hp, hm⟩
      rcases L with _ | ⟨a, _ | ⟨b, L⟩⟩
      · simp at this
      · simp at h
      · simp at h
    · intro h
      rcases L with _ | ⟨a, L⟩
      · rfl
      · obtain ⟨h1, p, hp, hm⟩ := (hmem a).1 (by simp)
        exact absurd hm (h a h1 p hp)

/-- `sleep 1 | sleep 2 &` -/
def twice : S :=
  run 100 {} [.set true false false, .fork 10 ['s', '1'] true false false, .pipe 11 ['s', '2'] true true]

/-- **C59** `%?s` does not find the only job there is. -/
theorem one_job_ambiguous : twice.jobs.length = 1 ∧ lookup twice.jobs ['%', '?', 's'] = .ambig := by decide

/-! ### `$!` and removed jobs (C60) -/

def Listed (s : S) (i : Nat) : Prop := ∃ j ∈ s.jobs, j.id = i

/-- `async_job` and `last_job` point to jobs of the list, and remove_job has not
been called for a job that is not in the list. -/
structure Ptr (s : S) : Prop where
  async : ∀ i, s.async = some i → Listed s i
  last : ∀ i, s.last = some i → Listed s i
  quiet : s.warned = false

theorem listed_get {s : S} {i} : Listed s i ↔ ∃ j, s.get i = some j := by
  constructor
  · rintro ⟨j, hj, hi⟩
    cases e : s.get i with
    | some k => exact ⟨k, rfl⟩
    | none =>
      unfold S.get at e
      rw [List.find?_eq_none] at e
      exact absurd (by simp [hi]) (e j hj)
  · rintro ⟨j, e⟩
    exact ⟨j, (get_some e).1, (get_some e).2⟩

theorem listed_upd {s : S} {i k f} (hf : ∀ j ∈ s.jobs, (f j).id = j.id) : Listed (s.upd k f) i ↔ Listed s i := by
  have hid : ∀ j ∈ s.jobs, (if j.id == k then f j else j).id = j.id := by
    intro j hj; split; exact hf j hj; rfl
  unfold Listed S.upd
  constructor
  · rintro ⟨j, hj, e⟩
    obtain ⟨a, ha, rfl⟩ := List.mem_map.1 hj
    exact ⟨a, ha, by rw [← e, hid a ha]⟩
  · rintro ⟨j, hj, e⟩
    exact ⟨_, List.mem_map_of_mem hj, by rw [hid j hj]; exact e⟩

theorem listed_map {s : S} {i f} (hf : ∀ j, (f j).id = j.id) {x} :
    Listed { s with jobs := s.jobs.map f, async := x } i ↔ Listed s i := by
  unfold Listed
  constructor
  · rintro ⟨j, hj, e⟩
    obtain ⟨a, ha, rfl⟩ := List.mem_map.1 hj
    exact ⟨a, ha, by rw [← e, hf a]⟩
  · rintro ⟨j, hj, e⟩
    exact ⟨_, List.mem_map_of_mem hj, by rw [hf j]; exact e⟩

theorem listed_remove {s : S} {i k} : Listed (removeJob s k) i ↔ Listed s i ∧ i ≠ k := by
  unfold removeJob
  split
  · rename_i e
    constructor
    · intro h
      refine ⟨h, ?_⟩
      rintro rfl
      obtain ⟨j, hj⟩ := listed_get.1 h
      have : s.get i = some j := hj
      rw [e] at this
      simp at this
    · exact fun h => h.1
  · unfold Listed
    simp only [List.mem_filter, bne_iff_ne]
    constructor
    · rintro ⟨j, ⟨h1, h2⟩, rfl⟩; exact ⟨⟨j, h1, rfl⟩, h2⟩
    · rintro ⟨⟨j, h1, rfl⟩, h2⟩; exact ⟨j, ⟨h1, h2⟩, rfl⟩

theorem listed_put {s : S} {j b i} : Listed (putJob s j b) i ↔ i = j.id ∨ Listed s i := by
  rw [listed_get, listed_get, get_put]
  by_cases h : j.id = i
  · simp [h]
  · simp [h, Ne.symm h]

theorem Ptr.upd {s : S} {k f} (h : Ptr s) (hf : ∀ j ∈ s.jobs, (f j).id = j.id) : Ptr (s.upd k f) :=
  ⟨fun i hi => (listed_upd hf).2 (h.async i hi), fun i hi => (listed_upd hf).2 (h.last i hi), h.quiet⟩

theorem Ptr.put {s : S} {j b} (h : Ptr s) : Ptr (putJob s j b) :=
  ⟨fun i hi => listed_put.2 (Or.inr (h.async i hi)), fun i hi => listed_put.2 (Or.inr (h.last i hi)), h.quiet⟩

theorem Ptr.remove {s : S} {k} (h : Ptr s) (hk : Listed s k) : Ptr (removeJob s k) := by
  obtain ⟨j, e⟩ := listed_get.1 hk
  have e1 : (removeJob s k).async = if s.async = some k then none else s.async := by unfold removeJob; rw [e]
  have e2 : (removeJob s k).last = if s.last = some k then none else s.last := by unfold removeJob; rw [e]
  have e3 : (removeJob s k).warned = s.warned := by unfold removeJob; rw [e]
  refine ⟨?_, ?_, by rw [e3]; exact h.quiet⟩
  · intro i hi
    rw [e1] at hi
    split at hi
    · simp at hi
    · rename_i hne
      rw [listed_remove]
      exact ⟨h.async i hi, fun e => hne (by rw [← e]; exact hi)⟩
  · intro i hi
    rw [e2] at hi
    split at hi
    · simp at hi
    · rename_i hne
      rw [listed_remove]
      exact ⟨h.last i hi, fun e => hne (by rw [← e]; exact hi)⟩

theorem Ptr.removeAll : ∀ (l : List Nat) {s : S}, Ptr s → l.Nodup → (∀ i ∈ l, Listed s i) → Ptr (removeAll s l)
  | [], _, h, _, _ => h
  | k :: l, s, h, hn, hl => by
    have hn := List.nodup_cons.1 hn
    refine Ptr.removeAll l (h.remove (hl k (by simp))) hn.2 ?_
    intro i hi
    rw [listed_remove]
    exact ⟨hl i (List.mem_cons_of_mem _ hi), fun e => hn.1 (by rw [← e]; exact hi)⟩

theorem Ptr.settle {s : S} {j} (h : Ptr s) (hj : Listed s j.id) : Ptr (settle s j) := by
  have h2 : Ptr (if j.state = 3 then putJob s j true else s) ∧ Listed (if j.state = 3 then putJob s j true else s) j.id := by
    split
    · exact ⟨h.put, listed_put.2 (Or.inl rfl)⟩
    · exact ⟨h, hj⟩
  unfold Jobs.settle
  simp only
  generalize (if j.state = 3 then putJob s j true else s) = s2 at h2 ⊢
  have h3 : Ptr (s2.upd j.id (fun j => { j with changed := false })) := h2.1.upd (fun _ _ => rfl)
  split
  · split
    · exact h
    · split
      · split
        · exact h3.remove ((listed_upd (k := j.id) (f := fun j => { j with changed := false }) (fun _ _ => rfl)).2 h2.2)
        · exact h3
      · exact h2.1
  · split
    · split
      · exact h.upd (fun _ _ => rfl)
      · exact h.remove hj
    · exact h

theorem Ptr.check {s : S} {i} (h : Ptr s) : Ptr (checkJob s i) := by
  unfold checkJob
  split
  · exact h
  · rename_i j e
    have ⟨hj, hid⟩ := get_some e
    split
    · exact h
    · split
      · exact h
      · -- the job with the id `i` is replaced by one with the same id
        have key : ∀ k, Listed (s.upd i (fun _ => settled j)) k ↔ Listed s k := by
          intro k
          rw [listed_get, get_set (x := j) (by exact hid) e, listed_get]
          split
          · rename_i hk
            subst hk
            rw [e]
            simp
          · exact Iff.rfl
        refine Ptr.settle ⟨?_, ?_, h.quiet⟩ ?_
        · intro k hk
          exact (key k).2 (h.async k hk)
        · intro k hk
          exact (key k).2 (h.last k hk)
        · rw [key]
          exact ⟨j, hj, rfl⟩

theorem Ptr.reap {s : S} {pid w} (h : Ptr s) : Ptr (reap s pid w) := by
  have h0 : Ptr { s with log := .report pid w :: s.log } := ⟨h.async, h.last, h.quiet⟩
  unfold Jobs.reap
  simp only
  split
  · exact h0
  · exact (h0.upd (f := fun j => { j with procs := setProc pid (.did w) j.procs }) (fun _ _ => rfl)).check

theorem Ptr.sigchld {s : S} {l} (h : Ptr s) : Ptr (sigchld s l) := by
  unfold Jobs.sigchld
  split
  · exact h
  · rename_i hx
    clear hx
    induction l generalizing s with
    | nil => exact h
    | cons e l ih => exact ih h.reap

theorem oldest_listed {s : S} {keep i} (h : oldest s keep = some i) : Listed s i := by
  unfold oldest at h
  have := List.min?_mem h
  obtain ⟨j, hj, rfl⟩ := List.mem_map.1 this
  exact ⟨j, (List.mem_filter.1 hj).1, rfl⟩

theorem Ptr.purge (cm keep : Nat) : ∀ f {s : S}, Ptr s → Ptr (purge cm keep f s)
  | 0, _, h => h
  | f + 1, s, h => by
    unfold Jobs.purge
    split
    · split
      · exact h
      · rename_i i e
        exact Ptr.purge cm keep f (h.remove (oldest_listed e))
    · exact h

theorem Ptr.setAsync {cm : Nat} {s : S} {j : Job} (h : Ptr s) (hj : Listed s j.id)
    (hz : ∀ k, s.async = some j.id → s.get j.id = some k → k.zombie = true → k.known = true) :
    Ptr (setAsync cm s j) := by
  unfold Jobs.setAsync
  simp only
  have key : ∀ s1 : S, Ptr s1 ∧ Listed s1 j.id →
      Ptr (if !j.started then s1 else Jobs.purge cm j.id s1.jobs.length { s1 with async := some j.id }) := by
    rintro s1 ⟨p1, l1⟩
    split
    · exact p1
    · refine Ptr.purge cm j.id _ ⟨?_, p1.last, p1.quiet⟩
      intro i hi
      simp only [Option.some.injEq] at hi
      subst hi
      exact l1
  refine key _ ?_
  split
  · exact ⟨h, hj⟩
  · rename_i a ea
    split
    · rename_i e
      obtain ⟨k, hk⟩ := listed_get.1 (h.async a ea)
      rw [e] at hk
      simp at hk
    · rename_i ja e
      split
      · rename_i hc
        simp only [Bool.and_eq_true, Bool.not_eq_true'] at hc
        refine ⟨h.remove (h.async a ea), listed_remove.2 ⟨hj, ?_⟩⟩
        intro e'
        rw [← e'] at ea e
        have := hz ja ea e hc.1
        rw [hc.2] at this
        simp at this
      · exact ⟨h, hj⟩

theorem Ptr.finish {cm : Nat} {s : S} {i bg} (h : Ptr s)
    (hz : ∀ j, s.get i = some j → j.zombie = false) : Ptr (finish cm s i bg) := by
  unfold Jobs.finish
  simp only
  have h1 : Ptr (s.upd i (fun j => { j with started := true })) := h.upd (fun _ _ => rfl)
  split
  · split
    · rename_i j e
      have ⟨hj, hid⟩ := get_some e
      refine h1.setAsync ⟨j, hj, rfl⟩ ?_
      intro k _ hk hkz
      exfalso
      rw [hid] at hk
      rw [get_upd ?_] at hk
      rotate_left
      · exact fun _ => rfl
      cases e0 : s.get i with
      | none => rw [e0] at hk; simp at hk
      | some j0 =>
        rw [e0] at hk
        simp only [Option.map_some, Option.some.injEq] at hk
        have := hz j0 e0
        have hk' : k.zombie = j0.zombie := by rw [← hk]; split <;> rfl
        rw [hk', this] at hkz
        simp at hkz
    · exact h1
  · exact h1

/-- `bg` is not given the last background job, after that has ended without
anyone having asked for `$!`. -/
def NoBgZombie (s : S) : Op → Prop
  | .resume i true => ∀ j, s.async = some i → s.get i = some j → j.zombie = true → j.known = true
  | _ => True

/-- As `Reach`, without such a `bg`. -/
inductive ReachB (cm : Nat) : S → Prop
  | init : ReachB cm {}
  | step {s op} : ReachB cm s → Fresh s op → NoBgZombie s op → ReachB cm (step cm s op)

theorem ReachB.reach {cm : Nat} {s : S} (h : ReachB cm s) : Reach cm s := by
  induction h with
  | init => exact .init
  | step _ hf _ ih => exact .step ih hf

theorem Ptr.step {cm : Nat} {s : S} {op : Op} (g : G JobOk s) (h : Ptr s) (hb : NoBgZombie s op) : Ptr (step cm s op) := by
  have ids : ∀ (p : Job → Bool), ((s.jobs.filter p).map Job.id).Nodup := by
    intro p
    have : (s.jobs.filter p).Pairwise Rel := g.rel.sublist List.filter_sublist
    exact List.Pairwise.map _ (fun a b h => h.id) this
  cases op with
  | fork pid cmd bg xx e =>
    simp only [Jobs.step, fork]
    have h0 : Ptr (putJob { s with next := s.next + 1, last := some (newJob s pid cmd bg xx).id, log := .born pid :: s.log }
        (newJob s pid cmd bg xx) false) := by
      refine ⟨fun i hi => listed_put.2 (Or.inr (h.async i hi)), ?_, h.quiet⟩
      intro i hi
      have : some (newJob s pid cmd bg xx).id = some i := hi
      simp only [Option.some.injEq] at this
      exact listed_put.2 (Or.inl this.symm)
    split
    · refine h0.finish ?_
      intro j hj
      rw [get_put, if_pos rfl] at hj
      simp only [Option.some.injEq] at hj
      rw [← hj]
      rfl
    · exact h0
  | pipe pid cmd bg e =>
    simp only [Jobs.step, pipe]
    split
    · exact h
    · rename_i j ej
      split
      · exact h
      · rename_i hns
        have hns : j.started = false := by simpa using hns
        have hj : s.get j.id = some j := by
          cases hl : s.last with
          | none => rw [hl] at ej; simp at ej
          | some i =>
            rw [hl] at ej
            have ej : s.get i = some j := ej
            rw [(get_some ej).2]
            exact ej
        have h0 : Ptr { s with log := .born pid :: s.log } := ⟨h.async, h.last, h.quiet⟩
        have h1 := h0.upd (k := j.id)
          (f := fun j => { j with procs := j.procs ++ [{ pid := pid, cmd := cmd, st := .running }] }) (fun _ _ => rfl)
        split
        · refine h1.finish ?_
          intro k hk
          rw [get_upd ?_] at hk
          rotate_left
          · exact fun _ => rfl
          have e0 : ({ s with log := .born pid :: s.log } : S).get j.id = some j := hj
          rw [e0] at hk
          simp only [Option.map_some, Option.some.injEq] at hk
          have := (g.ok j (get_some hj).1).live hns
          rw [← hk]
          split <;> exact this
        · exact h1
  | forkFail l =>
    simp only [Jobs.step, forkFail]
    split
    · split
      · exact h
      · rename_i j ej
        split
        · exact h
        · cases hl : s.last with
          | none => rw [hl] at ej; simp at ej
          | some i =>
            rw [hl] at ej
            exact h.remove ⟨j, (get_some ej).1, rfl⟩
    · exact ⟨h.async, by simp, h.quiet⟩
  | startlast =>
    simp only [Jobs.step, startlast]
    split
    · exact h
    · exact h.upd (fun _ _ => rfl)
  | sigchld l => exact h.sigchld
  | waitBegin i an => exact h.upd (fun _ _ => rfl)
  | waitIntr i => exact h.upd (fun _ _ => rfl)
  | waitEnd i an =>
    simp only [Jobs.step]
    split
    · rename_i r e
      unfold waitEnd at e
      split at e
      · simp at e
      · rename_i j ej
        split at e
        · simp at e
        · simp only [Option.some.injEq] at e
          rw [← e]
          have h1 := h.upd (k := i) (f := fun j => { j with waiting := false, asyncN := false, fg := false }) (fun _ _ => rfl)
          simp only
          split
          · exact h1.remove ((listed_upd (k := i) (f := fun j => { j with waiting := false, asyncN := false, fg := false })
              (fun _ _ => rfl)).2 ⟨j, (get_some ej).1, (get_some ej).2⟩)
          · exact h1
    · exact h
  | resume i bg =>
    simp only [Jobs.step]
    split
    · unfold resume
      split
      · exact h
      · rename_i j ej
        have ⟨hj, hid⟩ := get_some ej
        split
        · exact h
        · simp only
          generalize hst : j.procs.filter (fun p => p.st.rank == 3) = stopped
          have h0 : Ptr { s with log := stopped.map (fun p => Ev.cont p.pid) ++ s.log } := ⟨h.async, h.last, h.quiet⟩
          generalize hj' : ({ j with
              procs := j.procs.map (fun p => if p.st.rank == 3 then { p with st := .running } else p)
              state := if stopped.isEmpty then j.state else 0 } : Job) = j'
          have hid' : j'.id = i := by rw [← hj']; exact hid
          have h1 : Ptr (putJob { s with log := stopped.map (fun p => Ev.cont p.pid) ++ s.log } j' false) := h0.put
          split
          · rename_i hbg
            subst hbg
            refine h1.setAsync (listed_put.2 (Or.inl rfl)) ?_
            intro k ha hk hkz
            rw [get_put, if_pos rfl] at hk
            simp only [Option.some.injEq] at hk
            subst hk
            have ha : s.async = some i := by rw [← hid']; exact ha
            have := hb j ha ej (by rw [← hj'] at hkz; exact hkz)
            rw [← hj']
            exact this
          · have h2 := h1.upd (k := i) (f := fun j => { j with fg := true, known := false }) (fun _ _ => rfl)
            refine ⟨?_, h2.last, h2.quiet⟩
            intro k hk
            simp only at hk
            split at hk
            · simp at hk
            · exact h2.async k hk
    · exact h
  | jobs o n z =>
    simp only [Jobs.step, jobsCmd]
    have hf : ∀ j : Job, (if ((listed s o n z).map Job.id).contains j.id then { j with changed := false } else j).id = j.id := by
      intro j; split <;> rfl
    refine Ptr.removeAll _ ⟨fun i hi => (listed_map hf).2 (h.async i hi), fun i hi => (listed_map hf).2 (h.last i hi), h.quiet⟩ ?_ ?_
    · unfold listed
      rw [List.filter_filter]
      exact ids _
    · intro i hi
      obtain ⟨j, hj, rfl⟩ := List.mem_map.1 hi
      have := (List.mem_filter.1 (List.mem_filter.1 hj).1).1
      exact (listed_map hf).2 ⟨j, this, rfl⟩
  | notify =>
    simp only [Jobs.step, notifyAll]
    have hf : ∀ j : Job, (if s.monitor then { j with changed := false } else j).id = j.id := by
      intro j; split <;> rfl
    refine Ptr.removeAll _ ⟨fun i hi => (listed_map hf).2 (h.async i hi), fun i hi => (listed_map hf).2 (h.last i hi), h.quiet⟩ (ids _) ?_
    intro i hi
    obtain ⟨j, hj, rfl⟩ := List.mem_map.1 hi
    exact (listed_map hf).2 ⟨j, (List.mem_filter.1 hj).1, rfl⟩
  | bang =>
    simp only [Jobs.step, dollarBang]
    split
    · exact h
    · exact h.upd (fun _ _ => rfl)
  | set m n p => exact ⟨h.async, h.last, h.quiet⟩

/-- **C60** The job of `$!` is in the table as long as there is one, and remove_job is
never called for a job that has been removed.

Partial: not if `bg` is given the last background job after its end, see
`bg_of_ended_job`. -/
theorem async_listed_partial {cm : Nat} {s : S} (hr : ReachB cm s) :
    (∀ i, s.async = some i → ∃ j ∈ s.jobs, j.id = i) ∧ s.warned = false := by
  have : Ptr s := by
    induction hr with
    | init => exact ⟨by simp, by simp, rfl⟩
    | step h0 _ hb ih => exact Ptr.step h0.reach.good ih hb
  exact ⟨this.async, this.quiet⟩

/-- `set -m; a & set +m; ...; set -m; bg %` after `a` has ended. -/
def bgEnded : S :=
  run 100 {} [.set true false false, .fork 10 ['a'] true false true, .set false false false,
    .sigchld [(10, .exited 0)], .set true false false, .resume 0 true]

/-- **C60** j_set_async removes the very job it is about to make the job of `$!`; the
next background job then removes it a second time. -/
theorem bg_of_ended_job : Reach 100 bgEnded ∧ bgEnded.async = some 0 ∧ bgEnded.jobs = [] ∧
    (step 100 bgEnded (.fork 11 ['b'] true false true)).warned = true := by
  refine ⟨?_, by decide, by decide, by decide⟩
  refine Reach.step (op := .resume 0 true) (Reach.step (op := .set true false false)
    (Reach.step (op := .sigchld [(10, .exited 0)]) (Reach.step (op := .set false false false)
    (Reach.step (op := .fork 10 ['a'] true false true) (Reach.step (op := .set true false false) .init trivial) ?_)
    trivial) trivial) trivial) trivial
  intro j hj
  simp [step] at hj

/-! ### Examples -/

/-- `false | kill -9 $$ | true` in the foreground, the children reported in another order. -/
def threeProcs (pf : Bool) : S :=
  run 100 {} [.set false false pf, .fork 10 ['f'] false false false, .pipe 11 ['k'] false false, .pipe 12 ['t'] false true,
    .waitBegin 0 false, .sigchld [(12, .exited 0), (10, .exited 1)], .sigchld [(11, .signalled 9)]]

example : (waitEnd (threeProcs false) 0 false).map Prod.fst = some 0 ∧
    (waitEnd (threeProcs true) 0 false).map Prod.fst = some 137 := by decide

/-- Job 1 ends, the next job gets its number again, `jobs` lists 3 jobs. -/
def numbers : S :=
  run 100 {} [.set true true false, .fork 10 ['a'] true false true, .fork 11 ['b'] true false true, .fork 12 ['c'] true false true,
    .sigchld [(10, .exited 0)], .fork 13 ['d'] true false true]

example : (listed numbers none false false).map (fun j => (j.num, j.id)) = [(1, 3), (3, 2), (2, 1)] ∧
    (∃ j, lookup numbers.jobs ['%', '1'] = .found j ∧ j.id = 3) ∧
    (∃ j, lookup numbers.jobs ['%', 'b'] = .found j ∧ j.id = 1) := by
  refine ⟨by decide, ⟨_, rfl, by decide⟩, ⟨_, rfl, by decide⟩⟩

end Ksh.Jobs
