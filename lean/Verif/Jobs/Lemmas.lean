import Verif.Jobs.Spec

namespace Ksh.Jobs
open Spec

/-- Two different jobs of the list. -/
structure Rel (a b : Job) : Prop where
  id : a.id ≠ b.id
  pid : ∀ p ∈ a.procs, ∀ q ∈ b.procs, p.pid ≠ q.pid
  num : a.zombie = true ∨ b.zombie = true ∨ a.num ≠ b.num

theorem Rel.symm {a b} (h : Rel a b) : Rel b a :=
  ⟨Ne.symm h.id, fun p hp q hq => Ne.symm (h.pid q hq p hp), by
    rcases h.num with h | h | h
    · exact Or.inr (Or.inl h)
    · exact Or.inl h
    · exact Or.inr (Or.inr (Ne.symm h))⟩

/-- One job of the list. -/
structure One (n : Nat) (log : List Ev) (j : Job) : Prop where
  lt : j.id < n
  nodup : (j.procs.map Proc.pid).Nodup
  fate : ∀ p ∈ j.procs, p.st = fate log p.pid
  zomb : j.zombie = true → j.num = -1
  pos : j.zombie = false → 1 ≤ j.num

/-- The state of a job agrees with its processes. -/
structure JobOk (j : Job) : Prop where
  ne : j.procs ≠ []
  fresh : j.started = false → j.state = 0 ∧ ∀ p ∈ j.procs, p.st = .running
  live : j.started = false → j.zombie = false
  run : (∃ p ∈ j.procs, p.st = .running) → j.state = 0
  done : j.started = true → (∀ p ∈ j.procs, p.st ≠ .running) → j.state = maxRank j.procs ∧ j.status = lastCode j.procs

structure Good (P : Job → Prop) (n : Nat) (log : List Ev) (l : List Job) : Prop where
  one : ∀ j ∈ l, One n log j
  ok : ∀ j ∈ l, P j
  rel : l.Pairwise Rel

variable {P Q : Job → Prop} {n : Nat} {log : List Ev} {l l' : List Job}

theorem Good.perm (h : Good P n log l) (p : l'.Perm l) : Good P n log l' :=
  ⟨fun j hj => h.one j (p.mem_iff.1 hj), fun j hj => h.ok j (p.mem_iff.1 hj),
   (p.symm.pairwise_iff Rel.symm).1 h.rel⟩

theorem Good.sub (h : Good P n log l) (p : l'.Sublist l) : Good P n log l' :=
  ⟨fun j hj => h.one j (p.subset hj), fun j hj => h.ok j (p.subset hj), h.rel.sublist p⟩

/-- What a change of a job may do without disturbing the others. -/
structure Pres (log' : List Ev) (n : Nat) (j j' : Job) : Prop where
  id : j'.id = j.id
  pids : j'.procs.map Proc.pid = j.procs.map Proc.pid
  fate : ∀ p ∈ j'.procs, p.st = fate log' p.pid
  num : (j'.num = j.num ∧ j'.zombie = j.zombie) ∨ (j'.num = -1 ∧ j'.zombie = true)

theorem Pres.mem {log' n j j'} (h : Pres log' n j j') {p} (hp : p ∈ j'.procs) : ∃ q ∈ j.procs, q.pid = p.pid := by
  have : p.pid ∈ j'.procs.map Proc.pid := List.mem_map_of_mem hp
  rw [h.pids] at this
  simpa using this

theorem Good.map {log'} (h : Good P n log l) (g : Job → Job)
    (hg : ∀ j ∈ l, P j → One n log j → Pres log' n j (g j) ∧ Q (g j)) : Good Q n log' (l.map g) := by
  have hg' : ∀ j ∈ l, Pres log' n j (g j) ∧ Q (g j) := fun j hj => hg j hj (h.ok j hj) (h.one j hj)
  refine ⟨?_, ?_, ?_⟩
  · intro j' hj'
    obtain ⟨j, hj, rfl⟩ := List.mem_map.1 hj'
    have ho := h.one j hj
    have hp := (hg' j hj).1
    refine ⟨by rw [hp.id]; exact ho.lt, by rw [hp.pids]; exact ho.nodup, hp.fate, ?_, ?_⟩
    · intro hz
      rcases hp.num with ⟨a, b⟩ | ⟨a, b⟩
      · rw [a]; exact ho.zomb (by rw [← b]; exact hz)
      · exact a
    · intro hz
      rcases hp.num with ⟨a, b⟩ | ⟨a, b⟩
      · rw [a]; exact ho.pos (by rw [← b]; exact hz)
      · rw [b] at hz; simp at hz
  · intro j' hj'
    obtain ⟨j, hj, rfl⟩ := List.mem_map.1 hj'
    exact (hg' j hj).2
  · rw [List.pairwise_map]
    refine List.Pairwise.imp_of_mem ?_ h.rel
    intro a b ha hb hr
    have pa := (hg' a ha).1
    have pb := (hg' b hb).1
    refine ⟨by rw [pa.id, pb.id]; exact hr.id, ?_, ?_⟩
    · intro p hp q hq
      obtain ⟨p', hp', e1⟩ := pa.mem hp
      obtain ⟨q', hq', e2⟩ := pb.mem hq
      rw [← e1, ← e2]
      exact hr.pid p' hp' q' hq'
    · rcases pa.num with ⟨a1, a2⟩ | ⟨_, a2⟩
      · rcases pb.num with ⟨b1, b2⟩ | ⟨_, b2⟩
        · rw [a1, a2, b1, b2]; exact hr.num
        · exact Or.inr (Or.inl b2)
      · exact Or.inl a2

theorem Good.imp (h : Good P n log l) (hi : ∀ j ∈ l, P j → Q j) : Good Q n log l :=
  ⟨h.one, fun j hj => hi j hj (h.ok j hj), h.rel⟩

theorem Good.next {m} (h : Good P n log l) (hm : n ≤ m) : Good P m log l :=
  ⟨fun j hj => let o := h.one j hj; ⟨Nat.lt_of_lt_of_le o.lt hm, o.nodup, o.fate, o.zomb, o.pos⟩, h.ok, h.rel⟩

/-- Pids that no listed process has may appear in the trace. -/
theorem Good.relog {log'} (h : Good P n log l)
    (hl : ∀ j ∈ l, ∀ p ∈ j.procs, Spec.fate log' p.pid = Spec.fate log p.pid) : Good P n log' l :=
  ⟨fun j hj => let o := h.one j hj; ⟨o.lt, o.nodup, fun p hp => by rw [hl j hj p hp]; exact o.fate p hp, o.zomb, o.pos⟩,
   h.ok, h.rel⟩

theorem Good.cons {j} (h : Good P n log l) (ho : One n log j) (hp : P j) (hr : ∀ b ∈ l, Rel j b) :
    Good P n log (j :: l) :=
  ⟨by intro b hb; rcases List.mem_cons.1 hb with rfl | hb; exact ho; exact h.one b hb,
   by intro b hb; rcases List.mem_cons.1 hb with rfl | hb; exact hp; exact h.ok b hb,
   List.pairwise_cons.2 ⟨hr, h.rel⟩⟩

/-! ### The table -/

abbrev G (P : Job → Prop) (s : S) : Prop := Good P s.next s.log s.jobs

theorem get_some {s : S} {i j} (h : s.get i = some j) : j ∈ s.jobs ∧ j.id = i := by
  unfold S.get at h
  exact ⟨List.mem_of_find?_eq_some h, by simpa using List.find?_some h⟩

theorem rel_of_ne (hr : l.Pairwise Rel) {a b : Job} (ha : a ∈ l) (hb : b ∈ l) (hne : a ≠ b) : Rel a b := by
  induction hr with
  | nil => simp at ha
  | cons h _ ih =>
    rcases List.mem_cons.1 ha with ha' | ha' <;> rcases List.mem_cons.1 hb with hb' | hb'
    · exact absurd (ha'.trans hb'.symm) hne
    · rw [ha']; exact h b hb'
    · rw [hb']; exact (h a ha').symm
    · exact ih ha' hb'

theorem eq_of_id (hr : l.Pairwise Rel) {a b : Job} (ha : a ∈ l) (hb : b ∈ l) (he : a.id = b.id) : a = b := by
  by_cases h : a = b
  · exact h
  · exact absurd he (rel_of_ne hr ha hb h).id

theorem get_of_mem {s : S} {j} (h : G P s) (hj : j ∈ s.jobs) : s.get j.id = some j := by
  cases e : s.get j.id with
  | none =>
    unfold S.get at e
    rw [List.find?_eq_none] at e
    exact absurd (by simp) (e j hj)
  | some k =>
    have ⟨a, b⟩ := get_some e
    rw [eq_of_id h.rel a hj b]

theorem good_upd {s : S} {i : Nat} {f : Job → Job} (h : G P s)
    (hf : ∀ j ∈ s.jobs, j.id = i → P j → One s.next s.log j → Pres s.log s.next j (f j) ∧ Q (f j))
    (hq : ∀ j ∈ s.jobs, j.id ≠ i → P j → Q j) : G Q (s.upd i f) := by
  unfold S.upd
  refine Good.map (l := s.jobs) h _ ?_
  intro j hj hp ho
  by_cases hi : j.id = i
  · simp only [hi, beq_self_eq_true, if_true]
    exact hf j hj hi hp ho
  · have : (j.id == i) = false := by simpa using hi
    simp only [this]
    exact ⟨⟨rfl, rfl, ho.fate, Or.inl ⟨rfl, rfl⟩⟩, hq j hj hi hp⟩

theorem good_remove {s : S} {i : Nat} (h : G P s) : G P (removeJob s i) := by
  unfold removeJob
  split
  · exact h
  · exact h.sub List.filter_sublist

theorem good_removeAll : ∀ (l : List Nat) {s : S}, G P s → G P (removeAll s l)
  | [], _, h => h
  | _ :: l, _, h => good_removeAll l (good_remove h)

theorem pastStopped_perm (j : Job) : ∀ l, (pastStopped j l).Perm (j :: l)
  | [] => List.Perm.refl _
  | c :: cs => by
    unfold pastStopped
    split
    · exact ((pastStopped_perm j cs).cons c).trans (List.Perm.swap j c cs)
    · exact List.Perm.refl _

theorem putJob_perm (s : S) (j : Job) (b : Bool) :
    (putJob s j b).jobs.Perm (j :: s.jobs.filter (fun c => c.id != j.id)) := by
  unfold putJob
  cases b
  · exact pastStopped_perm j _
  · exact List.Perm.refl _

@[simp] theorem putJob_next (s : S) (j : Job) (b : Bool) : (putJob s j b).next = s.next := rfl
@[simp] theorem putJob_log (s : S) (j : Job) (b : Bool) : (putJob s j b).log = s.log := rfl

/-- Putting back a changed version of a job of the list. -/
theorem good_put {s : S} {j j' : Job} {b : Bool} (h : G P s) (hj : j ∈ s.jobs)
    (hp : Pres s.log s.next j j') (hq : Q j') (hi : ∀ k ∈ s.jobs, k.id ≠ j.id → P k → Q k) : G Q (putJob s j' b) := by
  have g1 : Good Q s.next s.log (s.jobs.filter (fun c => c.id != j'.id)) := by
    refine (h.sub List.filter_sublist).imp ?_
    intro k hk hpk
    rw [List.mem_filter] at hk
    refine hi k hk.1 ?_ hpk
    rw [← hp.id]
    simpa using hk.2
  have g2 : G Q (s.upd j.id (fun _ => j')) := by
    refine good_upd h ?_ hi
    intro k hk hid _ _
    rw [eq_of_id h.rel hk hj hid]
    exact ⟨hp, hq⟩
  have m : j' ∈ (s.upd j.id (fun _ => j')).jobs := by
    unfold S.upd
    rw [List.mem_map]
    exact ⟨j, hj, by simp⟩
  refine Good.perm ?_ (putJob_perm s j' b)
  refine g1.cons (g2.one j' m) hq ?_
  intro k hk
  rw [List.mem_filter] at hk
  have hne : k.id ≠ j.id := by rw [← hp.id]; simpa using hk.2
  have mk : k ∈ (s.upd j.id (fun _ => j')).jobs := by
    unfold S.upd
    rw [List.mem_map]
    exact ⟨k, hk.1, by simp [hne]⟩
  have : k ≠ j' := by intro e; rw [e, hp.id] at hne; exact hne rfl
  exact rel_of_ne g2.rel m mk (Ne.symm this)

/-- Changes of flags only. -/
def Flags (f : Job → Job) : Prop :=
  ∀ j, (f j).id = j.id ∧ (f j).procs = j.procs ∧ (f j).num = j.num ∧ (f j).zombie = j.zombie ∧
    (f j).state = j.state ∧ (f j).status = j.status ∧ (f j).started = j.started

theorem Flags.pres {f} (hf : Flags f) {j} (ho : One n log j) : Pres log n j (f j) := by
  obtain ⟨a, b, c, d, _⟩ := hf j
  exact ⟨a, by rw [b], by rw [b]; exact ho.fate, Or.inl ⟨c, d⟩⟩

theorem Flags.ok {f} (hf : Flags f) {j} (h : JobOk j) : JobOk (f j) := by
  obtain ⟨_, b, _, z, c, d, e⟩ := hf j
  exact ⟨by rw [b]; exact h.ne, by rw [b, c, e]; exact h.fresh, by rw [z, e]; exact h.live, by rw [b, c]; exact h.run, by rw [b, c, d, e]; exact h.done⟩

theorem good_flags {s : S} {i : Nat} {f : Job → Job} (hf : Flags f) (h : G JobOk s) : G JobOk (s.upd i f) :=
  good_upd h (fun _ _ _ hp ho => ⟨hf.pres ho, hf.ok hp⟩) (fun _ _ _ hp => hp)

/-! ### check_job -/

theorem rank_zero {x : PS} : (x.rank == 0) = true ↔ x = .running := by
  cases x with
  | running => simp [PS.rank]
  | did w => cases w <;> simp [PS.rank]

/-- A job of which a process has just been waited for. -/
structure Weak (j : Job) : Prop where
  ne : j.procs ≠ []
  started : j.started = true
  run : (∃ p ∈ j.procs, p.st = .running) → j.state = 0

theorem good_settle {s : S} {j : Job} (g1 : G JobOk s) (m1 : j ∈ s.jobs) (hst : j.started = true) : G JobOk (settle s j) := by
  have hch : Flags (fun j => { j with changed := false }) := fun j => ⟨rfl, rfl, rfl, rfl, rfl, rfl, rfl⟩
  have g2 : G JobOk (if j.state = 3 then putJob s j true else s) := by
    split
    · exact good_put g1 m1 ⟨rfl, rfl, (g1.one j m1).fate, Or.inl ⟨rfl, rfl⟩⟩ (g1.ok j m1) (fun _ _ _ hp => hp)
    · exact g1
  unfold settle
  simp only
  generalize (if j.state = 3 then putJob s j true else s) = s2 at g2 ⊢
  split
  · split
    · exact g1
    · split
      · split
        · exact good_remove (good_flags hch g2)
        · exact good_flags hch g2
      · exact g2
  · split
    · split
      · refine good_upd g1 ?_ (fun _ _ _ hp => hp)
        intro k hk hid hok ho
        have hkj : k = j := eq_of_id g1.rel hk m1 hid
        rw [← hkj] at hst
        exact ⟨⟨rfl, rfl, ho.fate, Or.inr ⟨rfl, rfl⟩⟩, ⟨hok.ne, hok.fresh, fun hx => (by simp only at hx; rw [hst] at hx; simp at hx), hok.run, hok.done⟩⟩
      · exact good_remove g1
    · exact g1

theorem good_check {s : S} {i : Nat} (h : G (fun j => if j.id = i then Weak j else JobOk j) s) :
    G JobOk (checkJob s i) := by
  unfold checkJob
  cases e : s.get i with
  | none =>
    refine h.imp ?_
    intro j hj hp
    have : j.id ≠ i := by
      intro hi
      have := get_of_mem h hj
      rw [hi, e] at this
      simp at this
    simpa [this] using hp
  | some j =>
    have ⟨hj, hid⟩ := get_some e
    have hw : Weak j := by have := h.ok j hj; simpa [hid] using this
    have hone := h.one j hj
    simp only [hw.started, Bool.not_true, Bool.false_eq_true, if_false]
    split
    · rename_i ha
      refine h.imp ?_
      intro k hk hp
      by_cases hi : k.id = i
      · have : k = j := eq_of_id h.rel hk hj (by rw [hi, hid])
        subst this
        rw [List.any_eq_true] at ha
        obtain ⟨p, hp1, hp2⟩ := ha
        refine ⟨hw.ne, fun hs => by rw [hw.started] at hs; simp at hs, fun hs => by rw [hw.started] at hs; simp at hs, hw.run, fun _ hn => absurd (rank_zero.1 hp2) (hn p hp1)⟩
      · simpa [hi] using hp
    · rename_i ha
      have hnr : ∀ p ∈ j.procs, p.st ≠ .running := by
        intro p hp hr
        apply ha
        rw [List.any_eq_true]
        exact ⟨p, hp, by rw [rank_zero]; exact hr⟩
      refine good_settle (j := settled j) ?_ ?_ hw.started
      · refine good_upd h ?_ ?_
        · intro k hk hi _ _
          rw [eq_of_id h.rel hk hj (by rw [hi, hid])]
          refine ⟨⟨rfl, rfl, hone.fate, Or.inl ⟨rfl, rfl⟩⟩, ?_⟩
          exact ⟨hw.ne, fun hs => by simp only [settled] at hs; rw [hw.started] at hs; simp at hs,
            fun hs => by simp only [settled] at hs; rw [hw.started] at hs; simp at hs,
            fun ⟨p, hp, hr⟩ => absurd hr (hnr p hp), fun _ _ => ⟨rfl, rfl⟩⟩
        · intro k hk hi hp
          simpa [hi] using hp
      · unfold S.upd
        rw [List.mem_map]
        exact ⟨j, hj, by simp [hid]⟩

/-! ### j_sigchld -/

theorem setProc_pids (pid : Nat) (w : PS) : ∀ l, (setProc pid w l).map Proc.pid = l.map Proc.pid
  | [] => rfl
  | p :: ps => by
    unfold setProc
    split
    · simp
    · simp [setProc_pids pid w ps]

theorem setProc_mem {pid : Nat} {w : PS} : ∀ {l : List Proc}, (l.map Proc.pid).Nodup → ∀ p ∈ setProc pid w l,
    (p.pid = pid ∧ p.st = w) ∨ (p.pid ≠ pid ∧ p ∈ l)
  | [], _, p, hp => by simp [setProc] at hp
  | q :: ps, hn, p, hp => by
    unfold setProc at hp
    rw [List.map_cons, List.nodup_cons] at hn
    split at hp
    · rename_i hq
      rcases List.mem_cons.1 hp with rfl | hp
      · exact Or.inl ⟨hq, rfl⟩
      · refine Or.inr ⟨?_, List.mem_cons_of_mem _ hp⟩
        intro e
        apply hn.1
        rw [hq, ← e]
        exact List.mem_map_of_mem hp
    · rename_i hq
      rcases List.mem_cons.1 hp with rfl | hp
      · exact Or.inr ⟨hq, by simp⟩
      · rcases setProc_mem hn.2 p hp with h | ⟨h1, h2⟩
        · exact Or.inl h
        · exact Or.inr ⟨h1, List.mem_cons_of_mem _ h2⟩

theorem setProc_ne {pid : Nat} {w : PS} {l : List Proc} (h : l ≠ []) : setProc pid w l ≠ [] := by
  cases l with
  | nil => exact absurd rfl h
  | cons p ps => unfold setProc; split <;> simp

def AllStarted (s : S) : Prop := ∀ j ∈ s.jobs, j.started = true

theorem good_reap {s : S} {pid : Nat} {w : W} (h : G JobOk s) (hs : AllStarted s) : G JobOk (reap s pid w) := by
  unfold reap
  simp only
  split
  · rename_i e
    rw [List.find?_eq_none] at e
    refine Good.relog h ?_
    intro j hj p hp
    have : p.pid ≠ pid := by
      intro he
      apply e j hj
      rw [List.any_eq_true]
      exact ⟨p, hp, by simp [he]⟩
    simp only [fate]
    rw [if_neg (Ne.symm this)]
  · rename_i j e
    have hj : j ∈ s.jobs := List.mem_of_find?_eq_some e
    have hany : ∃ p ∈ j.procs, p.pid = pid := by
      have := List.find?_some e
      simpa using this
    apply good_check
    show Good _ s.next (.report pid w :: s.log) (s.jobs.map _)
    refine Good.map (l := s.jobs) h _ ?_
    intro k hk hok ho
    by_cases hid : k.id = j.id
    · have hkj : k = j := eq_of_id h.rel hk hj hid
      subst hkj
      simp only [beq_self_eq_true, if_true]
      refine ⟨⟨rfl, setProc_pids _ _ _, ?_, Or.inl ⟨rfl, rfl⟩⟩, ⟨setProc_ne hok.ne, hs k hk, ?_⟩⟩
      · intro p hp
        simp only [fate]
        rcases setProc_mem ho.nodup p hp with ⟨a, b⟩ | ⟨a, b⟩
        · rw [if_pos a.symm, b]
        · rw [if_neg (Ne.symm a)]
          exact ho.fate p b
      · rintro ⟨p, hp, hr⟩
        rcases setProc_mem ho.nodup p hp with ⟨a, b⟩ | ⟨a, b⟩
        · rw [b] at hr; simp at hr
        · exact hok.run ⟨p, b, hr⟩
    · have hb : (k.id == j.id) = false := by simpa using hid
      simp only [hb, Bool.false_eq_true, if_false]
      refine ⟨⟨rfl, rfl, ?_, Or.inl ⟨rfl, rfl⟩⟩, by rw [if_neg hid]; exact hok⟩
      intro p hp
      obtain ⟨q, hq, hqp⟩ := hany
      have : pid ≠ p.pid := by
        rw [← hqp]
        exact (rel_of_ne h.rel hj hk (fun e => hid (by rw [e]))).pid q hq p hp
      simp only [fate]
      rw [if_neg this]
      exact ho.fate p hp

theorem started_upd {s : S} {i f} (hf : ∀ j ∈ s.jobs, (f j).started = true) (hs : AllStarted s) : AllStarted (s.upd i f) := by
  intro j hj
  unfold S.upd at hj
  obtain ⟨k, hk, rfl⟩ := List.mem_map.1 hj
  split
  · exact hf k hk
  · exact hs k hk

theorem started_remove {s : S} {i} (hs : AllStarted s) : AllStarted (removeJob s i) := by
  unfold removeJob
  split
  · exact hs
  · intro j hj
    exact hs j (List.mem_filter.1 hj).1

theorem started_put {s : S} {j b} (hj : j.started = true) (hs : AllStarted s) : AllStarted (putJob s j b) := by
  intro k hk
  rcases List.mem_cons.1 ((putJob_perm s j b).mem_iff.1 hk) with rfl | hk
  · exact hj
  · exact hs k (List.mem_filter.1 hk).1

theorem started_settle {s : S} {j : Job} (hj : j.started = true) (h1 : AllStarted s) : AllStarted (settle s j) := by
  have h2 : AllStarted (if j.state = 3 then putJob s j true else s) := by
    split
    · exact started_put hj h1
    · exact h1
  unfold settle
  simp only
  generalize (if j.state = 3 then putJob s j true else s) = s2 at h2 ⊢
  have h3 := started_upd (i := j.id) (f := fun j => { j with changed := false }) (fun k hk => h2 k hk) h2
  split
  · split
    · exact h1
    · split
      · split
        · exact started_remove h3
        · exact h3
      · exact h2
  · split
    · split
      · exact started_upd (fun k hk => h1 k hk) h1
      · exact started_remove h1
    · exact h1

theorem started_check {s : S} {i} (hs : AllStarted s) : AllStarted (checkJob s i) := by
  unfold checkJob
  split
  · exact hs
  · rename_i j e
    have hj := hs j (get_some e).1
    split
    · exact hs
    · split
      · exact hs
      · exact started_settle hj (started_upd (fun _ _ => hj) hs)

theorem started_reap {s : S} {pid w} (hs : AllStarted s) : AllStarted (reap s pid w) := by
  unfold reap
  simp only
  split
  · exact hs
  · apply started_check
    exact started_upd (fun k hk => hs k hk) hs

theorem good_sigchld {s : S} {l} (h : G JobOk s) : G JobOk (sigchld s l) := by
  unfold sigchld
  split
  · exact h
  · rename_i ha
    have hs : AllStarted s := by
      intro j hj
      cases e : j.started with
      | true => rfl
      | false => exact absurd (List.any_eq_true.2 ⟨j, hj, by simp [e]⟩) ha
    clear ha
    induction l generalizing s with
    | nil => exact h
    | cons e l ih => exact ih (good_reap h hs) (started_reap hs)

/-! ### The other operations -/

theorem good_purge (cm keep : Nat) : ∀ f {s : S}, G P s → G P (purge cm keep f s)
  | 0, _, h => h
  | f + 1, s, h => by
    unfold purge
    split
    · split
      · exact h
      · exact good_purge cm keep f (good_remove h)
    · exact h

theorem good_setAsync {cm : Nat} {s : S} {j} (h : G P s) : G P (setAsync cm s j) := by
  unfold setAsync
  simp only
  have h1 : G P (match s.async with
    | none => s
    | some a => match s.get a with
      | none => removeJob s a
      | some ja => if ja.zombie && !ja.known then removeJob s a else s) := by
    split
    · exact h
    · split
      · exact good_remove h
      · split
        · exact good_remove h
        · exact h
  split
  · exact h1
  · exact good_purge cm _ _ h1

theorem good_start {s : S} {i : Nat} {f : Job → Job} (h : G JobOk s)
    (hf : ∀ j, f j = { j with started := true, waiting := (f j).waiting }) : G JobOk (s.upd i f) := by
  refine good_upd h ?_ (fun _ _ _ hp => hp)
  intro j hj _ hok ho
  have e := hf j
  generalize (f j).waiting = b at e
  rw [e]
  refine ⟨⟨rfl, rfl, ho.fate, Or.inl ⟨rfl, rfl⟩⟩, ⟨hok.ne, fun x => by simp at x, fun x => by simp at x, hok.run, ?_⟩⟩
  intro _ hn
  cases hst : j.started with
  | true => exact hok.done hst hn
  | false =>
    have := (hok.fresh hst).2
    obtain ⟨p, ps, hps⟩ := List.exists_cons_of_ne_nil hok.ne
    have hp : p ∈ j.procs := by rw [hps]; simp
    exact absurd (this p hp) (hn p hp)

theorem good_finish {cm : Nat} {s : S} {i bg} (h : G JobOk s) : G JobOk (finish cm s i bg) := by
  unfold finish
  simp only
  have h1 : G JobOk (s.upd i (fun j => { j with started := true })) :=
    good_start h (fun j => rfl)
  split
  · split
    · exact good_setAsync h1
    · exact h1
  · exact h1

theorem freeNum_spec (nums : List Int) : ∀ f i, i ≤ freeNum nums f i ∧
    (∀ m : Nat, i ≤ m → m < freeNum nums f i → (m : Int) ∈ nums) ∧
    ((freeNum nums f i : Int) ∉ nums ∨ freeNum nums f i = i + f)
  | 0, i => ⟨Nat.le_refl _, fun m h1 h2 => by simp [freeNum] at h2; omega, Or.inr rfl⟩
  | f + 1, i => by
    unfold freeNum
    split
    · rename_i hc
      have ⟨a, b, c⟩ := freeNum_spec nums f (i + 1)
      refine ⟨by omega, ?_, ?_⟩
      · intro m h1 h2
        by_cases he : m = i
        · rw [he]; simpa using hc
        · exact b m (by omega) h2
      · rcases c with c | c
        · exact Or.inl c
        · exact Or.inr (by omega)
    · rename_i hc
      exact ⟨Nat.le_refl _, fun m h1 h2 => by omega, Or.inl (by simpa using hc)⟩

theorem newNum_spec (l : List Job) : 1 ≤ newNum l ∧ (∀ j ∈ l, j.num ≠ newNum l) ∧
    ∀ m : Nat, 1 ≤ m → m < newNum l → ∃ j ∈ l, j.num = m := by
  have ⟨a, b, c⟩ := freeNum_spec (l.map Job.num) l.length 1
  have b' : ∀ m : Nat, 1 ≤ m → m < newNum l → ∃ j ∈ l, j.num = m := by
    intro m h1 h2
    have := b m h1 h2
    simpa using this
  refine ⟨a, ?_, b'⟩
  intro j hj he
  have hmem : (newNum l : Int) ∈ l.map Job.num := by rw [← he]; exact List.mem_map_of_mem hj
  rcases c with c | c
  · exact c hmem
  · -- the numbers 1 .. length + 1 would all be in the list
    have hsub : ((List.range' 1 (l.length + 1)).map (fun m : Nat => (m : Int))) ⊆ l.map Job.num := by
      intro x hx
      obtain ⟨m, hm, rfl⟩ := List.mem_map.1 hx
      rw [List.mem_range'_1] at hm
      have c' : newNum l = 1 + l.length := c
      by_cases hm' : m < newNum l
      · exact b m hm.1 hm'
      · have : m = newNum l := by omega
        rw [this]; exact hmem
    have hnd : ((List.range' 1 (l.length + 1)).map (fun m : Nat => (m : Int))).Nodup := by
      refine List.Pairwise.map _ ?_ List.nodup_range'
      intro x y hxy e
      exact hxy (by omega)
    have := hnd.length_le_of_subset hsub
    simp at this
    omega

/-- The pid a fork returns is not that of a process the shell still has in its table. -/
def Fresh (s : S) : Op → Prop
  | .fork pid .. => ∀ j ∈ s.jobs, ∀ p ∈ j.procs, p.pid ≠ pid
  | .pipe pid .. => ∀ j ∈ s.jobs, ∀ p ∈ j.procs, p.pid ≠ pid
  | _ => True

theorem good_fork {cm : Nat} {s : S} {pid cmd bg xx e} (h : G JobOk s)
    (hf : ∀ j ∈ s.jobs, ∀ p ∈ j.procs, p.pid ≠ pid) : G JobOk (fork cm s pid cmd bg xx e) := by
  unfold fork
  simp only
  generalize hj : newJob s pid cmd bg xx = j
  have hid : j.id = s.next := by rw [← hj]; rfl
  have hp : j.procs = [{ pid := pid, cmd := cmd, st := .running }] := by rw [← hj]; rfl
  have hnum : j.num = newNum s.jobs := by rw [← hj]; rfl
  have hst : j.started = false ∧ j.state = 0 ∧ j.zombie = false := by rw [← hj]; exact ⟨rfl, rfl, rfl⟩
  have ⟨n1, n2, _⟩ := newNum_spec s.jobs
  have g : Good JobOk (s.next + 1) (.born pid :: s.log) s.jobs := by
    refine Good.relog (h.next (Nat.le_succ _)) ?_
    intro k hk p hp
    simp only [fate]
    rw [if_neg (Ne.symm (hf k hk p hp))]
  have gg : G JobOk (putJob { s with next := s.next + 1, last := some j.id, log := .born pid :: s.log } j false) := by
    refine Good.perm ?_ (putJob_perm _ _ _)
    simp only [putJob_next, putJob_log]
    refine (g.sub List.filter_sublist).cons ?_ ?_ ?_
    · refine ⟨by omega, by rw [hp]; simp, ?_, fun hz => by rw [hst.2.2] at hz; simp at hz, fun _ => by rw [hnum]; omega⟩
      rw [hp]
      intro p hp
      simp only [List.mem_cons, List.not_mem_nil, or_false] at hp
      subst hp
      simp [fate]
    · refine ⟨by rw [hp]; simp, fun _ => ⟨hst.2.1, ?_⟩, fun _ => hst.2.2, fun _ => hst.2.1, fun x => by rw [hst.1] at x; simp at x⟩
      rw [hp]
      intro p hp
      simp only [List.mem_cons, List.not_mem_nil, or_false] at hp
      subst hp
      rfl
    · intro b hb
      have hb := (List.mem_filter.1 hb).1
      refine ⟨?_, ?_, ?_⟩
      · have := (h.one b hb).lt
        omega
      · rw [hp]
        intro p hp q hq
        simp only [List.mem_cons, List.not_mem_nil, or_false] at hp
        subst hp
        exact Ne.symm (hf b hb q hq)
      · exact Or.inr (Or.inr (by rw [hnum]; exact Ne.symm (n2 b hb)))
  split
  · exact good_finish gg
  · exact gg

theorem good_pipe {cm : Nat} {s : S} {pid cmd bg e} (h : G JobOk s)
    (hf : ∀ j ∈ s.jobs, ∀ p ∈ j.procs, p.pid ≠ pid) : G JobOk (pipe cm s pid cmd bg e) := by
  unfold pipe
  split
  · exact h
  · rename_i j ej
    split
    · exact h
    · rename_i hns
      have hns : j.started = false := by simpa using hns
      have hj : j ∈ s.jobs := by
        cases hl : s.last with
        | none => rw [hl] at ej; simp at ej
        | some i => rw [hl] at ej; exact (get_some ej).1
      have g0 : Good JobOk s.next (.born pid :: s.log) s.jobs := by
        refine Good.relog h ?_
        intro k hk p hp
        simp only [fate]
        rw [if_neg (Ne.symm (hf k hk p hp))]
      generalize hj' : ({ j with procs := j.procs ++ [{ pid := pid, cmd := cmd, st := .running }] } : Job) = j'
      have key : G JobOk (S.upd { s with log := .born pid :: s.log } j.id
          (fun j => { j with procs := j.procs ++ [{ pid := pid, cmd := cmd, st := .running }] })) := by
        have mem : ∀ k ∈ s.jobs, k.id = j.id → k = j := fun k hk hid => eq_of_id h.rel hk hj hid
        have hok := h.ok j hj
        have ho := g0.one j hj
        show Good _ s.next (.born pid :: s.log) (s.jobs.map _)
        have hpids : ∀ a b : Job, a ∈ s.jobs → b ∈ s.jobs → Rel a b →
            Rel (if a.id == j.id then { a with procs := a.procs ++ [{ pid := pid, cmd := cmd, st := .running }] } else a)
              (if b.id == j.id then { b with procs := b.procs ++ [{ pid := pid, cmd := cmd, st := .running }] } else b) := by
          intro a b ha hb hr
          by_cases ia : a.id = j.id
          · have ib : ¬ b.id = j.id := fun e => hr.id (by rw [ia, e])
            have ib' : (b.id == j.id) = false := by simpa using ib
            simp only [ia, ib', beq_self_eq_true, if_true, Bool.false_eq_true, if_false]
            refine ⟨by simp only; rw [← ia]; exact hr.id, ?_, hr.num⟩
            intro p hp q hq
            rcases List.mem_append.1 hp with hp | hp
            · exact hr.pid p hp q hq
            · simp only [List.mem_cons, List.not_mem_nil, or_false] at hp
              subst hp
              exact Ne.symm (hf b hb q hq)
          · have ia' : (a.id == j.id) = false := by simpa using ia
            simp only [ia', Bool.false_eq_true, if_false]
            by_cases ib : b.id = j.id
            · simp only [ib, beq_self_eq_true, if_true]
              refine ⟨by simp only; rw [← ib]; exact hr.id, ?_, hr.num⟩
              intro p hp q hq
              rcases List.mem_append.1 hq with hq | hq
              · exact hr.pid p hp q hq
              · simp only [List.mem_cons, List.not_mem_nil, or_false] at hq
                subst hq
                exact hf a ha p hp
            · have ib' : (b.id == j.id) = false := by simpa using ib
              simp only [ib', Bool.false_eq_true, if_false]
              exact hr
        refine ⟨?_, ?_, ?_⟩
        · intro k' hk'
          obtain ⟨k, hk, rfl⟩ := List.mem_map.1 hk'
          have hko := g0.one k hk
          split
          · refine ⟨hko.lt, ?_, ?_, hko.zomb, hko.pos⟩
            · simp only [List.map_append, List.map_cons, List.map_nil]
              rw [List.nodup_append]
              refine ⟨hko.nodup, by simp, ?_⟩
              intro a ha b hb e
              simp only [List.mem_cons, List.not_mem_nil, or_false] at hb
              obtain ⟨p, hp, rfl⟩ := List.mem_map.1 ha
              exact hf k hk p hp (by rw [e, hb])
            · intro p hp
              rcases List.mem_append.1 hp with hp | hp
              · exact hko.fate p hp
              · simp only [List.mem_cons, List.not_mem_nil, or_false] at hp
                subst hp
                simp [fate]
          · exact hko
        · intro k' hk'
          obtain ⟨k, hk, rfl⟩ := List.mem_map.1 hk'
          split
          · rename_i hid
            have hkj := mem k hk (by simpa using hid)
            subst hkj
            have hst := (hok.fresh hns)
            refine ⟨by simp, fun _ => ⟨hst.1, ?_⟩, fun _ => hok.live hns, fun _ => hst.1, fun x => by simp only at x; rw [hns] at x; simp at x⟩
            intro p hp
            rcases List.mem_append.1 hp with hp | hp
            · exact hst.2 p hp
            · simp only [List.mem_cons, List.not_mem_nil, or_false] at hp
              subst hp
              rfl
          · exact h.ok k hk
        · rw [List.pairwise_map]
          exact List.Pairwise.imp_of_mem (fun {a b} ha hb hr => hpids a b ha hb hr) h.rel
      split
      · exact good_finish key
      · exact key

theorem fate_cont (l : List Proc) (log : List Ev) (q : Nat) :
    fate (l.map (fun p => .cont p.pid) ++ log) q = if q ∈ l.map Proc.pid then .running else fate log q := by
  induction l with
  | nil => simp
  | cons p l ih =>
    simp only [List.map_cons, List.cons_append, fate, ih, List.mem_cons]
    by_cases e : p.pid = q
    · simp [e]
    · have : ¬ q = p.pid := fun h => e h.symm
      simp [e, this]

theorem good_resume {cm : Nat} {s : S} {i bg} (h : G JobOk s) : G JobOk (resume cm s i bg) := by
  unfold resume
  split
  · exact h
  · rename_i j ej
    have ⟨hj, hid⟩ := get_some ej
    split
    · exact h
    · simp only
      generalize hst : j.procs.filter (fun p => p.st.rank == 3) = stopped
      have ho := h.one j hj
      have hok := h.ok j hj
      -- the trace with the SIGCONTs, on the list without the job itself
      have ffate : ∀ p ∈ j.procs, fate (stopped.map (fun p => .cont p.pid) ++ s.log) p.pid =
          if p.st.rank == 3 then .running else p.st := by
        intro p hp
        rw [fate_cont]
        by_cases e : (p.st.rank == 3) = true
        · rw [if_pos e, if_pos]
          refine List.mem_map_of_mem ?_
          rw [← hst, List.mem_filter]
          exact ⟨hp, e⟩
        · rw [if_neg e, if_neg, ← ho.fate p hp]
          intro hm
          obtain ⟨q, hq, hqp⟩ := List.mem_map.1 hm
          rw [← hst, List.mem_filter] at hq
          have : q = p := by
            have hn := ho.nodup
            clear ej hok ho hst hm
            generalize j.procs = L at *
            induction L with
            | nil => simp at hp
            | cons a L ih =>
              rw [List.map_cons, List.nodup_cons] at hn
              rcases List.mem_cons.1 hp with rfl | hp1 <;> rcases List.mem_cons.1 hq.1 with rfl | hq1
              · rfl
              · exact absurd (hqp ▸ List.mem_map_of_mem (f := Proc.pid) hq1) hn.1
              · exact absurd (hqp ▸ List.mem_map_of_mem (f := Proc.pid) hp1) hn.1
              · exact ih hp1 ⟨hq1, hq.2⟩ hn.2
          rw [this] at hq
          exact e hq.2
      generalize hj' : ({ j with
          procs := j.procs.map (fun p => if p.st.rank == 3 then { p with st := .running } else p)
          state := if stopped.isEmpty then j.state else 0 } : Job) = j'
      have hempty : stopped.isEmpty = true → j'.procs = j.procs ∧ j'.state = j.state := by
        intro he
        rw [← hj']
        simp only [he, if_true, and_true]
        have he' : stopped = [] := by simpa using he
        rw [he', List.filter_eq_nil_iff] at hst
        conv => rhs; rw [← List.map_id j.procs]
        refine List.map_congr_left ?_
        intro p hp
        have := hst p hp
        simp only [id]
        rw [if_neg this]
      have pres : Pres (stopped.map (fun p => .cont p.pid) ++ s.log) s.next j j' := by
        refine ⟨by rw [← hj'], ?_, ?_, by rw [← hj']; exact Or.inl ⟨rfl, rfl⟩⟩
        · rw [← hj']
          simp only [List.map_map]
          refine List.map_congr_left ?_
          intro p _
          simp only [Function.comp]
          split <;> rfl
        · rw [← hj']
          intro p hp
          obtain ⟨q, hq, rfl⟩ := List.mem_map.1 hp
          have := ffate q hq
          split
          · rename_i e
            rw [if_pos e] at this
            exact this.symm
          · rename_i e
            rw [if_neg e] at this
            exact this.symm
      have jok : JobOk j' := by
        have hpr : j'.procs = j.procs.map (fun p => if p.st.rank == 3 then { p with st := .running } else p) := by rw [← hj']
        have hstd : j'.started = j.started := by rw [← hj']
        have hstate : j'.state = if stopped.isEmpty then j.state else 0 := by rw [← hj']
        have hstatus : j'.status = j.status := by rw [← hj']
        have hlive : j'.started = false → j'.zombie = false := by rw [← hj']; exact hok.live
        by_cases he : stopped.isEmpty = true
        · obtain ⟨a, b⟩ := hempty he
          exact ⟨by rw [a]; exact hok.ne, by rw [a, b, hstd]; exact hok.fresh, hlive, by rw [a, b]; exact hok.run,
            by rw [a, b, hstd, hstatus]; exact hok.done⟩
        · rw [if_neg he] at hstate
          have hex : ∃ p ∈ j'.procs, p.st = .running := by
            have : stopped ≠ [] := by simpa using he
            obtain ⟨p, ps, hps⟩ := List.exists_cons_of_ne_nil this
            have hm : p ∈ j.procs.filter (fun p => p.st.rank == 3) := by rw [hst, hps]; simp
            rw [List.mem_filter] at hm
            refine ⟨{ p with st := .running }, ?_, rfl⟩
            rw [hpr, List.mem_map]
            exact ⟨p, hm.1, by rw [if_pos hm.2]⟩
          refine ⟨?_, ?_, hlive, fun _ => hstate, ?_⟩
          · rw [hpr]
            simpa using hok.ne
          · intro hs
            rw [hstd] at hs
            refine ⟨hstate, ?_⟩
            rw [hpr]
            intro p hp
            obtain ⟨q, hq, rfl⟩ := List.mem_map.1 hp
            have := (hok.fresh hs).2 q hq
            split
            · rfl
            · exact this
          · intro _ hn
            obtain ⟨p, hp, hr⟩ := hex
            exact absurd hr (hn p hp)
      have g0 : Good (fun k => k.id ≠ j.id → JobOk k) s.next (stopped.map (fun p => .cont p.pid) ++ s.log)
          (s.jobs.map (fun k => if k.id == j.id then j' else k)) := by
        refine Good.map (l := s.jobs) h _ ?_
        intro k hk hko hone
        by_cases hki : k.id = j.id
        · have : k = j := eq_of_id h.rel hk hj hki
          subst this
          simp only [beq_self_eq_true, if_true]
          exact ⟨pres, fun _ => jok⟩
        · have hb : (k.id == j.id) = false := by simpa using hki
          simp only [hb, Bool.false_eq_true, if_false]
          refine ⟨⟨rfl, rfl, ?_, Or.inl ⟨rfl, rfl⟩⟩, fun _ => hko⟩
          intro p hp
          rw [fate_cont, if_neg]
          · exact hone.fate p hp
          · intro hm
            obtain ⟨q, hq, hqp⟩ := List.mem_map.1 hm
            rw [← hst, List.mem_filter] at hq
            have hr : Rel k j := rel_of_ne h.rel hk hj (fun e => hki (by rw [e]))
            exact hr.pid p hp q hq.1 hqp.symm
      have g1 : G JobOk (putJob { s with log := stopped.map (fun p => .cont p.pid) ++ s.log } j' false) := by
        have m' : j' ∈ s.jobs.map (fun k => if k.id == j.id then j' else k) := List.mem_map.2 ⟨j, hj, by simp⟩
        have := good_put (P := fun k => k.id ≠ j.id → JobOk k) (Q := JobOk) (b := false)
          (s := { s with log := stopped.map (fun p => .cont p.pid) ++ s.log,
                         jobs := s.jobs.map (fun k => if k.id == j.id then j' else k) })
          g0 m' (j' := j') ⟨rfl, rfl, pres.fate, Or.inl ⟨rfl, rfl⟩⟩ jok
          (fun k hk hne hp => hp (by rw [← pres.id]; exact hne))
        have e : (s.jobs.map (fun k => if k.id == j.id then j' else k)).filter (fun c => c.id != j'.id) =
            s.jobs.filter (fun c => c.id != j'.id) := by
          rw [pres.id]
          clear this m' g0
          induction s.jobs with
          | nil => rfl
          | cons a L ih =>
            rw [List.map_cons, List.filter_cons, List.filter_cons, ih]
            by_cases ha : a.id = j.id
            · simp [ha, pres.id]
            · have hb : (a.id == j.id) = false := by simpa using ha
              simp [hb]
        unfold putJob at this ⊢
        simp only at this ⊢
        rw [e] at this
        exact this
      split
      · exact good_setAsync g1
      · have := good_flags (i := i) (f := fun j => { j with fg := true, known := false })
          (fun j => ⟨rfl, rfl, rfl, rfl, rfl, rfl, rfl⟩) g1
        exact this

theorem good_mapFlags {s : S} {f : Job → Job} (hf : Flags f) (h : G JobOk s) : Good JobOk s.next s.log (s.jobs.map f) :=
  Good.map (l := s.jobs) h f (fun _ _ hp ho => ⟨hf.pres ho, hf.ok hp⟩)

theorem good_step {cm : Nat} {s : S} {op : Op} (h : G JobOk s) (hf : Fresh s op) : G JobOk (step cm s op) := by
  cases op with
  | fork pid cmd bg xx e => exact good_fork h hf
  | pipe pid cmd bg e => exact good_pipe h hf
  | forkFail l =>
    simp only [step, forkFail]
    split
    · split
      · exact h
      · split
        · exact h
        · exact good_remove h
    · exact h.next (Nat.le_succ _)
  | startlast =>
    simp only [step, startlast]
    split
    · exact h
    · exact good_start h (fun j => rfl)
  | sigchld l => exact good_sigchld h
  | waitBegin i an => exact good_flags (fun j => ⟨rfl, rfl, rfl, rfl, rfl, rfl, rfl⟩) h
  | waitIntr i => exact good_flags (fun j => ⟨rfl, rfl, rfl, rfl, rfl, rfl, rfl⟩) h
  | waitEnd i an =>
    simp only [step]
    split
    · rename_i r e
      unfold waitEnd at e
      split at e
      · simp at e
      · split at e
        · simp at e
        · simp only [Option.some.injEq] at e
          rw [← e]
          have g := good_flags (i := i) (f := fun j => { j with waiting := false, asyncN := false, fg := false })
            (fun j => ⟨rfl, rfl, rfl, rfl, rfl, rfl, rfl⟩) h
          simp only
          split
          · exact good_remove g
          · exact g
    · exact h
  | resume i bg =>
    simp only [step]
    split
    · exact good_resume h
    · exact h
  | jobs o n z =>
    simp only [step, jobsCmd]
    refine good_removeAll _ (good_mapFlags ?_ h)
    intro j
    dsimp only
    split <;> exact ⟨rfl, rfl, rfl, rfl, rfl, rfl, rfl⟩
  | notify =>
    simp only [step, notifyAll]
    refine good_removeAll _ (good_mapFlags ?_ h)
    intro j
    dsimp only
    split <;> exact ⟨rfl, rfl, rfl, rfl, rfl, rfl, rfl⟩
  | bang =>
    simp only [step, dollarBang]
    split
    · exact h
    · exact good_flags (fun j => ⟨rfl, rfl, rfl, rfl, rfl, rfl, rfl⟩) h
  | set m n p => exact h

/-- The tables a shell can have: `Fresh` is the only assumption about the system. -/
inductive Reach (cm : Nat) : S → Prop
  | init : Reach cm {}
  | step {s op} : Reach cm s → Fresh s op → Reach cm (step cm s op)

theorem Reach.good {cm : Nat} {s : S} (h : Reach cm s) : G JobOk s := by
  induction h with
  | init => exact ⟨by simp, by simp, List.Pairwise.nil⟩
  | step _ hf ih => exact good_step ih hf

end Ksh.Jobs
