import Verif.Newmail.Model

/-!
# New mail is announced once, and only when it is new (C123)

The specification speaks of the history of the files and of the times of the prompts; it knows
nothing of the list of boxes and of the variables of mail.c.
-/

namespace Ksh.Newmail

/-! ## Specification -/

/-- A time in nanoseconds. -/
def ns (t : Ts) : Int := t.sec * 1000000000 + t.nsec

def Norm (t : Ts) : Prop := 0 ≤ t.nsec ∧ t.nsec < 1000000000

/-- The time at which mail was last looked for before prompt `i` (the time of prompt 0 to begin
with), when it is looked for every `I` seconds. -/
def lookedAt (I : Int) (now : Nat → Ts) : Nat → Int
  | 0 => ns (now 0)
  | i + 1 =>
    if lookedAt I now i + I * 1000000000 ≤ ns (now i) then ns (now i) else lookedAt I now i

/-- Mail is looked for at prompt `i`. -/
def Looks (I : Int) (now : Nat → Ts) (i : Nat) : Prop :=
  lookedAt I now i + I * 1000000000 ≤ ns (now i)

instance (I : Int) (now : Nat → Ts) (i : Nat) : Decidable (Looks I now i) := by
  unfold Looks; infer_instance

/-- The files as they were when last looked at before prompt `i`. -/
def known (I : Int) (now : Nat → Ts) (fs0 : Fs) (fs : Nat → Fs) : Nat → Fs
  | 0 => fs0
  | i + 1 => if Looks I now i then fs i else known I now fs0 fs i

/-- When a mail file was last written; no file, or something else, counts as 1970. -/
def written : Option Stat → Int
  | some ⟨true, _, m, _⟩ => m
  | _ => 0

/-- There is mail in the file which has not been read, and the file has been written since. -/
def News (old : Option Stat) : Option Stat → Prop
  | some ⟨true, n, m, a⟩ => n ≠ 0 ∧ a ≤ m ∧ m ≠ written old
  | _ => False

instance (old new : Option Stat) : Decidable (News old new) := by
  unfold News; split <;> infer_instance

/-- There is news of the file at prompt `i`. -/
def Told (I : Int) (now : Nat → Ts) (fs0 : Fs) (fs : Nat → Fs) (i : Nat) (p : Path) : Prop :=
  Looks I now i ∧ News (known I now fs0 fs i p) (fs i p)

instance (I : Int) (now : Nat → Ts) (fs0 : Fs) (fs : Nat → Fs) (i : Nat) (p : Path) :
    Decidable (Told I now fs0 fs i p) := by
  unfold Told; infer_instance

/-- Some file with a message which assigns MAILPATH is announced at prompt `i`. -/
def Breaks (assigns : Msg → Bool) (I : Int) (now : Nat → Ts) (fs0 : Fs) (fs : Nat → Fs)
    (l : List (Path × Option Msg)) (i : Nat) : Prop :=
  ∃ p m, (p, some m) ∈ l ∧ assigns m = true ∧ Told I now fs0 fs i p

/-! ## Proofs -/

theorem startTime_some (fs : Fs) (p : Path) : startTime fs (some p) = written (fs p) := by
  simp only [startTime]
  rcases h : fs p with _ | ⟨r, n, m, a⟩
  · rfl
  · cases r <;> rfl

theorem visit_time (fs : Fs) (p : Path) (m : Option Msg) (t : Int) :
    (visit fs ⟨some p, m, t⟩).2 = written (fs p) := by
  simp only [visit]
  rcases h : fs p with _ | ⟨r, n, m, a⟩
  · rfl
  · cases r <;> rfl

theorem visit_new (fs : Fs) (p : Path) (m : Option Msg) (old : Option Stat) :
    (visit fs ⟨some p, m, written old⟩).1 = decide (News old (fs p)) := by
  simp only [visit]
  rcases h : fs p with _ | ⟨r, n, t, a⟩
  · exact (decide_eq_false (fun h => h)).symm
  · cases r
    · exact (decide_eq_false (fun h => h)).symm
    · have e : isNew ⟨some p, m, written old⟩ ⟨true, n, t, a⟩ = true ↔
          News old (some ⟨true, n, t, a⟩) := by
        simp only [isNew, News, Bool.and_eq_true, bne_iff_ne, decide_eq_true_eq, ne_eq]
        constructor
        · rintro ⟨⟨h1, h2⟩, h3⟩; exact ⟨h1, h3, fun e => h2 e.symm⟩
        · rintro ⟨h1, h3, h2⟩; exact ⟨⟨h1, fun e => h2 e.symm⟩, h3⟩
      show isNew _ _ = _
      by_cases hn : News old (some ⟨true, n, t, a⟩)
      · rw [decide_eq_true hn, e.2 hn]
      · rw [decide_eq_false hn]
        cases hi : isNew ⟨some p, m, written old⟩ ⟨true, n, t, a⟩ with
        | false => rfl
        | true => exact absurd (e.1 hi) hn

/-- The boxes of a list of paths, all seen in the file system `f`. -/
def boxes (f : Fs) (l : List (Path × Option Msg)) : List Box :=
  l.map fun b => ⟨some b.1, b.2, written (f b.1)⟩

theorem foldl_boxes (f : Fs) (l : List (Path × Option Msg)) (acc : List Box) :
    l.foldl (fun acc b => mballoc f b.1 b.2 :: acc) acc = boxes f l.reverse ++ acc := by
  induction l generalizing acc with
  | nil => rfl
  | cons b r ih =>
    rw [List.foldl_cons, ih]
    simp [boxes, mballoc, startTime_some]

theorem walk_ok (assigns : Msg → Bool) (old f : Fs) (l : List (Path × Option Msg))
    (h : ∀ p m, (p, some m) ∈ l → assigns m = true → ¬ News (old p) (f p)) :
    walk assigns f (boxes old l) = some (boxes f l,
      (l.filter fun b => decide (News (old b.1) (f b.1))).map fun b => some b.1) := by
  induction l with
  | nil => rfl
  | cons b r ih =>
    obtain ⟨p, m⟩ := b
    have ih := ih fun p m hm => h p m (List.mem_cons_of_mem _ hm)
    simp only [boxes, List.map_cons] at ih ⊢
    rw [walk, ih, visit_new, visit_time]
    rw [if_neg]
    · by_cases hn : News (old p) (f p) <;> simp [hn]
    · intro hc
      rw [Bool.and_eq_true] at hc
      obtain ⟨h1, h2⟩ := hc
      simp only [frees] at h2
      cases m with
      | none => simp at h2
      | some m => exact h p m (by simp) h2 (of_decide_eq_true h1)

theorem walk_freed (assigns : Msg → Bool) (old f : Fs) (l : List (Path × Option Msg)) (p : Path)
    (m : Msg) (hm : (p, some m) ∈ l) (ha : assigns m = true) (hn : News (old p) (f p)) :
    walk assigns f (boxes old l) = none := by
  induction l with
  | nil => cases hm
  | cons b r ih =>
    simp only [boxes, List.map_cons] at ih ⊢
    rw [walk]
    rcases List.mem_cons.1 hm with hb | hr
    · subst hb
      rw [if_pos]
      simp [visit_new, hn, frees, ha]
    · by_cases hc : ((visit f ⟨some b.1, b.2, written (old b.1)⟩).1 &&
          frees assigns ⟨some b.1, b.2, written (old b.1)⟩) = true
      · rw [if_pos hc]
      · rw [if_neg hc, ih hr]

theorem due_iff (now last : Ts) (I : Int) (h1 : Norm now) (h2 : Norm last) (st : St)
    (hl : st.last = last) (hI : st.interval = I) :
    due now st = decide (ns last + I * 1000000000 ≤ ns now) := by
  subst hl hI
  obtain ⟨a, b⟩ := h1
  obtain ⟨c, d⟩ := h2
  apply decide_eq_decide.2
  have : (timespecsub now st.last).sec =
      if now.nsec - st.last.nsec < 0 then now.sec - st.last.sec - 1 else now.sec - st.last.sec := by
    unfold timespecsub; split <;> rfl
  rw [this]
  unfold ns
  split <;> omega

/-- The state before prompt `n`, for the list. -/
structure Before (I : Int) (now : Nat → Ts) (old : Fs) (l : List (Path × Option Msg)) (n : Nat)
    (st : St) : Prop where
  list : st.mplist = boxes old l.reverse
  interval : st.interval = I
  zero : n = 0 → st.first = true
  later : n ≠ 0 → st.first = false ∧ Norm st.last ∧ ns st.last = lookedAt I now n

theorem clock_spec (I : Int) (now : Nat → Ts) (hN : ∀ i, Norm (now i)) (n : Nat) (st : St)
    (hz : n = 0 → st.first = true)
    (hl : n ≠ 0 → st.first = false ∧ Norm st.last ∧ ns st.last = lookedAt I now n) :
    (clock (now n) st).first = false ∧ Norm (clock (now n) st).last ∧
      ns (clock (now n) st).last = lookedAt I now n := by
  by_cases h : n = 0
  · subst h
    simp [clock, hz rfl, hN, lookedAt]
  · obtain ⟨a, b, c⟩ := hl h
    simp [clock, a, b, c]

theorem clock_other (now : Ts) (st : St) :
    (clock now st).mplist = st.mplist ∧ (clock now st).interval = st.interval ∧
      (clock now st).mbox = st.mbox ∧ (clock now st).mailSet = st.mailSet := by
  simp only [clock]
  split <;> simp

theorem lookedAt_succ (I : Int) (now : Nat → Ts) (n : Nat) :
    lookedAt I now (n + 1) = if Looks I now n then ns (now n) else lookedAt I now n := rfl

theorem known_succ (I : Int) (now : Nat → Ts) (fs0 : Fs) (fs : Nat → Fs) (n : Nat) :
    known I now fs0 fs (n + 1) = if Looks I now n then fs n else known I now fs0 fs n := rfl

/-- What prompt `i` is to announce. -/
def tells (I : Int) (now : Nat → Ts) (fs0 : Fs) (fs : Nat → Fs) (l : List (Path × Option Msg))
    (i : Nat) : List (Option Path) :=
  (l.reverse.filter fun b => decide (Told I now fs0 fs i b.1)).map fun b => some b.1

theorem checkStep (assigns : Msg → Bool) (I : Int) (now : Nat → Ts) (hN : ∀ i, Norm (now i))
    (fs0 : Fs) (fs : Nat → Fs) (l : List (Path × Option Msg)) (hl : l ≠ []) (n : Nat) (st : St)
    (hB : Before I now (known I now fs0 fs n) l n st) :
    (Breaks assigns I now fs0 fs l n → mcheck assigns (fs n) (now n) st = none) ∧
    (¬ Breaks assigns I now fs0 fs l n → ∃ st', mcheck assigns (fs n) (now n) st =
        some (st', tells I now fs0 fs l n) ∧
      Before I now (known I now fs0 fs (n + 1)) l (n + 1) st') := by
  have hne : st.mplist ≠ [] := by
    rw [hB.list]; simpa [boxes] using hl
  obtain ⟨c1, c2, c3⟩ := clock_spec I now hN n st hB.zero hB.later
  obtain ⟨o1, o2, -, -⟩ := clock_other (now n) st
  have hd : due (now n) (clock (now n) st) = decide (Looks I now n) := by
    rw [due_iff (now n) _ I (hN n) c2 _ rfl (by rw [o2, hB.interval]), c3]
    rfl
  unfold mcheck
  rw [if_pos hne]
  unfold checkList
  rw [hd, o1, hB.list]
  by_cases hk : Looks I now n
  · simp only [hk, decide_true, if_true]
    constructor
    · rintro ⟨p, m, hm, ha, -, hn⟩
      rw [walk_freed assigns _ _ _ p m (by simpa using hm) ha hn]
    · intro hnb
      rw [walk_ok assigns _ _ _ (fun p m hm ha hn =>
        hnb ⟨p, m, by simpa using hm, ha, hk, hn⟩)]
      refine ⟨{ clock (now n) st with last := now n, mplist := boxes (fs n) l.reverse }, ?_,
        ⟨?_, ?_, ?_, ?_⟩⟩
      · simp [tells, Told, hk]
      · simp [known_succ, hk]
      · simp [o2, hB.interval]
      · simp
      · intro _
        refine ⟨by simpa using c1, hN n, ?_⟩
        rw [lookedAt_succ, if_pos hk]
  · simp only [hk, decide_false]
    constructor
    · rintro ⟨p, m, hm, ha, hk', -⟩
      exact absurd hk' hk
    · intro _
      refine ⟨clock (now n) st, ?_, ⟨?_, ?_, ?_, ?_⟩⟩
      · simp [tells, Told, hk]
      · rw [o1, hB.list, known_succ, if_neg hk]
      · rw [o2, hB.interval]
      · simp
      · intro _
        refine ⟨c1, c2, ?_⟩
        rw [c3, lookedAt_succ, if_neg hk]

theorem runInv (assigns : Msg → Bool) (I : Int) (now : Nat → Ts) (hN : ∀ i, Norm (now i))
    (fs0 : Fs) (fs : Nat → Fs) (l : List (Path × Option Msg)) (hl : l ≠ []) (st : St)
    (hf : st.first = true) (n : Nat) :
    ((∃ i < n, Breaks assigns I now fs0 fs l i) →
      run assigns now fs (mcset I (mpset fs0 l st)) n = none) ∧
    ((∀ i < n, ¬ Breaks assigns I now fs0 fs l i) →
      ∃ st', run assigns now fs (mcset I (mpset fs0 l st)) n =
        some (st', (List.range n).map (tells I now fs0 fs l)) ∧
        Before I now (known I now fs0 fs n) l n st') := by
  induction n with
  | zero =>
    refine ⟨fun ⟨i, hi, _⟩ => absurd hi (Nat.not_lt_zero _), fun _ => ⟨_, rfl, ⟨?_, ?_, ?_, ?_⟩⟩⟩
    · show (l.foldl _ []) = _
      rw [foldl_boxes, List.append_nil]; rfl
    · rfl
    · intro _; exact hf
    · intro h; exact absurd rfl h
  | succ n ih =>
    obtain ⟨ih1, ih2⟩ := ih
    by_cases hb : ∃ i < n, Breaks assigns I now fs0 fs l i
    · refine ⟨fun _ => ?_, fun h => ?_⟩
      · rw [run, ih1 hb]
      · obtain ⟨i, hi, h'⟩ := hb
        exact absurd h' (h i (by omega))
    · have hb' : ∀ i < n, ¬ Breaks assigns I now fs0 fs l i := fun i hi h => hb ⟨i, hi, h⟩
      obtain ⟨st', hr, hB⟩ := ih2 hb'
      obtain ⟨s1, s2⟩ := checkStep assigns I now hN fs0 fs l hl n st' hB
      refine ⟨?_, ?_⟩
      · rintro ⟨i, hi, h⟩
        have : i = n := by
          rcases Nat.lt_or_ge i n with h1 | h1
          · exact absurd h (hb' i h1)
          · omega
        subst this
        rw [run, hr]
        simp only [s1 h]
      · intro h
        obtain ⟨st'', hm, hB'⟩ := s2 (h n (by omega))
        refine ⟨st'', ?_, hB'⟩
        rw [run, hr]
        simp only [hm]
        rw [List.range_succ, List.map_append]
        rfl

/-! ## Theorems -/

/-- **C123.**  After MAILPATH has been set, each prompt announces exactly the files of which
there is news since mail was last looked for, each once, the last of the list first.  Missing
from the full claim: it fails when a message assigns MAILPATH (`freed`), and news is only what
changes the time of last modification (`same_second`). -/
theorem announced_partial (assigns : Msg → Bool) (I : Int) (now : Nat → Ts)
    (hN : ∀ i, Norm (now i)) (fs0 : Fs) (fs : Nat → Fs) (l : List (Path × Option Msg))
    (hl : l ≠ []) (st : St) (hf : st.first = true) (n : Nat)
    (hs : ∀ i < n, ¬ Breaks assigns I now fs0 fs l i) :
    ∃ st', run assigns now fs (mcset I (mpset fs0 l st)) n = some (st',
      (List.range n).map fun i =>
        (l.reverse.filter fun b => decide (Told I now fs0 fs i b.1)).map fun b => some b.1) := by
  obtain ⟨st', h, -⟩ := (runInv assigns I now hN fs0 fs l hl st hf n).2 hs
  exact ⟨st', h⟩

/-- **C123.**  Freed memory is written exactly when a file is announced with a message which
assigns MAILPATH. -/
theorem freed (assigns : Msg → Bool) (I : Int) (now : Nat → Ts) (hN : ∀ i, Norm (now i))
    (fs0 : Fs) (fs : Nat → Fs) (l : List (Path × Option Msg)) (hl : l ≠ []) (st : St)
    (hf : st.first = true) (n : Nat) :
    run assigns now fs (mcset I (mpset fs0 l st)) n = none ↔
      ∃ i < n, Breaks assigns I now fs0 fs l i := by
  obtain ⟨h1, h2⟩ := runInv assigns I now hN fs0 fs l hl st hf n
  refine ⟨fun h => ?_, h1⟩
  by_cases hb : ∃ i < n, Breaks assigns I now fs0 fs l i
  · exact hb
  · obtain ⟨st', hr, -⟩ := h2 fun i hi h => hb ⟨i, hi, h⟩
    rw [hr] at h
    cases h

/-- **C123.**  MAIL alone: one file, the same rule, and no message can do harm. -/
theorem announced_mail (assigns : Msg → Bool) (I : Int) (now : Nat → Ts)
    (hN : ∀ i, Norm (now i)) (fs0 : Fs) (fs : Nat → Fs) (p : Path) (st : St)
    (hf : st.first = true) (hm : st.mplist = []) (n : Nat) :
    ∃ st', run assigns now fs (mcset I (mbset fs0 (some p) st)) n = some (st',
      (List.range n).map fun i => if Told I now fs0 fs i p then [some p] else []) := by
  have key : ∃ st', run assigns now fs (mcset I (mbset fs0 (some p) st)) n = some (st',
      (List.range n).map fun i => if Told I now fs0 fs i p then [some p] else []) ∧
      st'.mplist = [] ∧ st'.mailSet = true ∧ st'.interval = I ∧
      st'.mbox = ⟨some p, none, written (known I now fs0 fs n p)⟩ ∧
      (n = 0 → st'.first = true) ∧
      (n ≠ 0 → st'.first = false ∧ Norm st'.last ∧ ns st'.last = lookedAt I now n) := by
    induction n with
    | zero =>
      exact ⟨_, rfl, hm, rfl, rfl, by simp [mcset, mbset, startTime_some, known],
        fun _ => hf, fun h => absurd rfl h⟩
    | succ n ih =>
      obtain ⟨st', hr, h1, h2, h3, h4, h5, h6⟩ := ih
      obtain ⟨c1, c2, c3⟩ := clock_spec I now hN n st' h5 h6
      obtain ⟨o1, o2, o3, o4⟩ := clock_other (now n) st'
      have hd : due (now n) (clock (now n) st') = decide (Looks I now n) := by
        rw [due_iff (now n) _ I (hN n) c2 _ rfl (by rw [o2, h3]), c3]
        rfl
      rw [run, hr]
      simp only [mcheck, h1, h2, checkOne, hd, o3, h4, ne_eq, not_true_eq_false, if_false, if_true,
        visit_new, visit_time, List.range_succ, List.map_append, List.map_cons, List.map_nil]
      by_cases hk : Looks I now n
      · refine ⟨_, by simp only [Told, hk, decide_true, if_true, true_and, decide_eq_true_eq]; rfl, ?_⟩
        refine ⟨by simp [o1, h1], by simp [o4, h2], by simp [o2, h3], ?_, by simp, fun _ => ?_⟩
        · simp [known_succ, hk]
        · exact ⟨by simpa using c1, hN n, by rw [lookedAt_succ, if_pos hk]⟩
      · refine ⟨_, by simp only [Told, hk, decide_false, false_and]; rfl, ?_⟩
        refine ⟨by simp [o1, h1], by simp [o4, h2], by simp [o2, h3], ?_, by simp, fun _ => ?_⟩
        · simp [known_succ, hk, o3, h4]
        · exact ⟨by simpa using c1, c2, by simp only [lookedAt_succ, if_neg hk]; exact c3⟩
  obtain ⟨st', h, -⟩ := key
  exact ⟨st', h⟩

/-- **C123.**  While any file is named in MAILPATH, MAIL is not looked at. -/
theorem mail_ignored (assigns : Msg → Bool) (fs : Fs) (now : Ts) (st : St) (b : Box) (s : Bool)
    (h : st.mplist ≠ []) :
    (mcheck assigns fs now { st with mbox := b, mailSet := s }).map (·.2) =
      (mcheck assigns fs now st).map (·.2) := by
  unfold mcheck
  rw [if_pos h, if_pos (by simpa using h)]
  have hd : due now (clock now { st with mbox := b, mailSet := s }) = due now (clock now st) := by
    simp only [due, clock]; split <;> rfl
  unfold checkList
  rw [hd, (clock_other now _).1, (clock_other now st).1]
  split
  · rcases hw : walk assigns fs st.mplist with _ | ⟨l, o⟩ <;> rfl
  · rfl

/-- **C123.**  A file which does not change is announced once: nothing is said of it again while
`stat` tells the same. -/
theorem once (I : Int) (now : Nat → Ts) (fs0 : Fs) (fs : Nat → Fs) (p : Path) (i j : Nat)
    (hij : i < j) (hi : Told I now fs0 fs i p)
    (hsame : ∀ k, i < k → k ≤ j → fs k p = fs i p) : ¬ Told I now fs0 fs j p := by
  have hk : ∀ k, i < k → k ≤ j → known I now fs0 fs k p = fs i p := by
    intro k h1 h2
    induction k with
    | zero => omega
    | succ k ih =>
      rw [known_succ]
      by_cases hL : Looks I now k
      · rw [if_pos hL]
        by_cases e : k = i
        · rw [e]
        · exact hsame k (by omega) (by omega)
      · rw [if_neg hL]
        by_cases e : k = i
        · subst e; exact absurd hi.1 hL
        · exact ih (by omega) (by omega)
  rintro ⟨-, hn⟩
  rw [hk j hij (by omega), hsame j hij (by omega)] at hn
  rcases h : fs i p with _ | ⟨r, n, m, a⟩
  · rw [h] at hn; exact hn
  · rw [h] at hn
    cases r
    · exact hn
    · exact hn.2.2 rfl

/-- **C123.**  Two looks at the mail are at least MAILCHECK seconds apart. -/
theorem spaced (I : Int) (now : Nat → Ts) (hmono : ∀ i, ns (now i) ≤ ns (now (i + 1)))
    (i j : Nat) (hij : i < j) (hi : Looks I now i) (hj : Looks I now j) :
    ns (now i) + I * 1000000000 ≤ ns (now j) := by
  have : ∀ k, i < k → ns (now i) ≤ lookedAt I now k := by
    intro k h
    induction k with
    | zero => omega
    | succ k ih =>
      rw [lookedAt_succ]
      have hm : ∀ a b, a ≤ b → ns (now a) ≤ ns (now b) := by
        intro a b hab
        induction hab with
        | refl => exact Int.le_refl _
        | step _ ih => exact Int.le_trans ih (hmono _)
      by_cases hL : Looks I now k
      · rw [if_pos hL]; exact hm i k (by omega)
      · rw [if_neg hL]
        by_cases e : k = i
        · subst e; exact absurd hi hL
        · exact ih (by omega)
  have h1 := this j hij
  unfold Looks at hj
  omega

/-- **C123.**  With MAILCHECK 0 every prompt looks. -/
theorem each_prompt (now : Nat → Ts) (hmono : ∀ i, ns (now i) ≤ ns (now (i + 1))) (i : Nat) :
    Looks 0 now i := by
  have : lookedAt 0 now i ≤ ns (now i) := by
    induction i with
    | zero => exact Int.le_refl _
    | succ i ih =>
      rw [lookedAt_succ]
      have := hmono i
      split <;> omega
  unfold Looks
  omega

/-! ## Witnesses -/

/-- A clock which stands at `n` seconds at prompt `n`. -/
def tick (n : Nat) : Ts := ⟨n, 0⟩

/-- Mail comes before prompt 1 and again, in the same second, before prompt 2. -/
def twice : Nat → Fs
  | 0, _ => some ⟨true, 0, 5, 5⟩
  | 1, _ => some ⟨true, 100, 7, 6⟩
  | _, _ => some ⟨true, 200, 7, 6⟩

/-- Mail which comes in the same second as the mail announced before is never announced. -/
theorem same_second :
    (run (fun _ => false) tick twice (mcset 0 (mpset (twice 0) [(['m'], none)] init)) 4).map (·.2) =
      some [[], [some ['m']], [], []] := by decide +kernel

/-- MAILPATH set to nothing does not make the shell ignore MAIL. -/
theorem empty_mailpath :
    (run (fun _ => false) tick twice
      (mcset 0 (mpset (twice 0) [] (mbset (twice 0) (some ['m']) init))) 2).map (·.2) =
      some [[], [some ['m']]] := by decide +kernel

/-- `MAILPATH='m?$((MAILPATH=1))'` -/
theorem use_after_free :
    run (fun _ => true) tick twice (mcset 0 (mpset (twice 0) [(['m'], some ['x'])] init)) 2 = none := by
  decide +kernel

example : ((run (fun _ => false) tick twice
    (mcset 2 (mpset (twice 0) [(['m'], none), (['n'], none)] init)) 4).map (·.2)) =
      some [[], [], [some ['n'], some ['m']], []] := by decide +kernel
example : Told 2 tick (twice 0) twice 2 ['m'] ∧ ¬ Told 2 tick (twice 0) twice 1 ['m'] := by
  decide +kernel
example : ¬ Told 2 tick (twice 0) twice 3 ['m'] :=
  once 2 tick (twice 0) twice ['m'] 2 3 (by decide) (by decide +kernel)
    (fun k h1 h2 => by
      have : k = 3 := by omega
      subst this; rfl)
example : Breaks (fun _ => true) 0 tick (twice 0) twice [(['m'], some ['x'])] 1 :=
  ⟨['m'], ['x'], by simp, rfl, by decide +kernel⟩

end Ksh.Newmail
