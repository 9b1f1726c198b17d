import Verif.Notify.Model

/-!
# Notices about jobs: proofs
-/
namespace Ksh.Notify

/-! ## What the log says -/

/-- The last change of a job that the user has not been told of. -/
def news (id : Nat) : List Log → Option St
  | [] => none
  | .change i st :: l => if i = id then some st else news id l
  | .report i _ _ :: l => if i = id then none else news id l
  | .resume _ :: l => news id l

/-- The state a job is in. -/
def cur (id : Nat) : List Log → St
  | [] => .running
  | .change i st :: l => if i = id then st else cur id l
  | .resume i :: l => if i = id then .running else cur id l
  | .report _ _ _ :: l => cur id l

/-- Every report tells the state the job is in, and there is a notice only if there is news. -/
def Good : List Log → Prop
  | [] => True
  | .report i st how :: l => st = cur i l ∧ (how = .notice → news i l ≠ none) ∧ Good l
  | _ :: l => Good l

/-! ## Lists of jobs as maps -/

theorem find_upd (id k : Nat) (f : Job → Job) (hf : ∀ j, (f j).id = j.id) (l : List Job) :
    find id (upd k f l) = if id = k then (find id l).map f else find id l := by
  induction l with
  | nil => simp [find, upd]
  | cons j l ih =>
    simp only [find, upd, List.map_cons, List.find?_cons] at ih ⊢
    by_cases h : j.id = id
    · by_cases hk : j.id = k
      · have : id = k := by omega
        simp [h, this, hf]
      · have : ¬ id = k := by omega
        simp [h, this]
    · by_cases hk : j.id = k
      · have hk' : ¬ k = id := by omega
        simp only [hk, if_true, hf, hk', decide_false]
        exact ih
      · simp only [hk, if_false, h, decide_false]
        exact ih

theorem find_map (id : Nat) (f : Job → Job) (hf : ∀ j, (f j).id = j.id) (l : List Job) :
    find id (l.map f) = (find id l).map f := by
  induction l with
  | nil => simp [find]
  | cons j l ih =>
    simp only [find, List.map_cons, List.find?_cons, hf] at ih ⊢
    by_cases h : j.id = id
    · simp [h]
    · simp only [h, decide_false]
      exact ih

theorem find_filter (id : Nat) (p : Job → Bool) (l : List Job) (hl : (l.map (·.id)).Nodup) :
    find id (l.filter p) = (find id l).filter p := by
  induction l with
  | nil => simp [find]
  | cons j l ih =>
    simp only [List.map_cons, List.nodup_cons] at hl
    have ih := ih hl.2
    by_cases h : j.id = id
    · have hn : find id l = none := by
        simp only [find, List.find?_eq_none]
        intro x hx hxi
        simp only [decide_eq_true_eq] at hxi
        exact hl.1 (by rw [h, ← hxi]; exact List.mem_map_of_mem hx)
      cases hp : p j with
      | true => simp [find, hp, h, Option.filter]
      | false =>
        rw [List.filter_cons_of_neg (by simp [hp]), ih, hn]
        simp [find, h, hp, Option.filter]
    · have e : find id (j :: l) = find id l := by simp [find, h]
      rw [e, ← ih]
      cases hp : p j with
      | true => simp [find, hp, h]
      | false => rw [List.filter_cons_of_neg (by simp [hp])]

theorem find_del (id k : Nat) (l : List Job) (hl : (l.map (·.id)).Nodup) :
    find id (del k l) = if id = k then none else find id l := by
  rw [del, find_filter id _ l hl]
  cases h : find id l with
  | none => simp
  | some j =>
    have hj : j.id = id := by
      have := List.find?_some h
      simpa using this
    by_cases e : id = k
    · simp [Option.filter, hj, e]
    · simp [Option.filter, hj, e]

theorem find_id {id : Nat} {l : List Job} {j : Job} (h : find id l = some j) : j.id = id := by
  have := List.find?_some h
  simpa using this

theorem ids_map (f : Job → Job) (hf : ∀ j, (f j).id = j.id) (l : List Job) :
    (l.map f).map (·.id) = l.map (·.id) := by
  rw [List.map_map]
  congr 1
  funext j
  simp [hf]

theorem ids_upd (k : Nat) (f : Job → Job) (hf : ∀ j, (f j).id = j.id) (l : List Job) :
    (upd k f l).map (·.id) = l.map (·.id) := by
  apply ids_map
  intro j
  split
  · exact hf j
  · rfl

theorem nodup_filter (p : Job → Bool) {l : List Job} (h : (l.map (·.id)).Nodup) :
    ((l.filter p).map (·.id)).Nodup :=
  h.sublist (List.filter_sublist.map _)

/-! ## The invariant -/

/-- What is known of a job by its number. -/
def At (log : List Log) (next id : Nat) : Option Job → Prop
  | none => news id log = none ∧ (next ≤ id → cur id log = .running)
  | some j => j.changed = (news id log).isSome ∧ cur id log = j.st ∧ id < next

structure Inv (s : S) : Prop where
  mon : s.monitor = true
  nodup : (s.jobs.map (·.id)).Nodup
  known : ∀ id, At s.log s.next id (find id s.jobs)
  good : Good s.log

theorem init_inv : Inv init := ⟨rfl, by simp [init], fun id => by simp [init, find, At, news, cur], trivial⟩

/-- Changing flags that do not matter. -/
theorem Inv.flags {s : S} (h : Inv s) (id : Nat) (f : Job → Job) (hf : ∀ j, (f j).id = j.id)
    (h1 : ∀ j, (f j).changed = j.changed) (h2 : ∀ j, (f j).st = j.st) :
    Inv { s with jobs := upd id f s.jobs } := by
  refine ⟨h.mon, by simpa [ids_upd id f hf] using h.nodup, fun k => ?_, h.good⟩
  simp only
  rw [find_upd k id f hf]
  have := h.known k
  split
  · cases hk : find k s.jobs with
    | none => simpa [hk] using this
    | some j =>
      simp only [hk, At] at this
      simp only [Option.map_some, At, h1, h2]
      exact this
  · exact this

theorem Inv.change {s : S} (h : Inv s) {id : Nat} {st : St} {j : Job} (hj : find id s.jobs = some j) :
    Inv { s with jobs := upd id (setChanged st) s.jobs, log := .change id st :: s.log } := by
  refine ⟨h.mon, by simpa [ids_upd id (setChanged st) (fun _ => rfl)] using h.nodup, fun k => ?_, h.good⟩
  simp only
  rw [find_upd k id (setChanged st) (fun _ => rfl)]
  have := h.known k
  by_cases e : k = id
  · subst e
    simp only [hj, At] at this
    simp [hj, At, setChanged, news, cur, this.2.2]
  · have e' : ¬ id = k := fun h => e h.symm
    rw [if_neg e]
    cases hk : find k s.jobs with
    | none => simpa [hk, At, news, cur, e'] using this
    | some j => simpa [hk, At, news, cur, e'] using this

theorem Inv.report {s : S} (h : Inv s) {id : Nat} {j : Job} (hj : find id s.jobs = some j) (how : How)
    (hn : how = .notice → j.changed = true) :
    Inv { s with jobs := upd id clear s.jobs, log := .report id j.st how :: s.log } := by
  have hk := h.known id
  simp only [hj, At] at hk
  refine ⟨h.mon, by simpa [ids_upd id clear (fun _ => rfl)] using h.nodup, fun k => ?_,
    ⟨hk.2.1.symm, fun e => ?_, h.good⟩⟩
  · simp only
    rw [find_upd k id clear (fun _ => rfl)]
    have := h.known k
    by_cases e : k = id
    · subst e
      simp only [hj, At] at this
      simp [hj, At, clear, news, cur, this.2.1, this.2.2]
    · have e' : ¬ id = k := fun h => e h.symm
      rw [if_neg e]
      cases hk : find k s.jobs with
      | none => simpa [hk, At, news, cur, e'] using this
      | some j => simpa [hk, At, news, cur, e'] using this
  · have := hn e
    rw [hk.1] at this
    intro hh
    simp [hh] at this

/-- Removing a job of which there is no news. -/
theorem Inv.del {s : S} (h : Inv s) {id : Nat} {j : Job} (hj : find id s.jobs = some j)
    (hc : j.changed = false) : Inv { s with jobs := Notify.del id s.jobs } := by
  refine ⟨h.mon, nodup_filter _ h.nodup, fun k => ?_, h.good⟩
  simp only
  rw [find_del k id s.jobs h.nodup]
  have := h.known k
  by_cases e : k = id
  · subst e
    simp only [hj, At, hc] at this
    rw [if_pos rfl]
    refine ⟨?_, fun hh => by omega⟩
    have h1 := this.1.symm
    simpa using h1
  · rw [if_neg e]
    exact this

theorem Inv.chld {s : S} (h : Inv s) (id : Nat) (st : St) : Inv (Notify.chld id st s) := by
  simp only [Notify.chld]
  cases hj : find id s.jobs with
  | none => exact h
  | some j =>
    simp only
    split
    · exact h
    · simp only [checkJob, hj]
      have h1 := h.change (st := st) hj
      rw [if_pos h.mon]
      split
      · have f1 : find id (upd id (setChanged st) s.jobs) = some (setChanged st j) := by
          rw [find_upd id id (setChanged st) (fun _ => rfl), if_pos rfl, hj]
          rfl
        have h2 := h1.report (j := setChanged st j) f1 .notice (fun _ => rfl)
        split
        · refine h2.del (j := clear (setChanged st j)) ?_ rfl
          simp only
          rw [find_upd id id clear (fun _ => rfl), if_pos rfl, f1]
          rfl
        · exact h2
      · exact h1

theorem Inv.chlds {s : S} (h : Inv s) (l : List (Nat × St)) : Inv (Notify.chlds l s) := by
  induction l generalizing s with
  | nil => exact h
  | cons e l ih => exact ih (h.chld e.1 e.2)

theorem Inv.waitj {s : S} (h : Inv s) (async fg : Bool) (id : Nat) (l : List (Nat × St)) :
    Inv (Notify.waitj async fg id l s) := by
  simp only [Notify.waitj]
  have h1 := ((h.flags id (setWait async fg) (fun _ => rfl) (fun _ => rfl) (fun _ => rfl)).chlds l).flags
    id endWait (fun _ => rfl) (fun _ => rfl) (fun _ => rfl)
  generalize Notify.chlds l { s with jobs := upd id (setWait async fg) s.jobs } = s1 at h1
  obtain ⟨jobs1, mon1, not1, next1, log1⟩ := s1
  obtain rfl : mon1 = true := h1.mon
  simp only at h1 ⊢
  cases hj : find id (upd id endWait jobs1) with
  | none => exact h1
  | some j =>
    simp only
    split
    · exact h1
    · have h2 := h1.flags id endFg (fun _ => rfl) (fun _ => rfl) (fun _ => rfl)
      have f2 : find id (upd id endFg (upd id endWait jobs1)) = some (endFg j) := by
        rw [find_upd id id endFg (fun _ => rfl), if_pos rfl, hj]
        rfl
      simp only at h2
      have h3 := h2.report (j := endFg j) f2 .waited (fun e => by cases e)
      simp only [endFg] at h3
      by_cases ha : async = true
      · simp only [ha]
        simpa using h2
      · have ha' : async = false := by simpa using ha
        by_cases hs : j.st = .stopped
        · simp only [ha', hs]
          simpa using h2
        · simp only [ha', hs]
          have h4 := h3.del (j := clear (endFg j)) (by
            simp only
            rw [find_upd id id clear (fun _ => rfl), if_pos rfl, f2]
            rfl) rfl
          simpa [hs] using h4

theorem Inv.resume {s : S} (h : Inv s) (id : Nat) : Inv (Notify.resume id s) := by
  simp only [Notify.resume]
  cases hj : find id s.jobs with
  | none => exact h
  | some j =>
    simp only
    split
    · refine ⟨h.mon, by simpa [ids_upd id cont (fun _ => rfl)] using h.nodup, fun k => ?_, h.good⟩
      simp only
      rw [find_upd k id cont (fun _ => rfl)]
      have := h.known k
      by_cases e : k = id
      · subst e
        simp only [hj, At] at this
        simp [hj, At, cont, news, cur, this.1, this.2.2]
      · have e' : ¬ id = k := fun h => e h.symm
        rw [if_neg e]
        cases hk : find k s.jobs with
        | none => simpa [hk, At, news, cur, e'] using this
        | some j => simpa [hk, At, news, cur, e'] using this
    · exact h

/-! ## Reports of several jobs -/

def reports (how : How) (l : List Job) : List Log := l.map fun j => .report j.id j.st how

theorem cur_reports (how : How) (id : Nat) (l : List Job) (log : List Log) :
    cur id (reports how l ++ log) = cur id log := by
  induction l with
  | nil => rfl
  | cons j l ih => simpa [reports, cur] using ih

theorem news_reports (how : How) (id : Nat) (l : List Job) (log : List Log) :
    news id (reports how l ++ log) = if (find id l).isSome then none else news id log := by
  induction l with
  | nil => simp [reports, find]
  | cons j l ih =>
    simp only [reports, List.map_cons, List.cons_append, news] at ih ⊢
    by_cases e : j.id = id
    · simp [e, find]
    · rw [if_neg e, ih]
      simp [find, e]

theorem good_reports (how : How) {log : List Log} (hg : Good log) : ∀ (l : List Job),
    (l.map (·.id)).Nodup →
    (∀ j ∈ l, j.st = cur j.id log ∧ (how = .notice → news j.id log ≠ none)) →
    Good (reports how l ++ log)
  | [], _, _ => hg
  | j :: l, hn, h => by
    simp only [List.map_cons, List.nodup_cons] at hn
    have hj := h j (by simp)
    refine ⟨?_, fun e => ?_, good_reports how hg l hn.2 (fun x hx => h x (by simp [hx]))⟩
    · show j.st = cur j.id (reports how l ++ log)
      rw [cur_reports]
      exact hj.1
    · show news j.id (reports how l ++ log) ≠ none
      rw [news_reports]
      have : find j.id l = none := by
        simp only [find, List.find?_eq_none]
        intro x hx hxi
        simp only [decide_eq_true_eq] at hxi
        exact hn.1 (by rw [← hxi]; exact List.mem_map_of_mem hx)
      simp only [this]
      exact hj.2 e

theorem find_mem {l : List Job} (hl : (l.map (·.id)).Nodup) {j : Job} (hj : j ∈ l) :
    find j.id l = some j := by
  induction l with
  | nil => cases hj
  | cons x l ih =>
    simp only [List.map_cons, List.nodup_cons] at hl
    rcases List.mem_cons.1 hj with rfl | hj
    · simp [find]
    · have : ¬ x.id = j.id := fun e => hl.1 (by rw [e]; exact List.mem_map_of_mem hj)
      have := ih hl.2 hj
      simp only [find] at this ⊢
      rw [List.find?_cons]
      simp_all

theorem Inv.jobsCmd {s : S} (h : Inv s) (sel : Option Nat) (n : Bool) :
    Inv (Notify.jobsCmd sel false n s) := by
  simp only [Notify.jobsCmd, Bool.not_false, Bool.and_true, Bool.false_eq_true, if_false]
  refine ⟨h.mon, ?_, fun k => ?_, ?_⟩
  · simp only
    rw [ids_map _ (fun j => by split <;> rfl)]
    exact nodup_filter _ h.nodup
  · simp only
    rw [find_map k _ (fun j => by split <;> rfl), find_filter k _ _ h.nodup]
    have := h.known k
    rw [show (List.map (fun j => Log.report j.id j.st How.asked) (List.filter (shown sel n) s.jobs)) =
      reports .asked (s.jobs.filter (shown sel n)) from rfl]
    cases hk : find k s.jobs with
    | none =>
      simp only [hk, At] at this
      simp only [Option.filter_none, Option.map_none, At, news_reports, cur_reports]
      refine ⟨?_, this.2⟩
      split
      · rfl
      · exact this.1
    | some j =>
      simp only [hk, At] at this
      have hf : find k (s.jobs.filter (shown sel n)) = if shown sel n j then some j else none := by
        rw [find_filter k _ _ h.nodup, hk]
        rfl
      cases hs : shown sel n j with
      | false =>
        simp only [hs, Bool.false_eq_true, if_false] at hf
        simp only [Option.filter, hs, Bool.false_and, Bool.not_false, if_true, Option.map_some, At,
          news_reports, cur_reports, hf]
        simpa using this
      | true =>
        simp only [hs, if_true] at hf
        cases he : j.st.isEnded with
        | true =>
          simp only [Option.filter, hs, he, Bool.and_self, Bool.not_true, Bool.false_eq_true,
            if_false, Option.map_none, At, news_reports, cur_reports, hf]
          exact ⟨by simp, fun hh => by omega⟩
        | false =>
          simp only [Option.filter, hs, he, Bool.and_false, Bool.not_false, if_true,
            Option.map_some, At, news_reports, cur_reports, hf]
          exact ⟨by simp [clear], by simp [clear, this.2.1], this.2.2⟩
  · apply good_reports _ h.good _ (nodup_filter _ h.nodup)
    intro j hj
    have := h.known j.id
    rw [find_mem h.nodup (List.mem_filter.1 hj).1] at this
    exact ⟨this.2.1.symm, fun e => by cases e⟩

theorem notifyAll_find {s : S} (h : Inv s) (k : Nat) :
    find k (notifyAll s).jobs =
      match find k s.jobs with
      | none => none
      | some j => if j.st.isEnded then none else some (clear j) := by
  simp only [notifyAll, h.mon, Bool.true_and]
  rw [find_filter k _ _ (by rw [ids_map _ (fun j => by split <;> rfl)]; exact h.nodup),
    find_map k _ (fun j => by split <;> rfl)]
  cases hk : find k s.jobs with
  | none => rfl
  | some j =>
    simp only [Option.map_some]
    cases hc : j.changed with
    | true =>
      simp only [if_true, Option.filter, clear]
      cases j.st.isEnded <;> simp
    | false =>
      have : clear j = j := by simp [clear, ← hc]
      simp only [Bool.false_eq_true, if_false, Option.filter, this]
      cases j.st.isEnded <;> simp

theorem notifyAll_news {s : S} (h : Inv s) (k : Nat) : news k (notifyAll s).log = none := by
  simp only [notifyAll, h.mon, Bool.true_and]
  rw [show (List.map (fun j => Log.report j.id j.st How.notice)
    (List.filter (fun j => j.changed) s.jobs)) =
      reports .notice (s.jobs.filter fun j => j.changed) from rfl, news_reports]
  have := h.known k
  cases hk : find k s.jobs with
  | none =>
    simp only [hk, At] at this
    split
    · rfl
    · exact this.1
  | some j =>
    simp only [hk, At] at this
    rw [find_filter k _ _ h.nodup, hk]
    cases hc : j.changed with
    | true => simp [Option.filter, hc]
    | false =>
      rw [hc] at this
      simp only [Option.filter, hc, Bool.false_eq_true, if_false, Option.isSome_none]
      simpa using this.1.symm

theorem notifyAll_cur (s : S) (k : Nat) : cur k (notifyAll s).log = cur k s.log := by
  simp only [notifyAll]
  exact cur_reports .notice k _ s.log

theorem Inv.prompt {s : S} (h : Inv s) : Inv (notifyAll s) := by
  refine ⟨h.mon, ?_, fun k => ?_, ?_⟩
  · simp only [notifyAll]
    apply nodup_filter
    rw [ids_map _ (fun j => by split <;> rfl)]
    exact h.nodup
  · rw [notifyAll_find h]
    have := h.known k
    cases hk : find k s.jobs with
    | none =>
      simp only [hk, At] at this
      exact ⟨notifyAll_news h k, fun hh => by rw [notifyAll_cur]; exact this.2 hh⟩
    | some j =>
      simp only [hk, At] at this
      cases he : j.st.isEnded with
      | true =>
        simp only [he, if_true]
        exact ⟨notifyAll_news h k, fun hh => by
          have h1 : s.next ≤ k := hh
          omega⟩
      | false =>
        simp only [he, Bool.false_eq_true, if_false]
        refine ⟨?_, ?_, this.2.2⟩
        · rw [notifyAll_news h k]
          rfl
        · rw [notifyAll_cur]
          exact this.2.1
  · simp only [notifyAll]
    apply good_reports _ h.good _ (nodup_filter _ h.nodup)
    intro j hj
    have h1 := h.known j.id
    rw [find_mem h.nodup (List.mem_filter.1 hj).1] at h1
    refine ⟨h1.2.1.symm, fun _ e => ?_⟩
    have h2 := (List.mem_filter.1 hj).2
    simp only [h.mon, Bool.true_and] at h2
    rw [h1.1, e] at h2
    simp at h2

/-- Job control stays on, and `jobs -p` is not used. -/
def Ev.Fine : Ev → Prop
  | .setMonitor b => b = true
  | .jobs _ p _ => p = false
  | _ => True

theorem Inv.step {s : S} (h : Inv s) (e : Ev) (he : e.Fine) : Inv (Notify.step s e) := by
  cases e with
  | start k =>
    refine ⟨h.mon, ?_, fun id => ?_, h.good⟩
    · simp only [Notify.step, List.map_cons, List.nodup_cons]
      refine ⟨fun hm => ?_, h.nodup⟩
      obtain ⟨j, hj, e⟩ := List.mem_map.1 hm
      have := h.known j.id
      rw [find_mem h.nodup hj] at this
      have := this.2.2
      omega
    · have := h.known id
      simp only [Notify.step]
      by_cases e : s.next = id
      · have hn : find id s.jobs = none := by
          cases hk : find id s.jobs with
          | none => rfl
          | some j =>
            rw [hk] at this
            have := this.2.2
            omega
        rw [hn] at this
        have hf : find id ({ id := s.next, known := k } :: s.jobs) =
            some { id := s.next, known := k } := by simp [find, e]
        rw [hf]
        exact ⟨by rw [this.1]; rfl, this.2 (by omega), by omega⟩
      · have hf : find id ({ id := s.next, known := k } :: s.jobs) = find id s.jobs := by
          simp [find, e]
        rw [hf]
        cases hk : find id s.jobs with
        | none =>
          rw [hk] at this
          exact ⟨this.1, fun hh => this.2 (by omega)⟩
        | some j =>
          rw [hk] at this
          exact ⟨this.1, this.2.1, by have := this.2.2; omega⟩
  | chld id st => exact h.chld id st
  | prompt => exact h.prompt
  | jobs sel p n =>
    have : p = false := he
    subst this
    exact h.jobsCmd sel n
  | wait fg id l => exact h.waitj false fg id l
  | waitAny id l => exact h.waitj true false id l
  | bg id => exact h.resume id
  | fg id l => exact (h.resume id).waitj false true id l
  | setNotify b => exact ⟨h.mon, h.nodup, h.known, h.good⟩
  | setMonitor b => exact ⟨he, h.nodup, h.known, h.good⟩

theorem Inv.run {s : S} (h : Inv s) (l : List Ev) (hl : ∀ e ∈ l, e.Fine) : Inv (Notify.run s l) := by
  induction l generalizing s with
  | nil => exact h
  | cons e l ih =>
    exact ih (h.step e (hl e (by simp))) (fun x hx => hl x (by simp [hx]))

/-! ## Properties -/

/-- With job control on and without `jobs -p`: at every prompt the user has been told of the last
change of every job there ever was, whether by a notice, by `jobs` or because they waited for
it, and no ended job is in the list. -/
theorem told_partial (l : List Ev) (hl : ∀ e ∈ l, e.Fine) (id : Nat) :
    news id (run init (l ++ [.prompt])).log = none ∧
    ∀ j ∈ (run init (l ++ [.prompt])).jobs, j.st.isEnded = false := by
  have h := init_inv.run l hl
  have e : run init (l ++ [.prompt]) = notifyAll (run init l) := by
    simp [run, List.foldl_append, step]
  rw [e]
  refine ⟨notifyAll_news h id, fun j hj => ?_⟩
  simp only [notifyAll, List.mem_filter] at hj
  simpa using hj.2

/-- At every time: all reports tell the true state, no notice is given twice for one change or
without one, a job that is no longer in the list has not been forgotten, and those in the list
are in the state they are in. -/
theorem faithful_partial (l : List Ev) (hl : ∀ e ∈ l, e.Fine) :
    Good (run init l).log ∧
    (∀ id, find id (run init l).jobs = none → news id (run init l).log = none) ∧
    (∀ id j, find id (run init l).jobs = some j → j.st = cur id (run init l).log) := by
  have h := init_inv.run l hl
  refine ⟨h.good, fun id hn => ?_, fun id j hj => ?_⟩
  · have := h.known id
    rw [hn] at this
    exact this.1
  · have := h.known id
    rw [hj] at this
    exact this.2.1.symm

/-- How many changes of a job there were. -/
def changes (id : Nat) : List Log → Nat
  | [] => 0
  | .change i _ :: l => (if i = id then 1 else 0) + changes id l
  | _ :: l => changes id l

/-- How many notices about it. -/
def notices (id : Nat) : List Log → Nat
  | [] => 0
  | .report i _ .notice :: l => (if i = id then 1 else 0) + notices id l
  | _ :: l => notices id l

theorem count_of_good (id : Nat) : ∀ (l : List Log), Good l →
    notices id l + (if news id l = none then 0 else 1) ≤ changes id l
  | [], _ => by simp [notices, changes, news]
  | .change i st :: l, h => by
    have ih := count_of_good id l h
    simp only [notices, changes, news]
    by_cases e : i = id
    · simp only [e, if_true]
      have : ¬ some st = (none : Option St) := by simp
      rw [if_neg this]
      omega
    · simp only [e, if_false]
      omega
  | .resume i :: l, h => by
    have ih := count_of_good id l h
    simp only [notices, changes, news]
    exact ih
  | .report i st how :: l, h => by
    have ih := count_of_good id l h.2.2
    by_cases e : i = id
    · subst e
      simp only [changes, news, if_true]
      cases how with
      | notice =>
        have := h.2.1 rfl
        rw [if_neg this] at ih
        simp only [notices, if_true]
        omega
      | asked => simp only [notices]; omega
      | waited => simp only [notices]; omega
    · simp only [changes, news, e, if_false]
      cases how <;> simp only [notices, e, if_false] <;> omega

/-- There are never more notices than changes. -/
theorem notices_le_partial (l : List Ev) (hl : ∀ e ∈ l, e.Fine) (id : Nat) :
    notices id (run init l).log ≤ changes id (run init l).log := by
  have := count_of_good id _ (faithful_partial l hl).1
  omega

/-! ## Where it fails -/

/-- `jobs -p` takes an ended job out of the list and tells nothing but its number: the user never
learns how it ended. -/
theorem pgrp_loses : news 0 (run init [.start true, .chld 0 (.ended 3), .jobs none true false, .prompt]).log
      = some (.ended 3) ∧
    (run init [.start true, .chld 0 (.ended 3), .jobs none true false, .prompt]).jobs = [] := by decide

/-- `set +m` in the line during which a job ended has the same effect. -/
theorem monitor_loses : news 0 (run init [.start true, .chld 0 (.ended 3), .setMonitor false, .prompt]).log
      = some (.ended 3) ∧
    (run init [.start true, .chld 0 (.ended 3), .setMonitor false, .prompt]).jobs = [] := by decide

/-- A job stops, goes on and ends; `wait` without operands; notify. -/
example : (run init [.start true, .chld 0 .stopped, .prompt, .bg 0, .waitAny 0 [(0, .ended 1)], .prompt,
      .prompt]).log =
    [.report 0 (.ended 1) .notice, .change 0 (.ended 1), .resume 0, .report 0 .stopped .notice,
     .change 0 .stopped] ∧
    (run init [.setNotify true, .start true, .start false, .wait true 1 [(0, .ended 1), (1, .ended 2)],
      .prompt]).log =
    [.report 1 (.ended 2) .waited, .change 1 (.ended 2), .report 0 (.ended 1) .notice,
     .change 0 (.ended 1)] := by decide

end Ksh.Notify
