import Verif.Trap.Safe

namespace Ksh.Trap

/-! ### Which text is run -/

/-- What the log says about actions; `sp` tells EXIT and ERR. -/
structure Told (sp : Nat → Bool) (log : List Ev) : Prop where
  /-- an action follows the notice of its signal, is not empty, and is the current one -/
  ran : ∀ l1 n a l2, log = l1 ++ .ran n a :: l2 → a ≠ [] ∧ ∃ l3, l2 = .handled n :: l3 ∧ (sp n = false → Current n l3 (some a))
  /-- a signal that is taken notice of has its current action run -/
  runs : ∀ l1 n l2 a, log = l1 ++ .handled n :: l2 → sp n = false → a ≠ [] → Current n l2 (some a) → ∃ l0, l1 = l0 ++ [.ran n a]

theorem Told.ev {sp : Nat → Bool} {log : List Ev} {e : Ev} (h : Told sp log) (h1 : ∀ n a, e ≠ .ran n a) (h2 : ∀ n, e ≠ .handled n) :
    Told sp (e :: log) := by
  refine ⟨?_, ?_⟩
  · intro l1 n a l2 e1
    cases l1 with
    | nil => simp only [List.nil_append, List.cons.injEq] at e1; exact absurd e1.1 (h1 n a)
    | cons x l1 =>
      simp only [List.cons_append, List.cons.injEq] at e1
      exact h.ran l1 n a l2 e1.2
  · intro l1 n l2 a e1 hs ha hc
    cases l1 with
    | nil => simp only [List.nil_append, List.cons.injEq] at e1; exact absurd e1.1 (h2 n)
    | cons x l1 =>
      simp only [List.cons_append, List.cons.injEq] at e1
      obtain ⟨l0, rfl⟩ := h.runs l1 n l2 a e1.2 hs ha hc
      exact ⟨x :: l0, rfl⟩

/-- A signal without an action. -/
theorem Told.notice {sp : Nat → Bool} {log : List Ev} {n : Nat} (h : Told sp log)
    (hn : sp n = false → ∀ a, a ≠ [] → ¬Current n log (some a)) : Told sp (.handled n :: log) := by
  refine ⟨?_, ?_⟩
  · intro l1 k a l2 e1
    cases l1 with
    | nil => simp at e1
    | cons x l1 =>
      simp only [List.cons_append, List.cons.injEq] at e1
      exact h.ran l1 k a l2 e1.2
  · intro l1 k l2 a e1 hs ha hc
    cases l1 with
    | nil =>
      simp only [List.nil_append, List.cons.injEq, Ev.handled.injEq] at e1
      obtain ⟨rfl, rfl⟩ := e1
      exact absurd hc (hn hs a ha)
    | cons x l1 =>
      simp only [List.cons_append, List.cons.injEq] at e1
      obtain ⟨l0, rfl⟩ := h.runs l1 k l2 a e1.2 hs ha hc
      exact ⟨x :: l0, rfl⟩

/-- A signal with an action. -/
theorem Told.act {sp : Nat → Bool} {log : List Ev} {n : Nat} {b : List Char} (h : Told sp log) (hb : b ≠ [])
    (hn : sp n = false → Current n log (some b)) : Told sp (.ran n b :: .handled n :: log) := by
  refine ⟨?_, ?_⟩
  · intro l1 k a l2 e1
    cases l1 with
    | nil =>
      simp only [List.nil_append, List.cons.injEq, Ev.ran.injEq] at e1
      obtain ⟨⟨rfl, rfl⟩, rfl⟩ := e1
      exact ⟨hb, log, rfl, hn⟩
    | cons x l1 =>
      simp only [List.cons_append, List.cons.injEq] at e1
      cases l1 with
      | nil => simp at e1
      | cons y l1 =>
        simp only [List.cons_append, List.cons.injEq] at e1
        exact h.ran l1 k a l2 e1.2.2
  · intro l1 k l2 a e1 hs ha hc
    cases l1 with
    | nil => simp at e1
    | cons x l1 =>
      simp only [List.cons_append, List.cons.injEq] at e1
      cases l1 with
      | nil =>
        simp only [List.nil_append, List.cons.injEq, Ev.handled.injEq] at e1
        obtain ⟨rfl, rfl, rfl⟩ := e1
        have := Current.unique hc (hn hs)
        simp only [Option.some.injEq] at this
        exact ⟨[], by rw [this]; rfl⟩
      | cons y l1 =>
        simp only [List.cons_append, List.cons.injEq] at e1
        obtain ⟨l0, rfl⟩ := h.runs l1 k l2 a e1.2.2 hs ha hc
        exact ⟨x :: y :: l0, rfl⟩

/-- The actions of the other signals are the current ones. -/
structure Acts (s : S) : Prop where
  told : Told s.special s.log
  cur : ∀ n, s.special n = false → Current n s.log (s.tr n).act

theorem Acts.congr {s t : S} (h : Acts s) (h0 : t.nsig = s.nsig) (h1 : ∀ n, s.special n = false → (t.tr n).act = (s.tr n).act)
    (h2 : t.log = s.log) : Acts t := by
  have e : t.special = s.special := by funext n; simp [S.special, h0]
  refine ⟨by rw [e, h2]; exact h.told, ?_⟩
  intro n hn
  rw [e] at hn
  rw [h1 n hn, h2]
  exact h.cur n hn

theorem Acts.ev {s t : S} {e : Ev} (h : Acts s) (h0 : t.nsig = s.nsig) (h1 : ∀ n, (t.tr n).act = (s.tr n).act)
    (h2 : t.log = e :: s.log) (h3 : ∀ n a, e ≠ .ran n a) (h4 : ∀ n, e ≠ .handled n) (h5 : ∀ n a, e ≠ .set n a) : Acts t := by
  have e' : t.special = s.special := by funext n; simp [S.special, h0]
  refine ⟨by rw [e', h2]; exact h.told.ev h3 h4, ?_⟩
  intro n hn
  rw [e'] at hn
  rw [h1, h2, current_cons_ne (h5 n)]
  exact h.cur n hn

theorem noticed_tr (s : S) (n k : Nat) : ((noticed s n).tr k).act = (s.tr k).act ∧ ((noticed s n).tr k).changed = (s.tr k).changed := by
  show ((if k = n then _ else s.tr k : T)).act = _ ∧ ((if k = n then _ else s.tr k : T)).changed = _
  split <;> exact ⟨rfl, rfl⟩

theorem Acts.runtrap {s : S} {n : Nat} (h : Acts s) : Acts (runtrap s n) := by
  have key : (∀ a, a ≠ [] → (s.tr n).act ≠ some a) → Acts (noticed s n) := by
    intro hna
    refine ⟨h.told.notice ?_, ?_⟩
    · intro hn a ha hc
      exact hna a ha (Current.unique (h.cur n hn) hc)
    · intro k hk
      rw [(noticed_tr s n k).1]
      show Current k (.handled n :: s.log) _
      rw [current_cons_ne (by simp)]
      exact h.cur k hk
  rw [runtrap_eq]
  split
  · rename_i ha
    have := key (by rw [ha]; simp)
    split
    · exact this.congr rfl (fun _ _ => rfl) rfl
    · exact this
  · rename_i ha
    refine key ?_
    intro a hne e
    rw [ha] at e
    simp only [Option.some.injEq] at e
    exact hne e.symm
  · rename_i b hb ha
    have hb : b ≠ [] := hb
    have e' : ∀ (x : S) (st : List Frame) (l : List Ev), x.nsig = s.nsig → ({ x with stack := st, log := l } : S).special = s.special := by
      intro x st l hx
      funext k
      simp [S.special, hx]
    have hns : ∀ x : S, x = (if s.special n then (noticed s n).upd n (fun t => { t with act := none, changed := false }) else noticed s n) →
        x.nsig = s.nsig := by
      intro x hx
      rw [hx]
      split <;> rfl
    refine ⟨?_, ?_⟩
    · rw [e' _ _ _ (hns _ rfl)]
      exact h.told.act hb (fun hn => by rw [← ha]; exact h.cur n hn)
    · intro k hk
      rw [e' _ _ _ (hns _ rfl)] at hk
      show Current k (.ran n b :: .handled n :: s.log) _
      rw [current_cons_ne (by simp), current_cons_ne (by simp)]
      show Current k s.log ((ite _ _ _ : S).tr k).act
      split
      · rename_i hs
        have hkn : k ≠ n := by
          intro e
          rw [e, hs] at hk
          simp at hk
        simp only [S.upd, if_neg hkn, (noticed_tr s n k).1]
        exact h.cur k hk
      · rw [(noticed_tr s n k).1]
        exact h.cur k hk

theorem Acts.step {s : S} {op : Op} (h : Acts s) : Acts (step s op) := by
  unfold Trap.step
  split
  · rename_i n
    split
    · refine h.ev rfl ?_ rfl (by simp) (by simp) (by simp)
      intro k
      simp only [trapsig, S.upd]
      split <;> rfl
    · exact h
  · split
    · exact h.congr rfl (fun _ _ => rfl) rfl
    · exact h
  · split
    · exact h
    · unfold Trap.act
      split
      · rename_i n a _ _
        split
        · have e' : (settrap s n a).special = s.special := rfl
          refine ⟨?_, ?_⟩
          · exact h.told.ev (by simp) (by simp)
          · intro k hk
            show Current k (.set n a :: s.log) _
            simp only [settrap, S.upd]
            by_cases hkn : k = n
            · subst hkn
              rw [current_set]
              simp
            · rw [if_neg hkn, current_cons_ne (by simp [Ne.symm hkn])]
              exact h.cur k hk
        · exact h
      · split
        · exact h.congr rfl (fun _ _ => rfl) rfl
        · exact h
      · split
        · exact h.congr rfl (fun _ _ => rfl) rfl
        · exact h
      · split
        · split
          · exact h.congr rfl (fun _ _ => rfl) rfl
          · exact h.congr rfl (fun _ _ => rfl) rfl
        · exact Acts.runtrap (h.congr rfl (fun _ _ => rfl) rfl)
        · exact h
      · split
        · rename_i n str oex och st e
          refine h.congr ?_ ?_ ?_
          · simp only [afterAction, S.upd]; split <;> rfl
          · intro k hk
            simp only [afterAction, S.upd]
            split
            · rename_i hs
              have hkn : k ≠ n := by
                intro e
                have hs : s.special n = true := hs
                rw [e, hs] at hk
                simp at hk
              simp only [if_neg hkn]
            · rfl
          · simp only [afterAction, S.upd]; split <;> rfl
        · exact h
      · split
        · exact Acts.runtrap (h.ev rfl (fun _ => rfl) rfl (by simp) (by simp) (by simp))
        · exact h
      · exact h

theorem acts_run (nsig : Nat) (f : Nat → Bool) (l : List Op) : Acts (run (init nsig f) l) := by
  refine run_inv (P := Acts) (fun s op h => h.step) l _ ⟨⟨?_, ?_⟩, ?_⟩
  · intro l1 n a l2 e; simp [init] at e
  · intro l1 n l2 a e; simp [init] at e
  · intro n _
    exact Or.inr ⟨rfl, by simp [init]⟩

theorem nsig_run (s : S) (l : List Op) : (run s l).nsig = s.nsig := by
  induction l generalizing s with
  | nil => rfl
  | cons op l ih => exact (ih (step s op)).trans (grow_step s op).1

/-- **C38** When a signal (other than EXIT and ERR) is taken notice of, the action the
last `trap` command has set for it is begun at once, if it is not empty; and nothing else is
ever run: no action without its signal, and none for an ignored signal. -/
theorem action_runs (nsig : Nat) (f : Nat → Bool) (l : List Op) (n : Nat) (hn : n ≠ 0) (hn' : n ≠ nsig) (a : List Char) (ha : a ≠ []) :
    (∀ l1 l2, (run (init nsig f) l).log = l1 ++ .handled n :: l2 → Current n l2 (some a) → ∃ l0, l1 = l0 ++ [.ran n a]) ∧
    (∀ l1 b l2, (run (init nsig f) l).log = l1 ++ .ran n b :: l2 →
      b ≠ [] ∧ ∃ l3, l2 = .handled n :: l3 ∧ Waiting n l3 ∧ Current n l3 (some b)) := by
  have hs : (run (init nsig f) l).special n = false := by
    simp only [S.special, nsig_run, init]
    simp [hn, hn']
  have h := (acts_run nsig f l).told
  refine ⟨fun l1 l2 e hc => h.runs l1 n l2 a e hs ha hc, ?_⟩
  intro l1 b l2 e
  obtain ⟨hb, l3, e3, hc⟩ := h.ran l1 n b l2 e
  refine ⟨hb, l3, e3, ?_, hc hs⟩
  refine handled_once nsig f l n (l1 ++ [.ran n b]) l3 ?_
  rw [e, e3]
  simp

/-! ### EXIT and ERR -/

/-- Frames of the action for `n`, innermost first. -/
def frames (n : Nat) : List Frame → List (List Char × Bool)
  | [] => []
  | .action k a _ c :: st => if k = n then (a, c) :: frames n st else frames n st
  | _ :: st => frames n st

/-- The state of EXIT or ERR. -/
structure Spec (s : S) (n : Nat) : Prop where
  out : frames n s.stack = [] → Current n s.log (s.tr n).act
  changed : (s.tr n).changed = true → Current n s.log (s.tr n).act
  unchanged : ∀ a c r, frames n s.stack = (a, c) :: r → (s.tr n).changed = false → (s.tr n).act = none ∧ Current n s.log (some a)
  nested : ∀ a c r, frames n s.stack = (a, c) :: r → r ≠ [] → c = true
  tails : ∀ u r, frames n s.stack = u ++ r → ∀ a c r', r = (a, c) :: r' → r' ≠ [] → c = true

theorem Spec.congr {s t : S} {n} (h : Spec s n) (h1 : (t.tr n).act = (s.tr n).act) (h2 : (t.tr n).changed = (s.tr n).changed)
    (h3 : frames n t.stack = frames n s.stack) (h4 : ∀ a, Current n t.log a ↔ Current n s.log a) : Spec t n := by
  refine ⟨?_, ?_, ?_, ?_, ?_⟩
  · rw [h3, h1, h4]; exact h.out
  · rw [h2, h1, h4]; exact h.changed
  · rw [h3, h2, h1]; intro a c r e hc; rw [h4]; exact h.unchanged a c r e hc
  · rw [h3]; exact h.nested
  · rw [h3]; exact h.tails

theorem current_skip {n : Nat} {e : Ev} {l : List Ev} (h : ∀ b, e ≠ .set n b) : ∀ a, Current n (e :: l) a ↔ Current n l a :=
  fun a => current_cons_ne h a

theorem Spec.runtrap {s : S} {n k : Nat} (hsp : s.special n = true) (h : Spec s n) : Spec (runtrap s k) n := by
  have h1 : Spec (noticed s k) n :=
    h.congr (noticed_tr s k n).1 (noticed_tr s k n).2 rfl (current_skip (by simp))
  rw [runtrap_eq]
  split
  · split
    · exact h1.congr rfl rfl rfl (fun _ => Iff.rfl)
    · exact h1
  · exact h1
  · rename_i b hb ha
    by_cases hkn : k = n
    · subst hkn
      simp only [hsp, if_true, Bool.true_and]
      have hf : frames k (Frame.action k b s.exstat (s.tr k).changed :: s.stack) = (b, (s.tr k).changed) :: frames k s.stack := by
        simp [frames]
      -- the action is the current one
      have hcur : Current k s.log (some b) := by
        rw [← ha]
        cases hfr : frames k s.stack with
        | nil => exact h.out hfr
        | cons x r =>
          obtain ⟨a, c⟩ := x
          cases hch : (s.tr k).changed with
          | true => exact h.changed hch
          | false =>
            have := (h.unchanged a c r hfr hch).1
            rw [ha] at this
            simp at this
      have hch : frames k s.stack ≠ [] → (s.tr k).changed = true := by
        intro hne
        cases hfr : frames k s.stack with
        | nil => exact absurd hfr hne
        | cons x r =>
          obtain ⟨a, c⟩ := x
          cases hch : (s.tr k).changed with
          | true => rfl
          | false =>
            have := (h.unchanged a c r hfr hch).1
            rw [ha] at this
            simp at this
      have e1 : (((noticed s k).upd k (fun t => { t with act := none, changed := false })).tr k).act = none := by simp [S.upd]
      have e2 : (((noticed s k).upd k (fun t => { t with act := none, changed := false })).tr k).changed = false := by simp [S.upd]
      have e3 : ∀ a, Current k (.ran k b :: .handled k :: s.log) a ↔ Current k s.log a := by
        intro a
        rw [current_cons_ne (by simp), current_cons_ne (by simp)]
      refine ⟨?_, ?_, ?_, ?_, ?_⟩
      · intro e; simp only [hf] at e; simp at e
      · intro e
        simp only [e2] at e
        simp at e
      · intro a c r e _
        simp only [hf, List.cons.injEq, Prod.mk.injEq] at e
        exact ⟨e1, (e3 _).2 (by rw [← e.1.1]; exact hcur)⟩
      · intro a c r e hr
        simp only [hf, List.cons.injEq, Prod.mk.injEq] at e
        rw [← e.1.2]
        exact hch (by rw [e.2]; exact hr)
      · intro u r e a c r' er hr'
        simp only [hf] at e
        cases u with
        | nil =>
          simp only [List.nil_append] at e
          rw [er] at e
          simp only [List.cons.injEq, Prod.mk.injEq] at e
          rw [← e.1.2]
          exact hch (by rw [e.2]; exact hr')
        | cons x u =>
          simp only [List.cons_append, List.cons.injEq] at e
          exact h.tails u r e.2 a c r' er hr'
    · have hfr : ∀ x, frames n (Frame.action k b s.exstat x :: s.stack) = frames n s.stack := by
        intro x; simp [frames, hkn]
      refine h1.congr ?_ ?_ (hfr _) ?_
      · show ((ite _ _ _ : S).tr n).act = _
        split
        · simp [S.upd, Ne.symm hkn]
        · rfl
      · show ((ite _ _ _ : S).tr n).changed = _
        split
        · simp [S.upd, Ne.symm hkn]
        · rfl
      · intro a
        show Current n (.ran k b :: .handled k :: s.log) a ↔ Current n (.handled k :: s.log) a
        rw [current_cons_ne (by simp)]

theorem Spec.step {s : S} {op : Op} {n : Nat} (hsp : s.special n = true) (h : Spec s n) (hop : ∀ k, op ≠ .unwind k) : Spec (step s op) n := by
  unfold Trap.step
  split
  · split
    · refine h.congr ?_ ?_ rfl (current_skip (by simp))
      · simp only [trapsig, S.upd]; split <;> rfl
      · simp only [trapsig, S.upd]; split <;> rfl
    · exact h
  · exact absurd rfl (hop _)
  · split
    · exact h
    · unfold Trap.act
      split
      · rename_i k a _ _
        split
        · by_cases hkn : k = n
          · subst hkn
            have e1 : ((settrap s k a).tr k).act = a := by simp [settrap, S.upd]
            have e2 : ((settrap s k a).tr k).changed = true := by simp [settrap, S.upd]
            have e3 : Current k (settrap s k a).log a := current_set.2 rfl
            refine ⟨fun _ => by rw [e1]; exact e3, fun _ => by rw [e1]; exact e3, ?_, h.nested, h.tails⟩
            intro b c r _ e
            rw [e2] at e
            simp at e
          · refine h.congr ?_ ?_ rfl (current_skip (by simp [hkn]))
            · simp [settrap, S.upd, Ne.symm hkn]
            · simp [settrap, S.upd, Ne.symm hkn]
        · exact h
      · split
        · exact h.congr rfl rfl rfl (fun _ => Iff.rfl)
        · exact h
      · split
        · exact h.congr rfl rfl rfl (fun _ => Iff.rfl)
        · exact h
      · split
        · rename_i i st e
          have hf : frames n s.stack = frames n st := by rw [e]; rfl
          split
          · refine h.congr rfl rfl ?_ (fun _ => Iff.rfl)
            rw [hf]
            simp only
            split <;> rfl
          · exact h.congr rfl rfl hf.symm (fun _ => Iff.rfl)
        · rename_i i st e
          have hf : frames n s.stack = frames n st := by rw [e]; rfl
          refine Spec.runtrap hsp (h.congr rfl rfl ?_ (fun _ => Iff.rfl))
          rw [hf]
          rfl
        · exact h
      · split
        · rename_i k str oex och st e
          have est : (afterAction { s with stack := st } k str oex och).stack = st := by
            simp only [afterAction, S.upd]; split <;> rfl
          have elog : (afterAction { s with stack := st } k str oex och).log = s.log := by
            simp only [afterAction, S.upd]; split <;> rfl
          by_cases hkn : k = n
          · subst hkn
            have hfr : frames k s.stack = (str, och) :: frames k st := by rw [e]; simp [frames]
            have hsp' : ({ s with stack := st, exstat := oex } : S).special k = true := hsp
            have ea : ((afterAction { s with stack := st } k str oex och).tr k).act =
                if (s.tr k).changed then (s.tr k).act else some str := by
              simp only [afterAction, hsp', if_true, S.upd]
            have ec : ((afterAction { s with stack := st } k str oex och).tr k).changed = ((s.tr k).changed || och) := by
              simp only [afterAction, hsp', if_true, S.upd]
            have hcur : Current k s.log (if (s.tr k).changed then (s.tr k).act else some str) := by
              cases hch : (s.tr k).changed with
              | true => simpa using h.changed hch
              | false => simpa using (h.unchanged str och _ hfr hch).2
            refine ⟨?_, ?_, ?_, ?_, ?_⟩
            · intro _; rw [ea, elog]; exact hcur
            · intro _; rw [ea, elog]; exact hcur
            · intro a c r er hc
              rw [est] at er
              rw [ec] at hc
              have : och = true := h.nested str och _ hfr (by rw [er]; simp)
              rw [this] at hc
              simp at hc
            · intro a c r er hr
              rw [est] at er
              exact h.tails [(str, och)] (frames k st) hfr a c r er hr
            · intro u r er
              rw [est] at er
              refine h.tails ((str, och) :: u) r ?_
              rw [hfr, er]
              rfl
          · have hfr : frames n s.stack = frames n st := by rw [e]; simp [frames, hkn]
            refine h.congr ?_ ?_ (by rw [est, hfr]) (fun a => by rw [elog])
            · simp only [afterAction, S.upd]
              split
              · simp only [if_neg (Ne.symm hkn)]
              · rfl
            · simp only [afterAction, S.upd]
              split
              · simp only [if_neg (Ne.symm hkn)]
              · rfl
        · exact h
      · split
        · refine Spec.runtrap (s := { s with log := .arrive 0 :: s.log }) hsp ?_
          exact h.congr rfl rfl rfl (current_skip (by simp))
        · exact h
      · exact h

theorem run_spec {n : Nat} : ∀ (l : List Op) (s : S), s.special n = true → Spec s n → (∀ op ∈ l, ∀ k, op ≠ .unwind k) → Spec (run s l) n
  | [], _, _, h, _ => h
  | op :: l, s, hs, h, hl =>
    run_spec l (step s op) (by simpa [S.special, (grow_step s op).1] using hs) (h.step hs (hl op List.mem_cons_self))
      (fun o ho => hl o (List.mem_cons_of_mem _ ho))

/-- **C38** The actions for EXIT and ERR: while none of them is being executed, the action
is what the last `trap` command says; while one is being executed and has not been set
anew, there is none, so that it cannot be entered again.

Partial: no jump has left an action, see `return_loses_err`. -/
theorem exit_err_partial (nsig : Nat) (f : Nat → Bool) (l : List Op) (hl : ∀ op ∈ l, ∀ k, op ≠ .unwind k) (n : Nat)
    (hn : n = 0 ∨ n = nsig) :
    ((∀ a e c, Frame.action n a e c ∉ (run (init nsig f) l).stack) →
      Current n (run (init nsig f) l).log ((run (init nsig f) l).tr n).act) ∧
    (((run (init nsig f) l).tr n).act = none ∨ Current n (run (init nsig f) l).log ((run (init nsig f) l).tr n).act) := by
  have h := run_spec (n := n) l (init nsig f) (by rcases hn with h | h <;> simp [S.special, init, h])
    ⟨fun _ => Or.inr ⟨rfl, by simp [init]⟩, by simp [init], by simp [init, frames], by simp [init, frames], by
      intro u r e a c r' er _
      rw [er] at e
      simp [init, frames] at e⟩ hl
  have hfr : ∀ st : List Frame, (∀ a e c, Frame.action n a e c ∉ st) → frames n st = [] := by
    intro st
    induction st with
    | nil => exact fun _ => rfl
    | cons g st ih =>
      intro hg
      have := ih (fun a e c hm => hg a e c (List.mem_cons_of_mem _ hm))
      cases g with
      | loop i => exact this
      | hit i => exact this
      | action k a e c =>
        by_cases hk : k = n
        · subst hk
          exact absurd List.mem_cons_self (hg a e c)
        · simp [frames, hk, this]
  refine ⟨fun hno => h.out (hfr _ hno), ?_⟩
  cases hc : ((run (init nsig f) l).tr n).changed with
  | true => exact Or.inr (h.changed hc)
  | false =>
    cases hf : frames n (run (init nsig f) l).stack with
    | nil => exact Or.inr (h.out hf)
    | cons x r => exact Or.inl (h.unchanged x.1 x.2 r hf hc).1

/-- Execution inside an action, without a `trap` command for the same signal. -/
inductive Inside (n : Nat) (base : List Frame) (s : S) : S → Prop
  | refl : Inside n base s s
  | snoc {m op} : Inside n base s m → (∀ a, op ≠ .settrap n a) → (∃ u, (step m op).stack = u ++ base) → Inside n base s (step m op)

theorem frames_append (n : Nat) : ∀ a b : List Frame, frames n (a ++ b) = frames n a ++ frames n b
  | [], _ => rfl
  | .loop i :: a, b => frames_append n a b
  | .hit i :: a, b => frames_append n a b
  | .action k x e c :: a, b => by
    simp only [List.cons_append, frames]
    split
    · rw [frames_append n a b]; rfl
    · exact frames_append n a b

/-- No text for `n` is there, so none is run. -/
structure Quiet (n : Nat) (m m' : S) : Prop where
  act : (m'.tr n).act = none
  changed : (m'.tr n).changed = (m.tr n).changed
  frames : (frames n m'.stack).length ≤ (frames n m.stack).length
  log : ∃ new, m'.log = new ++ m.log ∧ ∀ a, Ev.ran n a ∉ new

theorem quiet_same {n : Nat} {m m' : S} (ha : (m.tr n).act = none) (h1 : m'.tr = m.tr) (h2 : m'.log = m.log)
    (h3 : (frames n m'.stack).length ≤ (frames n m.stack).length) : Quiet n m m' :=
  ⟨by rw [h1]; exact ha, by rw [h1], h3, [], h2, by simp⟩

theorem quiet_runtrap {n : Nat} {x : S} {k : Nat} (hx : (x.tr n).act = none) : Quiet n x (runtrap x k) := by
  have hn : Quiet n x (noticed x k) :=
    ⟨by rw [(noticed_tr x k n).1]; exact hx, (noticed_tr x k n).2, Nat.le_refl _, [.handled k], rfl, by simp⟩
  rw [runtrap_eq]
  split
  · split
    · exact ⟨hn.act, hn.changed, hn.frames, hn.log⟩
    · exact hn
  · exact hn
  · rename_i b hb hk
    have hkn : k ≠ n := by
      intro e
      rw [e, hx] at hk
      simp at hk
    refine ⟨?_, ?_, by simp [frames, hkn], [.ran k b, .handled k], rfl, by simp [Ne.symm hkn]⟩
    · show ((ite _ _ _ : S).tr n).act = none
      split
      · simp only [S.upd, if_neg (Ne.symm hkn), (noticed_tr x k n).1]
        exact hx
      · rw [(noticed_tr x k n).1]
        exact hx
    · show ((ite _ _ _ : S).tr n).changed = _
      split
      · simp only [S.upd, if_neg (Ne.symm hkn), (noticed_tr x k n).2]
      · rw [(noticed_tr x k n).2]

theorem none_runs {m : S} {op : Op} {n : Nat} (ha : (m.tr n).act = none) (hop : ∀ a, op ≠ .settrap n a)
    (hfin : ∀ a e c st, op = .finish → m.gone = false → m.stack ≠ .action n a e c :: st) : Quiet n m (step m op) := by
  have same : Quiet n m m := quiet_same ha rfl rfl (Nat.le_refl _)
  unfold step
  split
  · rename_i k
    split
    · refine ⟨?_, ?_, Nat.le_refl _, [.arrive k], rfl, by simp⟩
      · simp only [trapsig, S.upd]
        split <;> exact ha
      · simp only [trapsig, S.upd]
        split <;> rfl
    · exact same
  · rename_i k
    split
    · refine quiet_same ha rfl rfl ?_
      show (frames n (m.stack.drop k)).length ≤ _
      conv => rhs; rw [← List.take_append_drop k m.stack, frames_append]
      simp
    · exact same
  · split
    · exact same
    · rename_i hg
      have hg : m.gone = false := by simpa using hg
      unfold act
      split
      · rename_i k a _ _
        split
        · have hkn : k ≠ n := by
            intro e
            rw [e] at hop
            exact hop a rfl
          refine ⟨?_, ?_, Nat.le_refl _, [.set k a], rfl, by simp⟩
          · simp only [settrap, S.upd, if_neg (Ne.symm hkn)]
            exact ha
          · simp only [settrap, S.upd, if_neg (Ne.symm hkn)]
        · exact same
      · split
        · exact quiet_same ha rfl rfl (Nat.le_refl _)
        · exact same
      · split
        · exact quiet_same ha rfl rfl (Nat.le_refl _)
        · exact same
      · split
        · rename_i i st e
          split
          · refine quiet_same ha rfl rfl ?_
            rw [e]
            simp only
            split <;> exact Nat.le_refl _
          · refine quiet_same ha rfl rfl ?_
            rw [e]
            exact Nat.le_refl _
        · rename_i i st e
          have h := quiet_runtrap (n := n) (x := { m with stack := .loop (i + 1) :: st }) (k := i) ha
          refine ⟨h.act, h.changed, ?_, h.log⟩
          have := h.frames
          rw [e]
          exact this
        · exact same
      · split
        · rename_i k str oex och st e
          have hkn : k ≠ n := by
            intro e'
            rw [e'] at e
            exact hfin _ _ _ _ rfl hg e
          have est : (afterAction { m with stack := st } k str oex och).stack = st := by
            simp only [afterAction, S.upd]; split <;> rfl
          refine ⟨?_, ?_, ?_, [], ?_, by simp⟩
          · simp only [afterAction, S.upd]
            split
            · simp only [if_neg (Ne.symm hkn)]
              exact ha
            · exact ha
          · simp only [afterAction, S.upd]
            split
            · simp only [if_neg (Ne.symm hkn)]
            · rfl
          · rw [est, e]
            simp [frames, hkn]
          · simp only [afterAction, S.upd]
            split <;> rfl
        · exact same
      · split
        · have h := quiet_runtrap (n := n) (x := { m with log := .arrive 0 :: m.log }) (k := 0) ha
          obtain ⟨new, h2, h3⟩ := h.log
          refine ⟨h.act, h.changed, h.frames, new ++ [.arrive 0], by rw [h2]; simp, ?_⟩
          intro a hm
          rcases List.mem_append.1 hm with hm | hm
          · exact h3 a hm
          · simp at hm
        · exact same
      · exact same

/-- **C38** From the moment the action for EXIT or ERR begins, as long as it is executed
and `trap` does not set it anew, it does not begin again, whatever commands fail in it and
whatever signals arrive; and when it ends it is set as before. -/
theorem not_reentered {s m : S} {n : Nat} {b : List Char} {st : List Frame} (hg : s.gone = false) (hsp : n = 0 ∨ n = s.nsig)
    (hst : s.stack = .hit n :: st) (ha : (s.tr n).act = some b) (hb : b ≠ [])
    (hd : Inside n (.action n b s.exstat (s.tr n).changed :: .loop (n + 1) :: st) (step s .step) m) :
    (∃ new, m.log = new ++ .ran n b :: .handled n :: s.log ∧ ∀ a, Ev.ran n a ∉ new) ∧
    (m.stack = .action n b s.exstat (s.tr n).changed :: .loop (n + 1) :: st → m.gone = false →
      ((step m .finish).tr n).act = some b ∧ ((step m .finish).tr n).changed = (s.tr n).changed ∧
      (step m .finish).exstat = s.exstat ∧ (step m .finish).stack = .loop (n + 1) :: st) := by
  have hsp : s.special n = true := by rcases hsp with h | h <;> simp [S.special, h]
  have e0 : step s .step = runtrap { s with stack := .loop (n + 1) :: st } n := by simp [step, hg, act, hst]
  have e1 : runtrap { s with stack := .loop (n + 1) :: st } n =
      { ((noticed { s with stack := .loop (n + 1) :: st } n).upd n (fun t => { t with act := none, changed := false })) with
        stack := .action n b s.exstat (s.tr n).changed :: .loop (n + 1) :: st,
        log := .ran n b :: .handled n :: s.log } := by
    rw [runtrap_eq]
    have hs' : ({ s with stack := .loop (n + 1) :: st } : S).special n = true := hsp
    cases b with
    | nil => exact absurd rfl hb
    | cons x b =>
      simp only [ha, hs', if_true, Bool.true_and]
  have key : ∃ u, m.stack = u ++ .action n b s.exstat (s.tr n).changed :: .loop (n + 1) :: st ∧ frames n u = [] ∧
      m.nsig = s.nsig ∧
      (m.tr n).act = none ∧ (m.tr n).changed = false ∧ ∃ new, m.log = new ++ .ran n b :: .handled n :: s.log ∧ ∀ a, Ev.ran n a ∉ new := by
    induction hd with
    | refl =>
      rw [e0, e1]
      exact ⟨[], rfl, rfl, rfl, by simp [S.upd], by simp [S.upd], [], rfl, by simp⟩
    | snoc hd' hop hst' ih =>
      rename_i m op
      obtain ⟨u, hu, hun, hns, hact, hch, new, hnew, hran⟩ := ih
      obtain ⟨u', hu'⟩ := hst'
      have hfin : ∀ a e c st', op = .finish → m.gone = false → m.stack ≠ .action n a e c :: st' := by
        intro a e c st' ho hgm e'
        -- the frame on top would be the base frame, and `finish` would leave it
        cases u with
        | cons x u =>
          rw [hu] at e'
          simp only [List.cons_append, List.cons.injEq] at e'
          rw [e'.1] at hun
          simp [frames] at hun
        | nil =>
          subst ho
          have h : (step m .finish).stack = .loop (n + 1) :: st := by
            simp only [step, hgm, act, hu, List.nil_append, afterAction, S.upd]
            simp only [Bool.false_eq_true, if_false]
            split <;> rfl
          rw [h] at hu'
          have := congrArg List.length hu'
          simp at this
          omega
      have q := none_runs hact hop hfin
      refine ⟨u', hu', ?_, (grow_step m op).1.trans hns, q.act, q.changed.trans hch, ?_⟩
      · have := q.frames
        rw [hu, hu', frames_append, frames_append, hun] at this
        simp only [List.length_append, List.length_nil] at this
        exact List.eq_nil_of_length_eq_zero (by omega)
      · obtain ⟨n2, e2, h2⟩ := q.log
        refine ⟨n2 ++ new, by rw [e2, hnew, List.append_assoc], ?_⟩
        intro a hm
        rcases List.mem_append.1 hm with hm | hm
        · exact h2 a hm
        · exact hran a hm
  obtain ⟨u, hu, hun, hns, hact, hch, hlog⟩ := key
  refine ⟨hlog, ?_⟩
  intro hs hgm
  have hsm : ∀ x : Nat, ({ m with stack := .loop (n + 1) :: st, exstat := x } : S).special n = true := by
    intro x
    simpa [S.special, hns] using hsp
  have e2 : step m .finish = afterAction { m with stack := .loop (n + 1) :: st } n b s.exstat (s.tr n).changed := by
    simp [step, hgm, act, hs]
  rw [e2]
  unfold afterAction
  simp only [hsm, if_true]
  refine ⟨?_, ?_, rfl, rfl⟩
  · simp [S.upd, hch]
  · simp [S.upd, hch]

/-- In a function: a command fails and the action for ERR returns from the function. -/
def errReturned : S :=
  run (init 3 (fun _ => false)) [.settrap 3 (some "return".toList), .arrive 3, .safe, .step, .step, .step, .step, .step, .unwind 2]

/-- **C38** Afterwards the shell has no ERR trap although the user never removed it. -/
theorem return_loses_err : Current 3 errReturned.log (some "return".toList) ∧ (errReturned.tr 3).act = none ∧
    errReturned.stack = [] := by
  refine ⟨Or.inl ⟨[.ran 3 "return".toList, .handled 3, .arrive 3], [], by decide, ?_⟩, by decide, by decide⟩
  intro b hb
  simp at hb

/-- Two signals, one twice, and a signal that arrives while an action runs. -/
def busy : S :=
  run (init 5 (fun _ => false)) [.settrap 2 (some ['b']), .settrap 4 (some []), .status 7, .arrive 2, .arrive 4, .arrive 2, .safe,
    .step, .step, .step, .step, .status 1, .arrive 2, .finish, .step, .step, .step, .step, .step]

example : busy.log = [.handled 4, .arrive 2, .ran 2 ['b'], .handled 2, .arrive 2, .arrive 4, .arrive 2, .set 4 (some []), .set 2 (some ['b'])] ∧
    busy.exstat = 7 ∧ busy.stack = [] ∧ busy.trap = true := by decide

end Ksh.Trap
