import Verif.Ttymode.Model

/-!
# Terminal modes: proofs
-/
namespace Ksh.Ttymode

variable (raw : Nat → Nat)

/-- No command substitution touches the terminal. -/
def quiet : Ev → Bool
  | .subst _ => false
  | _ => true

structure Inv (s : S) : Prop where
  inEdit : s.xcur = true → s.edit = true ∧ s.fg = none
  on : s.xcur = true → s.mode = raw s.ttyState
  off : s.xcur = false → s.fg = none → s.mode = s.ttyState

theorem idle_iff (s : S) : idle s = true ↔ s.xcur = false ∧ s.fg = none := by
  simp [idle]

theorem Inv.step {s : S} (h : Inv raw s) (e : Ev) (hq : quiet e = true) :
    Inv raw (Ttymode.step raw s e) := by
  cases e with
  | subst m => cases hq
  | editOn =>
    simp only [Ttymode.step]
    split
    · rename_i hc
      simp only [Bool.and_eq_true, idle_iff] at hc
      have hx : xMode raw s true = { s with xcur := true, mode := raw s.ttyState } := by
        simp [xMode, hc.1.1]
      rw [hx]
      exact ⟨fun _ => ⟨rfl, hc.1.2⟩, fun _ => rfl, by simp⟩
    · exact h
  | editOff =>
    simp only [Ttymode.step]
    split
    · rename_i hc
      simp only [Bool.and_eq_true] at hc
      have hx : xMode raw s false = { s with xcur := false, mode := s.ttyState } := by
        simp [xMode, hc.2]
      rw [hx]
      exact ⟨by simp, by simp, fun _ _ => rfl⟩
    · exact h
  | editIntr =>
    simp only [Ttymode.step]
    split
    · rename_i hc
      simp only [Bool.and_eq_true] at hc
      have hx : xMode raw s false = { s with xcur := false, mode := s.ttyState } := by
        simp [xMode, hc.2]
      rw [hx]
      exact ⟨by simp, by simp, fun _ _ => rfl⟩
    · exact h
  | trapIn =>
    simp only [Ttymode.step]
    split
    · rename_i hc
      simp only [Bool.and_eq_true] at hc
      have hx : xMode raw s false = { s with xcur := false, mode := s.ttyState } := by
        simp [xMode, hc.2]
      rw [hx]
      exact ⟨by simp, by simp, fun _ _ => rfl⟩
    · exact h
  | trapOut =>
    simp only [Ttymode.step]
    split
    · rename_i hc
      simp only [Bool.and_eq_true, idle_iff] at hc
      have hx : xMode raw s true = { s with xcur := true, mode := raw s.ttyState } := by
        simp [xMode, hc.2.1]
      rw [hx]
      exact ⟨fun _ => ⟨hc.1, hc.2.2⟩, fun _ => rfl, by simp⟩
    · exact h
  | trapUnwind =>
    simp only [Ttymode.step]
    split
    · rename_i hc
      simp only [Bool.and_eq_true, idle_iff] at hc
      exact ⟨by simp [hc.2.1], by simp [hc.2.1], h.off⟩
    · exact h
  | startFg i =>
    simp only [Ttymode.step]
    split
    · rename_i hc
      rw [idle_iff] at hc
      exact ⟨by simp [setJob, hc.1], by simp [setJob, hc.1], by simp [setJob]⟩
    · exact h
  | startBg i =>
    simp only [Ttymode.step]
    split
    · exact ⟨h.inEdit, h.on, h.off⟩
    · exact h
  | sets m =>
    simp only [Ttymode.step]
    split
    · rename_i hc
      refine ⟨h.inEdit, ?_, ?_⟩
      · intro hx
        rw [(h.inEdit hx).2] at hc
        cases hc
      · intro _ hf
        rw [hf] at hc
        cases hc
    · exact h
  | ends ok =>
    simp only [Ttymode.step]
    split
    · exact h
    · rename_i i hf
      have hx : s.xcur = false := by
        cases hc : s.xcur with
        | false => rfl
        | true => rw [(h.inEdit hc).2] at hf; cases hf
      unfold finish
      split
      · exact ⟨by simp [hx], by simp [hx], fun _ _ => rfl⟩
      · exact ⟨by simp [hx], by simp [hx], fun _ _ => rfl⟩
  | stops =>
    simp only [Ttymode.step]
    split
    · exact h
    · rename_i i hf
      have hx : s.xcur = false := by
        cases hc : s.xcur with
        | false => rfl
        | true => rw [(h.inEdit hc).2] at hf; cases hf
      exact ⟨by simp [halt, setJob, hx], by simp [halt, setJob, hx], fun _ _ => rfl⟩
  | resume i =>
    simp only [Ttymode.step]
    split
    · rename_i hc
      rw [idle_iff] at hc
      exact ⟨by simp [setJob, hc.1], by simp [setJob, hc.1], by simp [setJob]⟩
    · exact h
  | resumeFails i =>
    simp only [Ttymode.step]
    split
    · rename_i hc
      rw [idle_iff] at hc
      split
      · exact ⟨by simp [hc.1], by simp [hc.1], fun _ _ => rfl⟩
      · exact h
    · exact h
  | suspend m =>
    simp only [Ttymode.step]
    split
    · rename_i hc
      rw [idle_iff] at hc
      exact ⟨by simp [hc.1], by simp [hc.1], fun _ _ => rfl⟩
    · exact h
  | monitor =>
    simp only [Ttymode.step]
    split
    · rename_i hc
      rw [idle_iff] at hc
      exact ⟨by simp [hc.1], by simp [hc.1], fun _ _ => rfl⟩
    · exact h

theorem inv_run : ∀ (l : List Ev) (s : S), Inv raw s → (∀ e ∈ l, quiet e = true) →
    Inv raw (run raw s l)
  | [], _, h, _ => h
  | e :: l, s, h, hq => inv_run l (step raw s e) (h.step raw e (hq e List.mem_cons_self))
      (fun x hx => hq x (List.mem_cons_of_mem _ hx))

theorem inv_init (m : Nat) : Inv raw (init m) := ⟨by simp [init], by simp [init], fun _ _ => rfl⟩

theorem run_append (s : S) : ∀ (l l' : List Ev), run raw s (l ++ l') = run raw (run raw s l) l'
  | [], _ => rfl
  | e :: l, l' => by
    simp only [List.cons_append, run]
    exact run_append _ l l'

/-! ## Properties -/

/-- Whenever the shell executes commands the terminal is in the mode the user chose, however
the editor was left, and in the editor it is in the mode that goes with it.  Partial: command
substitutions leave the terminal alone; see `substitution_lost`. -/
theorem at_rest_partial (m : Nat) (l : List Ev) (hq : ∀ e ∈ l, quiet e = true)
    (hf : (run raw (init m) l).fg = none) :
    (run raw (init m) l).mode =
      if (run raw (init m) l).xcur then raw (run raw (init m) l).ttyState
      else (run raw (init m) l).ttyState := by
  have I := inv_run raw l _ (inv_init raw m) hq
  split
  · rename_i h
    exact I.on h
  · rename_i h
    exact I.off (by simpa using h) hf

theorem run_sets (s : S) (i : Nat) (hf : s.fg = some i) : ∀ ms : List Nat,
    run raw s (ms.map .sets) = { s with mode := (ms.getLast?).getD s.mode }
  | [] => rfl
  | m :: ms => by
    simp only [List.map_cons, run]
    have h1 : step raw s (.sets m) = { s with mode := m } := by simp [step, hf]
    rw [h1, run_sets { s with mode := m } i hf ms]
    cases ms <;> simp [List.getLast?_cons]

/-- What a program that was run in the foreground does to the terminal is kept when it exits
with status 0, and undone when it fails or is killed. -/
theorem kept_or_undone (s : S) (I : Inv raw s) (hi : idle s = true) (i : Nat) (ms : List Nat)
    (ok : Bool) :
    let r := run raw s (.startFg i :: ms.map .sets ++ [.ends ok])
    r.mode = r.ttyState ∧
      r.ttyState = if ok then (ms.getLast?).getD s.ttyState else s.ttyState := by
  have hx := (idle_iff s).1 hi
  have hm := I.off hx.1 hx.2
  simp only [List.cons_append, run, step, hi, if_true, run_append]
  rw [run_sets raw _ i (by simp [setJob])]
  simp only [setJob, finish]
  cases ok
  · simp
  · simp [hm]

/-- A job that was stopped finds the terminal as it left it when it is brought to the foreground
again, whatever happened in between. -/
theorem comes_back (s : S) (i : Nat) (hf : s.fg = some i) (l : List Ev)
    (hl : ∀ e ∈ l, e ≠ .startFg i ∧ e ≠ .startBg i ∧ e ≠ .resume i)
    (hi : idle (run raw (step raw s .stops) l) = true) :
    (run raw s (.stops :: l ++ [.resume i])).mode = s.mode ∧
      (run raw s (.stops :: l ++ [.resume i])).fg = some i := by
  have key : ∀ (l : List Ev) (t : S), (∀ e ∈ l, e ≠ .startFg i ∧ e ≠ .startBg i ∧ e ≠ .resume i) →
      t.fg ≠ some i → (t.job i).saved = some s.mode →
      (run raw t l).fg ≠ some i ∧ ((run raw t l).job i).saved = some s.mode := by
    intro l
    induction l with
    | nil => exact fun _ _ a b => ⟨a, b⟩
    | cons e l ih =>
      intro t hl a b
      have he := hl e List.mem_cons_self
      refine ih (step raw t e) (fun x hx => hl x (List.mem_cons_of_mem _ hx)) ?_ ?_
      · cases e <;> simp only [step]
        case startFg k =>
          split
          · simp only [setJob]
            exact fun c => he.1 (by cases c; rfl)
          · exact a
        case resume k =>
          split
          · simp only [setJob]
            exact fun c => he.2.2 (by cases c; rfl)
          · exact a
        case resumeFails k =>
          split
          · split <;> exact a
          · exact a
        case ends ok =>
          split
          · exact a
          · unfold finish
            split <;> simp
        case stops =>
          split
          · exact a
          · simp [halt, setJob]
        all_goals
          split
          · first
            | exact a
            | (simp only [xMode]; split <;> (try split) <;> exact a)
          · exact a
      · cases e <;> simp only [step]
        case startFg k =>
          split
          · simp only [setJob]
            rw [if_neg (fun c => he.1 (by rw [c]))]
            exact b
          · exact b
        case startBg k =>
          split
          · simp only [setJob]
            rw [if_neg (fun c => he.2.1 (by rw [c]))]
            exact b
          · exact b
        case resume k =>
          split
          · simp only [setJob]
            rw [if_neg (fun c => he.2.2 (by rw [c]))]
            exact b
          · exact b
        case resumeFails k =>
          split
          · split <;> exact b
          · exact b
        case ends ok =>
          split
          · exact b
          · unfold finish
            split <;> exact b
        case stops =>
          split
          · exact b
          · rename_i k hk
            simp only [halt, setJob]
            rw [if_neg (fun c => a (by rw [hk, c]))]
            exact b
        all_goals
          split
          · first
            | exact b
            | (simp only [xMode]; split <;> (try split) <;> exact b)
          · exact b
  have h0 : step raw s .stops = halt s i := by simp [step, hf]
  have := key l (halt s i) hl (by simp [halt, setJob]) (by simp [halt, setJob])
  rw [h0] at hi
  have h1 : run raw s (.stops :: l ++ [.resume i]) =
      step raw (run raw (halt s i) l) (.resume i) := by
    simp only [List.cons_append, run, run_append, h0]
  rw [h1]
  simp [step, hi, setJob, this.2]

/-- While it is stopped the user has the terminal as before it was started. -/
theorem stopped_unseen (s : S) (I : Inv raw s) (hi : idle s = true) (i : Nat) (ms : List Nat) :
    let r := run raw s (.startFg i :: ms.map .sets ++ [.stops])
    r.mode = s.mode ∧ r.ttyState = s.ttyState := by
  have hx := (idle_iff s).1 hi
  have hm := I.off hx.1 hx.2
  simp only [List.cons_append, run, step, hi, if_true, run_append]
  rw [run_sets raw _ i (by simp [setJob])]
  simp [setJob, halt, hm]

/-- The user's mode changes only when a job that has the terminal exits with status 0, or when
the shell was suspended, or by `set -m`. -/
theorem changes_only (l : List Ev) (hl : ∀ e ∈ l, e ≠ .ends true ∧ e ≠ .monitor ∧
    ∀ m, e ≠ .suspend m) : ∀ s : S, (run raw s l).ttyState = s.ttyState := by
  induction l with
  | nil => exact fun _ => rfl
  | cons e l ih =>
    intro s
    have he := hl e List.mem_cons_self
    simp only [run]
    rw [ih (fun x hx => hl x (List.mem_cons_of_mem _ hx))]
    cases e <;> simp only [step]
    case ends ok =>
      cases ok
      · split
        · rfl
        · simp [finish]
      · exact absurd rfl he.1
    case stops =>
      split <;> rfl
    case resumeFails k =>
      split
      · split <;> rfl
      · rfl
    case monitor => exact absurd rfl he.2.1
    case suspend m => exact absurd rfl (he.2.2 m)
    all_goals
      split
      · first
        | rfl
        | (simp only [xMode]; split <;> (try split) <;> rfl)
      · rfl

/-- A job that was stopped once, or was started in the background, changes the user's mode no
more. -/
theorem stopped_never_keeps (s : S) (i : Nat) (hu : (s.job i).useMode = false) (l : List Ev)
    (hl : ∀ e ∈ l, e ≠ .startFg i) (ok : Bool) (hf : (run raw s l).fg = some i) :
    (step raw (run raw s l) (.ends ok)).ttyState = (run raw s l).ttyState ∧
      (step raw (run raw s l) (.ends ok)).mode = (run raw s l).ttyState := by
  have key : ∀ (l : List Ev) (t : S), (∀ e ∈ l, e ≠ .startFg i) → (t.job i).useMode = false →
      ((run raw t l).job i).useMode = false := by
    intro l
    induction l with
    | nil => exact fun _ _ b => b
    | cons e l ih =>
      intro t hl b
      have he := hl e List.mem_cons_self
      refine ih (step raw t e) (fun x hx => hl x (List.mem_cons_of_mem _ hx)) ?_
      cases e <;> simp only [step]
      case startFg k =>
        split
        · simp only [setJob]
          rw [if_neg (fun c => he (by rw [c]))]
          exact b
        · exact b
      case startBg k =>
        split
        · simp only [setJob]
          split
          · rfl
          · exact b
        · exact b
      case resume k =>
        split
        · simp only [setJob]
          split
          · rename_i c
            rw [← c]
            exact b
          · exact b
        · exact b
      case resumeFails k =>
        split
        · split <;> exact b
        · exact b
      case ends ok =>
        split
        · exact b
        · unfold finish
          split <;> exact b
      case stops =>
        split
        · exact b
        · simp only [halt, setJob]
          split
          · rfl
          · exact b
      all_goals
        split
        · first
          | exact b
          | (simp only [xMode]; split <;> (try split) <;> exact b)
        · exact b
  have h := key l s hl hu
  simp [step, hf, finish, h]

/-! ## Cases, and where the code falls short -/

-- the editor's mode for mode m is m + 100
-- `stty` (job 1) sets mode 7, vi (job 2) sets 50 and is stopped, `stty` sets 8, vi comes back
example : (run (· + 100) (init 5) [.editOn, .editOff, .startFg 1, .sets 7, .ends true, .editOn,
    .editOff, .startFg 2, .sets 50, .stops]).mode = 7 := rfl
example : (run (· + 100) (init 5) [.editOn, .editOff, .startFg 1, .sets 7, .ends true, .editOn,
    .editOff, .startFg 2, .sets 50, .stops, .editOn, .editOff, .startFg 1, .sets 8, .ends true,
    .editOn, .editOff, .resume 2]).mode = 50 := rfl
example : (run (· + 100) (init 5) [.editOn, .editOff, .startFg 1, .sets 7, .ends true, .editOn,
    .editOff, .startFg 2, .sets 50, .stops, .editOn, .editOff, .startFg 1, .sets 8, .ends true,
    .editOn, .editOff, .resume 2, .sets 7, .ends true, .editOn]).mode = 108 := rfl
-- a trap in the middle of the editor runs a program that is killed
example : (run (· + 100) (init 5) [.editOn, .trapIn, .startFg 1, .sets 9, .ends false,
    .trapOut]).mode = 105 := rfl

/-- `x=$(stty -echo)` changes the terminal for the rest of the line, and is forgotten at the next
prompt, or when the next command fails, while it is kept when the next command succeeds. -/
theorem substitution_lost :
    (run (· + 100) (init 5) [.editOn, .editOff, .subst 7]).mode = 7 ∧
    (run (· + 100) (init 5) [.editOn, .editOff, .subst 7, .editOn, .editOff]).mode = 5 ∧
    (run (· + 100) (init 5) [.editOn, .editOff, .subst 7, .startFg 1, .ends false]).mode = 5 ∧
    (run (· + 100) (init 5) [.editOn, .editOff, .subst 7, .startFg 1, .ends true, .editOn,
      .editOff]).mode = 7 := ⟨rfl, rfl, rfl, rfl⟩

end Ksh.Ttymode
