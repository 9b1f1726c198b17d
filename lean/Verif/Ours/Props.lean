import Verif.Ours.Model

/-! # The group of the shell and the terminal: theorems -/
namespace Ksh.Ours

structure Inv (pid g : Nat) (s : St) : Prop where
  ok : s.ttyok = s.monitor
  rest : ∀ r, s.restore = some r → r = g
  took : s.took ≠ [] ↔ s.restore.isSome = true
  none : s.restore = none → s.me = g
  me : s.me = g ∨ s.me = pid
  on : s.monitor = true → s.our = pid ∧ s.me = pid
  tty : s.monitor = true → s.restore.isSome = true → s.tty = pid

theorem inv_start (pid g t) : Inv pid g (start g t) := by
  constructor <;> simp [start]

theorem step_inv {pid g s} (h : Inv pid g s) (o : Op) : Inv pid g (step pid s o) := by
  obtain ⟨h1, h2, h3, h4, h5, h6, h7⟩ := h
  cases o with
  | setm b => cases b <;> simp only [step, setm, changeOn, changeOff] <;> constructor <;> grind
  | suspend ex back => simp only [step, suspend]; constructor <;> grind
  | job o => simp only [step]; constructor <;> grind
  | execFails ex => simp only [step, jexit, changeOff]; constructor <;> grind
  | trap a => exact ⟨h1, h2, h3, h4, h5, h6, h7⟩

theorem run_inv {pid g s} (h : Inv pid g s) : ∀ l, Inv pid g (run pid s l) := by
  intro l
  induction l generalizing s with
  | nil => exact h
  | cons o l ih => exact ih (step_inv h o)

/-- Whatever was done, the shell leaves in the group it was started in, and if it ever took the
terminal for itself it gives it back to that group. -/
theorem leaves_as_found (pid g t : Nat) (l : List Op) :
    let s := run pid (start g t) l
    (jexit s true).me = g ∧ (s.took ≠ [] → (jexit s true).tty = g) := by
  have h := run_inv (inv_start pid g t) l
  obtain ⟨h1, h2, h3, h4, h5, h6, h7⟩ := h
  simp only [jexit, changeOff]
  grind

/-- With job control on the shell is the leader of its own group and a job gives the terminal back
to that group. -/
theorem leads_own_group (pid g t : Nat) (l : List Op) (o : Nat) :
    let s := run pid (start g t) l
    s.monitor = true → s.me = pid ∧ (step pid s (.job o)).tty = s.me := by
  have h := run_inv (inv_start pid g t) l
  intro s hm
  have ⟨a, b⟩ := h.on hm
  have c := h.ok
  simp only [step]
  grind

/-- Continued in the foreground: the group the shell was in when it stopped has the terminal. -/
def Fg (g : Nat) : Op → Prop
  | .suspend _ back => back = g
  | _ => True

theorem run_tty {pid g s} (h : Inv pid g s) (ht : s.monitor = true → s.tty = s.me) :
    ∀ l, (∀ o ∈ l, Fg g o) → (run pid s l).monitor = true → (run pid s l).tty = (run pid s l).me := by
  intro l
  induction l generalizing s with
  | nil => exact fun _ => ht
  | cons o l ih =>
    intro hf
    refine ih (step_inv h o) ?_ fun o ho => hf o (by simp [ho])
    have ho := hf o (by simp)
    obtain ⟨h1, h2, h3, h4, h5, h6, h7⟩ := h
    cases o with
    | setm b => cases b <;> simp only [step, setm, changeOn, changeOff] <;> grind
    | suspend ex back => simp only [step, suspend, Fg] at *; grind
    | job o => simp only [step]; grind
    | execFails ex => simp only [step, jexit, changeOff]; grind
    | trap a => exact ht

/-- With job control on the terminal is the shell's at every prompt, if a suspended shell is
continued in the foreground.  Missing: continued in the background. -/
theorem owns_terminal_partial (pid g t : Nat) (l : List Op) (hf : ∀ o ∈ l, Fg g o) :
    (run pid (start g t) l).monitor = true → (run pid (start g t) l).tty = (run pid (start g t) l).me :=
  run_tty (inv_start pid g t) (by simp [start]) l hf

theorem run_took {pid g s} (h : Inv pid g s) (ht : ∀ x ∈ s.took, x = g ∨ x = pid) :
    ∀ l, (∀ o ∈ l, Fg g o) → ∀ x ∈ (run pid s l).took, x = g ∨ x = pid := by
  intro l
  induction l generalizing s with
  | nil => exact fun _ => ht
  | cons o l ih =>
    intro hf
    refine ih (step_inv h o) ?_ fun o ho => hf o (by simp [ho])
    have ho := hf o (by simp)
    obtain ⟨h1, h2, h3, h4, h5, h6, h7⟩ := h
    cases o with
    | setm b => cases b <;> simp only [step, setm, changeOn, changeOff] <;> grind
    | suspend ex back => simp only [step, suspend, Fg] at *; grind
    | job o => simp only [step]; grind
    | execFails ex => simp only [step, jexit, changeOff]; grind
    | trap a => exact ht

/-- The shell takes the terminal only from the group it was started in or from its own: it waits
to be given the terminal.  Missing: continued in the background. -/
theorem never_steals_partial (pid g t : Nat) (l : List Op) (hf : ∀ o ∈ l, Fg g o) :
    ∀ x ∈ (run pid (start g t) l).took, x = g ∨ x = pid :=
  run_took (inv_start pid g t) (by simp [start]) l hf

/-- Continued in the background by a shell in group 7, it takes the terminal from it. -/
theorem steals : (run 10 (start 5 5) [.setm true, .suspend true 7]).took = [7, 5] ∧
    (run 10 (start 5 5) [.setm true, .suspend true 7]).tty = 10 := by decide

/-- Suspended, the shell is in the group it was started in, so that the process that started it is
stopped as well, and a terminal it had taken is back with that group.  Missing: job control off. -/
theorem suspends_as_found_partial (pid g t : Nat) (l : List Op) (back : Nat)
    (hm : (run pid (start g t) l).monitor = true) :
    let s := run pid (start g t) l
    ∃ y, (suspend pid s true back).susp = (g, y) :: s.susp ∧ (s.took ≠ [] → y = g) := by
  have h := run_inv (inv_start pid g t) l
  obtain ⟨h1, h2, h3, h4, h5, h6, h7⟩ := h
  simp only [suspend]
  rcases hr : (run pid (start g t) l).restore with _ | r
  · refine ⟨(run pid (start g t) l).tty, ?_⟩
    grind
  · refine ⟨g, ?_⟩
    grind

/-- `set +m; suspend` stops the shell alone, with the terminal: nobody can use it. -/
theorem suspend_without_monitor (pid g t : Nat) (hp : pid ≠ g) (ex : Bool) (back : Nat) :
    (run pid (start g t) [.setm true, .setm false, .suspend ex back]).susp = [(pid, pid)] := by
  have : g ≠ pid := fun e => hp e.symm
  simp [run, step, setm, changeOn, changeOff, suspend, start, this]

/-! ### exec of a program that cannot be executed -/

def isFail : Op → Bool
  | .execFails _ => true
  | _ => false

theorem jexit_chld (s : St) (ex : Bool) : (jexit s ex).chld = s.chld := by
  simp only [jexit, changeOff]
  grind

theorem trap_chld (r : Sig.R) (h : r.shellUses = true) (h1 : r.dflIntr = false) (h2 : r.fatal = false)
    (a : Option (List Char)) : (Sig.settrap true r a).kern = r.kern := by
  simp only [Sig.settrap, h, h1, h2]
  grind

structure CInv (s : St) : Prop where
  uses : s.chld.shellUses = true
  intr : s.chld.dflIntr = false
  fatal : s.chld.fatal = false
  orig : s.chld.origDfl = true ∧ s.chld.origIgn = false
  exec : (s.chld.execIgn || s.chld.execDfl) = true
  cur : s.chld.cursig = s.chld.kern

theorem step_chld {pid s} (o : Op) (ho : isFail o = false) (ht : ∀ a, o ≠ .trap a) :
    (step pid s o).chld = s.chld := by
  cases o with
  | setm b => cases b <;> simp only [step, setm, changeOn, changeOff] <;> grind
  | suspend ex back => simp only [step, suspend]; grind
  | job o => simp only [step]; grind
  | execFails ex => simp [isFail] at ho
  | trap a => exact absurd rfl (ht a)

theorem trap_cinv (r : Sig.R) (a) (s : St) (e : s.chld = r) (h : CInv s) :
    CInv { s with chld := Sig.settrap true r a } := by
  obtain ⟨h1, h2, h3, h4, h5, h6⟩ := h
  subst e
  constructor <;> simp only [Sig.settrap, h1, h2, h3] <;> grind

theorem cinv_start (g t) : CInv (start g t) := by
  constructor <;> simp [start, chld0, Sig.setsig, Sig.noteOrig, Sig.setexecsig]

theorem run_hears {pid s} (h : CInv s) : ∀ l, (∀ o ∈ l, isFail o = false) →
    CInv (run pid s l) ∧ (run pid s l).chld.kern = s.chld.kern := by
  intro l
  induction l generalizing s with
  | nil => exact fun _ => ⟨h, rfl⟩
  | cons o l ih =>
    intro hf
    have ho := hf o (by simp)
    have key : CInv (step pid s o) ∧ (step pid s o).chld.kern = s.chld.kern := by
      by_cases ht : ∃ a, o = .trap a
      · obtain ⟨a, rfl⟩ := ht
        exact ⟨trap_cinv _ a s rfl h, trap_chld _ h.uses h.intr h.fatal a⟩
      · have e := step_chld (pid := pid) (s := s) o ho fun a e => ht ⟨a, e⟩
        obtain ⟨h1, h2, h3, h4, h5, h6⟩ := h
        refine ⟨⟨?_, ?_, ?_, ?_, ?_, ?_⟩, by rw [e]⟩ <;> rw [e] <;> assumption
    have := ih key.1 fun o ho => hf o (by simp [ho])
    exact ⟨this.1, this.2.trans key.2⟩

/-- The shell notices that a child has ended, whatever traps are set for CHLD and whatever is done
to job control.  Missing: an exec that fails. -/
theorem hears_partial (pid g t : Nat) (l : List Op) (hf : ∀ o ∈ l, isFail o = false) :
    (run pid (start g t) l).chld.kern = .trapsig :=
  (run_hears (cinv_start g t) l hf).2

/-- What is left of SIGCHLD after an exec that failed. -/
structure Deaf (s : St) : Prop where
  uses : s.chld.shellUses = true
  intr : s.chld.dflIntr = false
  fatal : s.chld.fatal = false
  orig : s.chld.origDfl = true ∧ s.chld.origIgn = false
  kern : s.chld.kern ≠ .trapsig

theorem run_deaf {pid s} (h : Deaf s) : ∀ l, Deaf (run pid s l) := by
  intro l
  induction l generalizing s with
  | nil => exact h
  | cons o l ih =>
    refine ih ?_
    by_cases hx : ∃ ex, o = .execFails ex
    · obtain ⟨ex, rfl⟩ := hx
      obtain ⟨h1, h2, h3, h4, h5⟩ := h
      constructor <;> simp only [step, jexit_chld, restoresig, Sig.setsig, Sig.noteOrig, Sig.setexecsig] <;> grind
    · by_cases ht : ∃ a, o = .trap a
      · obtain ⟨a, rfl⟩ := ht
        obtain ⟨h1, h2, h3, h4, h5⟩ := h
        constructor <;> simp only [step, Sig.settrap, h1, h2, h3] <;> grind
      · have ho : isFail o = false := by cases o <;> simp_all [isFail]
        have e := step_chld (pid := pid) (s := s) o ho fun a e => ht ⟨a, e⟩
        obtain ⟨h1, h2, h3, h4, h5⟩ := h
        refine ⟨?_, ?_, ?_, ?_, ?_⟩ <;> rw [e] <;> assumption

/-- After an exec that failed, always, an interactive shell goes on without a handler for SIGCHLD,
and nothing that is done later brings it back: waiting for the next child does not end. -/
theorem deaf_after_failed_exec (pid g t : Nat) (l : List Op) (ex : Bool) (l' : List Op)
    (hf : ∀ o ∈ l, isFail o = false) :
    (run pid (start g t) (l ++ .execFails ex :: l')).chld.kern ≠ .trapsig := by
  have e : run pid (start g t) (l ++ .execFails ex :: l') =
      run pid (step pid (run pid (start g t) l) (.execFails ex)) l' := by simp [run]
  rw [e]
  have h := (run_hears (pid := pid) (cinv_start g t) l hf).1
  obtain ⟨h1, h2, h3, h4, h5, h6⟩ := h
  refine (run_deaf ?_ l').kern
  constructor <;> simp only [step, jexit_chld, restoresig, Sig.setsig, Sig.noteOrig, Sig.setexecsig] <;> grind

/-- and job control is off. -/
theorem failed_exec_monitor (pid : Nat) (s : St) (ex : Bool) : (step pid s (.execFails ex)).monitor = false := by
  simp only [step, jexit, changeOff]
  grind

/-! ### Examples -/

/-- started by a process in group 5: takes the terminal, gives it back while suspended and at the end -/
example : let s := run 10 (start 5 5) [.setm true, .job 8, .suspend true 5, .job 9, .setm false, .setm true]
    (s.me, s.tty, s.took, s.susp, s.restore) = (10, 10, [5, 5], [(5, 5)], some 5) ∧
      (jexit s true).me = 5 ∧ (jexit s true).tty = 5 := by decide

/-- already the leader of its group: nothing is changed -/
example : let s := run 10 (start 10 10) [.setm true, .suspend true 10]
    (s.me, s.tty, s.took, s.susp, s.restore) = (10, 10, [], [(10, 10)], none) := by decide

example : (run 10 (start 5 5) [.setm true, .trap (some ['x'])]).chld.kern = .trapsig := by decide

example : (run 10 (start 5 5) [.setm true, .execFails true, .setm true, .trap (some ['x'])]).chld.kern = .dfl := by decide

end Ksh.Ours
