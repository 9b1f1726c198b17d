/-!
# Signal dispositions

`setsig`, `setexecsig`, `settrap`, `restoresigs`, `cleartraps`, `block_pipe` and `restore_pipe` of
trap.c with their callers.  All of them work on the record of one signal and look at no other
record, so one record is modelled; `Kind` tells which callers apply to it.
-/
namespace Ksh.Sig

/-- A disposition: SIG_DFL, SIG_IGN or the handler trapsig. -/
inductive Disp
  | dfl
  | ign
  | trapsig
  deriving DecidableEq, Repr

/-- Signals that are treated alike: SIGINT and SIGQUIT, SIGTERM, SIGHUP, SIGCHLD,
the signals of `tt_sigs` (SIGTSTP, SIGTTIN, SIGTTOU, jobs.c:115), SIGPIPE, the others. -/
inductive Kind
  | int
  | term
  | hup
  | chld
  | tty
  | pipe
  | other
  deriving DecidableEq, Repr

/-- `Trap`, sh.h:215-236, for one signal, and what the kernel has (`kern`). -/
structure R where
  shellUses : Bool := false
  userSet : Bool := false
  origIgn : Bool := false
  origDfl : Bool := false
  execIgn : Bool := false
  execDfl : Bool := false
  dflIntr : Bool := false
  fatal : Bool := false
  cursig : Disp := .dfl
  act : Option (List Char) := none
  kern : Disp
  deriving DecidableEq, Repr

/-- SS_RESTORE_*, sh.h:239-243. -/
inductive Restore
  | curr
  | orig
  | dfl
  | ign
  deriving DecidableEq, Repr

/-- setexecsig, trap.c:408-431.  The internal error for a signal that has not been set
is not modelled: SIGINT and SIGQUIT are always set, and setsig sets the flags first. -/
def setexecsig (r : R) : Restore → R
  | .curr => { r with execIgn := false, execDfl := false }
  | .orig => { r with execIgn := r.origIgn, execDfl := !r.origIgn }
  | .dfl => { r with execIgn := false, execDfl := true }
  | .ign => { r with execIgn := true, execDfl := false }

/-- The first part of setsig, trap.c:366-374: note the original disposition. -/
def noteOrig (r : R) : R :=
  if !r.origIgn && !r.origDfl then
    { r with origIgn := r.kern == .ign, origDfl := r.kern != .ign, cursig := .ign, kern := .ign }
  else r

/-- setsig, trap.c:357-405.  `shtrap` is not modelled beyond the handler being trapsig. -/
def setsig (talking : Bool) (r : R) (f : Disp) (restore : Restore) (force user : Bool) : R :=
  let r := noteOrig r
  if r.origIgn && !force && (!user || !talking) then r
  else
    let r := setexecsig r restore
    if r.cursig ≠ f then { r with cursig := f, kern := f } else r

/-- The handler for an action, trap.c:301. -/
def handler : Option (List Char) → Disp
  | none => .dfl
  | some [] => .ign
  | some _ => .trapsig

/-- settrap, trap.c:294-324. -/
def settrap (talking : Bool) (r : R) (s : Option (List Char)) : R :=
  let f := handler s
  let r := { r with act := s, userSet := true }
  if (r.dflIntr || r.fatal) && f == .dfl then setsig talking r .trapsig .curr false true
  else if r.shellUses then
    if !r.origIgn || talking then
      if f = .ign then { r with execIgn := true, execDfl := false } else { r with execIgn := false, execDfl := true }
    else r
  else setsig talking r f .curr false true

/-- restoresigs, trap.c:281-291, and execve: a caught signal becomes default. -/
def atExec (r : R) : Disp :=
  let r := if r.execIgn || r.execDfl then setsig false r (if r.execIgn then .ign else .dfl) .curr true false else r
  match r.kern with
  | .trapsig => .dfl
  | d => d

/-- block_pipe and restore_pipe around the write of `print -p`, trap.c:329-352. -/
def coprint (r : R) : R :=
  if !r.origIgn && !r.origDfl then
    let r := setsig false r .ign .curr false false
    if r.origDfl then setsig false r .dfl .curr false false else r
  else if r.cursig = .dfl then
    setsig false (setsig false r .ign .curr false false) .dfl .curr false false
  else r

/-- The record and the flag `monitor` of a shell that is not interactive. -/
structure St where
  r : R
  monitor : Bool := false
  deriving DecidableEq, Repr

/-- inittraps, trap.c:46-61, and j_init, jobs.c:173-200, in a shell that is not
interactive and not started with -m.  (alarm_init and x_init are only called when
interactive, main.c:393-394 and 452-454.) -/
def start (kd : Kind) (k0 : Disp) : St :=
  let r : R := { kern := k0 }
  match kd with
  | .int | .term => { r := setsig false { r with dflIntr := true } .trapsig .orig false false }
  | .hup => { r := setsig false { r with fatal := true } .trapsig .orig false false }
  | .chld => { r := setsig false { r with shellUses := true } .trapsig .orig true false }
  | _ => { r := r }

inductive Op
  /-- `trap s SIG` -/
  | trap (s : Option (List Char))
  /-- `set -m`, `set +m`: j_change, jobs.c:300-391 -/
  | monitor (on : Bool)
  /-- the shell goes on as the child of exchild, jobs.c:500-536 -/
  | child (bgnd xxcom : Bool)
  /-- comexec is about to execute a program without forking, exec.c:681-688.  XBGND is
  not passed to the child (jobs.c:538), so it is never set here. -/
  | noFork
  /-- `print -p` -/
  | coprint
  deriving DecidableEq, Repr

def step (kd : Kind) (s : St) : Op → St
  | .trap a => { s with r := settrap false s.r a }
  | .monitor on =>
    if on = s.monitor then s
    else if kd = .tty then
      if on then { r := setsig false s.r .ign .dfl true false, monitor := true }
      else if s.r.origIgn || s.r.origDfl then
        { r := setsig false s.r (if s.r.origIgn then .ign else .dfl) .orig true false, monitor := false }
      else { s with monitor := false }
    else { s with monitor := on }
  | .child bgnd xxcom =>
    let r := if s.monitor && !xxcom && kd == .tty then setsig false s.r .dfl .dfl true false else s.r
    let r := if bgnd && !s.monitor && kd == .int then setsig false r .ign .ign true false else r
    -- cleartraps, trap.c:262-278
    let r := match r.act with
      | some (_ :: _) => if r.userSet then settrap false r none else r
      | _ => r
    { r := r, monitor := false }
  | .noFork => if kd = .int then { s with r := setexecsig s.r .orig } else s
  | .coprint => if kd = .pipe then { s with r := coprint s.r } else s

def run (kd : Kind) (s : St) (l : List Op) : St := l.foldl (step kd) s

/-! ### Ignored on entry -/

/-- What holds of a signal that was ignored on entry. -/
def Ign (kd : Kind) (s : St) : Prop :=
  s.r.execDfl = false ∧
  (s.r.origIgn = true ∧ s.r.cursig = s.r.kern ∧ (kd ≠ .chld → s.r.kern = .ign) ∧
      (kd = .chld → s.r.execIgn = true ∧ s.r.shellUses = true ∧ s.r.dflIntr = false ∧ s.r.fatal = false) ∨
    s.r.origIgn = false ∧ s.r.origDfl = false ∧ s.r.execIgn = false ∧ s.r.kern = .ign ∧ kd ≠ .chld) ∧
  (kd ≠ .chld → s.r.shellUses = false) ∧
  (kd = .int → s.r.origIgn = true)

theorem ign_settrap {kd : Kind} {s : St} (h : Ign kd s) (a : Option (List Char)) :
    Ign kd { s with r := settrap false s.r a } := by
  obtain ⟨h1, h2, h3, h4⟩ := h
  rcases h2 with ⟨h2, h5, h6, h7⟩ | ⟨h2, h5, h6, h7, h8⟩
  · by_cases hk : kd = .chld
    · obtain ⟨e1, e2, e3, e4⟩ := h7 hk
      simp [settrap, Ign, e1, e2, e3, e4, h1, h2, h5, hk]
    · have := h6 hk
      have := h3 hk
      simp only [settrap, Ign, setsig, noteOrig, h2, this]
      split <;> simp_all
  · have := h3 h8
    simp only [settrap, Ign, setsig, noteOrig, h2, h5, this]
    split <;> simp_all

theorem ign_step {kd : Kind} {s : St} {op : Op} (h : Ign kd s) (hm : kd = .tty → s.monitor = false ∧ ∀ b, op ≠ .monitor b) :
    Ign kd (step kd s op) := by
  cases op with
  | trap a => exact ign_settrap h a
  | monitor on =>
    simp only [step]
    split
    · exact h
    · split
      · rename_i hk
        exact absurd rfl ((hm hk).2 on)
      · exact h
  | child bgnd xxcom =>
    simp only [step]
    have e1 : (s.monitor && !xxcom && kd == .tty) = false := by
      by_cases hk : kd = .tty
      · simp [(hm hk).1]
      · simp [hk]
    simp only [e1, Bool.false_eq_true, if_false]
    have h1 : Ign kd { s with r := if bgnd && !s.monitor && kd == .int then setsig false s.r .ign .ign true false else s.r } := by
      split
      · rename_i hc
        simp only [Bool.and_eq_true, beq_iff_eq] at hc
        have hk := hc.2
        obtain ⟨h1, h2, h3, h4⟩ := h
        have ho := h4 hk
        rcases h2 with ⟨h2, h5, h6, h7⟩ | ⟨h2, _⟩
        · have := h6 (by simp [hk])
          have := h3 (by simp [hk])
          simp_all [Ign, setsig, noteOrig, setexecsig]
        · rw [h2] at ho; simp at ho
      · exact h
    generalize (if bgnd && !s.monitor && kd == .int then setsig false s.r .ign .ign true false else s.r) = r at h1 ⊢
    have h2 : ∀ x, Ign kd { r := x, monitor := s.monitor } → Ign kd { r := x, monitor := false } := fun x h => h
    split
    · split
      · exact h2 _ (ign_settrap h1 none)
      · exact h2 _ h1
    · exact h2 _ h1
  | noFork =>
    simp only [step]
    split
    · rename_i hk
      obtain ⟨h1, h2, h3, h4⟩ := h
      have ho := h4 hk
      rcases h2 with ⟨h2, h5, h6, h7⟩ | ⟨h2, _⟩
      · simp_all [Ign, setexecsig]
      · rw [h2] at ho; simp at ho
    · exact h
  | coprint =>
    simp only [step]
    split
    · rename_i hk
      obtain ⟨h1, h2, h3, h4⟩ := h
      rcases h2 with ⟨h2, h5, h6, h7⟩ | ⟨h2, h5, h6, h7, h8⟩
      · have := h6 (by simp [hk])
        simp_all [Ign, coprint]
      · simp_all [Ign, coprint, setsig, noteOrig]
    · exact h

theorem ign_start (kd : Kind) : Ign kd (start kd .ign) := by
  cases kd <;> simp [start, Ign, setsig, noteOrig, setexecsig]

/-- **C39** A signal that was ignored when the shell, which is not interactive, was
started: whatever `trap` commands, background commands, subshells and the like follow, every
program that is executed finds it ignored; and if it is not SIGCHLD, it is ignored by the shell
itself.

Partial: for SIGTSTP, SIGTTIN and SIGTTOU only without `set -m`, see `monitor_unignores`; SIGCHLD
is caught, see `chld_trap_runs`. -/
theorem ignored_stays_partial (kd : Kind) (l : List Op) (hm : kd = .tty → ∀ b, Op.monitor b ∉ l) :
    atExec (run kd (start kd .ign) l).r = .ign ∧ (kd ≠ .chld → (run kd (start kd .ign) l).r.kern = .ign) := by
  have key : ∀ (l : List Op) (s : St), Ign kd s → (kd = .tty → s.monitor = false) → (kd = .tty → ∀ b, Op.monitor b ∉ l) →
      Ign kd (run kd s l) := by
    intro l
    induction l with
    | nil => exact fun s h _ _ => h
    | cons op l ih =>
      intro s h hs hm
      have hop : kd = .tty → ∀ b, op ≠ .monitor b := fun hk b e => hm hk b (by rw [e]; exact List.mem_cons_self)
      refine ih (step kd s op) (ign_step h (fun hk => ⟨hs hk, hop hk⟩)) ?_ (fun hk b hb => hm hk b (List.mem_cons_of_mem _ hb))
      intro hk
      cases op with
      | monitor b => exact absurd rfl (hop hk b)
      | trap a => exact hs hk
      | child b x => rfl
      | noFork => simp only [step]; split <;> exact hs hk
      | coprint => simp only [step]; split <;> exact hs hk
  obtain ⟨h1, h2, h3, h4⟩ := key l _ (ign_start kd) (by cases kd <;> simp [start]) hm
  generalize run kd (start kd .ign) l = s at h1 h2 h3 h4
  rcases h2 with ⟨h2, h5, h6, h7⟩ | ⟨h2, h5, h6, h7, h8⟩
  · refine ⟨?_, h6⟩
    by_cases hk : kd = .chld
    · have := (h7 hk).1
      simp only [atExec, this, h1, setsig, noteOrig, h2, setexecsig]
      cases hc : s.r.cursig <;> simp_all
      rw [← h5]
    · have := h6 hk
      simp only [atExec, h1, setsig, noteOrig, h2, setexecsig]
      cases he : s.r.execIgn <;> simp_all
  · exact ⟨by simp [atExec, h1, h6, h7], fun _ => h7⟩

/-- **C39** `set -m; cmd` in a script: the program gets SIGTSTP with its default action
although it was ignored on entry. -/
theorem monitor_unignores :
    atExec (run .tty (start .tty .ign) [.monitor true, .child false false]).r = .dfl := by decide

/-- **C39** SIGCHLD is caught by the shell although it was ignored on entry, so the action of a
`trap` command for it is run. -/
theorem chld_trap_runs : (run .chld (start .chld .ign) [.trap (some "echo".toList)]).r.kern = .trapsig ∧
    (run .chld (start .chld .ign) [.trap (some "echo".toList)]).r.act = some "echo".toList := by decide

/-! ### Ignored by `trap ''` and by `&` -/

/-- What programs should find, for a signal that had its default action on entry: it is
ignored after `trap ''`, and SIGINT and SIGQUIT are ignored in background commands without job
control; else it has its default action.  The flag tells that `set -m` is on. -/
def expected (kd : Kind) : List Op → Disp × Bool → Disp × Bool
  | [], x => x
  | .trap (some []) :: l, (_, m) => expected kd l (.ign, m)
  | .trap _ :: l, (_, m) => expected kd l (.dfl, m)
  | .monitor b :: l, (d, _) => expected kd l (d, b)
  | .child true _ :: l, (d, m) => expected kd l (if kd = .int ∧ m = false then .ign else d, false)
  | .child false _ :: l, (d, _) => expected kd l (d, false)
  | .noFork :: l, x => expected kd l x
  | .coprint :: l, x => expected kd l x

/-- What holds of a signal that had its default action on entry; `d` is what programs
should find. -/
structure Dfl (kd : Kind) (s : St) (d : Disp) : Prop where
  orig : s.r.origIgn = false
  first : s.r.origDfl = false → s.r.kern = .dfl ∧ d = .dfl ∧ s.r.execIgn = false ∧ s.r.execDfl = false ∧ kd ≠ .chld
  cur : s.r.origDfl = true → s.r.cursig = s.r.kern
  exec : (s.r.execIgn = true ∧ s.r.execDfl = false ∧ d = .ign) ∨ (s.r.execIgn = false ∧ s.r.execDfl = true ∧ d = .dfl) ∨
    (s.r.execIgn = false ∧ s.r.execDfl = false ∧ (d = .ign ↔ s.r.kern = .ign) ∧ kd ≠ .chld)
  two : d ≠ .trapsig
  uses : s.r.shellUses = decide (kd = .chld)
  chld : kd = .chld → s.r.dflIntr = false ∧ s.r.fatal = false
  intr : (kd = .int ∨ kd = .term → s.r.dflIntr = true) ∧ (kd = .hup → s.r.fatal = true)
  user : s.r.act ≠ none → s.r.userSet = true
  pipe : kd = .pipe → s.r.execIgn = false ∧ s.r.execDfl = false
  acts : ∀ c a, s.r.act = some (c :: a) → d = .dfl

theorem dfl_start (kd : Kind) : Dfl kd (start kd .dfl) .dfl := by
  cases kd <;> constructor <;> simp [start, setsig, noteOrig, setexecsig]

/-- The record after a set of a signal that was not ignored on entry. -/
def put (r : R) (f : Disp) (rs : Restore) : R :=
  { setexecsig { r with origDfl := true } rs with cursig := f, kern := f }

theorem put_orig (r : R) (f : Disp) (rs : Restore) : (put r f rs).origIgn = r.origIgn := by cases rs <;> rfl
theorem put_origDfl (r : R) (f : Disp) (rs : Restore) : (put r f rs).origDfl = true := by cases rs <;> rfl
theorem put_cur (r : R) (f : Disp) (rs : Restore) : (put r f rs).cursig = f := by cases rs <;> rfl
theorem put_kern (r : R) (f : Disp) (rs : Restore) : (put r f rs).kern = f := by cases rs <;> rfl
theorem put_act (r : R) (f : Disp) (rs : Restore) : (put r f rs).act = r.act := by cases rs <;> rfl
theorem put_user (r : R) (f : Disp) (rs : Restore) : (put r f rs).userSet = r.userSet := by cases rs <;> rfl
theorem put_uses (r : R) (f : Disp) (rs : Restore) : (put r f rs).shellUses = r.shellUses := by cases rs <;> rfl
theorem put_intr (r : R) (f : Disp) (rs : Restore) : (put r f rs).dflIntr = r.dflIntr := by cases rs <;> rfl
theorem put_fatal (r : R) (f : Disp) (rs : Restore) : (put r f rs).fatal = r.fatal := by cases rs <;> rfl

theorem setsig_dfl {r : R} (h1 : r.origIgn = false) (h2 : r.origDfl = false → r.kern = .dfl) (h3 : r.origDfl = true → r.cursig = r.kern)
    (t : Bool) (f : Disp) (rs : Restore) (fo us : Bool) :
    setsig t r f rs fo us = put r f rs := by
  have key : ∀ x : R, x.cursig = x.kern → (if x.cursig ≠ f then { x with cursig := f, kern := f } else x) = { x with cursig := f, kern := f } := by
    intro x hx
    split
    · rfl
    · rename_i hc
      have hc : x.cursig = f := Decidable.not_not.1 hc
      cases x
      simp only at hx hc
      subst hc
      simp [hx]
  obtain ⟨a1, a2, a3, a4, a5, a6, a7, a8, a9, a10, a11⟩ := r
  simp only at h1 h2 h3
  subst h1
  cases a4 with
  | true =>
    have := h3 rfl
    subst this
    simp only [setsig, noteOrig, put, Bool.not_true, Bool.and_false, Bool.false_and, Bool.false_eq_true, if_false]
    rw [key]
    cases rs <;> rfl
  | false =>
    have := h2 rfl
    subst this
    simp only [setsig, noteOrig, put, Bool.not_false, Bool.and_true, if_true]
    have e : (Disp.dfl == Disp.ign) = false := rfl
    simp only [e, Bool.false_and, Bool.false_eq_true, if_false]
    rw [key]
    · cases rs <;> rfl
    · cases rs <;> rfl

theorem Dfl.set {kd : Kind} {s : St} {d : Disp} (h : Dfl kd s d) (t : Bool) (f : Disp) (rs : Restore) (fo us : Bool) :
    setsig t s.r f rs fo us = put s.r f rs :=
  setsig_dfl h.orig (fun ho => (h.first ho).1) h.cur t f rs fo us

theorem dfl_settrap {kd : Kind} {s : St} {d : Disp} (h : Dfl kd s d) (a : Option (List Char)) (m' : Bool) :
    Dfl kd ⟨settrap false s.r a, m'⟩ (if a = some [] then .ign else .dfl) := by
  have hacts : ∀ c b, a = some (c :: b) → (if a = some [] then Disp.ign else .dfl) = .dfl := by
    intro c b e
    simp [e]
  by_cases hk : kd = .chld
  · obtain ⟨e1, e2⟩ := h.chld hk
    have h6 : s.r.shellUses = true := by simpa [hk] using h.uses
    have ho : s.r.origDfl = true := by
      cases ho : s.r.origDfl with
      | true => rfl
      | false => exact absurd hk (h.first ho).2.2.2.2
    have h3 := h.cur ho
    have h1 := h.orig
    have e : settrap false s.r a = { s.r with
        act := a, userSet := true, execIgn := decide (a = some []), execDfl := !decide (a = some []) } := by
      rcases a with _ | _ | ⟨c, a⟩ <;> simp [settrap, handler, e1, e2, h6, h1]
    rw [e]
    refine ⟨h1, ?_, fun _ => h3, ?_, ?_, h.uses, h.chld, h.intr, fun _ => rfl, ?_, hacts⟩
    · intro e; simp only at e; rw [ho] at e; simp at e
    · by_cases ha : a = some [] <;> simp [ha]
    · split <;> simp
    · intro e; rw [hk] at e; simp at e
  · have h6 : s.r.shellUses = false := by simpa [hk] using h.uses
    have hs : ∀ f, setsig false { s.r with act := a, userSet := true } f .curr false true =
        put { s.r with act := a, userSet := true } f .curr := by
      intro f
      exact setsig_dfl (r := { s.r with act := a, userSet := true }) h.orig (fun ho => (h.first ho).1) h.cur _ _ _ _ _
    -- trapsig instead of SIG_DFL for the signals that end the shell
    have e : ∃ f, (f = .ign ↔ a = some []) ∧ settrap false s.r a = put { s.r with act := a, userSet := true } f .curr := by
      have hh : handler a = .ign ↔ a = some [] := by rcases a with _ | _ | ⟨c, a⟩ <;> simp [handler]
      have hn : handler a = .dfl → a ≠ some [] := by intro e e2; simp [e2, handler] at e
      simp only [settrap]
      split
      · rename_i hc
        simp only [Bool.and_eq_true, beq_iff_eq] at hc
        exact ⟨.trapsig, by simp [hn hc.2], hs _⟩
      · refine ⟨handler a, hh, ?_⟩
        rw [if_neg (by simp [h6])]
        exact hs _
    obtain ⟨f, hf, e⟩ := e
    rw [e]
    refine ⟨h.orig, by simp [put_origDfl], fun _ => rfl, ?_, by split <;> simp, h.uses, h.chld, h.intr, fun _ => rfl, fun _ => ⟨rfl, rfl⟩, hacts⟩
    refine Or.inr (Or.inr ⟨rfl, rfl, ?_, hk⟩)
    simp only [put_kern, hf]
    split <;> simp_all

theorem atExec_dfl {kd : Kind} {s : St} {d : Disp} (h : Dfl kd s d) : atExec s.r = d := by
  unfold atExec
  rcases h.exec with ⟨e1, e2, e3⟩ | ⟨e1, e2, e3⟩ | ⟨e1, e2, e3, _⟩
  · simp only [e1, e2, Bool.true_or, if_true, h.set, put_kern, e3]
  · simp only [e1, e2, Bool.or_true, if_true, h.set, put_kern, e3, Bool.false_eq_true, if_false]
  · simp only [e1, e2, Bool.or_self, Bool.false_eq_true, if_false]
    have := h.two
    cases hk : s.r.kern <;> cases hd : d <;> simp_all

/-- `noFork` of SIGINT and SIGQUIT, and a background command with an action for them, are left out. -/
def Covered (kd : Kind) (s : St) : Op → Prop
  | .noFork => kd ≠ .int
  | .child true _ => kd = .int → s.monitor = false → ∀ c a, s.r.act ≠ some (c :: a)
  | _ => True

theorem dfl_coprint {s : St} {d : Disp} (h : Dfl .pipe s d) : Dfl .pipe ⟨coprint s.r, s.monitor⟩ d := by
  have hp : s.r.kern = .dfl → d = .dfl := by
    intro hk
    have hpe := h.pipe rfl
    rcases h.exec with ⟨e1, _⟩ | ⟨_, e2, _⟩ | ⟨_, _, e3, _⟩
    · simp_all
    · simp_all
    · have := h.two
      cases hd : d <;> simp_all
  have tw : setsig false (setsig false s.r .ign .curr false false) .dfl .curr false false = put (put s.r .ign .curr) .dfl .curr := by
    rw [h.set, setsig_dfl]
    · exact h.orig
    · intro e; rw [put_origDfl] at e; simp at e
    · intro _; rfl
  have done : s.r.kern = .dfl → Dfl .pipe ⟨put (put s.r .ign .curr) .dfl .curr, s.monitor⟩ d := by
    intro hk
    have hd := hp hk
    subst hd
    exact ⟨h.orig, by simp [put_origDfl], fun _ => rfl, Or.inr (Or.inr ⟨rfl, rfl, by simp [put_kern], by simp⟩), by simp, h.uses,
      h.chld, h.intr, h.user, fun _ => ⟨rfl, rfl⟩, fun _ _ _ => rfl⟩
  simp only [coprint]
  split
  · rename_i hc
    have ho : s.r.origDfl = false := by simpa [h.orig] using hc
    have e : (setsig false s.r .ign .curr false false).origDfl = true := by rw [h.set]; rfl
    simp only [e, if_true, tw]
    exact done (h.first ho).1
  · split
    · rename_i hc hd
      rw [tw]
      refine done ?_
      have ho : s.r.origDfl = true := by simpa [h.orig] using hc
      rw [← h.cur ho, hd]
    · exact h

theorem dfl_child {kd : Kind} {s : St} {d : Disp} {bg xx : Bool} (h : Dfl kd s d) (hk : kd ≠ .tty) (hc : Covered kd s (.child bg xx)) :
    Dfl kd (step kd s (.child bg xx)) (if bg = true ∧ kd = .int ∧ s.monitor = false then .ign else d) := by
  have e1 : (s.monitor && !xx && kd == .tty) = false := by simp [hk]
  simp only [step, e1, Bool.false_eq_true, if_false]
  by_cases hb : bg = true ∧ kd = .int ∧ s.monitor = false
  · obtain ⟨rfl, rfl, hm⟩ := hb
    simp only [hm, Bool.not_false, Bool.and_true, beq_self_eq_true, if_true, and_self, h.set]
    have hn := hc rfl hm
    have e : (match (put s.r .ign .ign).act with
      | some (_ :: _) => if (put s.r .ign .ign).userSet then settrap false (put s.r .ign .ign) none else put s.r .ign .ign
      | _ => put s.r .ign .ign) = put s.r .ign .ign := by
      split
      · rename_i c a e
        exact absurd e (hn c a)
      · rfl
    rw [e]
    exact ⟨h.orig, by simp [put_origDfl], fun _ => rfl, Or.inl ⟨rfl, rfl, rfl⟩, by simp, h.uses, h.chld, h.intr, h.user, by simp,
      fun c a e => absurd e (hn c a)⟩
  · have e2 : (bg && !s.monitor && kd == .int) = false := by
      cases bg <;> cases hm : s.monitor <;> simp_all
    simp only [e2, Bool.false_eq_true, if_false, hb]
    split
    · rename_i c a e
      have hu := h.user (by simp [e])
      simp only [hu, if_true]
      have := dfl_settrap h none false
      rw [h.acts c a e]
      simpa using this
    · exact ⟨h.orig, h.first, h.cur, h.exec, h.two, h.uses, h.chld, h.intr, h.user, h.pipe, h.acts⟩

theorem dfl_step {kd : Kind} {s : St} {d : Disp} {op : Op} (h : Dfl kd s d) (hk : kd ≠ .tty) (hc : Covered kd s op) :
    Dfl kd (step kd s op) (expected kd [op] (d, s.monitor)).1 ∧
    (step kd s op).monitor = (expected kd [op] (d, s.monitor)).2 := by
  cases op with
  | trap a =>
    have := dfl_settrap h a s.monitor
    rcases a with _ | _ | ⟨c, a⟩ <;> exact ⟨by simpa [step, expected] using this, rfl⟩
  | monitor on =>
    simp only [step, expected, hk, if_false]
    split
    · rename_i e
      exact ⟨h, e.symm⟩
    · exact ⟨⟨h.orig, h.first, h.cur, h.exec, h.two, h.uses, h.chld, h.intr, h.user, h.pipe, h.acts⟩, rfl⟩
  | noFork =>
    have hk : kd ≠ .int := hc
    simp only [step, expected, hk, if_false]
    exact ⟨h, trivial⟩
  | coprint =>
    simp only [step, expected]
    split
    · rename_i hp
      subst hp
      exact ⟨dfl_coprint h, rfl⟩
    · exact ⟨h, rfl⟩
  | child bg xx =>
    have := dfl_child h hk hc
    cases bg with
    | true => exact ⟨by simpa [expected] using this, rfl⟩
    | false => exact ⟨by simpa [expected] using this, rfl⟩

theorem expected_cons (kd : Kind) (op : Op) (l : List Op) (x : Disp × Bool) :
    expected kd (op :: l) x = expected kd l (expected kd [op] x) := by
  obtain ⟨d, m⟩ := x
  cases op with
  | trap a => rcases a with _ | _ | ⟨c, a⟩ <;> rfl
  | child bg xx => cases bg <;> rfl
  | _ => rfl

/-- The commands leave out the cases of the witnesses below: for SIGINT and SIGQUIT, a program
that is executed without a fork, and a background command while an action is set. -/
def NoExec (kd : Kind) (l : List Op) : Prop :=
  kd = .int → (Op.noFork ∉ l ∧ ((∀ xx, Op.child true xx ∉ l) ∨ ∀ c a, Op.trap (some (c :: a)) ∉ l))

theorem act_step {kd : Kind} {s : St} {op : Op} (h : ∀ c a, s.r.act ≠ some (c :: a)) (ho : ∀ c a, op ≠ .trap (some (c :: a)))
    (c : Char) (a : List Char) : (step kd s op).r.act ≠ some (c :: a) := by
  have hn : ∀ r : R, (noteOrig r).act = r.act := by
    intro r; simp only [noteOrig]; split <;> rfl
  have he : ∀ (r : R) rs, (setexecsig r rs).act = r.act := by
    intro r rs; cases rs <;> rfl
  have hs : ∀ (r : R) t f rs fo us, (setsig t r f rs fo us).act = r.act := by
    intro r t f rs fo us
    simp only [setsig]
    split
    · exact hn r
    · split
      · simp only [he, hn]
      · simp only [he, hn]
  have ht : ∀ (r : R) x, (settrap false r x).act = x := by
    intro r x
    simp only [settrap]
    split
    · rw [hs]
    · split
      · split
        · split <;> rfl
        · rfl
      · rw [hs]
  cases op with
  | trap x =>
    simp only [step, ht]
    exact fun e => ho c a (by rw [e])
  | monitor on =>
    simp only [step]
    split
    · exact h c a
    · split
      · split
        · simp only [hs]; exact h c a
        · split
          · simp only [hs]; exact h c a
          · exact h c a
      · exact h c a
  | child bg xx =>
    simp only [step]
    split
    · rename_i c' a' e
      exfalso
      revert e
      split
      · rw [hs]; split
        · rw [hs]; exact h c' a'
        · exact h c' a'
      · split
        · rw [hs]; exact h c' a'
        · exact h c' a'
    · rename_i hx
      exact hx c a
  | noFork =>
    simp only [step]
    split
    · simp only [he]; exact h c a
    · exact h c a
  | coprint =>
    simp only [step]
    split
    · simp only [coprint]
      split
      · split
        · simp only [hs]; exact h c a
        · simp only [hs]; exact h c a
      · split
        · simp only [hs]; exact h c a
        · exact h c a
    · exact h c a

/-- **C62** A signal that had its default action when the shell, which is not interactive, was
started is ignored by an executed program exactly if the last `trap` command for it was
`trap ''`, or, for SIGINT and SIGQUIT, the program is part of a background command without job
control; else it has its default action.

Partial: not for SIGTSTP, SIGTTIN and SIGTTOU; for SIGINT and SIGQUIT under `NoExec`, see
`subshell_unignores`, `background_not_ignored` and `background_action`. -/
theorem inherited_partial (kd : Kind) (l : List Op) (hk : kd ≠ .tty) (hl : NoExec kd l) :
    atExec (run kd (start kd .dfl) l).r = (expected kd l (.dfl, false)).1 := by
  have key : ∀ (l : List Op) (s : St) (d : Disp), Dfl kd s d →
      (kd = .int → Op.noFork ∉ l ∧ ((∀ xx, Op.child true xx ∉ l) ∨ ((∀ c a, s.r.act ≠ some (c :: a)) ∧ ∀ c a, Op.trap (some (c :: a)) ∉ l))) →
      Dfl kd (run kd s l) (expected kd l (d, s.monitor)).1 := by
    intro l
    induction l with
    | nil => exact fun s d h _ => h
    | cons op l ih =>
      intro s d h hl
      have hc : Covered kd s op := by
        cases op with
        | noFork => exact fun hk => (hl hk).1 List.mem_cons_self
        | child bg xx =>
          cases bg with
          | true =>
            intro hk _
            rcases (hl hk).2 with h' | h'
            · exact absurd List.mem_cons_self (h' xx)
            · exact h'.1
          | false => trivial
        | _ => trivial
      obtain ⟨h1, h2⟩ := dfl_step h hk hc
      have := ih (step kd s op) _ h1 (by
        intro hk
        obtain ⟨a1, a2⟩ := hl hk
        refine ⟨fun hm => a1 (List.mem_cons_of_mem _ hm), ?_⟩
        rcases a2 with a2 | ⟨a2, a3⟩
        · exact Or.inl fun xx hm => a2 xx (List.mem_cons_of_mem _ hm)
        · refine Or.inr ⟨?_, fun c a hm => a3 c a (List.mem_cons_of_mem _ hm)⟩
          refine act_step a2 fun c a e => a3 c a ?_
          rw [e]
          exact List.mem_cons_self)
      rw [h2] at this
      rw [expected_cons]
      exact this
  have hm : (start kd .dfl).monitor = false := by cases kd <;> rfl
  have ha : (start kd .dfl).r.act = none := by cases kd <;> rfl
  have := key l _ _ (dfl_start kd) (by
    intro hk
    obtain ⟨a1, a2⟩ := hl hk
    refine ⟨a1, ?_⟩
    rcases a2 with a2 | a2
    · exact Or.inl a2
    · exact Or.inr ⟨by simp [ha], a2⟩)
  rw [hm] at this
  exact atExec_dfl this

/-- **C62** `trap '' INT; (cmd)`: the program gets SIGINT with its default action. -/
theorem subshell_unignores :
    atExec (run .int (start .int .dfl) [.trap (some []), .child false false, .noFork]).r = .dfl ∧
    (expected .int [.trap (some []), .child false false, .noFork] (.dfl, false)).1 = .ign := by decide

/-- **C62** `cmd &` in a script: the program gets SIGINT with its default action. -/
theorem background_not_ignored :
    atExec (run .int (start .int .dfl) [.child true false, .noFork]).r = .dfl ∧
    (expected .int [.child true false, .noFork] (.dfl, false)).1 = .ign := by decide

/-- **C62** `trap x INT; { cmd; :; } &` in a script: clearing the action in the child undoes the
ignoring. -/
theorem background_action :
    atExec (run .int (start .int .dfl) [.trap (some ['x']), .child true false, .child false true]).r = .dfl ∧
    (expected .int [.trap (some ['x']), .child true false, .child false true] (.dfl, false)).1 = .ign := by decide

/-- `trap '' TERM; (trap x HUP; cmd)`, `trap 'x' CHLD; trap '' CHLD; cmd`, `{ cmd; :; } &`. -/
example : atExec (run .term (start .term .dfl) [.trap (some []), .child false false, .noFork]).r = .ign ∧
    atExec (run .chld (start .chld .dfl) [.trap (some ['x']), .trap (some []), .child false true]).r = .ign ∧
    atExec (run .int (start .int .dfl) [.child true false, .child false false]).r = .ign ∧
    atExec (run .int (start .int .dfl) [.monitor true, .child true false, .child false false]).r = .dfl := by decide

example : atExec (run .term (start .term .ign) [.trap (some ['x']), .child true false, .trap none]).r = .ign := by decide

end Ksh.Sig
