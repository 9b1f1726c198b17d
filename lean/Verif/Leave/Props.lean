import Verif.Leave.Model
/-!
# Leaving the shell: the EXIT trap (C116), errors (C117), the interactive shell (C118)
-/

namespace Ksh.Leave
variable {A : Type}

/-! ## Specification -/

/-- No here-document is being expanded and no prompt. -/
def Plain (env : List Env) : Prop := ∀ e ∈ env, e ≠ .here ∧ e ≠ .prompt

/-- Inside which a shell error is caught: functions, files read by `.`, `.profile` or `ENV`, here-documents, prompts and the
loop of an interactive shell. -/
inductive Catches : Env → Prop
  | func : Catches .func
  | incl {b} : Catches (.incl b)
  | here : Catches .here
  | prompt : Catches .prompt
  | loop : Catches (.parse true)

/-- The state at the end, with the actions run. -/
def Final.state : Final A → St A
  | .exited _ st => st
  | .resumed _ _ st => st

/-! ## LLEAVE -/

theorem jump_leave {k : Why → List Env → St A → Option (Final A)} {st : St A} : ∀ {env : List Env}, env ≠ [] → Plain env →
    (∀ p rest, env = p ++ rest → p ≠ [] → rest ≠ [] → k .leave rest st = some (.exited false st)) →
    jump k .leave env st = some (.exited false st)
  | [], h, _, _ => absurd rfl h
  | e :: rest, _, hp, h2 => by
    have hpr : Plain rest := fun x hx => hp x (List.mem_cons_of_mem _ hx)
    have ih : rest ≠ [] → jump k .leave rest st = some (.exited false st) := fun hr =>
      jump_leave hr hpr (fun p r' he _ hr' => h2 (e :: p) r' (by rw [he]; rfl) (by simp) hr')
    have hk : rest ≠ [] → k .leave rest st = some (.exited false st) := fun hr => h2 [e] rest rfl (by simp) hr
    have hc := hp e List.mem_cons_self
    cases rest with
    | nil =>
      cases e with
      | parse b => cases b <;> simp_all [jump, handler]
      | incl b => cases b <;> simp_all [jump, handler]
      | _ => simp_all [jump, handler]
    | cons a l =>
      have ih := ih (by simp)
      have hk := hk (by simp)
      cases e with
      | parse b => cases b <;> simp_all [jump, handler]
      | incl b => cases b <;> simp_all [jump, handler]
      | _ => simp_all [jump, handler]

theorem which_leave (s : Sh A) : which s .leave = none := by simp [which]

theorem leave_exits {sem : A → Sh A → Res × Sh A} {st : St A} : ∀ (f : Nat) {env : List Env}, env ≠ [] → Plain env → env.length < f →
    unwind sem f .leave env st = some (.exited false st)
  | 0, _, _, _, h => absurd h (by omega)
  | f + 1, env, hne, hp, hf => by
    rw [unwind, which_leave]
    refine jump_leave hne hp (fun p r he hp0 hr => ?_)
    subst he
    refine leave_exits f hr (fun x hx => hp x (List.mem_append_right _ hx)) ?_
    have : 0 < p.length := List.length_pos_iff.2 hp0
    simp at hf; omega

theorem leave_jump {sem : A → Sh A → Res × Sh A} {st : St A} {f : Nat} {env : List Env} (hne : env ≠ []) (hp : Plain env)
    (hf : env.length ≤ f) : jump (unwind sem f) .leave env st = some (.exited false st) := by
  refine jump_leave hne hp (fun p r he hp0 hr => ?_)
  subst he
  refine leave_exits f hr (fun x hx => hp x (List.mem_append_right _ hx)) ?_
  have : 0 < p.length := List.length_pos_iff.2 hp0
  simp at hf; omega

/-! ## C116: the EXIT trap -/

/-- **C116** `exit`, the end of the script and the end of a subshell run the action of the EXIT trap once, with `$?` and without
the trap, if it comes to its end; then the process exits with the status given before the action ran, from whatever depth of
functions, loops and files.

Partial: not while a here-document or a prompt is expanded; and see `error_skips_trap`, `simple_child_skips_trap`,
`stopped_skips_trap` and `trap_error_goes_on`. -/
theorem exit_runs_trap_partial {sem : A → Sh A → Res × Sh A} {st : St A} {env : List Env} (hne : env ≠ []) (hp : Plain env)
    {a : A} (ht : st.sh.exitT = .act a) (hd : ∀ s : Sh A, s.exitT = .none → s.exstat = st.sh.exstat → ∃ s', sem a s = (.done, s')) :
    ∃ st' : St A, st'.sh.exstat = st.sh.exstat ∧ st'.log = (.exit, a) :: st.log ∧
      ∀ f, env.length < f → unwind sem f .exit env st = some (.exited false st') := by
  obtain ⟨s', hs'⟩ := hd (st.sh.enter .exit) rfl rfl
  refine ⟨{ sh := st.sh.back s' .exit, log := (.exit, a) :: st.log }, rfl, rfl, fun f hf => ?_⟩
  cases f with
  | zero => omega
  | succ f =>
    rw [unwind, which, if_pos (.inl rfl)]
    simp only [Sh.trap, ht, hs']
    exact leave_jump hne hp (by omega)

/-- **C116** An action may itself call `exit`: its status is then that of the process, and the action is not run again. -/
theorem exit_in_trap {sem : A → Sh A → Res × Sh A} {st : St A} {env : List Env} (hp : Plain env)
    {a : A} (ht : st.sh.exitT = .act a) {n : Nat}
    (hd : ∀ s : Sh A, s.exitT = .none → sem a s = (.jump .exit, { s with exstat := n })) :
    ∃ st' : St A, st'.sh.exstat = n ∧ st'.log = (.exit, a) :: st.log ∧
      ∀ f, env.length + 2 < f → unwind sem f .exit env st = some (.exited false st') := by
  refine ⟨{ sh := { st.sh.enter .exit with exstat := n }, log := (.exit, a) :: st.log }, rfl, rfl, fun f hf => ?_⟩
  match f, hf with
  | f + 2, hf =>
    rw [unwind, which, if_pos (.inl rfl)]
    simp only [Sh.trap, ht, hd (st.sh.enter .exit) rfl]
    rw [unwind, which, if_pos (.inl rfl)]
    simp only [Sh.trap, Sh.enter]
    refine leave_jump (by simp) (fun e he => ?_) (by simp; omega)
    rcases List.mem_cons.1 he with rfl | he
    · simp
    · exact hp e he

/-- **C116** Without a trap, or with an empty one, nothing is run. -/
theorem exit_without_trap {sem : A → Sh A → Res × Sh A} {st : St A} {env : List Env} (hne : env ≠ []) (hp : Plain env)
    (ht : ∀ a, st.sh.exitT ≠ .act a) {f : Nat} (hf : env.length < f) :
    unwind sem f .exit env st = some (.exited false st) := by
  cases f with
  | zero => omega
  | succ f =>
    rw [unwind, which, if_pos (.inl rfl)]
    dsimp only [Sh.trap]
    split
    · rename_i a h; exact absurd h (ht a)
    · exact leave_jump hne hp (by omega)

/-- **C116** With `set -e` an error runs it as well; without an EXIT trap the ERR trap is run instead. -/
theorem errexit_runs_trap {sem : A → Sh A → Res × Sh A} {st : St A} {env : List Env} (hne : env ≠ []) (hp : Plain env)
    (he : st.sh.ee = true) {w : Why} (hw : w = .error ∨ w = .intr) (hd : ∀ a s, ∃ s', sem a s = (.done, s')) :
    ∃ st' : St A, st'.sh.exstat = st.sh.exstat ∧
      (∀ a, st.sh.exitT = .act a → st'.log = (.exit, a) :: st.log) ∧
      (st.sh.exitT = .ignore → st'.log = st.log) ∧
      (∀ a, st.sh.exitT = .none → st.sh.errT = .act a → st'.log = (.err, a) :: st.log) ∧
      ∀ f, env.length < f → unwind sem f w env st = some (.exited false st') := by
  have hwe : w ≠ .exit := by rcases hw with rfl | rfl <;> simp
  cases hx : st.sh.exitT with
  | none =>
    have hwh : which st.sh w = some .err := by simp [which, hx, hw, he, hwe]
    cases hr : st.sh.errT with
    | act a =>
      obtain ⟨s', hs'⟩ := hd a (st.sh.enter .err)
      refine ⟨{ sh := st.sh.back s' .err, log := (.err, a) :: st.log }, rfl, by simp, by simp, by simp, fun f hf => ?_⟩
      cases f with
      | zero => omega
      | succ f =>
        rw [unwind, hwh]
        simp only [Sh.trap, hr, hs']
        exact leave_jump hne hp (by omega)
    | _ =>
      refine ⟨st, rfl, by simp, by simp, by simp, fun f hf => ?_⟩
      cases f with
      | zero => omega
      | succ f =>
        rw [unwind, hwh]
        simp only [Sh.trap, hr]
        exact leave_jump hne hp (by omega)
  | ignore =>
    have hwh : which st.sh w = some .exit := by simp [which, hx, hw, he]
    refine ⟨st, rfl, by simp, by simp, by simp, fun f hf => ?_⟩
    cases f with
    | zero => omega
    | succ f =>
      rw [unwind, hwh]
      simp only [Sh.trap, hx]
      exact leave_jump hne hp (by omega)
  | act a =>
    have hwh : which st.sh w = some .exit := by simp [which, hx, hw, he]
    obtain ⟨s', hs'⟩ := hd a (st.sh.enter .exit)
    refine ⟨{ sh := st.sh.back s' .exit, log := (.exit, a) :: st.log }, rfl, by simp, by simp, by simp, fun f hf => ?_⟩
    cases f with
    | zero => omega
    | succ f =>
      rw [unwind, hwh]
      simp only [Sh.trap, hx, hs']
      exact leave_jump hne hp (by omega)

/-! ### What does not run it -/

theorem jump_log {k : Why → List Env → St A → Option (Final A)} {w : Why} {st : St A}
    (hk : ∀ env fin, k w env st = some fin → fin.state = st) :
    ∀ {env : List Env} {fin}, jump k w env st = some fin → fin.state = st
  | [], fin, h => by
    simp only [jump, Option.some.injEq] at h; subst h; rfl
  | e :: rest, fin, h => by
    have ih := fun fin => jump_log hk (env := rest) (fin := fin)
    have tail : ∀ e', (match handler st.sh e' w with
      | some .atPrompt => some (.resumed .atPrompt (e' :: rest) st)
      | some (.function rv) => some (.resumed (.function rv) (e' :: rest) st)
      | some h => if rest.isEmpty then some (.exited false st) else some (.resumed h rest st)
      | none => if rest.isEmpty then some (.exited false st) else k w rest st) = some fin →
        fin.state = st := by
      intro e' h
      split at h
      · cases h; rfl
      · cases h; rfl
      · split at h <;> (cases h; rfl)
      · split at h
        · cases h; rfl
        · exact hk _ _ h
    cases e with
    | base =>
      simp only [jump] at h
      split at h
      · cases h; rfl
      · exact ih _ h
    | exec =>
      simp only [jump] at h
      split at h
      · cases h; rfl
      · exact ih _ h
    | parse b => exact tail (.parse b) h
    | func => exact tail .func h
    | incl b => exact tail (.incl b) h
    | pass => exact tail .pass h
    | here => exact tail .here h
    | prompt => exact tail .prompt h

/-- **C116** The whole claim fails: a shell error without `set -e`, `exec` of what cannot be found, an untrapped SIGHUP, and an
`exit` in a script that has stopped jobs never run the action, whether or not the process exits. -/
theorem not_run {sem : A → Sh A → Res × Sh A} {st : St A} {w : Why} (hw : w = .leave ∨ w = .shell ∨ (st.sh.ee = false ∧ (w = .error ∨ w = .intr))) :
    ∀ (f : Nat) {env : List Env} {fin}, unwind sem f w env st = some fin →
      fin.state = st
  | 0, _, _, h => by simp [unwind] at h
  | f + 1, env, fin, h => by
    have hwh : which st.sh w = none := by
      rcases hw with rfl | rfl | ⟨h1, rfl | rfl⟩ <;> simp [which, *]
    rw [unwind, hwh] at h
    exact jump_log (fun env fin h => not_run hw f h) h

/-- An action that comes to its end and changes nothing. -/
def quiet (_ : Unit) (s : Sh Unit) : Res × Sh Unit := (.done, s)

/-- `trap … EXIT; : ${x?}` in a script: status 1 and no action. -/
theorem error_skips_trap : unwind quiet 9 .error [.exec, .parse false, .base] { sh := { exitT := .act (), exstat := 1 } } =
    some (.exited false { sh := { exitT := .act (), exstat := 1 } }) := by decide

/-- `(f)` where `f` sets an EXIT trap: the child is a simple command, and comexec ends it. -/
theorem simple_child_skips_trap : unwind quiet 9 (childWhy true) [.exec, .exec] { sh := { exitT := .act () } } =
    some (.exited false { sh := { exitT := .act () } }) ∧
    -- `(f; :)` does run it
    unwind quiet 9 (childWhy false) [.exec] { sh := { exitT := .act () } } =
    some (.exited false { sh := { exitT := .act () }, log := [(.exit, ())] }) := by decide

/-- `exit` in a script with job control and a stopped job. -/
theorem stopped_skips_trap : unwind quiet 9 (exitWhy false true).1 [.parse false, .base] { sh := { exitT := .act () } } =
    some (.exited false { sh := { exitT := .act () } }) := by decide

/-- An action in which a shell error happens. -/
def failing (_ : Unit) (s : Sh Unit) : Res × Sh Unit := (.jump .error, { s with exstat := 1 })

/-- `trap ': ${x?}' EXIT; f() { exit 3; }; f; echo still here`: the error in the action is caught by the function, and the script
goes on after `exit`, without the trap. -/
theorem trap_error_goes_on : unwind failing 9 .exit [.exec, .func, .parse false, .base] { sh := { exitT := .act (), exstat := 3 } } =
    some (.resumed (.function 1) [.func, .parse false, .base] { sh := { exstat := 1 }, log := [(.exit, ())] }) := by decide

/-- With `set -e` an error in a here-document runs the action, but the shell goes on with a failed redirection; which is an error
again and runs the action a second time. -/
theorem here_runs_twice : unwind quiet 9 .error [.here, .exec, .parse false, .base] { sh := { ee := true, exitT := .act (), exstat := 1 } } =
      some (.resumed .hereFails [.exec, .parse false, .base] { sh := { ee := true, exitT := .act (), exstat := 1 }, log := [(.exit, ())] }) ∧
    unwind quiet 9 .error [.parse false, .base] { sh := { ee := true, exitT := .act (), exstat := 1 }, log := [(.exit, ())] } =
      some (.exited false { sh := { ee := true, exitT := .act (), exstat := 1 }, log := [(.exit, ()), (.exit, ())] }) := by decide

/-! ## C117: errors -/

theorem handler_error {s : Sh A} {e : Env} : (handler s e .error = none ↔ ¬ Catches e) := by
  constructor
  · intro h c
    cases c <;> simp_all [handler]
  · intro h
    cases e with
    | parse b =>
      cases b
      · rfl
      · exact absurd .loop h
    | func => exact absurd .func h
    | incl b => exact absurd .incl h
    | here => exact absurd .here h
    | prompt => exact absurd .prompt h
    | _ => rfl

theorem jump_skip {k : Why → List Env → St A → Option (Final A)} {w : Why} {st : St A} {rest : List Env} (hr : rest ≠ []) {fin}
    (hj : jump k w rest st = some fin) (hk : k w rest st = some fin) {e : Env} (he : handler st.sh e w = none) :
    jump k w (e :: rest) st = some fin := by
  have hr' : rest.isEmpty = false := by cases rest <;> simp_all
  cases e with
  | base => simp [jump, hr', hj]
  | exec => simp [jump, hr', hj]
  | _ => simp_all [jump]

/-- Without `set -e`, environments that do not catch it are left. -/
theorem error_passes {sem : A → Sh A → Res × Sh A} {st : St A} (he : st.sh.ee = false) {rest : List Env} (hr : rest ≠ []) {fin} {n : Nat}
    (h : ∀ f, n < f → unwind sem f .error rest st = some fin) : ∀ {pre : List Env}, (∀ e ∈ pre, ¬ Catches e) →
    ∀ f, n + pre.length < f → unwind sem f .error (pre ++ rest) st = some fin
  | [], _, f, hf => h f (by simpa using hf)
  | e :: pre, hp, f, hf => by
    have hwh : which st.sh .error = none := by simp [which, he]
    have ih := error_passes he hr h (pre := pre) (fun x hx => hp x (List.mem_cons_of_mem _ hx))
    cases f with
    | zero => omega
    | succ f =>
      have h1 := ih f (by simp at hf; omega)
      have h2 := ih (f + 1) (by simp at hf; omega)
      rw [unwind, hwh] at h2
      rw [unwind, hwh]
      exact jump_skip (by simp [hr]) h2 h1 (handler_error.2 (hp e List.mem_cons_self))

/-- **C117** A shell error (a bad substitution, an unset parameter with `${x?}`, a failing special built-in, …) that is not inside
a function, a file read by `.`, or a here-document ends a shell that is not interactive, with the status of the error, through
any depth of loops, `eval`s and lists.

Partial: it does not inside those; `function_survives`, `dot_survives`, `here_survives`. -/
theorem error_ends_script_partial {sem : A → Sh A → Res × Sh A} {st : St A} (he : st.sh.ee = false) {pre : List Env}
    (hp : ∀ e ∈ pre, ¬ Catches e) (f : Nat) (hf : pre.length < f) :
    unwind sem f .error (pre ++ [.base]) st = some (.exited false st) := by
  refine error_passes he (by simp) (n := 0) (fun f hf => ?_) hp f (by omega)
  cases f with
  | zero => omega
  | succ f => rw [unwind]; simp [which, he, jump]

/-- **C117** In an interactive shell it leads back to the prompt. -/
theorem error_to_prompt {sem : A → Sh A → Res × Sh A} {st : St A} (he : st.sh.ee = false) {pre rest : List Env}
    (hp : ∀ e ∈ pre, ¬ Catches e) (f : Nat) (hf : pre.length < f) :
    unwind sem f .error (pre ++ .parse true :: rest) st = some (.resumed .atPrompt (.parse true :: rest) st) := by
  refine error_passes he (by simp) (n := 0) (fun f hf => ?_) hp f (by omega)
  cases f with
  | zero => omega
  | succ f => rw [unwind]; simp [which, he, jump, handler]

/-- **C117** Within a function it ends the function only, with this status, even in a script. -/
theorem function_survives {sem : A → Sh A → Res × Sh A} {st : St A} (he : st.sh.ee = false) {pre rest : List Env}
    (hp : ∀ e ∈ pre, ¬ Catches e) (f : Nat) (hf : pre.length < f) :
    unwind sem f .error (pre ++ .func :: rest) st = some (.resumed (.function st.sh.exstat) (.func :: rest) st) := by
  refine error_passes he (by simp) (n := 0) (fun f hf => ?_) hp f (by omega)
  cases f with
  | zero => omega
  | succ f => rw [unwind]; simp [which, he, jump, handler]

/-- **C117** Within a file read by `.` it ends the file only. -/
theorem dot_survives {sem : A → Sh A → Res × Sh A} {st : St A} (he : st.sh.ee = false) {pre rest : List Env} {b : Bool} (hr : rest ≠ [])
    (hp : ∀ e ∈ pre, ¬ Catches e) (f : Nat) (hf : pre.length < f) :
    unwind sem f .error (pre ++ .incl b :: rest) st = some (.resumed (.included (st.sh.exstat % 256)) rest st) := by
  refine error_passes he (by simp) (n := 0) (fun f hf => ?_) hp f (by omega)
  cases f with
  | zero => omega
  | succ f =>
    have hr' : rest.isEmpty = false := by cases rest <;> simp_all
    rw [unwind]
    cases b <;> simp [which, he, jump, handler, hr']

/-- **C117** Within a here-document it only makes the redirection fail. -/
theorem here_survives {sem : A → Sh A → Res × Sh A} {st : St A} (he : st.sh.ee = false) {pre rest : List Env} (hr : rest ≠ [])
    (hp : ∀ e ∈ pre, ¬ Catches e) (f : Nat) (hf : pre.length < f) :
    unwind sem f .error (pre ++ .here :: rest) st = some (.resumed .hereFails rest st) := by
  refine error_passes he (by simp) (n := 0) (fun f hf => ?_) hp f (by omega)
  cases f with
  | zero => omega
  | succ f =>
    have hr' : rest.isEmpty = false := by cases rest <;> simp_all
    rw [unwind]
    simp [which, he, jump, handler, hr']

/-! ### Children -/

theorem jump_child {k : Why → List Env → St A → Option (Final A)} {b : Env} (hb1 : b ≠ .parse true) (hb2 : b ≠ .func) {w : Why} {st : St A}
    {how below st'} (hk : ∀ own, k w (own ++ [.exec, b]) st = some (.resumed how below st') → ∃ q, below = q ++ [.exec, b]) :
    ∀ {own : List Env}, jump k w (own ++ [.exec, b]) st = some (.resumed how below st') → ∃ q, below = q ++ [.exec, b]
  | [], h => by
    simp only [List.nil_append, jump, List.isEmpty_cons, Bool.false_eq_true, if_false] at h
    exfalso
    cases b with
    | parse x =>
      cases x
      · cases w <;> simp [handler] at h
      · exact hb1 rfl
    | func => exact hb2 rfl
    | incl x => cases x <;> cases w <;> simp [handler] at h <;> (split at h <;> simp_all)
    | _ => cases w <;> simp [handler] at h
  | e :: own, h => by
    have ih := jump_child hb1 hb2 hk (own := own)
    have hne : (own ++ [Env.exec, b]).isEmpty = false := by simp
    have tail : ∀ e', (match handler st.sh e' w with
      | some .atPrompt => some (.resumed .atPrompt (e' :: (own ++ [.exec, b])) st)
      | some (.function rv) => some (.resumed (.function rv) (e' :: (own ++ [.exec, b])) st)
      | some h => if (own ++ [Env.exec, b]).isEmpty then some (.exited false st) else some (.resumed h (own ++ [.exec, b]) st)
      | none => if (own ++ [Env.exec, b]).isEmpty then some (.exited false st) else k w (own ++ [.exec, b]) st) =
        some (.resumed how below st') → ∃ q, below = q ++ [.exec, b] := by
      intro e' h
      simp only [hne, Bool.false_eq_true, if_false] at h
      split at h
      · cases h; exact ⟨e' :: own, rfl⟩
      · cases h; exact ⟨e' :: own, rfl⟩
      · cases h; exact ⟨own, rfl⟩
      · exact hk own h
    cases e with
    | base =>
      simp only [List.cons_append, jump, hne, Bool.false_eq_true, if_false] at h
      exact ih h
    | exec =>
      simp only [List.cons_append, jump, hne, Bool.false_eq_true, if_false] at h
      exact ih h
    | parse b => exact tail (.parse b) h
    | func => exact tail .func h
    | incl b => exact tail (.incl b) h
    | pass => exact tail .pass h
    | here => exact tail .here h
    | prompt => exact tail .prompt h

/-- **C117** A child never goes on with what its parent was doing: whatever is thrown in it, and whatever its traps do, it exits or
goes on within the command it was made for.  Its stack has one environment `b` of the parent at the bottom.

Partial: if `b` is not the loop of an interactive shell; see `child_at_prompt`. -/
theorem child_stays_partial {sem : A → Sh A → Res × Sh A} {b : Env} (hb1 : b ≠ .parse true) (hb2 : b ≠ .func) :
    ∀ (f : Nat) {w : Why} {own : List Env} {st : St A} {how below st'},
      unwind sem f w (own ++ [.exec, b]) st = some (.resumed how below st') → ∃ q, below = q ++ [.exec, b]
  | 0, _, _, _, _, _, _, h => by simp [unwind] at h
  | f + 1, w, own, st, how, below, st', h => by
    have ih := fun (w : Why) (own : List Env) (st : St A) => child_stays_partial (sem := sem) hb1 hb2 f (w := w) (own := own) (st := st)
      (how := how) (below := below) (st' := st')
    rw [unwind] at h
    have hj : ∀ w st, jump (unwind sem f) w (own ++ [.exec, b]) st = some (.resumed how below st') → ∃ q, below = q ++ [.exec, b] := by
      intro w st h
      exact jump_child hb1 hb2 (fun own' h => ih w own' st h) h
    split at h
    · exact hj _ _ h
    · split at h
      · split at h
        · exact hj _ _ h
        · exact ih _ (.parse false :: own) _ h
      · exact hj _ _ h

/-- **C117** A command substitution in the message of `MAILPATH` is run by the loop of the interactive shell itself.  If there is an
error in it the child goes on as an interactive shell, which reads from the terminal beside its parent. -/
theorem child_at_prompt : unwind quiet 9 .error [.exec, .parse true] { sh := { exstat := 1 } } =
    some (.resumed .atPrompt [.parse true] { sh := { exstat := 1 } }) := by decide

/-! ## C118: leaving the interactive shell -/

/-- **C118** With `ignoreeof` the shell is not left by fewer than 13 ends of file, whatever else is typed but `exit`. -/
theorem eof_ignored : ∀ (h : List (In × Bool)) {l : Loop}, (∀ i ∈ h, i.1 ≠ .exit) → h.countP (fun i => i.1 = .eof) < l.attempts →
    turns true l h ≠ none
  | [], l, _, _ => by simp [turns]
  | (i, b) :: h, l, he, hc => by
    have hi := he _ List.mem_cons_self
    have ih := fun l => eof_ignored h (l := l) (fun x hx => he x (List.mem_cons_of_mem _ hx))
    rw [List.countP_cons] at hc
    cases i with
    | eof =>
      simp only [decide_true, if_true] at hc
      simp only [turns, turn]
      rw [if_pos ⟨trivial, by omega⟩]
      exact ih _ (by simp only; omega)
    | exit => exact absurd rfl hi
    | _ => simp only [turns, turn]; exact ih _ (by simpa using hc)

/-- **C118** 13 ends of file in a row leave it, if there are no jobs that would be lost; one more if there are. -/
theorem eof_leaves {l : Loop} (hl : l.attempts ≤ 13) : turns true l (List.replicate 13 (.eof, false)) = none ∧
    turns true l (List.replicate 14 (.eof, true)) = none := by
  obtain ⟨a, r⟩ := l
  have hl : a ≤ 13 := hl
  have : ∀ a ≤ 13, ∀ r, turns true ⟨a, r⟩ (List.replicate 13 (.eof, false)) = none ∧ turns true ⟨a, r⟩ (List.replicate 14 (.eof, true)) = none := by
    decide
  exact this a hl r

/-- **C118** The whole claim fails: they need not be in a row, although the manual says so.  Twelve of them hours ago, and the next
one leaves the shell. -/
theorem eof_not_in_a_row : turns true {} (List.replicate 12 (.eof, false) ++ [(.line, false), (.eof, false)]) = none := by decide

/-- **C118** Without `ignoreeof` and without jobs that would be lost, an end of file and `exit` leave. -/
theorem leaves {l : Loop} : turn false l (.eof, false) = none ∧ ∀ ig, turn ig l (.exit, false) = none := by
  simp [turn, exitWhy]

/-- **C118** With stopped jobs, `exit` and the end of file are refused after a command that was carried out, and at the start. -/
theorem refused_first {ig : Bool} {l l' : Loop} {h : List (In × Bool)} {b : Bool} (hh : turns ig l (h ++ [(.line, b)]) = some l') :
    turn ig l' (.exit, true) ≠ none ∧ turn false l' (.eof, true) ≠ none := by
  have hr : l'.really = false := by
    induction h generalizing l with
    | nil => simp only [List.nil_append, turns, turn, Option.some.injEq] at hh; rw [← hh]
    | cons i h ih =>
      rw [List.cons_append, turns] at hh
      split at hh
      · cases hh
      · exact ih hh
  simp [turn, exitWhy, hr]

/-- **C118** When such an attempt was refused, the next one at once leaves, if it is `exit` or, without `ignoreeof`, an end of
file. -/
theorem second_leaves {ig : Bool} {l l' : Loop} (h : turn ig l (.exit, true) = some l' ∨ turn false l (.eof, true) = some l') (b : Bool) :
    turn ig l' (.exit, b) = none ∧ turn false l' (.eof, b) = none := by
  have hr : l'.really = true := by
    rcases h with h | h
    · simp only [turn, exitWhy] at h
      cases hr : l.really <;> simp [hr] at h
      rw [← h]
    · simp only [turn] at h
      cases hr : l.really <;> simp [hr] at h
      rw [← h]
  simp [turn, exitWhy, hr]

/-- **C118** "At once" is not quite so: a command that failed by a shell error or was interrupted in between does not count. -/
theorem not_at_once : turns false {} [(.exit, true), (.fails, true), (.exit, true)] = none := by decide

example : turns true {} [(.eof, false), (.line, false), (.exit, true), (.line, true), (.exit, true)] = some { attempts := 12, really := true } := by
  decide

/-- Three functions deep, in a loop, the action changes `$?`. -/
example : unwind (fun (_ : Unit) s => (.done, { s with exstat := 7 })) 20 .exit
    [.func, .exec, .pass, .func, .incl false, .parse false, .func, .parse true, .base] { sh := { exitT := .act (), exstat := 3 } } =
    some (.exited false { sh := { exitT := .act (), exstat := 3 }, log := [(.exit, ())] }) := by decide

end Ksh.Leave
