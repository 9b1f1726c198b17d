import Verif.Callbi.Spec

/-!
# Calls of built-in commands: proofs (C142)
-/
namespace Ksh.Callbi

/-- No `shprintf` while `shl_stdout_ok` is not set. -/
def safe : Bool → List Act → Bool
  | _, [] => true
  | ok, .say _ :: l => ok && safe ok l
  | _, .err _ :: l => safe false l
  | ok, _ :: l => safe ok l

/-- What a step does when it does not leave. -/
def app (s : St) (a : Act) : St :=
  match a with
  | .block => { s with omask := s.blocked, blocked := true }
  | .restore => { s with blocked := s.omask }
  | .say t => { s with pend := s.pend ++ [t] }
  | .put t => { s with pend := s.pend ++ [t] }
  | .flush => { s with out := s.out ++ s.pend, pend := [] }
  | .err m => { s with ok := false, errs := s.errs ++ [(s.argv0, m)] }
  | .eff e => { s with effs := s.effs ++ [e] }

theorem run_safe (as : List Act) : ∀ s : St, leaves s = false → safe s.ok as = true →
    run as s = .done (as.foldl app s) := by
  induction as with
  | nil => intro s _ _; rfl
  | cons a l ih =>
    intro s hl hs
    cases a with
    | say t =>
      simp only [safe, Bool.and_eq_true] at hs
      have e : act1 (.say t) s = .done (app s (.say t)) := by simp only [act1, shprintf, hs.1, if_true, app]
      simp only [run, e]
      exact ih _ hl hs.2
    | err m =>
      simp only [safe] at hs
      simp only [run, act1, biErrorf, hl, Bool.false_eq_true, if_false, List.foldl_cons]
      exact ih _ hl hs
    | block => exact ih _ hl hs
    | restore => exact ih _ hl hs
    | put t => exact ih _ hl hs
    | flush => exact ih _ hl hs
    | eff e => exact ih _ hl hs

theorem foldl_say (ts : List String) : ∀ s : St,
    (ts.map Act.say).foldl app s = { s with pend := s.pend ++ ts } := by
  induction ts with
  | nil => intro s; simp
  | cons t l ih => intro s; simp [ih, app]

theorem safe_say (ts : List String) (l : List Act) : safe true (ts.map Act.say ++ l) = safe true l := by
  induction ts with
  | nil => rfl
  | cons t ts ih => simpa [safe] using ih

/-- The handler of an operand does what is owed, when it can. -/
structure Serves {Op : Type} (f : List Eff → Op → List Act × Int) (o : List Eff → Op → Owed) : Prop where
  rv : ∀ h x, (f h x).2 = (o h x).rv
  ok : ∀ h x, safe true (f h x).1 = true
  out : ∀ h x s, ((f h x).1.foldl app s).out ++ ((f h x).1.foldl app s).pend =
    s.out ++ s.pend ++ (o h x).out
  errs : ∀ h x s, ((f h x).1.foldl app s).errs = s.errs ++ (o h x).errs.map (fun m => (s.argv0, m))
  effs : ∀ h x s, ((f h x).1.foldl app s).effs = s.effs ++ (o h x).effs
  mask : ∀ h x s, ((f h x).1.foldl app s).blocked = s.blocked
  okAfter : ∀ h x s, ((f h x).1.foldl app s).ok = (s.ok && (o h x).errs.isEmpty)
  same : ∀ h x s, ((f h x).1.foldl app s).argv0 = s.argv0 ∧ ((f h x).1.foldl app s).flags = s.flags ∧
    ((f h x).1.foldl app s).posix = s.posix

theorem jobs_serves (w : World) : Serves (jJobs w) (owedJobs w) := by
  constructor <;> intro h x <;> (try intro s) <;> unfold jJobs <;> (try unfold owedJobs) <;>
    cases w.look h x <;> simp [app, safe] <;> cases w.shown h _ <;> simp [app, safe] <;>
    cases w.ended h _ <;> simp [app, safe]

theorem kill_serves (w : World) : Serves (killOne w) (owedKill w) := by
  constructor <;> intro h x <;> (try intro s) <;> unfold killOne <;> (try unfold owedKill) <;>
    cases x.startsWith "%" <;> cases w.look h x <;> cases w.killErr h x <;> cases w.num x <;>
    simp [app, safe]

theorem wait_serves (w : World) : Serves (waitFor w) (owedWait w) := by
  constructor <;> intro h x <;> (try intro s) <;> unfold waitFor <;> (try unfold owedWait) <;>
    rcases w.look h x with ⟨m, b⟩ | j <;> (try cases b) <;> simp [app, safe] <;>
    cases w.mine h _ <;> simp [app, safe]

theorem bind_serves (w : World) : Serves (bindOne w) (owedBind w) := by
  constructor <;> rintro h ⟨k, v⟩ <;> (try intro s) <;> unfold bindOne <;> (try unfold owedBind) <;>
    cases w.xtty <;> cases v with
    | none => simp [app, safe]
    | some f => by_cases hf : f = "" <;> cases hw : w.isFn f <;> simp [app, safe, hf, hw]

theorem bg_serves (w : World) : Serves (jResume w true) (owedBg w) := by
  constructor <;> intro h x <;> (try intro s) <;> unfold jResume <;> (try unfold owedBg) <;>
    cases w.look h x with
    | error m => simp [app, safe]
    | ok j =>
      cases hc : j.ctl <;> cases ha : j.active <;> cases hk : w.contOk h j <;>
        simp [hc, ha, hk, app, safe, foldl_say, safe_say]

theorem fg_serves (w : World) : Serves (jResume w false) (owedFg w) := by
  constructor <;> intro h x <;> (try intro s) <;> unfold jResume <;> (try unfold owedFg) <;>
    cases w.look h x with
    | error m => simp [app, safe]
    | ok j =>
      cases hc : j.ctl <;> cases ha : j.active <;> cases ht : w.tcOk h j <;> cases hk : w.contOk h j <;>
        simp [hc, ha, ht, hk, app, safe, foldl_say, safe_say]

/-! ### The loops -/

/-- A failed operand is not followed by one whose output is owed. -/
def Quiet (L : List Owed) : Prop := L.Pairwise (fun a b => a.errs ≠ [] → b.out = [])

structure Looped (L : List Owed) (s s' : St) : Prop where
  out : s'.out ++ s'.pend = s.out ++ s.pend ++ L.flatMap Owed.out
  errs : s'.errs = s.errs ++ (L.flatMap Owed.errs).map (fun m => (s.argv0, m))
  effs : s'.effs = s.effs ++ L.flatMap Owed.effs
  mask : s'.blocked = s.blocked
  posix : s'.posix = s.posix

/-- The handler does not use the guarded `shprintf`. -/
def Hush {Op : Type} (f : List Eff → Op → List Act × Int) : Prop := ∀ h x, safe false (f h x).1 = true

/-- The handler may be silent when nothing is owed on standard output. -/
def Mute {Op : Type} (f : List Eff → Op → List Act × Int) (o : List Eff → Op → Owed) : Prop :=
  ∀ h x, (o h x).out = [] → safe false (f h x).1 = true

theorem loop_did {Op : Type} {f : List Eff → Op → List Act × Int} {o : List Eff → Op → Owed}
    (sv : Serves f o) (comb : Int → Int → Int) (l : List Op) : ∀ (rv : Int) (s : St),
    leaves s = false →
    (Hush f ∨ (Mute f o ∧ (s.ok = false → ∀ b ∈ owedAll o l s.effs, b.out = []) ∧
      Quiet (owedAll o l s.effs))) →
    ∃ s', loop f comb l rv s =
        .done ((owedAll o l s.effs).foldl (fun a b => comb a b.rv) rv, s') ∧
      Looped (owedAll o l s.effs) s s' := by
  induction l with
  | nil => intro rv s _ _; exact ⟨s, rfl, by constructor <;> simp [owedAll]⟩
  | cons x l ih =>
    intro rv s hl hq
    have hs : safe s.ok (f s.effs x).1 = true := by
      cases hk : s.ok with
      | true => exact sv.ok _ _
      | false =>
        rcases hq with hq | ⟨hm, hq, -⟩
        · exact hq _ _
        · exact hm _ _ (hq hk _ (by simp [owedAll]))
    have hr := run_safe _ s hl hs
    obtain ⟨h1, h2, h3⟩ := sv.same s.effs x s
    have hl' : leaves ((f s.effs x).1.foldl app s) = false := by
      unfold leaves at hl ⊢; rw [h2, h3]; exact hl
    have he := sv.effs s.effs x s
    obtain ⟨s', e, d⟩ := ih (comb rv (f s.effs x).2) _ hl' (by
      rcases hq with hq | ⟨hm, hq, hp⟩
      · exact .inl hq
      · refine .inr ⟨hm, ?_, ?_⟩
        · rw [he, sv.okAfter]
          intro hk b hb
          simp only [owedAll, Quiet, List.pairwise_cons] at hp
          cases hk' : s.ok with
          | false => exact hq hk' b (by simp [owedAll, hb])
          | true =>
            refine hp.1 b hb ?_
            intro h0; simp [hk', h0] at hk
        · rw [he]; simp only [owedAll, Quiet, List.pairwise_cons] at hp; exact hp.2)
    rw [he] at e d
    refine ⟨s', ?_, ?_⟩
    · rw [sv.rv] at e
      simp only [loop, hr, owedAll, List.foldl_cons, sv.rv, e]
    · refine ⟨?_, ?_, ?_, ?_, ?_⟩
      · rw [d.out, sv.out]; simp [owedAll]
      · rw [d.errs, sv.errs, h1]; simp [owedAll]
      · rw [d.effs, he]; simp [owedAll]
      · rw [d.mask, sv.mask]
      · rw [d.posix, h3]

/-- The handler stumbles when output is owed after a complaint. -/
def Stumbles {Op : Type} (blk : Bool) (f : List Eff → Op → List Act × Int) (o : List Eff → Op → Owed) : Prop :=
  ∀ h x (s : St), s.ok = false → (o h x).out ≠ [] → ∃ s', run (f h x).1 s = .unwound s' ∧
    s'.blocked = (blk || s.blocked) ∧ s'.errs = s.errs ++ [(none, notValid)] ∧ s'.effs = s.effs

theorem loop_breaks {Op : Type} {blk : Bool} {f : List Eff → Op → List Act × Int}
    {o : List Eff → Op → Owed} (sv : Serves f o) (st : Stumbles blk f o) (hm : Mute f o)
    (comb : Int → Int → Int) (l : List Op) : ∀ (rv : Int) (s : St), leaves s = false →
    ¬ ((s.ok = false → ∀ b ∈ owedAll o l s.effs, b.out = []) ∧ Quiet (owedAll o l s.effs)) →
    ∃ s' i x, loop f comb l rv s = .unwound s' ∧ (owedAll o l s.effs)[i]? = some x ∧ x.out ≠ [] ∧
      s'.effs = s.effs ++ ((owedAll o l s.effs).take i).flatMap Owed.effs ∧
      s'.errs.getLast? = some (none, notValid) ∧ s'.blocked = (blk || s.blocked) := by
  induction l with
  | nil => intro rv s _ hn; exact absurd ⟨by simp [owedAll], by simp [owedAll, Quiet]⟩ hn
  | cons x l ih =>
    intro rv s hl hn
    by_cases hs : s.ok = false ∧ (o s.effs x).out ≠ []
    · obtain ⟨s', e, hb, he, hf⟩ := st s.effs x s hs.1 hs.2
      refine ⟨s', 0, o s.effs x, by simp only [loop, e], rfl, hs.2, by simp [hf], by simp [he], hb⟩
    · have hsafe : safe s.ok (f s.effs x).1 = true := by
        cases hk : s.ok with
        | true => exact sv.ok _ _
        | false =>
          refine hm _ _ ?_
          by_cases h0 : (o s.effs x).out = []
          · exact h0
          · exact absurd ⟨hk, h0⟩ hs
      have hr := run_safe _ s hl hsafe
      obtain ⟨h1, h2, h3⟩ := sv.same s.effs x s
      have hl' : leaves ((f s.effs x).1.foldl app s) = false := by
        unfold leaves at hl ⊢; rw [h2, h3]; exact hl
      have he := sv.effs s.effs x s
      obtain ⟨s', i, y, e, hy, hyo, hf, hlast, hb⟩ := ih (comb rv (f s.effs x).2) _ hl' (by
        rw [he, sv.okAfter]
        intro hc
        refine hn ⟨fun hk b hb => ?_, ?_⟩
        · simp only [owedAll, List.mem_cons] at hb
          rcases hb with rfl | hb
          · by_cases h0 : (o s.effs x).out = []
            · exact h0
            · exact absurd ⟨hk, h0⟩ hs
          · exact hc.1 (by simp [hk]) b hb
        · simp only [owedAll, Quiet, List.pairwise_cons]
          refine ⟨fun b hb h0 => hc.1 ?_ b hb, hc.2⟩
          have : (o s.effs x).errs.isEmpty = false := by
            cases hh : (o s.effs x).errs with
            | nil => exact absurd hh h0
            | cons => rfl
          simp [this])
      rw [he] at hy hf
      refine ⟨s', i + 1, y, ?_, ?_, hyo, ?_, hlast, ?_⟩
      · simp only [loop, hr]; exact e
      · simpa [owedAll] using hy
      · rw [hf]; simp [owedAll]
      · rw [hb, sv.mask]

/-! ### The handlers -/

theorem jobs_hush (w : World) : Hush (jJobs w) := by
  intro h x; unfold jJobs
  cases w.look h x <;> simp [safe] <;> cases w.shown h _ <;> simp [safe] <;>
    cases w.ended h _ <;> simp [safe]

theorem kill_hush (w : World) : Hush (killOne w) := by
  intro h x; unfold killOne
  cases x.startsWith "%" <;> cases w.look h x <;> cases w.killErr h x <;> cases w.num x <;> simp [safe]

theorem wait_hush (w : World) : Hush (waitFor w) := by
  intro h x; unfold waitFor
  rcases w.look h x with ⟨m, b⟩ | j <;> (try cases b) <;> simp [safe] <;>
    cases w.mine h _ <;> simp [safe]

theorem bind_mute (w : World) : Mute (bindOne w) (owedBind w) := by
  rintro h ⟨k, v⟩; unfold bindOne owedBind
  cases w.xtty <;> cases v with
    | none => simp [safe]
    | some f => by_cases hf : f = "" <;> cases hw : w.isFn f <;> simp [safe, hf, hw]

theorem bg_mute (w : World) : Mute (jResume w true) (owedBg w) := by
  intro h x; unfold jResume owedBg
  cases w.look h x with
  | error m => simp [safe]
  | ok j => cases hc : j.ctl <;> cases ha : j.active <;> cases hk : w.contOk h j <;> simp [hc, ha, hk, safe]

theorem fg_mute (w : World) : Mute (jResume w false) (owedFg w) := by
  intro h x; unfold jResume owedFg
  cases w.look h x with
  | error m => simp [safe]
  | ok j =>
    cases hc : j.ctl <;> cases ha : j.active <;> cases ht : w.tcOk h j <;> cases hk : w.contOk h j <;>
      simp [hc, ha, ht, hk, safe]

theorem bind_stumbles (w : World) : Stumbles false (bindOne w) (owedBind w) := by
  rintro h ⟨k, v⟩ s hs; unfold bindOne owedBind
  cases w.xtty <;> cases v with
    | none => simp [run, act1, shprintf, hs]
    | some f => by_cases hf : f = "" <;> cases hw : w.isFn f <;> simp [hf, hw]

theorem bg_stumbles (w : World) : Stumbles true (jResume w true) (owedBg w) := by
  intro h x s hs; unfold jResume owedBg
  cases w.look h x with
  | error m => simp
  | ok j =>
    cases hc : j.ctl <;> cases ha : j.active <;> cases hk : w.contOk h j <;>
      simp [hc, ha, hk, run, act1, shprintf, hs]

theorem fg_stumbles (w : World) : Stumbles true (jResume w false) (owedFg w) := by
  intro h x s hs; unfold jResume owedFg
  cases w.look h x with
  | error m => simp
  | ok j =>
    cases hc : j.ctl <;> cases ha : j.active <;> cases ht : w.tcOk h j <;> cases hk : w.contOk h j <;>
      cases hj : j.cmds <;> simp [hc, ha, ht, hk, hj, run, act1, shprintf, hs]

/-! ### The calls -/

theorem foldl_any (L : List Owed) : ∀ rv : Int, L.foldl (fun a b => anyOf a b.rv) rv =
    if L.any (fun o => o.rv ≠ 0) then 1 else rv := by
  induction L with
  | nil => intro rv; simp
  | cons o L ih =>
    intro rv
    rw [List.foldl_cons, ih]
    unfold anyOf
    by_cases h : o.rv = 0 <;> simp [h]

theorem foldl_last (L : List Owed) : ∀ rv : Int, L.foldl (fun a b => lastOf a b.rv) rv =
    (L.getLast?.map Owed.rv).getD rv := by
  induction L with
  | nil => intro rv; rfl
  | cons o L ih =>
    intro rv
    rw [List.foldl_cons, ih]
    cases L with
    | nil => rfl
    | cons o' L => simp [List.getLast?_eq_some_getLast]

theorem flags_quiet : flagsOf "jobs" = ⟨false, false⟩ ∧ flagsOf "kill" = ⟨false, false⟩ ∧
    flagsOf "fg" = ⟨false, false⟩ ∧ flagsOf "bg" = ⟨false, false⟩ ∧ flagsOf "bind" = ⟨false, false⟩ ∧
    flagsOf "wait" = ⟨false, true⟩ := by decide +kernel

/-- The state in which `call_builtin` enters the function. -/
abbrev enter (f : Flags) (n : String) (s : St) : St :=
  { s with argv0 := some n, flags := f, pend := [], ok := true }

theorem did_of_looped {c : Call} {L : List Owed} {f : Flags} {s s' : St}
    (d : Looped L (enter f c.name s) s') :
    Did c L s { s' with out := s'.out ++ s'.pend, pend := [], ok := false, flags := ⟨false, false⟩, argv0 := none } := by
  refine ⟨?_, d.errs, d.effs, d.mask⟩
  have := d.out
  simpa using this

/-- What is said of a call that did everything. -/
def Works (w : World) (c : Call) (s : St) : Prop :=
  ∃ s', call w c s = .done (owedStatus s.posix c (owedCall w c s.effs), s') ∧
    Did c (owedCall w c s.effs) s s'

/-- **C142.** `jobs`, whatever its operands: every job is shown, every operand that names none gets a message,
and the status tells of it. -/
theorem jobs_works (w : World) (l : List String) (s : St) : Works w (.jobs l) s := by
  obtain ⟨s', e, d⟩ := loop_did (jobs_serves w) anyOf l 0 (enter (flagsOf "jobs") "jobs" s)
    (by simp [leaves, flags_quiet]) (.inl (jobs_hush w))
  refine ⟨_, ?_, did_of_looped (c := .jobs l) d⟩
  simp only [call, callBuiltin, body, Call.name, e, foldl_any, owedStatus, anyRv, owedCall]
  try rfl

/-- **C142.** `kill`, whatever its operands. -/
theorem kill_works (w : World) (l : List String) (s : St) : Works w (.kill l) s := by
  obtain ⟨s', e, d⟩ := loop_did (kill_serves w) anyOf l 0 (enter (flagsOf "kill") "kill" s)
    (by simp [leaves, flags_quiet]) (.inl (kill_hush w))
  refine ⟨_, ?_, did_of_looped (c := .kill l) d⟩
  simp only [call, callBuiltin, body, Call.name, e, foldl_any, owedStatus, anyRv, owedCall]
  try rfl

/-- **C142.** `wait`, whatever its operands, when the option posix is not set. -/
theorem wait_works_partial (w : World) (l : List String) (s : St) (hp : s.posix = false) :
    Works w (.wait l) s := by
  obtain ⟨s', e, d⟩ := loop_did (wait_serves w) lastOf l 0 (enter (flagsOf "wait") "wait" s)
    (by simp [leaves, flags_quiet, hp]) (.inl (wait_hush w))
  refine ⟨_, ?_, did_of_looped (c := .wait l) d⟩
  simp only [call, callBuiltin, body, Call.name, e, foldl_last, owedStatus, lastRv, owedCall]
  try rfl

theorem not_done_of_unwound {w : World} {c : Call} {s s' : St} (h : call w c s = .unwound s') :
    ¬ Works w c s := by
  rintro ⟨_, e, -⟩; rw [h] at e; cases e

/-- What is said of a call that stumbled at an operand: from the i-th on no operand got anything, there is an
internal error, and the shell is left with SIGCHLD blocked or not (`blk`). -/
def Stumbled (blk : Bool) (w : World) (c : Call) (s : St) : Prop :=
  ∃ s' i x, call w c s = .unwound s' ∧ (owedCall w c s.effs)[i]? = some x ∧ x.out ≠ [] ∧
    s'.effs = s.effs ++ ((owedCall w c s.effs).take i).flatMap Owed.effs ∧
    s'.errs.getLast? = some (none, notValid) ∧ s'.blocked = (blk || s.blocked)

/-- **C142.** `bg` does what it owes exactly when no operand it complains of stands before one it has to announce. -/
theorem bg_works_partial (w : World) (l : List String) (s : St) (hq : Quiet (owedCall w (.bg l) s.effs)) :
    Works w (.bg l) s := by
  obtain ⟨s', e, d⟩ := loop_did (bg_serves w) lastOf l 0 (enter (flagsOf "bg") "bg" s)
    (by simp [leaves, flags_quiet]) (.inr ⟨bg_mute w, by simp, hq⟩)
  refine ⟨_, ?_, did_of_looped (c := .bg l) d⟩
  simp only [call, callBuiltin, body, Call.name, e, owedStatus]

/-- **C142, not so.** Otherwise it ends in an internal error and leaves SIGCHLD blocked. -/
theorem bg_stumbles_else (w : World) (l : List String) (s : St)
    (hq : ¬ Quiet (owedCall w (.bg l) s.effs)) : Stumbled true w (.bg l) s := by
  obtain ⟨s', i, x, e, hx, ho, hf, hl, hb⟩ := loop_breaks (bg_serves w) (bg_stumbles w) (bg_mute w) lastOf l 0
    (enter (flagsOf "bg") "bg" s) (by simp [leaves, flags_quiet]) (fun h => hq h.2)
  refine ⟨s', i, x, ?_, hx, ho, hf, hl, hb⟩
  simp only [call, callBuiltin, body, Call.name, e]

theorem bg_works_iff (w : World) (l : List String) (s : St) :
    Works w (.bg l) s ↔ Quiet (owedCall w (.bg l) s.effs) := by
  refine ⟨fun h => Classical.byContradiction fun hq => ?_, bg_works_partial w l s⟩
  obtain ⟨_, _, _, e, -⟩ := bg_stumbles_else w l s hq
  exact not_done_of_unwound e h

/-- **C142.** `fg`, likewise. -/
theorem fg_works_partial (w : World) (l : List String) (s : St) (hq : Quiet (owedCall w (.fg l) s.effs)) :
    Works w (.fg l) s := by
  obtain ⟨s', e, d⟩ := loop_did (fg_serves w) lastOf l 0 (enter (flagsOf "fg") "fg" s)
    (by simp [leaves, flags_quiet]) (.inr ⟨fg_mute w, by simp, hq⟩)
  refine ⟨_, ?_, did_of_looped (c := .fg l) d⟩
  have hp : s'.posix = s.posix := d.posix
  simp only [call, callBuiltin, body, Call.name, e, foldl_last, owedStatus, lastRv, owedCall, hp]
  try rfl

theorem fg_stumbles_else (w : World) (l : List String) (s : St)
    (hq : ¬ Quiet (owedCall w (.fg l) s.effs)) : Stumbled true w (.fg l) s := by
  obtain ⟨s', i, x, e, hx, ho, hf, hl, hb⟩ := loop_breaks (fg_serves w) (fg_stumbles w) (fg_mute w) lastOf l 0
    (enter (flagsOf "fg") "fg" s) (by simp [leaves, flags_quiet]) (fun h => hq h.2)
  refine ⟨s', i, x, ?_, hx, ho, hf, hl, hb⟩
  simp only [call, callBuiltin, body, Call.name, e]

theorem fg_works_iff (w : World) (l : List String) (s : St) :
    Works w (.fg l) s ↔ Quiet (owedCall w (.fg l) s.effs) := by
  refine ⟨fun h => Classical.byContradiction fun hq => ?_, fg_works_partial w l s⟩
  obtain ⟨_, _, _, e, -⟩ := fg_stumbles_else w l s hq
  exact not_done_of_unwound e h

/-- **C142.** `bind`, likewise; the mask is not concerned. -/
theorem bind_works_partial (w : World) (l : List (String × Option String)) (s : St)
    (hq : Quiet (owedCall w (.bind l) s.effs)) : Works w (.bind l) s := by
  obtain ⟨s', e, d⟩ := loop_did (bind_serves w) anyOf l 0 (enter (flagsOf "bind") "bind" s)
    (by simp [leaves, flags_quiet]) (.inr ⟨bind_mute w, by simp, hq⟩)
  refine ⟨_, ?_, did_of_looped (c := .bind l) d⟩
  simp only [call, callBuiltin, body, Call.name, e, foldl_any, owedStatus, anyRv, owedCall]
  try rfl

theorem bind_stumbles_else (w : World) (l : List (String × Option String)) (s : St)
    (hq : ¬ Quiet (owedCall w (.bind l) s.effs)) : Stumbled false w (.bind l) s := by
  obtain ⟨s', i, x, e, hx, ho, hf, hl, hb⟩ := loop_breaks (bind_serves w) (bind_stumbles w) (bind_mute w) anyOf l 0
    (enter (flagsOf "bind") "bind" s) (by simp [leaves, flags_quiet]) (fun h => hq h.2)
  refine ⟨s', i, x, ?_, hx, ho, hf, hl, hb⟩
  simp only [call, callBuiltin, body, Call.name, e]

theorem bind_works_iff (w : World) (l : List (String × Option String)) (s : St) :
    Works w (.bind l) s ↔ Quiet (owedCall w (.bind l) s.effs) := by
  refine ⟨fun h => Classical.byContradiction fun hq => ?_, bind_works_partial w l s⟩
  obtain ⟨_, _, _, e, -⟩ := bind_stumbles_else w l s hq
  exact not_done_of_unwound e h

/-! ### The signal mask -/

/-- A session without a stumble, and without the option posix, never leaves SIGCHLD blocked. -/
theorem after_mask (w : World) (c : Call) (s : St) (hp : s.posix = false)
    (hq : Quiet (owedCall w c s.effs)) : (after (call w c s)).blocked = s.blocked := by
  have : Works w c s := by
    cases c with
    | jobs l => exact jobs_works w l s
    | fg l => exact fg_works_partial w l s hq
    | bg l => exact bg_works_partial w l s hq
    | kill l => exact kill_works w l s
    | wait l => exact wait_works_partial w l s hp
    | bind l => exact bind_works_partial w l s hq
  obtain ⟨s', e, d⟩ := this
  rw [e]; exact d.mask

/-- A mask is only restored after it was saved. -/
def paired : Bool → List Act → Bool
  | _, [] => true
  | _, .block :: l => paired true l
  | b, .restore :: l => b && paired b l
  | b, _ :: l => paired b l

theorem run_blocked (as : List Act) : ∀ (b : Bool) (s : St), paired b as = true → s.blocked = true →
    (b = true → s.omask = true) → ∀ s', (run as s = .done s' ∨ run as s = .unwound s') →
    s'.blocked = true := by
  induction as with
  | nil =>
    intro b s _ hb _ s' h
    rcases h with h | h <;> cases h
    exact hb
  | cons a l ih =>
    intro b s hp hb ho s' h
    cases a with
    | block => exact ih true (app s .block) hp rfl (fun _ => hb) s' h
    | restore =>
      simp only [paired, Bool.and_eq_true] at hp
      exact ih b (app s .restore) hp.2 (ho hp.1) (fun _ => ho hp.1) s' h
    | put t => exact ih b (app s (.put t)) hp hb ho s' h
    | flush => exact ih b (app s .flush) hp hb ho s' h
    | eff e => exact ih b (app s (.eff e)) hp hb ho s' h
    | say t =>
      simp only [run, act1, shprintf] at h
      by_cases hk : s.ok = true
      · rw [if_pos hk] at h; exact ih b (app s (.say t)) hp hb ho s' h
      · rw [if_neg hk] at h
        rcases h with h | h <;> cases h
        exact hb
    | err m =>
      simp only [run, act1, biErrorf] at h
      by_cases hk : leaves s = true
      · rw [if_pos hk] at h
        rcases h with h | h <;> cases h
        exact hb
      · rw [if_neg hk] at h; exact ih b (app s (.err m)) hp hb ho s' h

theorem paired_say (b : Bool) (ts : List String) (l : List Act) :
    paired b (ts.map Act.say ++ l) = paired b l := by
  induction ts with
  | nil => rfl
  | cons t ts ih => simpa [paired] using ih

theorem loop_blocked {Op : Type} (f : List Eff → Op → List Act × Int)
    (hf : ∀ h x, paired false (f h x).1 = true) (comb : Int → Int → Int) (l : List Op) :
    ∀ (rv : Int) (s : St), s.blocked = true → (after (loop f comb l rv s)).blocked = true := by
  induction l with
  | nil => intro rv s hb; exact hb
  | cons x l ih =>
    intro rv s hb
    cases e : run (f s.effs x).1 s with
    | done t =>
      simp only [loop, e]
      exact ih _ t (run_blocked _ false s (hf _ _) hb (by simp) t (.inl e))
    | unwound t =>
      simp only [loop, e, after]
      exact run_blocked _ false s (hf _ _) hb (by simp) t (.inr e)

theorem paired_all (w : World) :
    (∀ h x, paired false (jJobs w h x).1 = true) ∧ (∀ bg h x, paired false (jResume w bg h x).1 = true) ∧
    (∀ h x, paired false (killOne w h x).1 = true) ∧ (∀ h x, paired false (waitFor w h x).1 = true) ∧
    (∀ h x, paired false (bindOne w h x).1 = true) := by
  refine ⟨fun h x => ?_, fun bg h x => ?_, fun h x => ?_, fun h x => ?_, fun h x => ?_⟩
  · unfold jJobs
    cases w.look h x <;> simp [paired] <;> cases w.shown h _ <;> simp [paired] <;>
      cases w.ended h _ <;> simp [paired]
  · unfold jResume
    cases w.look h x with
    | error m => simp [paired]
    | ok j =>
      cases bg <;> cases hc : j.ctl <;> cases ha : j.active <;> cases ht : w.tcOk h j <;>
        cases hk : w.contOk h j <;> simp [hc, ha, ht, hk, paired, paired_say]
  · unfold killOne
    cases x.startsWith "%" <;> cases w.look h x <;> cases w.killErr h x <;> cases w.num x <;> simp [paired]
  · unfold waitFor
    rcases w.look h x with ⟨m, b⟩ | j <;> (try cases b) <;> simp [paired] <;>
      cases w.mine h _ <;> simp [paired]
  · rcases x with ⟨k, v⟩; unfold bindOne
    cases w.xtty <;> cases v with
    | none => simp [paired]
    | some f => by_cases hf : f = "" <;> cases hw : w.isFn f <;> simp [paired, hf, hw]

theorem after_blocked (w : World) (c : Call) (s : St) (hb : s.blocked = true) :
    (after (call w c s)).blocked = true := by
  obtain ⟨p1, p2, p3, p4, p5⟩ := paired_all w
  have key : ∀ (b : St → R (Int × St)) (f : Flags) (n : String),
      (after (b (enter f n s))).blocked = true → (after (callBuiltin f n b s)).blocked = true := by
    intro b f n h
    unfold callBuiltin
    cases e : b (enter f n s) with
    | done q => rw [e] at h; exact h
    | unwound t => rw [e] at h; exact h
  have map : ∀ (r : R (Int × St)) (g : Int → St → Int), (after r).blocked = true →
      (after (match r with | .done (rv, s') => .done (g rv s', s') | .unwound s' => .unwound s')).blocked = true := by
    intro r g h
    cases r with
    | done q => exact h
    | unwound t => exact h
  apply key
  cases c with
  | jobs l => exact loop_blocked _ p1 anyOf l 0 _ hb
  | kill l => exact loop_blocked _ p3 anyOf l 0 _ hb
  | bind l => exact loop_blocked _ p5 anyOf l 0 _ hb
  | fg l => exact map _ (fun rv s' => if s'.posix then 0 else rv) (loop_blocked _ (p2 false) lastOf l 0 _ hb)
  | bg l => exact map _ (fun _ _ => 0) (loop_blocked _ (p2 true) lastOf l 0 _ hb)
  | wait l => exact map _ (fun rv _ => if rv < 0 then 127 else rv) (loop_blocked _ p4 lastOf l 0 _ hb)

/-- **C142, not so.** Once left blocked, SIGCHLD stays blocked, whatever built-ins are called: every
program started from then on runs with SIGCHLD blocked. -/
theorem blocked_for_good (w : World) (l : List Call) : ∀ s : St, s.blocked = true →
    childMask (session w l s) = true := by
  induction l with
  | nil => intro s h; exact h
  | cons c l ih => intro s h; exact ih _ (after_blocked w c s h)

/-! ### Who ends the shell -/

/-- **C142.** A complaint of a built-in ends the script exactly if it is one of the special built-ins of POSIX, or,
with the option posix, one that keeps assignments. -/
theorem complaint_ends (m : String) (name : String) (s : St) :
    (∃ s', comexec false name (complain m) s = .unwound s') ↔
      (flagsOf name).spec = true ∨ (s.posix = true ∧ (flagsOf name).keep = true) := by
  unfold comexec callBuiltin complain biErrorf leaves
  cases h1 : (flagsOf name).spec <;> cases h2 : (flagsOf name).keep <;> cases h3 : s.posix <;> simp

/-- The marked ones are the ones POSIX lists, and no other name is marked. -/
theorem spec_iff (name : String) : (flagsOf name).spec = true ↔ name ∈ posixSpecial := by
  constructor
  · intro h
    unfold flagsOf at h
    cases e : installed.find? (fun p => p.1 == name) with
    | none => rw [e] at h; cases h
    | some p =>
      rw [e] at h
      have hm := List.mem_of_find?_eq_some e
      have hn : p.1 = name := by simpa using List.find?_some e
      have all : ∀ p ∈ installed, p.2.spec = true → p.1 ∈ posixSpecial := by decide +kernel
      rw [← hn]; exact all p hm h
  · intro h
    have all : ∀ n ∈ posixSpecial, (flagsOf n).spec = true := by decide +kernel
    exact all name h

/-- **C142.** Without the option posix: exactly the special built-ins of POSIX end the shell. -/
theorem complaint_ends_iff_partial (m : String) (name : String) (s : St) (hp : s.posix = false) :
    (∃ s', comexec false name (complain m) s = .unwound s') ↔ name ∈ posixSpecial := by
  rw [complaint_ends, spec_iff, hp]; simp

/-- **C142, not so.** With the option posix, `wait`, `typeset` and `builtin` end it too. -/
theorem posix_ends : ∀ name ∈ ["wait", "typeset", "builtin"], name ∉ posixSpecial ∧
    ∃ s', comexec false name (complain "") { posix := true } = .unwound s' := by
  intro name hn
  simp only [List.mem_cons, List.not_mem_nil, or_false] at hn
  refine ⟨?_, (complaint_ends _ _ _).2 (.inr ⟨rfl, ?_⟩)⟩ <;>
    rcases hn with rfl | rfl | rfl <;> decide +kernel

/-- **C142, not so.** `command` does not take the status of a special built-in away: `command . nofile` ends
the script, whatever the name. -/
theorem command_ends (m : String) (name : String) (s : St) (h : name ∈ posixSpecial) :
    ∃ s', comexec true name (complain m) s = .unwound s' :=
  (complaint_ends m name s).2 (.inl ((spec_iff name).2 h))

/-- After a built-in that returned, the next complaint carries no name and ends nothing: that of `fc` after
an editor that is a built-in (history.c:246, 259). -/
theorem nested_forgets (f : Flags) (n : String) (b : St → R (Int × St)) (s s' : St) (rv : Int) (m : String)
    (h : callBuiltin f n b s = .done (rv, s')) :
    biErrorf m s' = .done { s' with ok := false, errs := s'.errs ++ [(none, m)] } := by
  unfold callBuiltin at h
  split at h
  · cases h; simp [biErrorf, leaves]
  · cases h

/-! ### Cases -/

/-- Jobs 1 and 2 are stopped; there is no other. -/
def two : World where
  look _ x := if x = "%1" then .ok ⟨1, true, ["vi a"], true⟩
    else if x = "%2" then .ok ⟨2, true, ["vi b"], true⟩ else .error ("no such job", true)
  tcOk _ _ := true
  contOk _ _ := true
  rv _ _ := 0
  mine _ _ := true
  killErr _ _ := none
  num _ := true
  shown _ _ := true
  line _ j := "[" ++ toString j.num ++ "] Stopped"
  ended _ _ := false
  xtty := true
  binding _ k := k ++ " = auto-insert"
  isFn f := f = "end-of-text"

/-- `bg %9 %1`: job 1 is not continued, and SIGCHLD stays blocked. -/
theorem bg_nine_one : ∃ s', call two (.bg ["%9", "%1"]) {} = .unwound s' ∧ s'.effs = [] ∧
    s'.blocked = true ∧ s'.errs = [(some "bg", "%9: no such job"), (none, notValid)] := by
  refine ⟨_, rfl, ?_, ?_, ?_⟩ <;> decide +kernel

/-- `bg %1 %9`: the other way round all is well. -/
example : (after (call two (.bg ["%1", "%9"]) {})).effs =
    [.async ⟨1, true, ["vi a"], true⟩, .cont ⟨1, true, ["vi a"], true⟩] ∧
    (after (call two (.bg ["%1", "%9"]) {})).out = ["[1] ", "vi a", "\n"] ∧
    (after (call two (.bg ["%1", "%9"]) {})).blocked = false := by decide +kernel

/-- After `bg %9 %1`, `kill %1` runs with the signal blocked, and so does everything after it. -/
example : childMask (session two [.bg ["%9", "%1"], .kill ["%1"], .jobs ["%2"]] {}) = true := by decide +kernel

example : childMask (session two [.bg ["%1", "%9"], .kill ["%9", "%1"], .jobs ["%9", "%2"]] {}) = false ∧
    (session two [.bg ["%1", "%9"], .kill ["%9", "%1"], .jobs ["%9", "%2"]] {}).effs.getLast? =
      some (.sent "%1") := by decide +kernel

/-- `bind ^A ^X=nonsense ^B`: even the first binding is not shown, as the buffer is dropped. -/
theorem bind_loses : ∃ s', call two (.bind [("^A", none), ("^X", some "nonsense"), ("^B", none)]) {} = .unwound s' ∧
    s'.out = [] ∧ (session two [.jobs ["%1"]] s').out = ["[1] Stopped"] := by
  refine ⟨_, rfl, ?_, ?_⟩ <;> decide +kernel

/-- Works: `jobs %9 %1` shows job 1 and fails. -/
example : ∃ s', call two (.jobs ["%9", "%1"]) {} = .done (1, s') ∧ s'.out = ["[1] Stopped"] ∧
    s'.errs = [(some "jobs", "%9: no such job")] := by
  refine ⟨_, rfl, ?_, ?_⟩ <;> decide +kernel

example : ¬ Quiet (owedCall two (.bg ["%9", "%1"]) []) := by
  intro h; exact absurd ((bg_works_iff two ["%9", "%1"] {}).2 h) (by
    obtain ⟨s', e, -⟩ := bg_nine_one; exact not_done_of_unwound e)

/-- `bg` reports success although nothing was continued. -/
theorem bg_succeeds : ∃ s', call two (.bg ["%9"]) {} = .done (0, s') ∧ s'.effs = [] ∧ s'.errs ≠ [] := by
  refine ⟨_, rfl, ?_, ?_⟩ <;> decide +kernel

end Ksh.Callbi
