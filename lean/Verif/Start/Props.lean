import Verif.Start.Model
import Verif.Options.Props

/-!
# The start of the shell: C120, C121, C122
-/

namespace Ksh.Start

open Ksh.Options Ksh.Getopt

/-! ## Bounds -/

theorem fresh_le {plusopt argv} {g g' : G} (h : fresh plusopt argv g = some (none, g')) (hg : 1 ≤ g.optind) :
    1 ≤ g'.optind ∧ g'.optind ≤ argv.length := by
  simp only [fresh, Getopt.arg] at h
  by_cases hle : g.optind ≤ argv.length
  · rw [if_pos hle] at h
    cases ha : argv[g.optind]? with
    | none => rw [ha] at h; simp at h; subst h; exact ⟨hg, hle⟩
    | some a =>
      have hlt : g.optind < argv.length := (List.getElem?_eq_some_iff.1 ha).1
      rw [ha] at h
      simp only at h
      split at h
      · simp at h; subst h; simp; omega
      · split at h
        · simp at h; subst h; exact ⟨hg, hle⟩
        · split at h
          · simp at h; subst h; exact ⟨hg, hle⟩
          · split at h
            · simp at h; subst h; exact ⟨hg, hle⟩
            · simp at h
  · rw [if_neg hle] at h; simp at h

theorem fresh_some {plusopt argv} {g g' : G} {c} (h : fresh plusopt argv g = some (some c, g')) : 1 ≤ g'.optind := by
  simp only [fresh] at h
  grind

theorem getopt_pos {options argv} {g g' : G} {c m} (h : getopt true options argv g = some (c, m, g')) (hg : 1 ≤ g.optind) :
    1 ≤ g'.optind ∧ (c = none → g'.optind ≤ argv.length) := by
  simp only [getopt] at h
  cases hp : pick true argv g with
  | none => rw [hp] at h; simp at h
  | some r =>
    obtain ⟨oc, g1⟩ := r
    rw [hp] at h
    cases oc with
    | none =>
      simp only [Option.some.injEq, Prod.mk.injEq] at h
      obtain ⟨rfl, rfl, rfl⟩ := h
      simp only [pick] at hp
      have : 1 ≤ g1.optind ∧ g1.optind ≤ argv.length := by
        split at hp
        · exact fresh_le hp hg
        · split at hp
          · simp at hp
          · exact fresh_le hp hg
          · simp at hp
      exact ⟨this.1, fun _ => this.2⟩
    | some c' =>
      have h1 : 1 ≤ g1.optind := by
        simp only [pick] at hp
        split at hp
        · exact fresh_some hp
        · split at hp
          · simp at hp
          · exact fresh_some hp
          · simp at hp; rw [← hp.2]; exact hg
      simp only at h
      have hc : c ≠ none := by grind
      refine ⟨?_, fun e => absurd e hc⟩
      grind

theorem loop_bounds {me what argv} : ∀ {n} {g : G} {s s' : S} {g' : G}, loop me what argv n g s = some (.done s' g') → 1 ≤ g.optind →
    1 ≤ g'.optind ∧ g'.optind ≤ argv.length
  | 0, _, _, _, _, h, _ => by simp [loop] at h
  | n + 1, g, s, s', g', h, hg => by
    simp only [loop] at h
    cases hgo : getopt true (opts what) argv { g with optarg := none } with
    | none => rw [hgo] at h; simp at h
    | some r =>
      obtain ⟨c, m, g1⟩ := r
      rw [hgo] at h
      obtain ⟨b1, b2⟩ := getopt_pos hgo hg
      cases c with
      | none =>
        simp only [Option.some.injEq, R.done.injEq] at h
        obtain ⟨-, rfl⟩ := h
        exact ⟨b1, b2 rfl⟩
      | some c =>
        simp only at h
        split at h
        · exact loop_bounds h b1
        · rename_i r hh
          simp only [Option.some.injEq] at h
          subst h
          exfalso
          simp only [handle] at hh
          grind

theorem parse_bounds {me what argv fl o i} (h : parseArgs me what argv fl = some o) (hi : o.argi = some i) (hl : argv ≠ []) :
    1 ≤ i ∧ i ≤ argv.length := by
  have hpos : 0 < argv.length := List.length_pos_iff.2 hl
  simp only [parseArgs, Option.map_eq_some_iff] at h
  obtain ⟨r, h1, rfl⟩ := h
  cases r with
  | bad s => simp at hi
  | internal s => simp at hi
  | done s g =>
    have hb := loop_bounds h1 (by simp [reset])
    simp only at hi
    split at hi
    · split at hi
      · simp at hi; omega
      · simp at hi
    · simp only [Option.some.injEq] at hi
      split at hi
      · rename_i hlone
        have : argv[g.optind]? ≠ none := by
          intro e
          simp [e] at hlone
        have : g.optind < argv.length := by
          rcases Nat.lt_or_ge g.optind argv.length with h | h
          · exact h
          · exact absurd (List.getElem?_eq_none h) this
        omega
      · omega

theorem mapM_range {α : Type} (f : Nat → Option α) (l : List α) (n : Nat) (hn : n = l.length) (h : ∀ i, i < n → f i = l[i]?) :
    (List.range n).mapM f = some l := by
  subst hn
  induction l generalizing f with
  | nil => rfl
  | cons x l ih =>
    rw [List.length_cons, List.range_succ_eq_map, List.mapM_cons]
    have h0 : f 0 = some x := by simpa using h 0 (by simp)
    have h1 : List.mapM f (List.map Nat.succ (List.range l.length)) = some l := by
      rw [List.mapM_map]
      exact ih (fun i => f (i + 1)) (fun i hi => by simpa using h (i + 1) (by simp; omega))
    rw [h0, h1]
    rfl

theorem makeArgv_eq (name : Str) (argv : List Str) (argi : Nat) (h1 : 1 ≤ argi) (h2 : argi ≤ argv.length) :
    makeArgv name (argv.length - (argi - 1)) ((argv.map some ++ [none]).drop (argi - 1)) =
      some (some name :: (argv.drop argi).map some ++ [none]) := by
  simp only [makeArgv]
  rw [mapM_range _ ((argv.drop argi).map some) _ (by simp; omega)]
  · rfl
  · intro i hi
    rw [List.getElem?_drop]
    have hlt : argi + i < argv.length := by omega
    rw [List.getElem?_append_left (by simp; omega), List.getElem?_map, List.getElem?_map, List.getElem?_drop,
      show argi - 1 + (i + 1) = argi + i by omega]

/-! ## C120: what is read, and the parameters -/

/-- Spec (ksh.1:126-147): from the words behind the options, the exit status or what is read, `$0` and `$1`…; `c` and `s` are the
options, `name` is what the shell was called. -/
def spec (c s : Bool) (openable : Str → Bool) (name : Str) : List Str → Nat ⊕ (Src × Str × List Str)
  | ops =>
    match c, s, ops with
    | true, _, [] => .inl 1
    | true, _, [cmd] => .inr (.str cmd, name, [])
    | true, _, cmd :: n :: args => .inr (.str cmd, n, args)
    | false, false, f :: args => if openable f then .inr (.file f, f, args) else .inl 1
    | false, _, args => .inr (.stdin, name, args)

theorem input_spec {w : W} {name : Str} {args : List Str} {i : Nat} {fl : Flags} (h1 : 1 ≤ i) (h2 : i ≤ args.length + 1) :
    (∀ n, spec (fl .command ≠ 0) (fl .stdin ≠ 0) w.openable name ((name :: args).drop i) = .inl n → input w (name :: args) i fl = .inl n) ∧
    (∀ src n ps, spec (fl .command ≠ 0) (fl .stdin ≠ 0) w.openable name ((name :: args).drop i) = .inr (src, n, ps) →
      ∃ i' fl', input w (name :: args) i fl = .inr (src, n, i', fl') ∧ (name :: args).drop i' = ps ∧ 1 ≤ i' ∧ i' ≤ args.length + 1 ∧
        (∀ f, f ≠ .stdin → f ≠ .talking → f ≠ .talkingI → fl' f = fl f) ∧
        (fl' .talking ≠ 0 ↔ fl .talking ≠ 0 ∨ (src = .stdin ∧ w.tty0 ∧ w.tty2))) := by
  have hg : ∀ k, (name :: args)[i + k]? = ((name :: args).drop i)[k]? := fun k => by rw [List.getElem?_drop]
  have hl : ((name :: args).drop i).length = args.length + 1 - i := by simp
  have hd : ∀ k, (name :: args).drop (i + k) = ((name :: args).drop i).drop k := fun k => by rw [List.drop_drop]
  have hg0 := hg 0
  simp only [Nat.add_zero] at hg0
  generalize hops : (name :: args).drop i = ops at *
  simp only [input]
  by_cases hc : fl .command ≠ 0
  · simp only [hc, decide_true, ne_eq, not_false_eq_true, if_true]
    cases ops with
    | nil => simp [spec, hg0]
    | cons cmd ops =>
      cases ops with
      | nil =>
        simp only [hg0, hg 1]
        refine ⟨by simp [spec], ?_⟩
        rintro src n ps h
        simp [spec] at h
        obtain ⟨rfl, rfl, rfl⟩ := h
        exact ⟨i + 1, fl, by simp, by rw [hd]; rfl, by omega, by simp at hl; omega, by simp, by simp⟩
      | cons nm ops =>
        simp only [hg0, hg 1]
        refine ⟨by simp [spec], ?_⟩
        rintro src n ps h
        simp [spec] at h
        obtain ⟨rfl, rfl, rfl⟩ := h
        exact ⟨i + 2, fl, by simp, by rw [hd]; rfl, by omega, by simp at hl; omega, by simp, by simp⟩
  · have hc0 : fl .command = 0 := by simpa using hc
    simp only [hc0, ne_eq, not_true_eq_false, decide_false, if_false]
    by_cases hs : fl .stdin = 0
    · cases ops with
      | nil =>
        rw [if_neg (by simp at hl ⊢; omega)]
        refine ⟨by simp [spec, hs], ?_⟩
        rintro src n ps h
        simp [spec, hs] at h
        obtain ⟨rfl, rfl, rfl⟩ := h
        refine ⟨i, _, rfl, hops, h1, h2, ?_, ?_⟩
        · intro f a b c; split <;> simp [upd, a, b, c]
        · by_cases ht : w.tty0 && w.tty2 <;> simp [upd, ht] <;> simp_all
      | cons f ops =>
        rw [if_pos ⟨by simp at hl ⊢; omega, hs⟩]
        simp only [hg0, List.getElem?_cons_zero, Option.getD_some]
        by_cases ho : w.openable f
        · refine ⟨by simp [spec, hs, ho], ?_⟩
          rintro src n ps h
          simp [spec, hs, ho] at h
          obtain ⟨rfl, rfl, rfl⟩ := h
          exact ⟨i + 1, fl, by simp [ho], by rw [hd]; rfl, by omega, by simp at hl; omega, by simp, by simp⟩
        · refine ⟨?_, by simp [spec, hs, ho]⟩
          intro n h
          simp [spec, hs, ho] at h
          simp [ho, h]
    · rw [if_neg (by simp [hs])]
      have e : spec false true w.openable name ops = .inr (.stdin, name, ops) := by cases ops <;> rfl
      simp only [hs, not_false_eq_true, decide_true, e]
      refine ⟨by simp, ?_⟩
      rintro src n ps h
      simp at h
      obtain ⟨rfl, rfl, rfl⟩ := h
      refine ⟨i, _, rfl, hops, h1, h2, ?_, ?_⟩
      · intro f a b c; split <;> simp [upd, a, b, c]
      · by_cases ht : w.tty0 && w.tty2 <;> simp [upd, ht] <;> simp_all

/-- main.c:437-456 -/
def fin (name : Str) (fl : Flags) (s : Sh) : Sh :=
  let restricted := decide (fl .restricted ≠ 0) || isRestricted name || isRestricted (s.var "SHELL".toList)
  let s := if restricted then
      { s with flags := upd s.flags .restricted 1, ro := s.ro ++ ["PATH".toList, "ENV".toList, "SHELL".toList] }
    else s
  let s := if fl .errexit ≠ 0 then { s with flags := upd s.flags .errexit 1 } else s
  if s.flags .talking ≠ 0 then s else { s with flags := upd s.flags .trackall 1 }

theorem fin_eq (name : Str) (fl : Flags) (s : Sh) : ∃ r e k : Bool, r = (decide (fl .restricted ≠ 0) || isRestricted name || isRestricted (s.var "SHELL".toList)) ∧
    e = decide (fl .errexit ≠ 0) ∧ k = decide (s.flags .talking = 0) ∧
    fin name fl s = { s with flags := (fun f => if f = .restricted ∧ r then 1 else if f = .errexit ∧ e then 1 else if f = .trackall ∧ k then 1 else s.flags f),
                             ro := s.ro ++ (if r then ["PATH".toList, "ENV".toList, "SHELL".toList] else []) } := by
  refine ⟨_, _, _, rfl, rfl, rfl, ?_⟩
  simp only [fin]
  generalize (decide (fl .restricted ≠ 0) || isRestricted name || isRestricted (s.var "SHELL".toList)) = r
  by_cases he : fl .errexit = 0 <;> by_cases hk : s.flags .talking = 0 <;> cases r <;> simp [he, hk, upd] <;> funext f <;> grind [upd]

theorem fin_argv (name : Str) (fl : Flags) (s : Sh) : (fin name fl s).argv = s.argv := by
  obtain ⟨r, e, k, -, -, -, h⟩ := fin_eq name fl s
  rw [h]

theorem fin_argc (name : Str) (fl : Flags) (s : Sh) : (fin name fl s).argc = s.argc := by
  obtain ⟨r, e, k, -, -, -, h⟩ := fin_eq name fl s
  rw [h]

/-- `start` from the point on where the input is known. -/
def finish (name : Str) (src : Src) (fl : Flags) (r : Tr) : List (Str × Sh) × Out :=
  match r with
  | (t, none) => (t, .left)
  | (t, some s) =>
    (t, .run src (fin name fl s))

theorem start_eq {w : W} {name args fl var o i src n i' fl'} (hp : parseArgs true OF_CMDLINE (name :: args) fl = some o) (hi : o.argi = some i)
    (hin : input w (name :: args) i o.flags = .inr (src, n, i', fl')) (h1 : 1 ≤ i') (h2 : i' ≤ args.length + 1) :
    start w (name :: args) fl var = some (finish name src fl' (profiles w
      { flags := upd (upd fl' .restricted 0) .errexit 0, var := var, argv := some n :: ((name :: args).drop i').map some ++ [none],
        argc := ((name :: args).drop i').length })) := by
  simp only [start, hp, hi, hin]
  rw [makeArgv_eq n (name :: args) i' h1 (by simpa using h2)]
  simp only
  rw [show (((name :: args).length : Int) - (i' : Int)) = (((name :: args).drop i').length : Int) by
    rw [List.length_drop]; simp only [List.length_cons] at *; omega]
  cases hpr : profiles w { flags := upd (upd fl' .restricted 0) .errexit 0, var := var, argv := some n :: ((name :: args).drop i').map some ++ [none], argc := ((name :: args).drop i').length } with
  | mk t r =>
    cases r with
    | none => rfl
    | some s => simp [finish, fin]

theorem incl_keeps {P : Sh → Prop} {w : W} (hk : ∀ f s s', P s → w.incl f s = some s' → P s') {f : Sh → Str} {r : Tr}
    (h : (∀ e ∈ r.1, P e.2) ∧ ∀ s, r.2 = some s → P s) : (∀ e ∈ (incl w f r).1, P e.2) ∧ ∀ s, (incl w f r).2 = some s → P s := by
  obtain ⟨t, o⟩ := r
  cases o with
  | none => exact h
  | some s =>
    have hs := h.2 s rfl
    simp only [incl]
    refine ⟨?_, ?_⟩
    · intro e he
      rcases List.mem_append.1 he with he | he
      · exact h.1 e he
      · simp at he; subst he; exact hs
    · intro s' e
      split at e
      · exact hk _ _ _ hs e
      · simp at e; subst e; exact hs

theorem cond_keeps {P : Tr → Prop} {b : Sh → Bool} {g : Tr → Tr} {r : Tr} (h : P r) (hg : P r → P (g r)) : P (cond b g r) := by
  simp only [cond]
  split
  · split
    · exact hg h
    · exact h
  · exact h

theorem profiles_keep {P : Sh → Prop} {w : W} (hk : ∀ f s s', P s → w.incl f s = some s' → P s') {s : Sh} (hs : P s) :
    (∀ e ∈ (profiles w s).1, P e.2) ∧ ∀ s', (profiles w s).2 = some s' → P s' := by
  have h1 : (∀ e ∈ (cond (fun s => s.flags .login ≠ 0) (fun r =>
    cond (fun s => s.flags .privileged = 0) (incl w fun s => w.subst s "$HOME/.profile".toList) (incl w (fun _ => "/etc/profile".toList) r)) ([], some s)).1, P e.2) ∧
    ∀ s', (cond (fun s => s.flags .login ≠ 0) (fun r =>
    cond (fun s => s.flags .privileged = 0) (incl w fun s => w.subst s "$HOME/.profile".toList) (incl w (fun _ => "/etc/profile".toList) r)) ([], some s)).2 = some s' → P s' := by
    refine cond_keeps (P := fun r => (∀ e ∈ r.1, P e.2) ∧ ∀ s', r.2 = some s' → P s') ⟨by simp, by simpa using hs⟩ (fun h => ?_)
    exact cond_keeps (P := fun r => (∀ e ∈ r.1, P e.2) ∧ ∀ s', r.2 = some s' → P s') (incl_keeps hk h) (fun h => incl_keeps hk h)
  simp only [profiles]
  split
  · exact h1
  · split
    · exact incl_keeps hk h1
    · split
      · split
        · exact incl_keeps hk h1
        · exact h1
      · exact h1

/-- For every command line whose options are accepted: nothing is read behind the end of the arguments, and what is read,
`$0`, `$1`… and `$#` are as specified (unless a start-up file sets them).  A start-up file may leave the shell first. -/
theorem begins {w : W} {name args fl var o i} (hp : parseArgs true OF_CMDLINE (name :: args) fl = some o) (hi : o.argi = some i) :
    (∀ n, spec (o.flags .command ≠ 0) (o.flags .stdin ≠ 0) w.openable name ((name :: args).drop i) = .inl n →
      start w (name :: args) fl var = some ([], .exit n)) ∧
    (∀ src n ps, spec (o.flags .command ≠ 0) (o.flags .stdin ≠ 0) w.openable name ((name :: args).drop i) = .inr (src, n, ps) →
      ∃ t, start w (name :: args) fl var = some (t, .left) ∨ ∃ s, start w (name :: args) fl var = some (t, .run src s) ∧
        ((∀ f s s', w.incl f s = some s' → s'.argv = s.argv ∧ s'.argc = s.argc) →
          s.argv = some n :: ps.map some ++ [none] ∧ s.argc = ps.length)) := by
  obtain ⟨h1, h2⟩ := parse_bounds hp hi (by simp)
  obtain ⟨ha, hb⟩ := input_spec (w := w) (name := name) (args := args) (fl := o.flags) h1 (by simpa using h2)
  refine ⟨fun n h => ?_, fun src n ps h => ?_⟩
  · simp only [start, hp, hi, ha n h]
  · obtain ⟨i', fl', e, e2, e3, e4, -, -⟩ := hb src n ps h
    rw [start_eq hp hi e e3 e4, e2]
    generalize hs0 : Sh.mk _ var _ _ [] = s0
    cases hpr : profiles w s0 with
    | mk t r =>
      cases r with
      | none => exact ⟨t, .inl rfl⟩
      | some s =>
        refine ⟨t, .inr ⟨_, rfl, fun hk => ?_⟩⟩
        have hh := (profiles_keep (P := fun s => s.argv = some n :: ps.map some ++ [none] ∧ s.argc = ps.length) (w := w)
          (fun f s s' hs e => by obtain ⟨a, b⟩ := hk f s s' e; exact ⟨a.trans hs.1, b.trans hs.2⟩) (s := s0) (by rw [← hs0]; exact ⟨rfl, rfl⟩)).2 s (by rw [hpr])
        refine ⟨?_, ?_⟩
        · rw [fin_argv]; exact hh.1
        · rw [fin_argc]; exact hh.2

/-! ### Whole command lines -/

theorem plain_parse (name : Str) (args : List Str) (fl : Flags) (h : ∀ a, args.head? = some a → a.head? ≠ some '-' ∧ a.head? ≠ some '+') :
    ∃ o, parseArgs true OF_CMDLINE (name :: args) fl = some o ∧ o.argi = some 1 ∧ ∀ f, f ≠ .login → o.flags f = fl f := by
  simp only [parseArgs, if_true]
  rw [loop_stops true OF_CMDLINE _ _ reset _ rfl (by simp [reset]) (by
    intro x hx
    refine .inr (.inr (h x ?_))
    cases args <;> simp_all [reset])]
  have hne : args.head? ≠ some ['-'] ∧ args.head? ≠ some ['+'] :=
    ⟨fun e => by have := (h _ e).1; simp at this, fun e => by have := (h _ e).2; simp at this⟩
  refine ⟨_, rfl, ?_, ?_⟩
  · cases args <;> simp_all [reset]
  · intro f hf
    cases args <;> simp_all [reset, upd]

theorem profiles_some {w : W} (hk : ∀ f s, (w.incl f s).isSome) (s : Sh) : (profiles w s).2.isSome := by
  have hi : ∀ f (r : Tr), r.2.isSome → (incl w f r).2.isSome := by
    rintro f ⟨t, o⟩ h
    cases o with
    | none => cases h
    | some s =>
      simp only [incl]
      split
      · exact hk _ _
      · rfl
  have h1 : (cond (fun s => s.flags .login ≠ 0) (fun r =>
    cond (fun s => s.flags .privileged = 0) (incl w fun s => w.subst s "$HOME/.profile".toList) (incl w (fun _ => "/etc/profile".toList) r)) ([], some s)).2.isSome :=
    cond_keeps (P := fun r => r.2.isSome) rfl (fun h => cond_keeps (P := fun r => r.2.isSome) (hi _ _ h) (fun h => hi _ _ h))
  simp only [profiles]
  split
  · exact h1
  · split
    · exact hi _ _ h1
    · split
      · split
        · exact hi _ _ h1
        · exact h1
      · exact h1

theorem not_left {w : W} {argv fl var t} (hk : ∀ f s, (w.incl f s).isSome) : start w argv fl var ≠ some (t, .left) := by
  intro h
  simp only [start] at h
  split at h
  · cases h
  · split at h
    · simp at h
    · split at h
      · simp at h
      · split at h
        · cases h
        · split at h
          · rename_i hp
            have := congrArg (fun r : Tr => r.2.isSome) hp
            rw [profiles_some hk] at this
            cases this
          · simp at h

/-- The start-up files come to their end and leave the parameters. -/
def Quiet (w : W) : Prop := ∀ f s, ∃ s', w.incl f s = some s' ∧ s'.argv = s.argv ∧ s'.argc = s.argc

theorem quiet_run {w : W} {name args fl var o i src n ps} (hq : Quiet w) (hp : parseArgs true OF_CMDLINE (name :: args) fl = some o) (hi : o.argi = some i)
    (h : spec (o.flags .command ≠ 0) (o.flags .stdin ≠ 0) w.openable name ((name :: args).drop i) = .inr (src, n, ps)) :
    ∃ t s, start w (name :: args) fl var = some (t, .run src s) ∧ s.argv = some n :: ps.map some ++ [none] ∧ s.argc = ps.length := by
  obtain ⟨t, h | ⟨s, h1, h2⟩⟩ := (begins (var := var) hp hi).2 src n ps h
  · exact absurd h (not_left fun f s => by obtain ⟨s', e, -⟩ := hq f s; simp [e])
  · refine ⟨t, s, h1, h2 fun f s s' e => ?_⟩
    obtain ⟨s'', e', h⟩ := hq f s
    rw [e'] at e
    cases e
    exact h

/-- `ksh file args`: whatever the arguments are, also if they look like options. -/
theorem script {w : W} {name f args fl var} (hq : Quiet w) (hc : fl .command = 0) (hs : fl .stdin = 0)
    (hf : f.head? ≠ some '-' ∧ f.head? ≠ some '+') (ho : w.openable f) :
    ∃ t s, start w (name :: f :: args) fl var = some (t, .run (.file f) s) ∧ s.argv = some f :: args.map some ++ [none] ∧ s.argc = args.length := by
  obtain ⟨o, h1, h2, h3⟩ := plain_parse name (f :: args) fl (by simpa using hf)
  refine quiet_run hq h1 h2 ?_
  simp [h3 .command (by simp), h3 .stdin (by simp), hc, hs, spec, ho]

/-- `ksh` alone reads its standard input. -/
theorem alone {w : W} {name fl var} (hq : Quiet w) (hc : fl .command = 0) :
    ∃ t s, start w [name] fl var = some (t, .run .stdin s) ∧ s.argv = [some name, none] ∧ s.argc = 0 := by
  obtain ⟨o, h1, h2, h3⟩ := plain_parse name [] fl (by simp)
  refine quiet_run (ps := []) hq h1 h2 ?_
  simp only [h3 .command (by simp), hc]
  cases decide (o.flags .stdin ≠ 0) <;> rfl

theorem letter_parse (name : Str) (args : List Str) (fl : Flags) (c : Char) (f : F) (hcf : (c, f) ∈ [('c', F.command), ('s', F.stdin)])
    (h : ∀ a, args.head? = some a → a.head? ≠ some '-' ∧ a.head? ≠ some '+') :
    ∃ o, parseArgs true OF_CMDLINE (name :: ['-', c] :: args) fl = some o ∧ o.argi = some 2 ∧ o.flags f = 1 ∧ ∀ g, g ≠ .login → g ≠ f → o.flags g = fl g := by
  have hop : ∀ a r, args = a :: r → ¬ a = ['-', '-'] ∧ optionLike true a = false := by
    rintro a r rfl
    obtain ⟨h1, h2⟩ := h a rfl
    refine ⟨by rintro rfl; simp at h1, ?_⟩
    unfold optionLike
    split
    · simp at h1
    · simp at h2
    · rfl
  have hsc0 : ∀ b, scan true (opts OF_CMDLINE) b [] args = ([], args) := by
    intro b
    rw [scan.eq_def]
    cases hargs : args with
    | nil => rfl
    | cons a r =>
      obtain ⟨h1, h2⟩ := hop a r hargs
      simp [h1, h2]
  have hk : kind (opts OF_CMDLINE) c = .flag := by
    have : c = 'c' ∨ c = 's' := by
      have := hcf
      simp at this
      rcases this with ⟨rfl, -⟩ | ⟨rfl, -⟩ <;> simp
    rcases this with rfl | rfl <;> decide +kernel
  have hsc1 : scan true (opts OF_CMDLINE) false [c] args = ([⟨false, c, none, none⟩], args) := by
    rw [scan.eq_def]
    simp only [hk, hsc0]
  have hsc : scan true (opts OF_CMDLINE) false [] (['-', c] :: args) = ([⟨false, c, none, none⟩], args) := by
    rw [scan.eq_def]
    have : ¬ ['-', c] = ['-', '-'] := by
      have := hcf
      simp at this
      rcases this with ⟨rfl, -⟩ | ⟨rfl, -⟩ <;> simp
    simp only [this, if_false, optionLike, if_true, List.head?_cons, List.tail_cons]
    simpa using hsc1
  simp only [parseArgs, if_true]
  generalize hfl : upd fl .login (if loginName ((name :: ['-', c] :: args).headD []) = true then 1 else 0) = fl1
  obtain ⟨g', hl, hd⟩ := loop_total true OF_CMDLINE name (['-', c] :: args) { flags := fl1 }
  rw [hsc] at hl hd
  have hh : handle true OF_CMDLINE c false none { flags := fl1 } = .inl { flags := changeFlag true f OF_CMDLINE 1 fl1 } := by
    have := hcf
    simp at this
    rcases this with ⟨rfl, rfl⟩ | ⟨rfl, rfl⟩
    · have : table.find? (fun x => x.c == some 'c' && decide (x.flags &&& OF_CMDLINE ≠ 0)) = some ⟨.command, none, some 'c', OF_CMDLINE⟩ := by decide +kernel
      simp only [handle]
      rw [if_neg (by decide), if_neg (by decide), if_neg (by decide), if_neg (by decide), this]
      rfl
    · have : table.find? (fun x => x.c == some 's' && decide (x.flags &&& OF_CMDLINE ≠ 0)) = some (e .stdin "stdin" (some 's') OF_CMDLINE) := by decide +kernel
      simp only [handle]
      rw [if_neg (by decide), if_neg (by decide), if_neg (by decide), if_neg (by decide), this]
      rfl
  simp only [fold, hh] at hl
  obtain ⟨b1, b2⟩ := loop_bounds hl (by simp [reset])
  have hd : (name :: ['-', c] :: args).drop g'.optind = args := hd
  have hcur : ∀ k, (name :: ['-', c] :: args)[g'.optind + k]? = args[k]? := fun k => by
    rw [← List.getElem?_drop, hd]
  have h0 := hcur 0
  have hlen := congrArg List.length hd
  simp only [List.length_drop, List.length_cons] at hlen b2
  have hi : g'.optind = 2 := by omega
  rw [hl]
  simp only [Option.map_some]
  have hlone : ((name :: ['-', c] :: args)[g'.optind]? == some ['-'] || (name :: ['-', c] :: args)[g'.optind]? == some ['+']) = false := by
    rw [show (name :: ['-', c] :: args)[g'.optind]? = args[0]? from h0]
    cases args with
    | nil => rfl
    | cons a r =>
      obtain ⟨h1, h2⟩ := h a rfl
      have e1 : a ≠ ['-'] := by rintro rfl; simp at h1
      have e2 : a ≠ ['+'] := by rintro rfl; simp at h2
      simp [e1, e2]
  simp only [hlone, Bool.and_false, Bool.false_and, Bool.false_eq_true, if_false]
  refine ⟨_, rfl, by simp [hi], ?_, ?_⟩
  · exact change_self true f OF_CMDLINE 1 fl1
  · intro g hg hgf
    show changeFlag true f OF_CMDLINE 1 fl1 g = fl g
    rw [change_frame]
    · rw [← hfl]; simp [upd, hg]
    · have := hcf
      simp at this
      rcases this with ⟨-, rfl⟩ | ⟨-, rfl⟩ <;> simpa [touches] using hgf

/-- `ksh -c command name args`: the word behind the command is `$0`. -/
theorem with_c {w : W} {name cmd n args fl var} (hq : Quiet w) (hf : cmd.head? ≠ some '-' ∧ cmd.head? ≠ some '+') :
    (∃ t s, start w (name :: ['-', 'c'] :: cmd :: n :: args) fl var = some (t, .run (.str cmd) s) ∧
      s.argv = some n :: args.map some ++ [none] ∧ s.argc = args.length) ∧
    (∃ t s, start w [name, ['-', 'c'], cmd] fl var = some (t, .run (.str cmd) s) ∧ s.argv = [some name, none] ∧ s.argc = 0) := by
  refine ⟨?_, ?_⟩
  · obtain ⟨o, h1, h2, h3, h4⟩ := letter_parse name (cmd :: n :: args) fl 'c' .command (by simp) (by simpa using hf)
    refine quiet_run hq h1 h2 ?_
    simp [h3, spec]
  · obtain ⟨o, h1, h2, h3, h4⟩ := letter_parse name [cmd] fl 'c' .command (by simp) (by simpa using hf)
    refine quiet_run (ps := []) hq h1 h2 ?_
    simp [h3, spec]

/-- `ksh -s args`: the standard input, with parameters. -/
theorem with_s {w : W} {name args fl var} (hq : Quiet w) (hc : fl .command = 0)
    (h : ∀ a, args.head? = some a → a.head? ≠ some '-' ∧ a.head? ≠ some '+') :
    ∃ t s, start w (name :: ['-', 's'] :: args) fl var = some (t, .run .stdin s) ∧ s.argv = some name :: args.map some ++ [none] ∧ s.argc = args.length := by
  obtain ⟨o, h1, h2, h3, h4⟩ := letter_parse name args fl 's' .stdin (by simp) h
  refine quiet_run hq h1 h2 ?_
  simp only [h3, h4 .command (by simp) (by simp), hc]
  cases args <;> rfl

/-- The script cannot be opened: the status is 1.  ksh.1:197-199 says 127; main.c:361 sets it, but errorf (io.c:32) sets it again. -/
theorem missing_script {w : W} {name f args fl var} (hc : fl .command = 0) (hs : fl .stdin = 0) (hf : f.head? ≠ some '-' ∧ f.head? ≠ some '+')
    (ho : w.openable f = false) : start w (name :: f :: args) fl var = some ([], .exit 1) := by
  obtain ⟨o, h1, h2, h3⟩ := plain_parse name (f :: args) fl (by simpa using hf)
  refine (begins h1 h2).1 1 ?_
  simp [h3 .command (by simp), h3 .stdin (by simp), hc, hs, spec, ho]

/-! ## C121: start-up files and restricted shells -/

/-- The shell that runs, and the shells the files saw. -/
theorem run_inv {w : W} {name args fl var t src s} (h : start w (name :: args) fl var = some (t, .run src s)) :
    ∃ o i n i' fl' s1, parseArgs true OF_CMDLINE (name :: args) fl = some o ∧ o.argi = some i ∧
      input w (name :: args) i o.flags = .inr (src, n, i', fl') ∧
      profiles w { flags := upd (upd fl' .restricted 0) .errexit 0, var := var, argv := some n :: ((name :: args).drop i').map some ++ [none], argc := ((name :: args).drop i').length } = (t, some s1) ∧
      s = fin name fl' s1 ∧ ∀ f, f ≠ .stdin → f ≠ .talking → f ≠ .talkingI → fl' f = o.flags f := by
  cases hp : parseArgs true OF_CMDLINE (name :: args) fl with
  | none => simp [start, hp] at h
  | some o =>
    cases hi : o.argi with
    | none => simp [start, hp, hi] at h
    | some i =>
      obtain ⟨h1, h2⟩ := parse_bounds hp hi (by simp)
      obtain ⟨ha, hb⟩ := input_spec (w := w) (name := name) (args := args) (fl := o.flags) h1 (by simpa using h2)
      cases hs : spec (o.flags .command ≠ 0) (o.flags .stdin ≠ 0) w.openable name ((name :: args).drop i) with
      | inl n => rw [(begins hp hi).1 n hs] at h; simp at h
      | inr r =>
        obtain ⟨src', n, ps⟩ := r
        obtain ⟨i', fl', e, e2, e3, e4, e5, e6⟩ := hb src' n ps hs
        rw [start_eq hp hi e e3 e4] at h
        cases hpr : profiles w { flags := upd (upd fl' .restricted 0) .errexit 0, var := var, argv := some n :: ((name :: args).drop i').map some ++ [none], argc := ((name :: args).drop i').length } with
        | mk t' r =>
          rw [hpr] at h
          cases r with
          | none => simp [finish] at h
          | some s1 =>
            simp only [finish, Option.some.injEq, Prod.mk.injEq, Out.run.injEq] at h
            obtain ⟨rfl, rfl, rfl⟩ := h
            exact ⟨o, i, n, i', fl', s1, rfl, hi, e, hpr, rfl, e5⟩

/-- Spec: the name without the directory. -/
def Base (name b : Str) : Prop := '/' ∉ b ∧ (name = b ∨ ∃ d, name = d ++ '/' :: b)

theorem isRestricted_base {name b : Str} (h : Base name b) : isRestricted name = true ↔ b ∈ ["rsh".toList, "rksh".toList, "rpdksh".toList, "pdrksh".toList] := by
  obtain ⟨h1, h2⟩ := h
  have hb : ∀ l : Str, (b.reverse ++ l).takeWhile (· ≠ '/') = b.reverse ++ l.takeWhile (· ≠ '/') := by
    intro l
    rw [List.takeWhile_append_of_pos]
    intro a ha
    simp only [ne_eq, decide_not, Bool.not_eq_true', decide_eq_false_iff_not]
    rintro rfl
    exact h1 (by simpa using ha)
  have : (name.reverse.takeWhile (· ≠ '/')).reverse = b := by
    rcases h2 with rfl | ⟨d, rfl⟩
    · have := hb []
      simp only [List.append_nil, List.takeWhile_nil] at this
      rw [this, List.reverse_reverse]
    · rw [List.reverse_append, List.reverse_cons, List.append_assoc, hb]
      simp
  simp only [isRestricted, this, List.contains_iff_mem]

/-- With `-r`, or if the base name of the shell or of `SHELL` after the start-up files is one of those for restricted shells, whatever
the start-up files did the commands are run by a restricted shell whose `PATH`, `ENV` and `SHELL` are read-only. -/
theorem restricted_runs {w : W} {name args fl var t src s o} (h : start w (name :: args) fl var = some (t, .run src s))
    (hp : parseArgs true OF_CMDLINE (name :: args) fl = some o)
    (hr : o.flags .restricted ≠ 0 ∨ (∃ b, Base name b ∧ b ∈ ["rsh".toList, "rksh".toList, "rpdksh".toList, "pdrksh".toList]) ∨
      (∃ b, Base (s.var "SHELL".toList) b ∧ b ∈ ["rsh".toList, "rksh".toList, "rpdksh".toList, "pdrksh".toList])) :
    s.flags .restricted = 1 ∧ ∀ v ∈ ["PATH".toList, "ENV".toList, "SHELL".toList], v ∈ s.ro := by
  obtain ⟨o', i, n, i', fl', s1, e1, e2, e3, e4, rfl, e5⟩ := run_inv h
  rw [hp] at e1
  cases e1
  obtain ⟨r, e, k, hr', -, -, hf⟩ := fin_eq name fl' s1
  have : r = true := by
    rw [hr', e5 .restricted (by simp) (by simp) (by simp)]
    rw [hf] at hr
    rcases hr with hr | ⟨b, hb, hm⟩ | ⟨b, hb, hm⟩
    · simp [hr]
    · simp [(isRestricted_base hb).2 hm]
    · simp only at hb
      simp only [(isRestricted_base hb).2 hm, Bool.or_true]
  rw [hf, this]
  refine ⟨by simp, ?_⟩
  intro v hv
  simp only [if_true]
  exact List.mem_append_right _ hv

/-- Nothing is restricted while the start-up files are read, and no error in them ends the shell because of `-e`; `-e` is on again
for the commands. -/
theorem files_unrestricted {w : W} {name args fl var t src s o} (h : start w (name :: args) fl var = some (t, .run src s))
    (hp : parseArgs true OF_CMDLINE (name :: args) fl = some o)
    (hk : ∀ f s s', w.incl f s = some s' → s'.flags .restricted = s.flags .restricted ∧ s'.flags .errexit = s.flags .errexit) :
    (∀ e ∈ t, e.2.flags .restricted = 0 ∧ e.2.flags .errexit = 0) ∧ (s.flags .errexit ≠ 0 ↔ o.flags .errexit ≠ 0) := by
  obtain ⟨o', i, n, i', fl', s1, e1, e2, e3, e4, rfl, e5⟩ := run_inv h
  rw [hp] at e1
  cases e1
  have hh := profiles_keep (P := fun s => s.flags .restricted = 0 ∧ s.flags .errexit = 0) (w := w)
    (fun f s s' hs e => by obtain ⟨a, b⟩ := hk f s s' e; exact ⟨a.trans hs.1, b.trans hs.2⟩)
    (s := { flags := upd (upd fl' .restricted 0) .errexit 0, var := var, argv := some n :: ((name :: args).drop i').map some ++ [none], argc := ((name :: args).drop i').length }) ⟨rfl, rfl⟩
  rw [e4] at hh
  refine ⟨hh.1, ?_⟩
  obtain ⟨r, e, k, -, he, -, hf⟩ := fin_eq name fl' s1
  rw [hf, ← e5 .errexit (by simp) (by simp) (by simp)]
  have := (hh.2 s1 rfl).2
  simp [he, this]

/-- The names of the files. -/
def names (t : List (Str × Sh)) : List Str := t.map Prod.fst

theorem cond_some {b : Sh → Bool} {g : Tr → Tr} {t s} : cond b g (t, some s) = if b s then g (t, some s) else (t, some s) := rfl

/-- A privileged shell reads neither `$HOME/.profile` nor `$ENV`, unless a file before it clears the option. -/
theorem privileged_files {w : W} {name args fl var t src s o} (h : start w (name :: args) fl var = some (t, .run src s))
    (hp : parseArgs true OF_CMDLINE (name :: args) fl = some o) (hpr : o.flags .privileged ≠ 0)
    (hk : ∀ f s s', w.incl f s = some s' → s'.flags .privileged = s.flags .privileged) :
    names t = (if o.flags .login ≠ 0 then ["/etc/profile".toList] else []) ++ ["/etc/suid_profile".toList] := by
  obtain ⟨o', i, n, i', fl', s1, e1, e2, e3, e4, rfl, e5⟩ := run_inv h
  rw [hp] at e1
  cases e1
  generalize hs0 : Sh.mk _ var _ _ [] = s0 at e4
  have f1 : s0.flags .privileged = o.flags .privileged := by rw [← hs0]; simp [upd, e5]
  have f2 : s0.flags .login = o.flags .login := by rw [← hs0]; simp [upd, e5]
  simp only [profiles, cond_some, f2] at e4
  by_cases hl : o.flags .login = 0
  · simp only [hl, ne_eq, not_true_eq_false, decide_false, Bool.false_eq_true, if_false] at e4
    rw [if_pos (by rw [f1]; exact hpr)] at e4
    simp only [incl, Prod.mk.injEq] at e4
    rw [← e4.1]
    simp [names, hl]
  · simp only [hl, ne_eq, not_false_eq_true, decide_true, if_true, incl, List.nil_append] at e4
    generalize hx : (if w.openable "/etc/profile".toList then w.incl "/etc/profile".toList s0 else some s0) = x at e4
    cases x with
    | none => simp [cond] at e4
    | some s' =>
      have f3 : s'.flags .privileged ≠ 0 := by
        split at hx
        · rw [hk _ _ _ hx, f1]; exact hpr
        · cases hx; rw [f1]; exact hpr
      simp only [cond_some, f3, decide_false, Bool.false_eq_true, if_false] at e4
      rw [if_pos not_false] at e4
      simp only [Prod.mk.injEq] at e4
      rw [← e4.1]
      simp [names, hl]

/-- Without the option: a login shell reads `/etc/profile` and `$HOME/.profile`; after them an interactive shell reads what the
value of `ENV` gives then, if this is not empty; others read nothing. -/
theorem plain_files {w : W} {name args fl var t src s o} (h : start w (name :: args) fl var = some (t, .run src s))
    (hp : parseArgs true OF_CMDLINE (name :: args) fl = some o) (hpr : o.flags .privileged = 0)
    (hk : ∀ f s s', w.incl f s = some s' → s'.flags .privileged = s.flags .privileged ∧ s'.flags .talking = s.flags .talking) :
    ∃ s1 s2 : Sh, names t = (if o.flags .login ≠ 0 then ["/etc/profile".toList, w.subst s1 "$HOME/.profile".toList] else []) ++
      (if (o.flags .talking ≠ 0 ∨ (src = .stdin ∧ w.tty0 ∧ w.tty2)) ∧ w.substT s2 (s2.var "ENV".toList) ≠ [] then
        [w.substT s2 (s2.var "ENV".toList)] else []) ∧ (o.flags .login = 0 → s2.var = var) := by
  obtain ⟨o', i, n, i', fl', s1, e1, e2, e3, e4, rfl, e5⟩ := run_inv h
  rw [hp] at e1
  cases e1
  have htalk : fl' .talking ≠ 0 ↔ o.flags .talking ≠ 0 ∨ (src = .stdin ∧ w.tty0 ∧ w.tty2) := by
    obtain ⟨b1, b2⟩ := parse_bounds hp e2 (by simp)
    obtain ⟨ha, hb⟩ := input_spec (w := w) (name := name) (args := args) (fl := o.flags) b1 (by simpa using b2)
    cases hs : spec (o.flags .command ≠ 0) (o.flags .stdin ≠ 0) w.openable name ((name :: args).drop i) with
    | inl n => rw [ha n hs] at e3; cases e3
    | inr r =>
      obtain ⟨src', n', ps⟩ := r
      obtain ⟨i'', fl'', e, -, -, -, -, e6⟩ := hb src' n' ps hs
      rw [e3] at e
      simp only [Sum.inr.injEq, Prod.mk.injEq] at e
      obtain ⟨rfl, rfl, rfl, rfl⟩ := e
      exact e6
  generalize hs0 : Sh.mk _ var _ _ [] = s0 at e4
  have f1 : s0.flags .privileged = 0 := by rw [← hs0]; simp [upd, e5, hpr]
  have f2 : s0.flags .login = o.flags .login := by rw [← hs0]; simp [upd, e5]
  have f4 : s0.flags .talking = fl' .talking := by rw [← hs0]; simp [upd]
  have f5 : s0.var = var := by rw [← hs0]
  simp only [← htalk, ← f4]
  -- the last part
  have last : ∀ (t0 : List (Str × Sh)) (s' : Sh), s'.flags .privileged = 0 → s'.flags .talking = s0.flags .talking →
      (if s'.flags .privileged ≠ 0 then incl w (fun _ => "/etc/suid_profile".toList) (t0, some s')
        else if s'.flags .talking ≠ 0 then
          (if w.substT s' (s'.var "ENV".toList) ≠ [] then incl w (fun _ => w.substT s' (s'.var "ENV".toList)) (t0, some s') else (t0, some s'))
        else (t0, some s')) = (t, some s1) →
      names t = names t0 ++ (if s0.flags .talking ≠ 0 ∧ w.substT s' (s'.var "ENV".toList) ≠ [] then [w.substT s' (s'.var "ENV".toList)] else []) := by
    intro t0 s' g1 g2 g3
    rw [if_neg (by simp [g1]), g2] at g3
    by_cases ht : s0.flags .talking = 0
    · simp [ht] at g3
      simp [ht, g3.1]
    · simp only [ne_eq, ht, not_false_eq_true, if_true] at g3
      by_cases hn : w.substT s' (s'.var "ENV".toList) = []
      · rw [if_neg (by simp only [hn, not_true_eq_false, not_false_eq_true])] at g3
        rw [if_neg (fun h => h.2 hn), (Prod.mk.inj g3).1, List.append_nil]
      · simp only [hn, not_false_eq_true, if_true, incl, Prod.mk.injEq] at g3
        rw [← g3.1]
        simp only [names, ne_eq, ht, hn, not_false_eq_true, and_self, if_true, List.map_append, List.map_cons, List.map_nil]
  simp only [profiles, cond_some, f2] at e4
  by_cases hl : o.flags .login = 0
  · simp only [hl, ne_eq, not_true_eq_false, decide_false, Bool.false_eq_true, if_false] at e4
    refine ⟨s0, s0, ?_, fun _ => f5⟩
    rw [last [] s0 f1 rfl e4]
    simp [hl, names]
  · simp only [hl, ne_eq, not_false_eq_true, decide_true, if_true, incl, List.nil_append] at e4
    generalize hx : (if w.openable "/etc/profile".toList then w.incl "/etc/profile".toList s0 else some s0) = x at e4
    cases x with
    | none => simp [cond] at e4
    | some s' =>
      have f3 : s'.flags .privileged = 0 ∧ s'.flags .talking = s0.flags .talking := by
        split at hx
        · rw [(hk _ _ _ hx).1, (hk _ _ _ hx).2]; exact ⟨f1, rfl⟩
        · cases hx; exact ⟨f1, rfl⟩
      simp only [cond_some, f3.1, decide_true, if_true, incl] at e4
      generalize hy : (if w.openable (w.subst s' "$HOME/.profile".toList) then w.incl (w.subst s' "$HOME/.profile".toList) s' else some s') = y at e4
      cases y with
      | none => simp at e4
      | some s'' =>
        have f6 : s''.flags .privileged = 0 ∧ s''.flags .talking = s0.flags .talking := by
          split at hy
          · rw [(hk _ _ _ hy).1, (hk _ _ _ hy).2]; exact f3
          · cases hy; exact f3
        refine ⟨s', s'', ?_, fun e => absurd e hl⟩
        rw [last _ s'' f6.1 f6.2 e4]
        simp [hl, names]

/-- A login shell is started with a `-` before its name; the name `-rksh` is not known to is_restricted, so the shell is
not restricted unless `SHELL` says so. -/
theorem login_rksh : isRestricted "-rksh".toList = false ∧ isRestricted "/bin/-rksh".toList = false ∧ isRestricted "rksh".toList = true ∧
    isRestricted "/usr/local/bin/rksh".toList = true := by
  decide +kernel

/-! ## C122: user ids -/

/-- The ids of a process that was just executed: the saved ids are the effective ones. -/
def Fresh (i : Ids) : Prop := i.suid = i.euid ∧ i.sgid = i.egid

theorem priv_inv {i : Ids} (hf : Fresh i) : ∀ (l : List Bool) (st : Bool × Ids),
    (st.2 = i ∨ st.2.ruid = i.euid ∧ st.2.euid = i.euid ∧ st.2.suid = i.euid ∧ st.2.rgid = i.rgid ∧ st.2.egid = i.rgid ∧ st.2.sgid = i.rgid) →
    (st.1 = true ∨ st.2.ruid = i.euid ∧ st.2.euid = i.euid ∧ st.2.suid = i.euid ∧ st.2.rgid = i.rgid ∧ st.2.egid = i.rgid ∧ st.2.sgid = i.rgid) →
    (privRun i.euid st l).1 = false → (privRun i.euid st l).2.ruid = i.euid ∧ (privRun i.euid st l).2.euid = i.euid ∧
      (privRun i.euid st l).2.suid = i.euid ∧ (privRun i.euid st l).2.rgid = i.rgid ∧ (privRun i.euid st l).2.egid = i.rgid ∧
      (privRun i.euid st l).2.sgid = i.rgid
  | [], st, h1, h2, h => by
    rcases h2 with h2 | h2
    · simp [privRun, h2] at h
    · exact h2
  | v :: l, st, h1, h2, h => by
    have key : ∀ j : Ids, (j = i ∨ j.ruid = i.euid ∧ j.euid = i.euid ∧ j.suid = i.euid ∧ j.rgid = i.rgid ∧ j.egid = i.rgid ∧ j.sgid = i.rgid) →
        (changePriv i.euid (true, j) false).2.ruid = i.euid ∧ (changePriv i.euid (true, j) false).2.euid = i.euid ∧
        (changePriv i.euid (true, j) false).2.suid = i.euid ∧ (changePriv i.euid (true, j) false).2.rgid = i.rgid ∧
        (changePriv i.euid (true, j) false).2.egid = i.rgid ∧ (changePriv i.euid (true, j) false).2.sgid = i.rgid := by
      intro j hj
      have e1 : j.rgid = i.rgid := by rcases hj with rfl | hj; rfl; exact hj.2.2.2.1
      have e2 : j.euid = i.euid := by rcases hj with rfl | hj; rfl; exact hj.2.1
      simp only [changePriv, Bool.not_false, Bool.and_self, if_true]
      have g1 : setresgid j j.rgid j.rgid j.rgid = { j with rgid := j.rgid, egid := j.rgid, sgid := j.rgid } := by
        simp [setresgid]
      rw [g1]
      by_cases h0 : i.euid = 0
      · simp [setgroups, setresuid, e1, e2, h0]
      · simp [setgroups, setresuid, e1, e2, h0]
    obtain ⟨b, j⟩ := st
    simp only [privRun] at h ⊢
    by_cases hb : b = true ∧ v = false
    · obtain ⟨rfl, rfl⟩ := hb
      exact priv_inv hf l _ (.inr (key j h1)) (.inr (key j h1)) h
    · have e : changePriv i.euid (b, j) v = (v, j) := by
        cases b <;> cases v <;> simp_all [changePriv]
      rw [e] at h ⊢
      refine priv_inv hf l _ h1 ?_ h
      rcases h2 with h2 | h2
      · simp only at h2
        subst h2
        cases v
        · simp at hb
        · exact .inl rfl
      · exact .inr h2

/-- When the option is off, the group ids are the real one, as the manual says.  `_partial`: the same is said of the user ids,
and there the opposite holds (`real_becomes_effective`). -/
theorem clear_groups_partial {i : Ids} (hf : Fresh i) (l : List Bool) (h : (privRun i.euid (priv0 i, i) l).1 = false) :
    (privRun i.euid (priv0 i, i) l).2.egid = i.rgid ∧ (privRun i.euid (priv0 i, i) l).2.rgid = i.rgid ∧ (privRun i.euid (priv0 i, i) l).2.sgid = i.rgid := by
  have := priv_inv hf l (priv0 i, i) (.inl rfl) (by
    cases hp : priv0 i
    · simp [priv0] at hp
      obtain ⟨a, b⟩ := hf
      exact .inr ⟨hp.1, rfl, a, rfl, hp.2.symm, by simp [b, hp.2]⟩
    · exact .inl rfl) h
  exact ⟨this.2.2.2.2.1, this.2.2.2.1, this.2.2.2.2.2⟩

/-- When the option is off, the real user id has become the effective one: `+p` gives a set-user-id shell all rights of the
owner of the file instead of taking them away (misc.c:308 with main.c:328). -/
theorem real_becomes_effective {i : Ids} (hf : Fresh i) (l : List Bool) (h : (privRun i.euid (priv0 i, i) l).1 = false) :
    (privRun i.euid (priv0 i, i) l).2.ruid = i.euid ∧ (privRun i.euid (priv0 i, i) l).2.euid = i.euid ∧ (privRun i.euid (priv0 i, i) l).2.suid = i.euid := by
  have := priv_inv hf l (priv0 i, i) (.inl rfl) (by
    cases hp : priv0 i
    · simp [priv0] at hp
      obtain ⟨a, b⟩ := hf
      exact .inr ⟨hp.1, rfl, a, rfl, hp.2.symm, by simp [b, hp.2]⟩
    · exact .inl rfl) h
  exact ⟨this.1, this.2.1, this.2.2.1⟩

/-- `set +p` in a shell that user 1000 runs and that is set-user-id root: root in all three ids. -/
theorem root_for_ever : privRun 0 (priv0 ⟨1000, 0, 0, 100, 100, 100, [100, 20]⟩, ⟨1000, 0, 0, 100, 100, 100, [100, 20]⟩) [false] =
    (false, ⟨0, 0, 0, 100, 100, 100, [100]⟩) := by decide

/-- As long as the option is not cleared nothing happens to the ids. -/
theorem untouched (i : Ids) : ∀ (l : List Bool) (b : Bool), (∀ v ∈ l, v = true) → (privRun i.euid (b, i) l).2 = i
  | [], b, _ => rfl
  | v :: l, b, h => by
    have hv := h v (by simp)
    subst hv
    have : changePriv i.euid (b, i) true = (true, i) := by simp [changePriv]
    rw [privRun, this]
    exact untouched i l true (fun v hv => h v (by simp [hv]))

/-! ## A whole start -/

/-- Nothing can be opened but /etc/profile, which does nothing, and the script. -/
def w0 : W := { openable := fun f => f == "/etc/profile".toList || f == "script".toList, tty0 := true, tty2 := true, incl := fun _ s => some s,
                subst := fun _ s => s, substT := fun _ s => s }

/-- What can be seen of a start. -/
structure Seen where
  files : List Str
  src : Option Src := none
  argv : List (Option Str) := []
  argc : Int := 0
  restricted : Nat := 0
  xtrace : Nat := 0
  deriving DecidableEq, Repr

def seen (r : Option (List (Str × Sh) × Out)) : Option Seen :=
  match r with
  | some (t, .run src s) => some ⟨names t, some src, s.argv, s.argc, s.flags .restricted, s.flags .xtrace⟩
  | some (t, _) => some { files := names t }
  | none => none

example : seen (start w0 ["-ksh".toList, "-r".toList, "script".toList, "-x".toList] (upd (fun _ => 0) .nohup 1) (fun _ => [])) =
    some ⟨["/etc/profile".toList, "$HOME/.profile".toList], some (.file "script".toList), [some "script".toList, some "-x".toList, none], 1, 1, 0⟩ := by
  decide +kernel

/-- `login -f user` for a user whose shell is /bin/rksh, with another `SHELL`: not restricted. -/
theorem login_not_restricted : seen (start w0 ["-rksh".toList] (fun _ => 0) (fun _ => "/bin/ksh".toList)) =
    some ⟨["/etc/profile".toList, "$HOME/.profile".toList, "/bin/ksh".toList], some .stdin, [some "-rksh".toList, none], 0, 0, 0⟩ := by
  decide +kernel

end Ksh.Start
