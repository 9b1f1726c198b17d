import Verif.Getopts.Model
import Verif.Getopt.Props
/-!
# The getopts command: the properties (C99)
-/

namespace Ksh.Getopts
open Ksh.Getopt (Arg G Msg Ev getopt scan size At)

/-! ## One call of ksh_getopt -/

theorem pick_optind {plusopt argv g c g'} (h : Getopt.pick plusopt argv g = some (c, g')) : g.optind ≤ g'.optind ∧ g'.optarg = g.optarg := by
  have hfresh : ∀ {c g'}, Getopt.fresh plusopt argv g = some (c, g') → g.optind ≤ g'.optind ∧ g'.optarg = g.optarg := by
    intro c g' h
    simp only [Getopt.fresh] at h
    split at h
    · cases h
    · simp only [Option.some.injEq, Prod.mk.injEq] at h; rw [← h.2]; exact ⟨Nat.le_refl _, rfl⟩
    · split at h
      · simp only [Option.some.injEq, Prod.mk.injEq] at h; rw [← h.2]; exact ⟨Nat.le_succ _, rfl⟩
      · split at h
        · simp only [Option.some.injEq, Prod.mk.injEq] at h; rw [← h.2]; exact ⟨Nat.le_refl _, rfl⟩
        · split at h
          · simp only [Option.some.injEq, Prod.mk.injEq] at h; rw [← h.2]; exact ⟨Nat.le_refl _, rfl⟩
          · split at h
            · simp only [Option.some.injEq, Prod.mk.injEq] at h; rw [← h.2]; exact ⟨Nat.le_refl _, rfl⟩
            · simp only [Option.some.injEq, Prod.mk.injEq] at h; rw [← h.2]; exact ⟨Nat.le_succ _, rfl⟩
  simp only [Getopt.pick] at h
  split at h
  · exact hfresh h
  · split at h
    · cases h
    · exact hfresh h
    · simp only [Option.some.injEq, Prod.mk.injEq] at h; rw [← h.2]; exact ⟨Nat.le_refl _, rfl⟩

theorem strchr_mem : ∀ {o : List Char} {c : Char}, Getopt.strchr o c ≠ none → c ∈ o
  | [], _, h => absurd rfl h
  | d :: r, c, h => by
    rw [Getopt.strchr] at h
    split at h
    · next hd => rw [hd]; exact List.mem_cons_self
    · exact List.mem_cons_of_mem _ (strchr_mem h)

theorem getopt_facts {plusopt options argv g optc msg g'} (h : getopt plusopt options argv g = some (optc, msg, g')) :
    g.optind ≤ g'.optind ∧ (∀ c, optc = some c → c = '?' ∨ c = ':' ∨ c ∈ options) ∧ (optc = none → g'.optarg = g.optarg) := by
  simp only [getopt] at h
  split at h
  · cases h
  · next g1 hp =>
    simp only [Option.some.injEq, Prod.mk.injEq] at h
    obtain ⟨rfl, rfl, rfl⟩ := h
    exact ⟨(pick_optind hp).1, fun c h => (nomatch h), fun _ => (pick_optind hp).2⟩
  · next c g1 hp =>
    have hle := (pick_optind hp).1
    split at h
    · split at h
      all_goals
        simp only [Option.some.injEq, Prod.mk.injEq] at h
        obtain ⟨rfl, rfl, rfl⟩ := h
        exact ⟨hle, fun c h => .inl (by cases h; rfl), fun h => (nomatch h)⟩
    · next hc =>
      have hmem : c ∈ options := strchr_mem fun h => hc (by simp [h])
      have key : ∀ (x : Option Char × Option Msg × G), some x = some (optc, msg, g') → x.1 = some c ∨ x.1 = some '?' ∨ x.1 = some ':' →
          g1.optind ≤ x.2.2.optind → g.optind ≤ g'.optind ∧ (∀ c, optc = some c → c = '?' ∨ c = ':' ∨ c ∈ options) ∧
          (optc = none → g'.optarg = g.optarg) := by
        intro x hx h1 h2
        cases hx
        simp only at h1
        refine ⟨Nat.le_trans hle h2, fun d hd => ?_, fun hn => by rw [hn] at h1; rcases h1 with h1 | h1 | h1 <;> cases h1⟩
        rw [hd] at h1
        rcases h1 with h1 | h1 | h1 <;> cases h1
        · exact .inr (.inr hmem)
        · exact .inl rfl
        · exact .inr (.inl rfl)
      repeat' split at h
      all_goals first
        | exact key _ h (.inl rfl) (Nat.le_refl _)
        | exact key _ h (.inl rfl) (Nat.le_succ _)
        | exact key _ h (.inr (.inl rfl)) (Nat.le_refl _)
        | exact key _ h (.inr (.inr rfl)) (Nat.le_refl _)
        | cases h

/-- What a call does in a state that stands at `cs` and `args`. -/
def Step (plusopt : Bool) (options : List Char) (argv : List Arg) (g : G) (cs : Arg) (args : List Arg) : Prop :=
  (∃ g', getopt plusopt options argv { g with optarg := none } = some (none, none, g') ∧
    (scan plusopt options g.plus cs args).1 = [] ∧ argv.drop g'.optind = (scan plusopt options g.plus cs args).2) ∨
  ∃ ret msg g' cs' args', getopt plusopt options argv { g with optarg := none } = some (some ret, msg, g') ∧
    At argv g' cs' args' ∧ size cs' args' < size cs args ∧
    scan plusopt options g.plus cs args = (⟨g'.plus, ret, g'.optarg, msg⟩ :: (scan plusopt options g'.plus cs' args').1,
      (scan plusopt options g'.plus cs' args').2)

theorem getopt_step (plusopt : Bool) (options : List Char) {argv : List Arg} {g : G} {cs : Arg} {args : List Arg}
    (hat : At argv g cs args) : Step plusopt options argv g cs args := by
  have hat' : At argv { g with optarg := none } cs args := hat
  have hps := Getopt.pick_spec (plusopt := plusopt) hat'
  have hopt : ∀ (c : Char) (g1 : G) (cs1 : Arg) (args1 : List Arg),
      Getopt.pick plusopt argv { g with optarg := none } = some (some c, g1) → At argv { g1 with p := g1.p + 1 } cs1 args1 →
      g1.optarg = none → g1.p ≠ 0 → size cs1 args1 < size cs args →
      scan plusopt options g.plus cs args = scan plusopt options g1.plus (c :: cs1) args1 →
      Step plusopt options argv g cs args :=
    fun c g1 cs1 args1 hp ha ho hp0 hsz hscan => by
      obtain ⟨ret, msg, g2, hg, cs2, args2, hat2, hpl, hsz2, hsc⟩ := Getopt.getopt_picked (options := options) hp ha ho hp0
      exact .inr ⟨ret, msg, g2, cs2, args2, hg, hat2, by omega, by rw [hscan, hsc, hpl]⟩
  have hstop : (∃ g', Getopt.pick plusopt argv { g with optarg := none } = some (none, g') ∧
      argv.drop g'.optind = (scan plusopt options g.plus cs args).2) → (scan plusopt options g.plus cs args).1 = [] →
      Step plusopt options argv g cs args :=
    fun ⟨g', hp, hd⟩ he => .inl ⟨g', by simp [getopt, hp], he, hd⟩
  cases cs with
  | cons c cs1 =>
    obtain ⟨hp, ha, hp0⟩ := hps
    exact hopt c _ cs1 args hp ha rfl hp0 (by simp [size]) rfl
  | nil =>
    cases args with
    | nil =>
      have hs : scan plusopt options g.plus [] [] = ([], []) := by rw [scan.eq_def]
      exact hstop (by rw [hs]; exact hps) (by rw [hs])
    | cons a r =>
      have hsc := scan.eq_def plusopt options g.plus [] (a :: r)
      simp only at hps hsc
      by_cases hd : a = ['-', '-']
      · rw [if_pos hd] at hps hsc
        exact hstop (by rw [hsc]; exact hps) (by rw [hsc])
      · rw [if_neg hd] at hps hsc
        by_cases ho : Getopt.optionLike plusopt a = true
        · rw [if_pos ho] at hps hsc
          obtain ⟨c, cs', g1, ht, hp, ha, hp0, hpl, hoa⟩ := hps
          refine hopt c g1 cs' r hp ha hoa hp0 ?_ ?_
          · have := congrArg List.length ht
            simp [size] at this ⊢; omega
          · rw [hsc, ht, hpl]
        · rw [if_neg ho] at hps hsc
          exact hstop (by rw [hsc]; exact hps) (by rw [hsc])

/-! ## Safety -/

/-- Either the check refuses the call, or the state stands somewhere in the arguments. -/
theorem changed_at {argv : List Arg} {g : G} (h : 1 ≤ g.optind) :
    changed argv g = some true ∨ (changed argv g = some false ∧ ∃ cs args, At argv g cs args) := by
  rw [changed]
  split
  · exact .inl rfl
  · next hlen =>
    by_cases hp : g.p = 0
    · rw [if_pos hp]
      exact .inr ⟨rfl, [], argv.drop g.optind, by omega, rfl, by rw [if_pos hp]⟩
    · rw [if_neg hp]
      have hlt : g.optind - 1 < argv.length := by omega
      rw [List.getElem?_eq_getElem hlt]
      simp only
      by_cases hl : argv[g.optind - 1].length < g.p
      · left; simp [hl]
      · right
        refine ⟨by simp [hl], argv[g.optind - 1].drop g.p, argv.drop g.optind, by omega, rfl, ?_⟩
        rw [if_neg hp]
        exact ⟨_, List.getElem?_eq_getElem hlt, h, by omega, rfl⟩

theorem call_safe (ro : Bool) (options : List Char) (argv : List Arg) (u : U) (h : 1 ≤ u.g.optind) :
    ∃ r u', call ro options argv u = some (r, u') ∧ 1 ≤ u'.g.optind := by
  rw [call]
  rcases changed_at (argv := argv) h with hc | ⟨hc, cs, args, hat⟩
  · rw [hc]; exact ⟨_, _, rfl, h⟩
  · rw [hc]
    simp only
    rcases getopt_step u.plusopt options hat with ⟨g', hg, _⟩ | ⟨ret, msg, g', cs', args', hg, _⟩
    · rw [hg]; exact ⟨_, _, rfl, Nat.le_trans h (getopt_facts hg).1⟩
    · rw [hg]; exact ⟨_, _, rfl, Nat.le_trans h (getopt_facts hg).1⟩

/-- **C99**, safety: whatever is assigned to OPTIND, whatever the arguments are from call to call, and however functions are
called in between, getopts never reads outside its arguments. -/
theorem never_out_of_bounds : ∀ (p : Prog) (u : U), 1 ≤ u.g.optind → ∃ u', exec p u = some u' ∧ 1 ≤ u'.g.optind
  | .done, u, h => ⟨u, rfl, h⟩
  | .assign posix v k, u, h => by
    rw [exec]
    refine never_out_of_bounds k _ ?_
    rw [reset]
    split
    · simp only; omega
    · exact h
  | .call ro options argv k, u, h => by
    obtain ⟨r, u', hc, hu⟩ := call_safe ro options argv u h
    rw [exec, hc]
    exact never_out_of_bounds k u' hu
  | .func fksh posix body k, u, h => by
    rw [exec]
    have hb : 1 ≤ (if fksh then reset posix 1 u else u).g.optind := by
      split
      · simp [reset]
      · exact h
    obtain ⟨u', he, hu⟩ := never_out_of_bounds body _ hb
    rw [he]
    simp only
    refine never_out_of_bounds k _ ?_
    split
    · exact h
    · exact hu

/-- **C99**: a function defined with `function` that parses its own options leaves the loop of its caller where it was. -/
theorem function_keeps_position (posix : Bool) (body : Prog) (u u' : U) (h : exec (.func true posix body .done) u = some u') :
    u' = { u with optarg := u'.optarg } := by
  simp only [exec, if_true] at h
  split at h
  · cases h
  · cases h; rfl

/-! ## The loop -/

/-- What the manual says `name` is set to: the option, with a `+` in front if it was given with `+`; `?` for unknown options and `:`
for missing arguments. -/
def nameOf (e : Ev) : Arg := if e.ret = '?' ∨ e.ret = ':' then [e.ret] else if e.plus then ['+', e.ret] else [e.ret]

theorem changed_false {argv : List Arg} {g : G} {cs : Arg} {args : List Arg} (hat : At argv g cs args) :
    changed argv g = some false := by
  obtain ⟨a1, a2, a3⟩ := hat
  rw [changed, if_neg (by omega)]
  by_cases hp : g.p = 0
  · rw [if_pos hp]
  · rw [if_neg hp] at a3 ⊢
    obtain ⟨a, b1, b2, b3, b4⟩ := a3
    rw [b1]; simp [b3]

theorem shown_name {e : Ev} (h : e.ret.toNat < 128) (hp : ¬ (e.ret = ':' ∧ e.plus = true)) :
    shown (some e.ret) e.plus = nameOf e := by
  have hn : neg (some e.ret) = false := by simp [neg]; omega
  rw [shown, nameOf, hn]
  by_cases h1 : e.ret = '?'
  · simp [h1]
  · by_cases h2 : e.ret = ':'
    · have : e.plus = false := by
        cases hpl : e.plus with
        | false => rfl
        | true => exact absurd ⟨h2, hpl⟩ hp
      simp [h2, this]
    · cases e.plus <;> simp [h1, h2]

theorem loop_spec (options : List Char) (hopts : ∀ c ∈ options, c.toNat < 128) {argv : List Arg} :
    ∀ (k : Nat) (u : U) (cs : Arg) (args : List Arg), size cs args ≤ k → 1 ≤ u.g.optind → At argv u.g cs args →
    (∀ e ∈ (scan u.plusopt options u.g.plus cs args).1, ¬ (e.ret = ':' ∧ e.plus = true)) →
    ∃ u', (∀ n > k, loop n options argv u =
        some ((scan u.plusopt options u.g.plus cs args).1.map fun e => (some (nameOf e), e.optarg, e.msg), some ['?'], u')) ∧
      u'.optarg = none ∧ 1 ≤ u'.uoptind ∧ argv.drop u'.uoptind = (scan u.plusopt options u.g.plus cs args).2 := by
  intro k
  induction k with
  | zero =>
    intro u cs args hk h1 hat _
    rcases getopt_step u.plusopt options hat with ⟨g', hg, he, hd⟩ | ⟨ret, msg, g', cs', args', hg, hat', hsz, hsc⟩
    · refine ⟨{ u with g := g', uoptind := g'.optind, optarg := g'.optarg }, fun n hn => ?_, (getopt_facts hg).2.2 rfl, ?_, hd⟩
      · cases n with
        | zero => omega
        | succ n => simp [loop, call, changed_false hat, hg, neg, he, shown]
      · exact Nat.le_trans h1 (getopt_facts hg).1
    · omega
  | succ k ih =>
    intro u cs args hk h1 hat hcol
    rcases getopt_step u.plusopt options hat with ⟨g', hg, he, hd⟩ | ⟨ret, msg, g', cs', args', hg, hat', hsz, hsc⟩
    · refine ⟨{ u with g := g', uoptind := g'.optind, optarg := g'.optarg }, fun n hn => ?_, (getopt_facts hg).2.2 rfl, ?_, hd⟩
      · cases n with
        | zero => omega
        | succ n => simp [loop, call, changed_false hat, hg, neg, he, shown]
      · exact Nat.le_trans h1 (getopt_facts hg).1
    · have hr : ret.toNat < 128 := by
        rcases (getopt_facts hg).2.1 ret rfl with h | h | h
        · rw [h]; decide
        · rw [h]; decide
        · exact hopts ret h
      rw [hsc] at hcol
      obtain ⟨u', h2, h3, h4, h5⟩ := ih ⟨g', if some ret = some '?' then u.uoptind else g'.optind, u.plusopt, g'.optarg⟩ cs' args'
        (by omega) (Nat.le_trans h1 (getopt_facts hg).1) hat' (fun e he => hcol e (List.mem_cons_of_mem _ he))
      refine ⟨u', fun n hn => ?_, h3, h4, by rw [hsc]; exact h5⟩
      cases n with
      | zero => omega
      | succ n =>
        have hn0 : neg (some ret) = false := by simp [neg]; omega
        rw [loop, call, changed_false hat]
        simp only [hg, hn0]
        simp only [Bool.false_eq_true, if_false, if_true]
        rw [h2 n (by omega), hsc]
        simp only [List.map_cons]
        rw [shown_name (e := ⟨g'.plus, ret, g'.optarg, msg⟩) hr (hcol _ List.mem_cons_self)]

/-- **C99**, the loop: from `OPTIND=1`, `while getopts options name` runs its body once for each option of the specification `scan`
(C22), in order, with name and OPTARG set as the manual says; after it name is `?`, OPTARG is unset and `shift $((OPTIND - 1))` leaves
exactly the operands.  It is assumed that the options are ASCII and that no option given with `+` lacks its argument when options
begins with a colon. -/
theorem while_getopts_partial (options : List Char) (hopts : ∀ c ∈ options, c.toNat < 128) (name : Arg) (args : List Arg) (u : U)
    (posix : Bool) (hcol : ∀ e ∈ (scan (!posix) options false [] args).1, ¬ (e.ret = ':' ∧ e.plus = true)) :
    ∃ N u', (∀ n ≥ N, loop n options (name :: args) (reset posix 1 u) =
        some ((scan (!posix) options false [] args).1.map fun e => (some (nameOf e), e.optarg, e.msg), some ['?'], u')) ∧
      u'.optarg = none ∧ 1 ≤ u'.uoptind ∧ args.drop (u'.uoptind - 1) = (scan (!posix) options false [] args).2 := by
  have hr : reset posix 1 u = ⟨Getopt.reset, 1, !posix, u.optarg⟩ := by simp [reset, Getopt.reset]
  have hat : At (name :: args) Getopt.reset [] args := ⟨by simp [Getopt.reset], by simp [Getopt.reset], by simp [Getopt.reset]⟩
  obtain ⟨u', h1, h2, h3, h4⟩ := loop_spec options hopts (size [] args) ⟨Getopt.reset, 1, !posix, u.optarg⟩ [] args (Nat.le_refl _)
    (by simp [Getopt.reset]) hat hcol
  refine ⟨size [] args + 1, u', fun n hn => by rw [hr]; exact h1 n hn, h2, h3, ?_⟩
  refine Eq.trans ?_ h4
  obtain ⟨m, hm⟩ : ∃ m, u'.uoptind = m + 1 := ⟨u'.uoptind - 1, by omega⟩
  rw [hm]; rfl

theorem scan_noplus (options : List Char) : ∀ (k : Nat) (cs : Arg) (args : List Arg), size cs args ≤ k →
    ∀ e ∈ (scan false options false cs args).1, e.plus = false := by
  intro k
  induction k with
  | zero =>
    intro cs args hk
    cases cs with
    | cons c cs => simp [size] at hk
    | nil => cases args with
      | cons a r => simp [size] at hk
      | nil => rw [scan.eq_def]; simp
  | succ k ih =>
    intro cs args hk e he
    rw [scan.eq_def] at he
    cases cs with
    | nil =>
      cases args with
      | nil => simp at he
      | cons a r =>
        simp only at he
        split at he
        · simp at he
        · split at he
          · next ho =>
            have hm : ∃ x y, a = '-' :: x :: y := by
              revert ho
              unfold Getopt.optionLike
              split
              · exact fun _ => ⟨_, _, rfl⟩
              · exact fun h => (nomatch h)
              · exact fun h => (nomatch h)
            obtain ⟨x, y, rfl⟩ := hm
            exact ih (x :: y) r (by simp [size] at hk ⊢; omega) e he
          · simp at he
    | cons c cs =>
      have h1 : size cs args ≤ k := by simp [size] at hk ⊢; omega
      have h2 : size [] args ≤ k := by simp [size] at hk ⊢; omega
      have h3 : ∀ a r, args = a :: r → size [] r ≤ k := by
        intro a r h; subst h; simp [size] at hk ⊢; omega
      have key : ∀ (e0 : Ev) (cs' : Arg) (args' : List Arg), e0.plus = false → size cs' args' ≤ k →
          e ∈ e0 :: (scan false options false cs' args').1 → e.plus = false := by
        intro e0 cs' args' h0 hs hm
        rcases List.mem_cons.mp hm with rfl | hm
        · exact h0
        · exact ih cs' args' hs e hm
      simp only at he
      repeat' split at he
      all_goals first
        | exact key _ _ _ rfl h1 he
        | exact key _ _ _ rfl h2 he
        | exact key _ _ _ rfl (h3 _ _ rfl) he
        | (simp only [List.mem_cons, List.not_mem_nil, or_false] at he; rw [he])

/-- In posix mode options cannot be given with `+`, and nothing need be assumed about them. -/
theorem while_getopts_posix (options : List Char) (hopts : ∀ c ∈ options, c.toNat < 128) (name : Arg) (args : List Arg) (u : U) :
    ∃ N u', (∀ n ≥ N, loop n options (name :: args) (reset true 1 u) =
        some ((scan false options false [] args).1.map fun e => (some (nameOf e), e.optarg, e.msg), some ['?'], u')) ∧
      u'.optarg = none ∧ 1 ≤ u'.uoptind ∧ args.drop (u'.uoptind - 1) = (scan false options false [] args).2 :=
  while_getopts_partial options hopts name args u true fun e he h => by
    rw [scan_noplus options _ [] args (Nat.le_refl _) e he] at h; cases h.2

/-! ## Cases -/

/-- The state when the shell starts. -/
def start : U := ⟨Getopt.reset, 1, true, none⟩

example : (loop 5 ['a', 'b', ':'] [['s'], ['-', 'a', 'b'], ['x'], ['+', 'a'], ['f'], ['-', 'a']] start).map
      (fun x => (x.1.map fun y => (y.1, y.2.1), x.2.2.uoptind)) =
    some ([(some ['a'], none), (some ['b'], some ['x']), (some ['+', 'a'], none)], 4) := by decide +kernel
/-- Arguments that became shorter are noticed. -/
example : ((call false ['a', 'b'] [['s'], ['-', 'a', 'b']] start).bind fun x => (call false ['a', 'b'] [['s'], ['-']] x.2)).map (·.1) =
    some ⟨1, none, none⟩ := by decide +kernel

/-- False of the code: with `:` in front of the options, a missing argument of an option given with `+` sets name to `+:`. -/
theorem plus_missing : (call false [':', 'a', ':'] [['s'], ['+', 'a']] start).map (·.1) = some ⟨0, some ['+', ':'], none⟩ := by
  decide +kernel

/-- False of the code: a byte outside ASCII that is an option ends the loop, its argument being left in OPTARG. -/
theorem non_ascii_option : (call false [Char.ofNat 233, ':', 'a'] [['s'], ['-', Char.ofNat 233, 'x'], ['-', 'a']] start) =
    some (⟨1, some ['?'], none⟩, ⟨⟨2, 0, some ['x'], false, false⟩, 2, true, some ['x']⟩) := by decide +kernel

/-- False of the code: after an unknown option OPTIND still is the index of the argument that held it. -/
theorem optind_after_unknown : (call false ['a'] [['s'], ['-', 'x'], ['f']] start).map (fun x => (x.1.name, x.2.uoptind)) =
    some (some ['?'], 1) := by decide +kernel

/-- False of the code: when getopts has reported the end of the options at `--`, calling it again takes options out of the operands. -/
theorem options_after_end : ((call false ['a'] [['s'], ['-', '-'], ['-', 'a']] start).bind fun x =>
      (call false ['a'] [['s'], ['-', '-'], ['-', 'a']] x.2).map fun y => (x.1.status, y.1.status, y.1.name)) =
    some (1, 0, some ['a']) := by decide +kernel

end Ksh.Getopts
