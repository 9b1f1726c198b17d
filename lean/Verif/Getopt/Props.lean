import Verif.Getopt.Model
/-!
# Properties of option scanning (C22)

Specification: `scan` reads the arguments from left to right as the POSIX utility
conventions (and the extensions `;`, `,`, `#` and `+c`) describe, without indices into the
argument vector.
-/

namespace Ksh.Getopt

/-- Spec: what an option takes. -/
inductive Kind
  | unknown | flag | required | optional | attached | number
  deriving DecidableEq, Repr

/-- Spec: an option letter is declared by its first occurrence in the option string; the
character behind it tells what it takes. -/
def kind (options : List Char) (c : Char) : Kind :=
  if c ∈ ['?', ':', ';', ',', '#'] then .unknown
  else match options.dropWhile (· ≠ c) with
    | [] => .unknown
    | [_] => .flag
    | _ :: d :: _ => if d = ':' then .required else if d = ';' then .optional else if d = ',' then .attached
        else if d = '#' then .number else .flag

/-- Spec: an argument that holds options. -/
def optionLike (plusopt : Bool) : Arg → Bool
  | '-' :: _ :: _ => true
  | '+' :: _ :: _ => plusopt
  | _ => false

def size (cs : Arg) (args : List Arg) : Nat := cs.length + (args.map fun a => a.length + 1).sum

/-- Spec: option letters `cs` still to be read in the current argument, then `args`.
Answer: the options found, and the operands. -/
def scan (plusopt : Bool) (options : List Char) (plus : Bool) (cs : Arg) (args : List Arg) : List Ev × List Arg :=
  let silent := options.head? = some ':'
  match cs with
  | [] =>
    match args with
    | [] => ([], [])
    | a :: r =>
      if a = ['-', '-'] then ([], r)
      else if optionLike plusopt a then scan plusopt options (a.head? = some '+') a.tail r
      else ([], a :: r)
  | c :: cs =>
    let put (e : Ev) (x : List Ev × List Arg) := (e :: x.1, x.2)
    match kind options c with
    | .unknown =>
      put (if silent then ⟨plus, '?', some [c], none⟩ else ⟨plus, '?', none, some (.unknown c)⟩) (scan plusopt options plus cs args)
    | .flag => put ⟨plus, c, none, none⟩ (scan plusopt options plus cs args)
    | .attached => put ⟨plus, c, some cs, none⟩ (scan plusopt options plus [] args)
    | .required =>
      if cs ≠ [] then put ⟨plus, c, some cs, none⟩ (scan plusopt options plus [] args)
      else match args with
        | a :: r => put ⟨plus, c, some a, none⟩ (scan plusopt options plus [] r)
        | [] => ([if silent then ⟨plus, ':', some [c], none⟩ else ⟨plus, '?', none, some (.requires c)⟩], [])
    | .optional =>
      if cs ≠ [] then put ⟨plus, c, some cs, none⟩ (scan plusopt options plus [] args)
      else match args with
        | a :: r => put ⟨plus, c, some a, none⟩ (scan plusopt options plus [] r)
        | [] => ([⟨plus, c, none, none⟩], [])
    | .number =>
      if cs ≠ [] then
        if number cs then put ⟨plus, c, some cs, none⟩ (scan plusopt options plus [] args)
        else put ⟨plus, c, none, none⟩ (scan plusopt options plus cs args)
      else match args with
        | a :: r =>
          if number a then put ⟨plus, c, some a, none⟩ (scan plusopt options plus [] r)
          else put ⟨plus, c, none, none⟩ (scan plusopt options plus [] (a :: r))
        | [] => ([⟨plus, c, none, none⟩], [])
termination_by size cs args
decreasing_by
  all_goals simp_all [size]
  all_goals omega

/-! ## The calls follow the specification -/

theorem strchr_dropWhile : ∀ (o : List Char) (c : Char),
    strchr o c = (match o.dropWhile (· ≠ c) with | [] => none | d :: r => some (d :: r))
  | [], c => rfl
  | d :: r, c => by
    rw [strchr, List.dropWhile]
    by_cases h : d = c
    · simp [h]
    · simp [h]; simpa using strchr_dropWhile r c

/-- `g` stands at: `cs` still to be read in the current argument, then `args` -/
def At (argv : List Arg) (g : G) (cs : Arg) (args : List Arg) : Prop :=
  g.optind ≤ argv.length ∧ args = argv.drop g.optind ∧
  (if g.p = 0 then cs = [] else
    ∃ a, argv[g.optind - 1]? = some a ∧ g.optind ≥ 1 ∧ g.p ≤ a.length ∧ cs = a.drop g.p)

/-- What `pick` does. -/
theorem pick_spec {plusopt argv g cs args} (h : At argv g cs args) :
    match cs with
    | c :: cs' => pick plusopt argv g = some (some c, g) ∧ At argv { g with p := g.p + 1 } cs' args ∧ g.p ≠ 0
    | [] =>
      match args with
      | [] => ∃ g', pick plusopt argv g = some (none, g') ∧ argv.drop g'.optind = []
      | a :: r =>
        if a = ['-', '-'] then ∃ g', pick plusopt argv g = some (none, g') ∧ argv.drop g'.optind = r
        else if optionLike plusopt a then
          ∃ c cs' g', a.tail = c :: cs' ∧ pick plusopt argv g = some (some c, g') ∧ At argv { g' with p := g'.p + 1 } cs' r ∧
            g'.p ≠ 0 ∧ g'.plus = decide (a.head? = some '+') ∧ g'.optarg = g.optarg
        else ∃ g', pick plusopt argv g = some (none, g') ∧ argv.drop g'.optind = a :: r := by
  obtain ⟨h1, h2, h3⟩ := h
  have hchr : ∀ (hp : g.p ≠ 0), chr argv (g.optind - 1) g.p = some cs.head? := by
    intro hp
    rw [if_neg hp] at h3
    obtain ⟨a, e1, e2, e3, e4⟩ := h3
    simp only [chr, e1, e3, if_true, e4]
    rw [List.head?_drop]
  cases cs with
  | cons c cs' =>
    have hp : g.p ≠ 0 := by
      intro hp
      rw [if_pos hp] at h3
      cases h3
    refine ⟨?_, ?_, hp⟩
    · unfold pick
      simp only [if_neg hp, hchr hp, List.head?_cons]
    · rw [if_neg hp] at h3
      obtain ⟨a, e1, e2, e3, e4⟩ := h3
      refine ⟨h1, h2, ?_⟩
      simp only [Nat.add_one_ne_zero, if_false]
      have hl := congrArg List.length e4
      simp at hl
      refine ⟨a, e1, e2, by omega, ?_⟩
      rw [← List.drop_drop, ← e4]
      rfl
  | nil =>
    -- both ways lead to the next argument
    have hfresh : pick plusopt argv g = fresh plusopt argv g := by
      unfold pick
      by_cases hp : g.p = 0
      · rw [if_pos hp]
      · simp only [if_neg hp, hchr hp, List.head?_nil]
    rw [hfresh]
    cases args with
    | nil =>
      have hl := congrArg List.length h2
      simp at hl
      have : arg argv g.optind = some none := by
        unfold arg; rw [if_pos h1]; simp; omega
      exact ⟨{ g with p := 0 }, by simp only [fresh, this], h2.symm⟩
    | cons a r =>
      have hg : argv[g.optind]? = some a := by
        rw [← List.head?_drop, ← h2]; rfl
      have hr : argv.drop (g.optind + 1) = r := by
        rw [← List.drop_drop, ← h2]; rfl
      have hlt : g.optind < argv.length := by
        have hl := congrArg List.length h2
        simp at hl; omega
      have harg : arg argv g.optind = some (some a) := by unfold arg; rw [if_pos h1, hg]
      by_cases hd : a = ['-', '-']
      · simp only [if_pos hd]
        exact ⟨{ g with optind := g.optind + 1, p := 0, minusminus := true }, by simp only [fresh, harg, if_pos hd], hr⟩
      · simp only [if_neg hd]
        cases a with
        | nil => exact ⟨{ g with p := 0 }, by simp [fresh, harg], h2.symm⟩
        | cons flag rest =>
          cases rest with
          | nil =>
            have : optionLike plusopt [flag] = false := by
              unfold optionLike; split <;> simp_all
            rw [this]
            refine ⟨{ g with p := 0 }, ?_, h2.symm⟩
            simp only [fresh, harg, if_neg hd]
            split <;> rfl
          | cons c cs' =>
            have hat : ∀ (pl : Bool), At argv ⟨g.optind + 1, 1 + 1, g.optarg, pl, g.minusminus⟩ cs' r := by
              intro pl
              refine ⟨by simp; omega, by simp [hr], ?_⟩
              simp only [Nat.reduceAdd, if_neg (show (2 : Nat) ≠ 0 by decide)]
              exact ⟨flag :: c :: cs', by simpa using hg, by simp, by simp, rfl⟩
            by_cases hf : flag = '-'
            · subst hf
              simp only [optionLike, if_true]
              refine ⟨c, cs', { g with p := 1, optind := g.optind + 1, plus := false }, rfl, ?_, hat _, by simp, by simp, rfl⟩
              simp only [fresh, harg, if_neg hd]
              simp
            · by_cases hf' : flag = '+' ∧ plusopt = true
              · obtain ⟨rfl, rfl⟩ := hf'
                simp only [optionLike, if_true]
                refine ⟨c, cs', { g with p := 1, optind := g.optind + 1, plus := true }, rfl, ?_, hat _, by simp, by simp, rfl⟩
                simp only [fresh, harg, if_neg hd]
                simp
              · have ho : optionLike plusopt (flag :: c :: cs') = false := by
                  unfold optionLike
                  split
                  · rename_i heq; simp at heq; exact absurd heq.1 hf
                  · rename_i heq
                    simp at heq
                    cases hpl : plusopt with
                    | false => rfl
                    | true => exact absurd ⟨heq.1, hpl⟩ hf'
                  · rfl
                rw [ho]
                refine ⟨{ g with p := 0 }, ?_, h2.symm⟩
                simp only [fresh, harg, if_neg hd]
                rw [if_pos]
                refine ⟨hf, ?_⟩
                cases hpl : plusopt with
                | false => exact Or.inl rfl
                | true => exact Or.inr (fun h => hf' ⟨h, hpl⟩)

/-- The second part of the call: `c` has been picked, `cs` and `args` follow. -/
theorem getopt_picked {plusopt options argv g0 c g cs args} (hp : pick plusopt argv g0 = some (some c, g))
    (ha : At argv { g with p := g.p + 1 } cs args) (hopt : g.optarg = none) (hp0 : g.p ≠ 0) :
    ∃ ret msg g', getopt plusopt options argv g0 = some (some ret, msg, g') ∧
      ∃ cs' args', At argv g' cs' args' ∧ g'.plus = g.plus ∧ size cs' args' ≤ size cs args ∧
        scan plusopt options g.plus (c :: cs) args =
          (⟨g.plus, ret, g'.optarg, msg⟩ :: (scan plusopt options g.plus cs' args').1, (scan plusopt options g.plus cs' args').2) := by
  obtain ⟨h1, h2, h3⟩ := ha
  simp only [Nat.add_one_ne_zero, if_false] at h3
  obtain ⟨a, e1, e2, e3, e4⟩ := h3
  have hchr : chr argv (g.optind - 1) (g.p + 1) = some cs.head? := by
    simp only [chr, e1, e3, if_true, e4]
    rw [List.head?_drop]
  have hcur : (argv[g.optind - 1]?.getD []).drop (g.p + 1) = cs := by simp [e1, e4]
  have harg : arg argv g.optind = some args.head? := by
    simp only [arg, if_pos (show g.optind ≤ argv.length from h1), h2, List.head?_drop]
  have hstay : ∀ o, At argv { g with p := g.p + 1, optarg := o } cs args := by
    intro o
    refine ⟨h1, h2, ?_⟩
    simp only [Nat.add_one_ne_zero, if_false]
    exact ⟨a, e1, e2, e3, e4⟩
  have hnext : ∀ o, At argv { g with p := 0, optarg := o } [] args := fun o => ⟨h1, h2, by simp⟩
  have htake : ∀ o x r, args = x :: r → At argv { g with p := 0, optind := g.optind + 1, optarg := o } [] r := by
    intro o x r hx
    have hr : argv.drop (g.optind + 1) = r := by
      rw [← List.drop_drop, ← h2, hx]; rfl
    have hlt : g.optind < argv.length := by
      have hl := congrArg List.length h2
      simp [hx] at hl; omega
    exact ⟨by simp; omega, by simp [hr], by simp⟩
  have hkind : kind options c = (if c = '?' ∨ c = ':' ∨ c = ';' ∨ c = ',' ∨ c = '#' ∨ strchr options c = none then .unknown else
      match (((strchr options c).getD []).drop 1).head? with
      | none => .flag
      | some d => if d = ':' then .required else if d = ';' then .optional else if d = ',' then .attached
          else if d = '#' then .number else .flag) := by
    unfold kind
    rw [strchr_dropWhile]
    simp only [List.mem_cons, List.not_mem_nil, or_false]
    by_cases hc : c = '?' ∨ c = ':' ∨ c = ';' ∨ c = ',' ∨ c = '#'
    · rw [if_pos hc, if_pos (by rcases hc with h | h | h | h | h <;> simp [h])]
    · rw [if_neg hc]
      simp only [not_or] at hc
      cases hdw : options.dropWhile (· ≠ c) with
      | nil => simp
      | cons d r =>
        rw [if_neg (by simp [hc])]
        cases r <;> simp
  have hg0 : ({ g with p := g.p + 1 } : G).optarg = none := hopt
  unfold getopt
  rw [hp]
  simp only [hchr, hcur, harg]
  by_cases hunk : c = '?' ∨ c = ':' ∨ c = ';' ∨ c = ',' ∨ c = '#' ∨ strchr options c = none
  · rw [if_pos hunk] at hkind ⊢
    have hsc := scan.eq_def plusopt options g.plus (c :: cs) args
    simp only [hkind] at hsc
    by_cases hs : options.head? = some ':'
    · simp only [hs, if_true] at hsc ⊢
      exact ⟨_, _, _, rfl, cs, args, hstay _, rfl, Nat.le_refl _, hsc⟩
    · simp only [hs, if_false] at hsc ⊢
      refine ⟨_, _, _, rfl, cs, args, hstay _, rfl, Nat.le_refl _, ?_⟩
      simp only [hopt]
      exact hsc
  · rw [if_neg hunk] at hkind ⊢
    have hsc := scan.eq_def plusopt options g.plus (c :: cs) args
    generalize ((strchr options c).getD []).drop 1 = o at hkind ⊢
    -- the end of the arguments
    have hend : scan plusopt options g.plus [] [] = ([], []) := by rw [scan.eq_def]
    have sz1 : size [] args ≤ size cs args := by simp [size]
    have sz2 : ∀ x r, args = x :: r → size [] r ≤ size cs args := by
      intro x r h; simp [size, h]; omega
    have flagCase : kind options c = .flag → (¬ (o.head? = some ':' ∨ o.head? = some ';')) → o.head? ≠ some ',' → o.head? ≠ some '#' →
        ∃ ret msg g', (if o.head? = some ':' ∨ o.head? = some ';' then
          if cs.head? ≠ none then some (some c, none, { g with p := 0, optarg := some cs })
          else match args.head? with
            | some a => some (some c, none, { g with p := 0, optarg := some a, optind := g.optind + 1 })
            | none =>
              if o.head? = some ';' then some (some c, none, { g with p := 0, optarg := none })
              else if options.head? = some ':' then some (some ':', none, { g with p := g.p + 1, optarg := some [c] })
              else some (some '?', some (.requires c), { g with p := g.p + 1 })
        else if o.head? = some ',' then some (some c, none, { g with p := 0, optarg := some cs })
        else if o.head? = some '#' then
          if cs.head? ≠ none then
            if number cs then some (some c, none, { g with p := 0, optarg := some cs })
            else some (some c, none, { g with p := g.p + 1, optarg := none })
          else match args.head? with
            | some a =>
              if number a then some (some c, none, { g with p := 0, optarg := some a, optind := g.optind + 1 })
              else some (some c, none, { g with p := g.p + 1, optarg := none })
            | none => some (some c, none, { g with p := g.p + 1, optarg := none })
        else some (some c, none, { g with p := g.p + 1 })) = some (some ret, msg, g') ∧
        ∃ cs' args', At argv g' cs' args' ∧ g'.plus = g.plus ∧ size cs' args' ≤ size cs args ∧
        scan plusopt options g.plus (c :: cs) args =
          (⟨g.plus, ret, g'.optarg, msg⟩ :: (scan plusopt options g.plus cs' args').1, (scan plusopt options g.plus cs' args').2) := by
      intro hk n1 n2 n3
      rw [if_neg n1, if_neg n2, if_neg n3]
      simp only [hk] at hsc
      refine ⟨_, _, _, rfl, cs, args, hstay _, rfl, Nat.le_refl _, ?_⟩
      simp only [hopt]
      exact hsc
    cases ho : o.head? with
    | none =>
      simp only [ho] at hkind flagCase
      exact flagCase hkind (by simp) (by simp) (by simp)
    | some d =>
      simp only [ho] at hkind flagCase ⊢
      by_cases d1 : d = ':'
      · subst d1
        simp only [if_true] at hkind
        simp only [hkind] at hsc
        simp only [true_or, if_true]
        cases cs with
        | cons x xs =>
          simp only [ne_eq, reduceCtorEq, not_false_eq_true, if_true, List.head?_cons] at hsc ⊢
          exact ⟨_, _, _, rfl, [], args, hnext _, rfl, sz1, hsc⟩
        | nil =>
          simp only [ne_eq, not_true_eq_false, if_false, List.head?_nil] at hsc ⊢
          cases args with
          | cons x r =>
            simp only [List.head?_cons] at hsc ⊢
            exact ⟨_, _, _, rfl, [], r, htake _ x r rfl, rfl, sz2 x r rfl, hsc⟩
          | nil =>
            simp only [List.head?_nil, Option.some.injEq, show (':' = ';') = False from by simp, if_false] at hsc ⊢
            by_cases hs : options.head? = some ':'
            · simp only [hs, if_true] at hsc ⊢
              exact ⟨_, _, _, rfl, [], [], hstay _, rfl, sz1, by rw [hend]; exact hsc⟩
            · simp only [hs, if_false] at hsc ⊢
              refine ⟨_, _, _, rfl, [], [], hstay _, rfl, sz1, ?_⟩
              rw [hend]; simp only [hopt]; exact hsc
      · by_cases d2 : d = ';'
        · subst d2
          simp only [if_true, show (';' = ':') = False from by simp, if_false] at hkind
          simp only [hkind] at hsc
          simp only [or_true, if_true]
          cases cs with
          | cons x xs =>
            simp only [ne_eq, reduceCtorEq, not_false_eq_true, if_true, List.head?_cons] at hsc ⊢
            exact ⟨_, _, _, rfl, [], args, hnext _, rfl, sz1, hsc⟩
          | nil =>
            simp only [ne_eq, not_true_eq_false, if_false, List.head?_nil] at hsc ⊢
            cases args with
            | cons x r =>
              simp only [List.head?_cons] at hsc ⊢
              exact ⟨_, _, _, rfl, [], r, htake _ x r rfl, rfl, sz2 x r rfl, hsc⟩
            | nil =>
              simp only [List.head?_nil] at hsc ⊢
              exact ⟨_, _, _, rfl, [], [], hnext _, rfl, sz1, by rw [hend]; exact hsc⟩
        · by_cases d3 : d = ','
          · subst d3
            simp only [if_true, show (',' = ':') = False from by simp, show (',' = ';') = False from by simp, if_false] at hkind
            simp only [hkind] at hsc
            simp only [Option.some.injEq, show (',' = ':') = False from by simp, show (',' = ';') = False from by simp, or_self, if_false, if_true]
            exact ⟨_, _, _, rfl, [], args, hnext _, rfl, sz1, hsc⟩
          · by_cases d4 : d = '#'
            · subst d4
              simp only [if_true, show ('#' = ':') = False from by simp, show ('#' = ';') = False from by simp,
                show ('#' = ',') = False from by simp, if_false] at hkind
              simp only [hkind] at hsc
              simp only [Option.some.injEq, show ('#' = ':') = False from by simp, show ('#' = ';') = False from by simp,
                show ('#' = ',') = False from by simp, or_self, if_false, if_true]
              cases cs with
              | cons x xs =>
                simp only [ne_eq, reduceCtorEq, not_false_eq_true, if_true, List.head?_cons] at hsc ⊢
                by_cases hn : number (x :: xs) = true
                · simp only [hn, if_true] at hsc ⊢
                  exact ⟨_, _, _, rfl, [], args, hnext _, rfl, sz1, hsc⟩
                · simp only [hn, if_false, Bool.false_eq_true] at hsc ⊢
                  exact ⟨_, _, _, rfl, x :: xs, args, hstay _, rfl, Nat.le_refl _, hsc⟩
              | nil =>
                simp only [ne_eq, not_true_eq_false, if_false, List.head?_nil] at hsc ⊢
                cases args with
                | cons x r =>
                  simp only [List.head?_cons] at hsc ⊢
                  by_cases hn : number x = true
                  · simp only [hn, if_true] at hsc ⊢
                    exact ⟨_, _, _, rfl, [], r, htake _ x r rfl, rfl, sz2 x r rfl, hsc⟩
                  · simp only [hn, if_false, Bool.false_eq_true] at hsc ⊢
                    exact ⟨_, _, _, rfl, [], x :: r, hstay _, rfl, Nat.le_refl _, hsc⟩
                | nil =>
                  simp only [List.head?_nil] at hsc ⊢
                  exact ⟨_, _, _, rfl, [], [], hstay _, rfl, Nat.le_refl _, by rw [hend]; exact hsc⟩
            · simp only [d1, d2, d3, d4, if_false] at hkind
              exact flagCase hkind (by simp [d1, d2]) (by simp [d3]) (by simp [d4])

theorem run_spec (plusopt : Bool) (options : List Char) (argv : List Arg) : ∀ (k : Nat) (g : G) (cs : Arg) (args : List Arg),
    size cs args ≤ k → At argv g cs args →
    ∃ g', ∀ n > k, run n plusopt options argv g = some ((scan plusopt options g.plus cs args).1, g') ∧
      argv.drop g'.optind = (scan plusopt options g.plus cs args).2 := by
  intro k
  induction k with
  | zero =>
    intro g cs args hk hat
    have hcs : cs = [] := by
      cases cs with
      | nil => rfl
      | cons c cs => simp [size] at hk
    have hargs : args = [] := by
      cases args with
      | nil => rfl
      | cons c cs => simp [size] at hk
    subst hcs hargs
    have hat' : At argv { g with optarg := none } [] [] := hat
    obtain ⟨g', hp, hd⟩ := pick_spec (plusopt := plusopt) hat'
    refine ⟨g', fun n hn => ?_⟩
    have hs : scan plusopt options g.plus [] [] = ([], []) := by rw [scan.eq_def]
    cases n with
    | zero => omega
    | succ n => simp [run, getopt, hp, hs, hd]
  | succ k ih =>
    intro g cs args hk hat
    have hat' : At argv { g with optarg := none } cs args := hat
    have hps := pick_spec (plusopt := plusopt) hat'
    -- an option has been picked
    have hopt : ∀ (c : Char) (g1 : G) (cs1 : Arg) (args1 : List Arg), pick plusopt argv { g with optarg := none } = some (some c, g1) →
        At argv { g1 with p := g1.p + 1 } cs1 args1 → g1.optarg = none → g1.p ≠ 0 → size cs1 args1 ≤ k →
        scan plusopt options g.plus cs args = scan plusopt options g1.plus (c :: cs1) args1 →
        ∃ g', ∀ n > k + 1, run n plusopt options argv g = some ((scan plusopt options g.plus cs args).1, g') ∧
          argv.drop g'.optind = (scan plusopt options g.plus cs args).2 := by
      intro c g1 cs1 args1 hp ha ho hp0 hsz hscan
      obtain ⟨ret, msg, g2, hg, cs2, args2, hat2, hpl, hsz2, hsc⟩ := getopt_picked (options := options) hp ha ho hp0
      obtain ⟨g', hrun⟩ := ih g2 cs2 args2 (by omega) hat2
      refine ⟨g', fun n hn => ?_⟩
      cases n with
      | zero => omega
      | succ n =>
        obtain ⟨h1, h2⟩ := hrun n (by omega)
        rw [hscan, hsc]
        rw [hpl] at h1 h2
        simp only [run, hg, h1, Option.map_some, hpl]
        exact ⟨trivial, h2⟩
    have hstop : (∃ g', pick plusopt argv { g with optarg := none } = some (none, g') ∧
          argv.drop g'.optind = (scan plusopt options g.plus cs args).2) → (scan plusopt options g.plus cs args).1 = [] →
        ∃ g', ∀ n > k + 1, run n plusopt options argv g = some ((scan plusopt options g.plus cs args).1, g') ∧
          argv.drop g'.optind = (scan plusopt options g.plus cs args).2 := by
      rintro ⟨g', hp, hd⟩ he
      refine ⟨g', fun n hn => ?_⟩
      cases n with
      | zero => omega
      | succ n =>
        rw [he]
        simp only [run, getopt, hp, true_and]
        exact hd
    cases cs with
    | cons c cs1 =>
      obtain ⟨hp, ha, hp0⟩ := hps
      exact hopt c _ cs1 args hp ha rfl hp0 (by simp [size] at hk ⊢; omega) rfl
    | nil =>
      cases args with
      | nil =>
        have hs : scan plusopt options g.plus [] [] = ([], []) := by rw [scan.eq_def]
        exact hstop (by rw [hs]; exact hps) (by rw [hs])
      | cons a r =>
        have hsc := scan.eq_def plusopt options g.plus [] (a :: r)
        simp only at hps hsc
        by_cases hd : a = ['-', '-']
        · rw [if_pos hd] at hps hsc
          exact hstop (by rw [hsc]; exact hps) (by rw [hsc])
        · rw [if_neg hd] at hps hsc
          by_cases ho : optionLike plusopt a = true
          · rw [if_pos ho] at hps hsc
            obtain ⟨c, cs', g1, ht, hp, ha, hp0, hpl, hoa⟩ := hps
            refine hopt c g1 cs' r hp ha hoa hp0 ?_ ?_
            · have := congrArg List.length ht
              simp [size] at hk this ⊢; omega
            · rw [hsc, ht, hpl]
          · rw [if_neg ho] at hps hsc
            exact hstop (by rw [hsc]; exact hps) (by rw [hsc])

/-- **C22**.  Calling `ksh_getopt` until it returns -1 never reads out of bounds, ends, and
yields exactly the options of the specification; `optind` is then the index of the first
operand. -/
theorem options_scanned (plusopt : Bool) (options : List Char) (name : Arg) (args : List Arg) :
    ∃ g', ∃ N, ∀ n ≥ N, run n plusopt options (name :: args) reset = some ((scan plusopt options false [] args).1, g') ∧
      (name :: args).drop g'.optind = (scan plusopt options false [] args).2 := by
  have hat : At (name :: args) reset [] args := ⟨by simp [reset], by simp [reset], by simp [reset]⟩
  obtain ⟨g', h⟩ := run_spec plusopt options (name :: args) _ reset [] args (Nat.le_refl _) hat
  exact ⟨g', size [] args + 1, fun n hn => h n (by omega)⟩

/-! ### What the specification says -/

theorem scan_start {plusopt options} (p q : Bool) (args) : scan plusopt options p [] args = scan plusopt options q [] args := by
  rw [scan.eq_def, scan.eq_def plusopt options q]

/-- Options that take no argument may be clustered: `-abc` is `-a -bc`. -/
theorem clustered_is_separate (plusopt : Bool) (options : List Char) (c : Char) (cs : Arg) (r : List Arg)
    (hk : kind options c = .flag) (hd : c ≠ '-') (hcs : cs ≠ []) (hm : cs ≠ ['-']) :
    scan plusopt options false [] (('-' :: c :: cs) :: r) = scan plusopt options false [] (['-', c] :: ('-' :: cs) :: r) := by
  have ho : ∀ x xs, optionLike plusopt ('-' :: x :: xs) = true := fun _ _ => rfl
  have e1 : scan plusopt options false [] (('-' :: c :: cs) :: r) = scan plusopt options false (c :: cs) r := by
    rw [scan.eq_def]
    simp only
    rw [if_neg (by simp; intro _; exact hcs), if_pos (ho _ _)]
    rfl
  have e2 : scan plusopt options false [] (['-', c] :: ('-' :: cs) :: r) = scan plusopt options false [c] (('-' :: cs) :: r) := by
    rw [scan.eq_def]
    simp only
    rw [if_neg (by simp [hd]), if_pos (ho _ _)]
    rfl
  have e3 : scan plusopt options false [] (('-' :: cs) :: r) = scan plusopt options false cs r := by
    rw [scan.eq_def]
    simp only
    cases cs with
    | nil => exact absurd rfl hcs
    | cons x xs =>
      rw [if_neg (by simp; simpa using hm), if_pos (ho _ _)]
      rfl
  rw [e1, e2, scan.eq_def plusopt options false (c :: cs), scan.eq_def plusopt options false [c]]
  simp only [hk]
  rw [e3]

/-- An option argument may be attached or separate: `-ofoo` is `-o foo`. -/
theorem attached_is_separate (plusopt : Bool) (options : List Char) (c : Char) (v : Arg) (r : List Arg)
    (hk : kind options c = .required) (hd : c ≠ '-') (hv : v ≠ []) :
    scan plusopt options false [] (('-' :: c :: v) :: r) = scan plusopt options false [] (['-', c] :: v :: r) := by
  have ho : ∀ x xs, optionLike plusopt ('-' :: x :: xs) = true := fun _ _ => rfl
  have e1 : ∀ v r, scan plusopt options false [] (('-' :: c :: v) :: r) = scan plusopt options false (c :: v) r := by
    intro v r
    rw [scan.eq_def]
    simp only
    rw [if_neg (by simp [hd]), if_pos (ho _ _)]
    rfl
  rw [e1, e1, scan.eq_def plusopt options false (c :: v), scan.eq_def plusopt options false [c]]
  simp only [hk]
  rw [if_pos hv, if_neg (by simp)]

/-- Scanning stops before the first operand, at a lone `-`, and behind `--`. -/
theorem scan_stops (plusopt : Bool) (options : List Char) (r : List Arg) :
    scan plusopt options false [] [] = ([], []) ∧
    scan plusopt options false [] (['-', '-'] :: r) = ([], r) ∧
    scan plusopt options false [] (['-'] :: r) = ([], ['-'] :: r) ∧
    scan plusopt options false [] (['+'] :: r) = ([], ['+'] :: r) ∧
    ∀ a, a.head? ≠ some '-' → a.head? ≠ some '+' → scan plusopt options false [] (a :: r) = ([], a :: r) := by
  refine ⟨by rw [scan.eq_def], by rw [scan.eq_def]; simp, by rw [scan.eq_def]; simp [optionLike], by rw [scan.eq_def]; simp [optionLike], ?_⟩
  intro a h1 h2
  have : optionLike plusopt a = false := by
    unfold optionLike
    split <;> simp_all
  rw [scan.eq_def]
  simp only [this]
  rw [if_neg (by rintro rfl; simp at h1), if_neg (by simp)]

/-- With a leading colon in the option string no warning is printed; without it an unknown
option gives `?` and a warning. -/
theorem silent_no_message (plusopt : Bool) (options : List Char) (h : options.head? = some ':') :
    ∀ (k : Nat) (plus : Bool) (cs : Arg) (args : List Arg), size cs args ≤ k → ∀ e ∈ (scan plusopt options plus cs args).1, e.msg = none := by
  intro k
  induction k with
  | zero =>
    intro plus cs args hk e he
    cases cs with
    | cons c cs => simp [size] at hk; try omega
    | nil =>
      cases args with
      | cons c cs => simp [size] at hk; try omega
      | nil => rw [scan.eq_def] at he; simp at he
  | succ k ih =>
    intro plus cs args hk e he
    have key : ∀ (x : Ev) (p : Bool) (cs' : Arg) (args' : List Arg), x.msg = none → size cs' args' ≤ k →
        e ∈ x :: (scan plusopt options p cs' args').1 → e.msg = none := by
      intro x p cs' args' hx hs hm
      rcases List.mem_cons.1 hm with rfl | hm
      · exact hx
      · exact ih p cs' args' hs e hm
    rw [scan.eq_def] at he
    simp only [h, if_true] at he
    cases cs with
    | nil =>
      cases args with
      | nil => simp at he
      | cons a r =>
        simp only at he
        split at he
        · simp at he
        · split at he
          · refine ih _ _ _ ?_ e he
            simp [size] at hk ⊢; omega
          · simp at he
    | cons c cs =>
      have s1 : size cs args ≤ k := by simp [size] at hk ⊢; omega
      have s2 : size [] args ≤ k := by simp [size] at hk ⊢; omega
      have s3 : ∀ a r, args = a :: r → size [] r ≤ k := by intro a r h; subst h; simp [size] at hk ⊢; omega
      simp only at he
      cases hk : kind options c with
      | unknown => simp only [hk] at he; exact key _ _ _ _ rfl s1 he
      | flag => simp only [hk] at he; exact key _ _ _ _ rfl s1 he
      | attached => simp only [hk] at he; exact key _ _ _ _ rfl s2 he
      | required =>
        simp only [hk] at he
        split at he
        · exact key _ _ _ _ rfl s2 he
        · cases args with
          | nil => simp at he; rw [he]
          | cons a r => exact key _ _ _ _ rfl (s3 a r rfl) he
      | optional =>
        simp only [hk] at he
        split at he
        · exact key _ _ _ _ rfl s2 he
        · cases args with
          | nil => simp at he; rw [he]
          | cons a r => exact key _ _ _ _ rfl (s3 a r rfl) he
      | number =>
        simp only [hk] at he
        split at he
        · split at he
          · exact key _ _ _ _ rfl s2 he
          · exact key _ _ _ _ rfl s1 he
        · cases args with
          | nil => simp at he; rw [he]
          | cons a r =>
            simp only at he
            split at he
            · exact key _ _ _ _ rfl (s3 a r rfl) he
            · exact key _ _ _ _ rfl s2 he

/-- `-ab -ofoo -o bar -x -- -a` with options `abo:` -/
def sampleArgs : List Arg := ["cmd", "-ab", "-ofoo", "-o", "bar", "-x", "--", "-a"].map String.toList

example : (run 20 false "abo:".toList sampleArgs reset).map (fun r => r.2.optind) = some 7 := by decide
example : (run 20 false "abo:".toList sampleArgs reset).map (fun r => r.1) =
    some [⟨false, 'a', none, none⟩, ⟨false, 'b', none, none⟩, ⟨false, 'o', some "foo".toList, none⟩,
      ⟨false, 'o', some "bar".toList, none⟩, ⟨false, '?', none, some (.unknown 'x')⟩] := by decide

end Ksh.Getopt
