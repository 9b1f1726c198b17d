import Verif.Typeset.Props

/-!
# The commands `alias` and `unalias` (C108)

`c_alias` and `c_unalias` (c_ksh.c:853-1035) after their options, which `Getopt` models.  The three
tables `aliases`, `homedirs` and `taliases` are functions from names: an entry that is not in the table
and one without `DEFINED` behave alike (`ktsearch`, table.c:104-121; `ktenter` keeps the flags of the
latter, which are all clear).  `ALLOC` is not kept: it goes with `ISSET` here.  The sorted array of
`ktsort` (C02) is a parameter.
-/

namespace Ksh.AliasCmd

abbrev Str := List Char

/-- `struct tbl` of an alias: `DEFINED`, `ISSET`, `EXPORT` and `val.s` -/
structure Al where
  defined : Bool := false
  isset : Bool := false
  expo : Bool := false
  val : Str := []
  deriving DecidableEq, Repr

abbrev Tab := Str → Al

inductive Which
  | aliases | homedirs | tracked
  deriving DecidableEq, Repr

structure Tabs where
  get : Which → Tab

def Tabs.put (s : Tabs) (w : Which) (t : Tab) : Tabs := ⟨fun x => if x = w then t else s.get x⟩

def setAl (t : Tab) (n : Str) (a : Al) : Tab := fun m => if m = n then a else t m

/-- the variables of c_alias, c_ksh.c:855-859 -/
structure O where
  t : Which := .aliases
  rflag : Bool := false
  uflag : Bool := false
  pflag : Bool := false
  plus : Bool := false
  xflag : Bool := false
  deriving DecidableEq, Repr

/-- c_ksh.c:862-889: one option; `none` is `?` -/
def optStep (o : O) (e : Getopt.Ev) : Option O :=
  match e.ret with
  | 'd' => some { o with plus := e.plus, t := .homedirs }
  | 'p' => some { o with plus := e.plus, pflag := true }
  | 'r' => some { o with plus := e.plus, rflag := true }
  | 't' => some { o with plus := e.plus, t := .tracked }
  | 'U' => some { o with plus := e.plus, uflag := true }
  | 'x' => some { o with plus := e.plus, xflag := true }
  | _ => none

def options (o : O) : List Getopt.Ev → Option O
  | [] => some o
  | e :: es => match optStep o e with
    | none => none
    | some o' => options o' es

/-- c_ksh.c:891-895: an operand `-` or `+` -/
def sign (o : O) (minusminus : Bool) (ws : List Str) : O × List Str :=
  match ws with
  | ['-'] :: r => if minusminus then (o, ws) else ({ o with plus := false }, r)
  | ['+'] :: r => if minusminus then (o, ws) else ({ o with plus := true }, r)
  | _ => (o, ws)

/-- c_ksh.c:919-926 and 943-950 -/
def line (o : O) (n : Str) (a : Al) : Str :=
  (if o.pflag then ['a', 'l', 'i', 'a', 's', ' '] else []) ++ n ++
  (if o.plus then [] else '=' :: Lex.printQuoted a.val) ++ ['\n']

/-- `strchr(alias, '=')`, c_ksh.c:933-939 -/
def split : Str → Str × Option Str
  | [] => ([], none)
  | c :: r => if c = '=' then ([], some r) else (c :: (split r).1, (split r).2)

/-- the list of c_ksh.c:914-929; `names` is what `ktsort` delivers -/
def list (o : O) (t : Tab) (names : List Str) : Str :=
  ((names.filter fun n => (t n).isset && (!o.xflag || (t n).expo)).map fun n => line o n (t n)).flatten

/-- c_ksh.c:958-980: the entry after an operand -/
def update (o : O) (search : Str → Option Str) (n : Str) (v : Option Str) (a : Al) : Al :=
  let tf := o.t == .tracked
  let a := if (v.isSome && !tf) || (v.isNone && tf && !o.uflag) then
      match (if tf then search n else v) with
      | some nv => { a with isset := true, val := nv }
      | none => { a with isset := false }
    else a
  { a with defined := true, expo := if o.xflag then !o.plus else a.expo }

/-- c_ksh.c:931-983: the operands.  Answer: the table, what is written and the status. -/
def operands (o : O) (search : Str → Option Str) : Tab → List Str → Tab × Str × Nat
  | t, [] => (t, [], 0)
  | t, w :: ws =>
    let n := (split w).1
    let v := (split w).2
    if v.isNone && !(o.t == .tracked) && !o.xflag then
      let (t', out, rv) := operands o search t ws
      if (t n).defined && (t n).isset then (t', line o n (t n) ++ out, rv)
      else (t', n ++ [' ', 'a', 'l', 'i', 'a', 's', ' ', 'n', 'o', 't', ' ', 'f', 'o', 'u', 'n', 'd', '\n'] ++ out, 1)
    else operands o search (setAl t n (update o search n v (t n))) ws

/-- c_ksh.c:1017-1020 and 1029-1031 -/
def clear (a : Al) : Al := { a with defined := false, isset := false, expo := false }

/-- c_ksh.c:1010-1021 -/
def unOperands : Tab → List Str → Tab × Nat
  | t, [] => (t, 0)
  | t, n :: ws =>
    if (t n).defined then unOperands (setAl t n (clear (t n))) ws
    else ((unOperands t ws).1, 1)

/-- c_unalias, c_ksh.c:989-1035, with the flags `all` and the table from the options; `ktwalk`
delivers the defined entries (table.c:184-200) -/
def unalias (s : Tabs) (w : Which) (all : Bool) (ws : List Str) : Tabs × Nat :=
  let r := unOperands (s.get w) ws
  (s.put w (if all then fun n => if (r.1 n).defined then clear (r.1 n) else r.1 n else r.1), r.2)

/-- c_alias after its options, c_ksh.c:891-986 -/
def alias (o : O) (minusminus : Bool) (search : Str → Option Str) (names : List Str) (s : Tabs) (ws : List Str) : Tabs × Str × Nat :=
  let (o, ws) := sign o minusminus ws
  if o.rflag then
    if o.t != .tracked || !ws.isEmpty then
      (s, "alias: -r flag can only be used with -t and without arguments\n".toList, 1)
    else let r := unalias s .tracked true []
      (r.1, [], r.2)
  else if ws.isEmpty then (s, list o (s.get o.t) names, 0)
  else let r := operands o search (s.get o.t) ws
    (s.put o.t r.1, r.2.1, r.2.2)

/-! ## Specification -/

/-- Spec: what a user sees of an alias -/
def value (t : Tab) (n : Str) : Option Str := if (t n).isset then some (t n).val else none

/-- Spec: `w` is `n=v` -/
def Assigns (w n v : Str) : Prop := w = n ++ '=' :: v ∧ '=' ∉ n

/-- Spec: `w` does not assign -/
def Name (w : Str) : Prop := '=' ∉ w

theorem split_spec (w : Str) : (∃ n v, Assigns w n v ∧ split w = (n, some v)) ∨ (Name w ∧ split w = (w, none)) := by
  induction w with
  | nil => exact Or.inr ⟨by simp [Name], rfl⟩
  | cons c r ih =>
    by_cases hc : c = '='
    · subst hc
      exact Or.inl ⟨[], r, ⟨rfl, by simp⟩, by simp [split]⟩
    · rcases ih with ⟨n, v, ⟨h1, h2⟩, h3⟩ | ⟨h1, h2⟩
      · refine Or.inl ⟨c :: n, v, ⟨by simp [h1], ?_⟩, by simp [split, hc, h3]⟩
        simp only [List.mem_cons, not_or]
        exact ⟨fun h => hc h.symm, h2⟩
      · refine Or.inr ⟨?_, by simp [split, hc, h2]⟩
        simp only [Name, List.mem_cons, not_or]
        exact ⟨fun h => hc h.symm, h1⟩

theorem assigns_split {w n v : Str} (h : Assigns w n v) : split w = (n, some v) := by
  obtain ⟨rfl, hn⟩ := h
  induction n with
  | nil => simp [split]
  | cons c n ih =>
    simp only [List.mem_cons, not_or] at hn
    simp [split, Ne.symm hn.1, ih hn.2]

theorem name_split {w : Str} (h : Name w) : split w = (w, none) := by
  rcases split_spec w with ⟨n, v, h1, _⟩ | ⟨_, h2⟩
  · exact absurd (by rw [h1.1]; simp) h
  · exact h2

/-- Spec: one command after the other: the operands in order, each seeing what those before it did.
`Ran f x t ws t' out rv` -/
inductive Ran (o : O) : Tab → List Str → Tab → Str → Nat → Prop
  | done (t) : Ran o t [] t [] 0
  | set {t ws n v t' out rv w} (hw : Assigns w n v) (t1 : Tab) (hv : value t1 n = some v) (hd : (t1 n).defined = true)
      (hx : (t1 n).expo = if o.xflag then !o.plus else (t n).expo) (ho : ∀ m, m ≠ n → t1 m = t m)
      (hr : Ran o t1 ws t' out rv) : Ran o t (w :: ws) t' out rv
  | shown {t ws t' out rv w v} (hw : Name w) (hx : o.xflag = false) (hv : value t w = some v) (hr : Ran o t ws t' out rv) :
      Ran o t (w :: ws) t' ((if o.pflag then "alias ".toList else []) ++ w ++ (if o.plus then [] else '=' :: Lex.printQuoted v) ++ "\n".toList ++ out) rv
  | missing {t ws t' out rv w} (hw : Name w) (hx : o.xflag = false) (hv : value t w = none) (hr : Ran o t ws t' out rv) :
      Ran o t (w :: ws) t' (w ++ " alias not found\n".toList ++ out) 1
  | flag {t ws t' out rv w} (hw : Name w) (hx : o.xflag = true) (t1 : Tab) (hv : value t1 w = value t w) (hd : (t1 w).defined = true)
      (he : (t1 w).expo = !o.plus) (ho : ∀ m, m ≠ w → t1 m = t m) (hr : Ran o t1 ws t' out rv) : Ran o t (w :: ws) t' out rv

/-- entries that are set are defined -/
def OK (t : Tab) : Prop := ∀ n, (t n).isset = true → (t n).defined = true

theorem setAl_ok {t : Tab} (h : OK t) (n : Str) (a : Al) (ha : a.defined = true) : OK (setAl t n a) := by
  intro m hm
  simp only [setAl] at hm ⊢
  split
  · exact ha
  · rename_i hne
    rw [if_neg hne] at hm
    exact h m hm

theorem update_defined (o : O) (search) (n v a) : (update o search n v a).defined = true := rfl

theorem operands_ok (o : O) (search) : ∀ (ws : List Str) (t : Tab), OK t → OK (operands o search t ws).1
  | [], t, h => h
  | w :: ws, t, h => by
    simp only [operands]
    split
    · split <;> exact operands_ok o search ws t h
    · exact operands_ok o search ws _ (setAl_ok h _ _ (update_defined ..))

/-- **C108** `alias` with operands: each `name=value` makes the alias, each name alone is shown or
reported as missing, and nothing else changes. -/
theorem alias_runs (o : O) (ho : o.t ≠ .tracked) (search) : ∀ (ws : List Str) (t : Tab), OK t →
    Ran o t ws (operands o search t ws).1 (operands o search t ws).2.1 (operands o search t ws).2.2
  | [], t, h => .done t
  | w :: ws, t, h => by
    have ht : (o.t == Which.tracked) = false := by simpa using ho
    rcases split_spec w with ⟨n, v, hw, hs⟩ | ⟨hw, hs⟩
    · simp only [operands, hs]
      have : ((some v).isNone && !(o.t == Which.tracked) && !o.xflag) = false := by simp
      rw [if_neg (by rw [this]; decide)]
      refine .set hw (setAl t n (update o search n (some v) (t n))) ?_ ?_ ?_ ?_ (alias_runs o ho search ws _ (setAl_ok h _ _ (update_defined ..)))
      · simp [value, setAl, update, ht]
      · simp [setAl, update]
      · simp [setAl, update, ht]
      · intro m hm; simp [setAl, hm]
    · simp only [operands, hs, ht]
      cases hx : o.xflag with
      | false =>
        simp only [Option.isNone_none, Bool.not_false, Bool.true_and, if_true]
        cases hi : (t w).isset with
        | false =>
          simp only [Bool.and_false, Bool.false_eq_true, if_false]
          exact .missing hw hx (by simp [value, hi]) (alias_runs o ho search ws t h)
        | true =>
          simp only [h w hi, Bool.and_true, if_true]
          have e : line o w (t w) = (if o.pflag then "alias ".toList else []) ++ w ++ (if o.plus then [] else '=' :: Lex.printQuoted (t w).val) ++ "\n".toList := rfl
          rw [e]
          exact .shown hw hx (by simp [value, hi]) (alias_runs o ho search ws t h)
      | true =>
        simp only [Option.isNone_none, Bool.not_false, Bool.true_and, Bool.not_true, Bool.false_eq_true, if_false]
        refine .flag hw hx (setAl t w (update o search w none (t w))) ?_ ?_ ?_ ?_ (alias_runs o ho search ws _ (setAl_ok h _ _ (update_defined ..)))
        · simp [value, setAl, update, ht]
        · simp [setAl, update]
        · simp [setAl, update, hx]
        · intro m hm; simp [setAl, hm]

/-- Spec: the last assignment to `n` -/
inductive LastSet (n : Str) : List Str → Option Str → Prop
  | none {ws} (h : ∀ w ∈ ws, ∀ v, ¬ Assigns w n v) : LastSet n ws none
  | some {a b w v} (hw : Assigns w n v) (h : ∀ w ∈ b, ∀ v, ¬ Assigns w n v) : LastSet n (a ++ w :: b) (some v)

/-- **C108** After `alias` a name has the value last assigned to it, or the one it had. -/
theorem alias_value (o : O) (ho : o.t ≠ .tracked) (search) (n : Str) (ws : List Str) (t : Tab) (h : OK t) (r : Option Str) (hl : LastSet n ws r) :
    value (operands o search t ws).1 n = r.or (value t n) := by
  have key : ∀ {t ws t' out rv}, Ran o t ws t' out rv → ∀ r, LastSet n ws r → value t' n = r.or (value t n) := by
    intro t ws t' out rv hr
    induction hr with
    | done t =>
      intro r hl
      generalize hw : ([] : List Str) = ws at hl
      cases hl with
      | none h => rfl
      | some => simp at hw
    | @set t ws m v t' out rv w hw t1 hv hd hx ho hr ih =>
      intro r hl
      generalize hws : w :: ws = l at hl
      cases hl with
      | none h =>
        subst hws
        rw [ih none (.none fun u hu => h u (by simp [hu]))]
        have hne : n ≠ m := by rintro rfl; exact h w (by simp) v hw
        simp [value, ho n hne]
      | @some a b u x hu hb =>
        cases a with
        | nil =>
          simp only [List.nil_append, List.cons.injEq] at hws
          obtain ⟨rfl, rfl⟩ := hws
          have e := (assigns_split hw).symm.trans (assigns_split hu)
          simp only [Prod.mk.injEq, Option.some.injEq] at e
          obtain ⟨rfl, rfl⟩ := e
          rw [ih none (.none hb), hv]; rfl
        | cons y a =>
          simp only [List.cons_append, List.cons.injEq] at hws
          obtain ⟨rfl, rfl⟩ := hws
          rw [ih (some x) (.some hu hb)]; rfl
    | @shown t ws t' out rv w v hw hx hv hr ih =>
      intro r hl
      refine ih r ?_
      generalize hws : w :: ws = l at hl
      cases hl with
      | none h => subst hws; exact .none fun u hu => h u (by simp [hu])
      | @some a b u x hu hb =>
        cases a with
        | nil =>
          simp only [List.nil_append, List.cons.injEq] at hws
          obtain ⟨rfl, rfl⟩ := hws
          exact absurd (by rw [hu.1]; simp) hw
        | cons y a =>
          simp only [List.cons_append, List.cons.injEq] at hws
          obtain ⟨rfl, rfl⟩ := hws
          exact .some hu hb
    | @missing t ws t' out rv w hw hx hv hr ih =>
      intro r hl
      refine ih r ?_
      generalize hws : w :: ws = l at hl
      cases hl with
      | none h => subst hws; exact .none fun u hu => h u (by simp [hu])
      | @some a b u x hu hb =>
        cases a with
        | nil =>
          simp only [List.nil_append, List.cons.injEq] at hws
          obtain ⟨rfl, rfl⟩ := hws
          exact absurd (by rw [hu.1]; simp) hw
        | cons y a =>
          simp only [List.cons_append, List.cons.injEq] at hws
          obtain ⟨rfl, rfl⟩ := hws
          exact .some hu hb
    | @flag t ws t' out rv w hw hx t1 hv hd he ho hr ih =>
      intro r hl
      have e1 : value t1 n = value t n := by
        by_cases hn : n = w
        · subst hn; exact hv
        · simp [value, ho n hn]
      rw [← e1]
      refine ih r ?_
      generalize hws : w :: ws = l at hl
      cases hl with
      | none h => subst hws; exact .none fun u hu => h u (by simp [hu])
      | @some a b u x hu hb =>
        cases a with
        | nil =>
          simp only [List.nil_append, List.cons.injEq] at hws
          obtain ⟨rfl, rfl⟩ := hws
          exact absurd (by rw [hu.1]; simp) hw
        | cons y a =>
          simp only [List.cons_append, List.cons.injEq] at hws
          obtain ⟨rfl, rfl⟩ := hws
          exact .some hu hb
  exact key (alias_runs o ho search ws t h) r hl

/-- **C108** `alias -t name …`: a tracked alias is what the search finds now, or has no value. -/
theorem tracked_value (o : O) (ho : o.t = .tracked) (hu : o.uflag = false) (search) (n : Str) :
    ∀ (ws : List Str) (t : Tab), (∀ w ∈ ws, Name w) →
    value (operands o search t ws).1 n = if n ∈ ws then search n else value t n
  | [], t, _ => by simp [operands]
  | w :: ws, t, h => by
    simp only [operands, name_split (h w (by simp)), ho]
    simp only [beq_self_eq_true, Bool.not_true, Bool.and_false, Bool.false_and, Bool.false_eq_true, if_false]
    rw [tracked_value o ho hu search n ws _ (fun w hw => h w (by simp [hw]))]
    by_cases hn : n ∈ ws
    · simp [hn]
    · by_cases hw : n = w
      · subst hw
        simp only [hn, if_false, List.mem_cons, true_or, if_true]
        simp only [value, setAl, update, ho, hu, if_true]
        cases hs : search n <;> simp
      · simp [hn, hw, value, setAl]

/-- **C108** `alias -tU name …` only makes the entries: the values stay and nothing is searched. -/
theorem tracked_U (o : O) (ho : o.t = .tracked) (hu : o.uflag = true) (search) (n : Str) :
    ∀ (ws : List Str) (t : Tab), (value (operands o search t ws).1 n = value t n) ∧
      ((operands o search t ws).1 n).defined = ((t n).defined || decide (∃ w ∈ ws, (split w).1 = n))
  | [], t => by simp [operands]
  | w :: ws, t => by
    simp only [operands, ho]
    simp only [beq_self_eq_true, Bool.not_true, Bool.and_false, Bool.false_and, Bool.false_eq_true, if_false]
    obtain ⟨h1, h2⟩ := tracked_U o ho hu search n ws (setAl t (split w).1 (update o search (split w).1 (split w).2 (t (split w).1)))
    rw [h1, h2]
    by_cases hw : (split w).1 = n
    · subst hw
      simp [value, setAl, update, ho, hu]
    · simp [value, setAl, hw, Ne.symm hw]

/-- Spec: the table an option names -/
def named (es : List Getopt.Ev) : Which :=
  match (es.filter fun e => e.ret == 'd' || e.ret == 't').getLast? with
  | none => .aliases
  | some e => if e.ret = 'd' then .homedirs else .tracked

theorem options_append (o : O) : ∀ (a b : List Getopt.Ev), options o (a ++ b) = (options o a).bind fun o' => options o' b
  | [], b => rfl
  | e :: a, b => by
    simp only [List.cons_append, options]
    cases optStep o e with
    | none => rfl
    | some o' => exact options_append o' a b

/-- **C108** The options: `-d` and `-t` say which table, the last one counts; the flags are those
given; `+` in the last option shows names only; any other letter is an error. -/
theorem options_spec (es : List Getopt.Ev) (h : ∀ e ∈ es, e.ret ∈ ['d', 'p', 'r', 't', 'U', 'x']) :
    ∃ o, options {} es = some o ∧ o.t = named es ∧ o.pflag = es.any (·.ret == 'p') ∧ o.rflag = es.any (·.ret == 'r') ∧
      o.uflag = es.any (·.ret == 'U') ∧ o.xflag = es.any (·.ret == 'x') ∧ o.plus = (es.getLast?.map (·.plus)).getD false := by
  generalize hr : es.reverse = rs
  induction rs generalizing es with
  | nil =>
    have : es = [] := by simpa using hr
    subst this
    exact ⟨{}, rfl, rfl, rfl, rfl, rfl, rfl, rfl⟩
  | cons e rs ih =>
    have he : es = rs.reverse ++ [e] := by rw [← List.reverse_reverse es, hr]; simp
    obtain ⟨o, h1, h2, h3, h4, h5, h6, h7⟩ := ih rs.reverse (fun x hx => h x (by rw [he]; simp at hx ⊢; exact Or.inl hx)) (by simp)
    have hm := h e (by rw [he]; simp)
    subst he
    rw [options_append, h1]
    simp only [Option.bind_some, options, optStep, named, List.filter_append, List.any_append, List.any_cons, List.any_nil, Bool.or_false,
      ← h3, ← h4, ← h5, ← h6, List.getLast?_append, List.getLast?_singleton]
    simp only [named] at h2
    simp only [List.mem_cons, List.not_mem_nil, or_false] at hm
    rcases hm with hm | hm | hm | hm | hm | hm <;> simp [hm, h2]

theorem options_bad (a b : List Getopt.Ev) (e : Getopt.Ev) (o : O) (h : e.ret ∉ ['d', 'p', 'r', 't', 'U', 'x']) : options o (a ++ e :: b) = none := by
  rw [options_append]
  cases options o a with
  | none => rfl
  | some o' =>
    simp only [Option.bind_some, options]
    have : optStep o' e = none := by
      simp only [List.mem_cons, List.not_mem_nil, or_false, not_or] at h
      simp only [optStep]
      split <;> simp_all
    rw [this]

/-- **C108** Without operands `alias` changes nothing and shows, in the order of the names, the aliases
that have a value, with `-x` only those that are exported. -/
theorem alias_list (o : O) (ho : o.rflag = false) (mm : Bool) (search) (names : List Str) (s : Tabs) :
    alias o mm search names s [] = (s, ((names.filter fun n => (value (s.get o.t) n).isSome && (!o.xflag || ((s.get o.t) n).expo)).map fun n =>
      (if o.pflag then "alias ".toList else []) ++ n ++ (if o.plus then [] else '=' :: Lex.printQuoted ((value (s.get o.t) n).getD [])) ++ ['\n']).flatten, 0) := by
  simp only [alias, sign, ho, List.isEmpty_nil, if_true, Bool.false_eq_true, if_false, list, Prod.mk.injEq, true_and, and_true]
  have hf : (fun n => (value (s.get o.t) n).isSome && (!o.xflag || ((s.get o.t) n).expo)) = fun n => ((s.get o.t) n).isset && (!o.xflag || ((s.get o.t) n).expo) := by
    funext n
    congr 1
    simp only [value]
    cases ((s.get o.t) n).isset <;> rfl
  rw [hf]
  congr 1
  refine List.map_congr_left fun n hn => ?_
  have hi : ((s.get o.t) n).isset = true := by
    have := (List.mem_filter.1 hn).2
    simp only [Bool.and_eq_true] at this
    exact this.1
  simp [line, value, hi]

/-- **C108** With operands only the table named by the options changes. -/
theorem alias_other (o : O) (mm : Bool) (search) (names : List Str) (s : Tabs) (ws : List Str) (w : Which) (h : w ≠ o.t) :
    (alias o mm search names s ws).1.get w = s.get w := by
  have hs : (sign o mm ws).1.t = o.t ∧ (sign o mm ws).1.rflag = o.rflag := by
    simp only [sign]
    split <;> (try split) <;> exact ⟨rfl, rfl⟩
  simp only [alias]
  split
  · split
    · rfl
    · rename_i h1
      simp only [Bool.or_eq_true, not_or, bne_iff_ne, ne_eq, Decidable.not_not] at h1
      have ht := h1.1
      rw [hs.1] at ht
      simp only [unalias, Tabs.put]
      rw [if_neg (by rw [← ht]; exact h)]
  · split
    · rfl
    · simp only [Tabs.put, hs.1, if_neg h]

/-- **C108** `unalias name …` removes exactly these, and the status tells whether one was missing. -/
theorem unalias_value : ∀ (ws : List Str) (t : Tab), OK t → ∀ n,
    value (unOperands t ws).1 n = if n ∈ ws then none else value t n
  | [], t, _, n => by simp [unOperands]
  | w :: ws, t, h, n => by
    simp only [unOperands]
    split
    · have hok : OK (setAl t w (clear (t w))) := by
        intro m hm
        simp only [setAl] at hm ⊢
        split
        · rename_i he; rw [if_pos he] at hm; cases hm
        · rename_i he; rw [if_neg he] at hm; exact h m hm
      rw [unalias_value ws _ hok n]
      by_cases hn : n ∈ ws
      · simp [hn]
      · by_cases hw : n = w
        · simp [hw, value, setAl, clear]
        · simp [hn, hw, value, setAl]
    · rename_i hd
      rw [unalias_value ws t h n]
      by_cases hn : n ∈ ws
      · simp [hn]
      · by_cases hw : n = w
        · subst hw
          have : (t n).isset = false := by
            cases hi : (t n).isset with
            | false => rfl
            | true => exact absurd (h n hi) hd
          simp [value, this]
        · simp [hn, hw]

/-- **C108** The status of `unalias` is 0 exactly if the operands are different entries of the table. -/
theorem unalias_status : ∀ (ws : List Str) (t : Tab),
    (unOperands t ws).2 = 0 ↔ ws.Nodup ∧ ∀ w ∈ ws, (t w).defined = true
  | [], t => by simp [unOperands]
  | w :: ws, t => by
    simp only [unOperands]
    split
    · rename_i hd
      rw [unalias_status ws]
      simp only [List.nodup_cons, List.mem_cons, forall_eq_or_imp, hd, true_and]
      constructor
      · rintro ⟨h1, h2⟩
        have hw : w ∉ ws := by
          intro hw
          have := h2 w hw
          simp [setAl, clear] at this
        refine ⟨⟨hw, h1⟩, fun x hx => ?_⟩
        have := h2 x hx
        simp only [setAl] at this
        rwa [if_neg (by rintro rfl; exact hw hx)] at this
      · rintro ⟨⟨hw, h1⟩, h2⟩
        refine ⟨h1, fun x hx => ?_⟩
        simp only [setAl]
        rw [if_neg (by rintro rfl; exact hw hx)]
        exact h2 x hx
    · rename_i hd
      simp only [List.mem_cons, forall_eq_or_imp, hd, false_and, and_false, iff_false, Bool.false_eq_true]
      decide

/-- **C108** `unalias -a`, and `alias -t -r`, which is `hash -r`: nothing is left in this table and the
other tables are as they were. -/
theorem unalias_all (s : Tabs) (w : Which) (hs : OK (s.get w)) (ws : List Str) (n : Str) :
    value ((unalias s w true ws).1.get w) n = none ∧ ∀ w', w' ≠ w → (unalias s w true ws).1.get w' = s.get w' := by
  have key : ∀ (ws : List Str) (t : Tab), OK t → OK (unOperands t ws).1 := by
    intro ws
    induction ws with
    | nil => intro t h; exact h
    | cons x ws ih =>
      intro t h
      simp only [unOperands]
      split
      · refine ih _ ?_
        intro m hm
        simp only [setAl] at hm ⊢
        split
        · rename_i he; rw [if_pos he] at hm; cases hm
        · rename_i he; rw [if_neg he] at hm; exact h m hm
      · exact ih t h
  constructor
  · simp only [unalias, Tabs.put, if_true, value]
    split
    · rfl
    · rename_i hnd
      split
      · rename_i hi
        exact absurd (key ws _ hs n hi) hnd
      · rfl
  · intro w' hw
    simp [unalias, Tabs.put, hw]

theorem hash_r (s : Tabs) (search names) : alias { t := .tracked, rflag := true } false search names s [] =
    ((unalias s .tracked true []).1, [], 0) := rfl

/-! ## C108: the list read back -/

/-- a name that `alias -p` writes so that it is read back as an operand -/
structure Plain (n : Str) : Prop where
  unquoted : ∀ c ∈ n, Lex.needsQuote c = false
  noEq : '=' ∉ n
  noDash : n.head? ≠ some '-'
  noPlus : n.head? ≠ some '+'

/-- `alias` with only `-p` -/
def dashP : O := { pflag := true }

/-- **C108** (partial) The list of `alias -p` has one line for each alias that is set: `alias`, a
blank, and one word, which is read back as `name=value` whatever the value is.  These words, given to
`alias` when no alias is set, make exactly the aliases there were.

Missing: names that need quotes (`name_unquoted`) or begin with `-` or `+` (`dash_name`), and the
flag `-x` (`export_lost`). -/
theorem alias_p_partial (t : Tab) (names : List Str) (hn : ∀ n, value t n ≠ none → n ∈ names) (hp : ∀ n ∈ names, Plain n) :
    ∃ ps : List (Str × Str), (∀ n v, (n, v) ∈ ps ↔ value t n = some v) ∧
      list dashP t names = (ps.map fun p => "alias ".toList ++ (p.1 ++ '=' :: Lex.printQuoted p.2) ++ ['\n']).flatten ∧
      (∀ p ∈ ps, ∀ rest, Lex.Ends rest → ∃ w, (∃ N, ∀ k ≥ N, Lex.lexWord k (p.1 ++ '=' :: Lex.printQuoted p.2 ++ rest) = .word w rest) ∧
        Lex.text w = some (p.1 ++ '=' :: p.2)) ∧
      (∀ p ∈ ps, Getopt.scan true ['d', 'p', 'r', 't', 'U', 'x'] false [] [p.1 ++ '=' :: p.2] = ([], [p.1 ++ '=' :: p.2])) ∧
      ∀ (t0 : Tab), OK t0 → (∀ n, value t0 n = none) → ∀ search,
        ∀ n, value (ps.foldl (fun t p => (operands {} search t [p.1 ++ '=' :: p.2]).1) t0) n = value t n := by
  refine ⟨((names.filter fun n => (t n).isset).map fun n => (n, (t n).val)), ?_, ?_, ?_, ?_, ?_⟩
  · intro n v
    simp only [List.mem_map, List.mem_filter, Prod.mk.injEq, value]
    constructor
    · rintro ⟨m, ⟨_, h2⟩, rfl, rfl⟩
      rw [if_pos h2]
    · intro h
      split at h
      · rename_i hi
        exact ⟨n, ⟨hn n (by simp [value, hi]), hi⟩, rfl, by simpa using h⟩
      · cases h
  · simp only [list, dashP, line, List.map_map]
    simp only [Bool.not_false, Bool.true_or, Bool.and_true, Function.comp_def]
    congr 2
  · intro p hm rest hr
    simp only [List.mem_map, List.mem_filter] at hm
    obtain ⟨n, ⟨h1, _⟩, rfl⟩ := hm
    exact Typeset.word_reread n _ rest (hp n h1).unquoted hr
  · intro p hm
    simp only [List.mem_map, List.mem_filter] at hm
    obtain ⟨n, ⟨h1, _⟩, rfl⟩ := hm
    have hP := hp n h1
    refine (Getopt.scan_stops true _ []).2.2.2.2 _ ?_ ?_
    · cases n with
      | nil => simp
      | cons c n => simpa using hP.noDash
    · cases n with
      | nil => simp
      | cons c n => simpa using hP.noPlus
  · intro t0 h0 he search n
    have key : ∀ (l : List Str) (t0 : Tab), OK t0 → (∀ m ∈ l, '=' ∉ m) →
        OK (((l.map fun n => (n, (t n).val))).foldl (fun t p => (operands {} search t [p.1 ++ '=' :: p.2]).1) t0) ∧
        value ((l.map fun n => (n, (t n).val)).foldl (fun t p => (operands {} search t [p.1 ++ '=' :: p.2]).1) t0) n =
          if n ∈ l then some (t n).val else value t0 n := by
      intro l
      induction l with
      | nil => intro t0 h0 _; exact ⟨h0, by simp⟩
      | cons m l ih =>
        intro t0 h0 hl
        simp only [List.map_cons, List.foldl_cons]
        have hm : Assigns (m ++ '=' :: (t m).val) m (t m).val := ⟨rfl, hl m (by simp)⟩
        obtain ⟨g1, g2⟩ := ih _ (operands_ok {} search [m ++ '=' :: (t m).val] t0 h0) (fun x hx => hl x (by simp [hx]))
        refine ⟨g1, g2.trans ?_⟩
        by_cases hn : n ∈ l
        · simp [hn]
        · by_cases hw : n = m
          · subst hw
            have := alias_value {} (by decide) search n [n ++ '=' :: (t n).val] t0 h0 (some (t n).val) (.some (a := []) (b := []) hm (by simp))
            rw [if_neg hn, this]
            simp
          · rw [if_neg hn, alias_value {} (by decide) search n _ t0 h0 none (.none ?_)]
            · simp [hn, hw]
            · intro w hw' v hv
              simp only [List.mem_singleton] at hw'
              subst hw'
              have e := (assigns_split hm).symm.trans (assigns_split hv)
              simp only [Prod.mk.injEq] at e
              exact hw e.1.symm
    rw [(key (names.filter fun n => (t n).isset) t0 h0 (fun m hm => (hp m (List.mem_filter.1 hm).1).noEq)).2, he n]
    simp only [List.mem_filter]
    split
    · rename_i h; simp [value, h.2]
    · rename_i h
      simp only [value]
      split
      · rename_i hi
        exact absurd ⟨hn n (by simp [value, hi]), hi⟩ h
      · rfl

/-! ### What is missing -/

def empty : Tab := fun _ => {}

/-- an alias whose name needs quotes is listed without them: the line makes another alias -/
theorem name_unquoted :
    list dashP (operands {} (fun _ => none) empty ["a b=c".toList]).1 ["a b".toList] = "alias a b=c\n".toList ∧
    value (operands {} (fun _ => none) empty [['a'], "b=c".toList]).1 "a b".toList = none ∧
    value (operands {} (fun _ => none) empty [['a'], "b=c".toList]).1 ['b'] = some ['c'] := by decide +kernel

/-- an alias named `-q` is listed as `alias -q=x`, which is an error; `-x` as `alias -x=1` too -/
theorem dash_name :
    list dashP (operands {} (fun _ => none) empty ["-q=x".toList]).1 ["-q".toList] = "alias -q=x\n".toList ∧
    ((Getopt.run 9 true ['d', 'p', 'r', 't', 'U', 'x'] ["alias".toList, "-q=x".toList] Getopt.reset).bind fun r => options {} r.1) = none := by
  decide +kernel

/-- the flag `-x` is not listed -/
theorem export_lost :
    list dashP (operands { xflag := true } (fun _ => none) empty ["a=c".toList]).1 [['a']] = "alias a=c\n".toList ∧
    list dashP (operands {} (fun _ => none) empty ["a=c".toList]).1 [['a']] = "alias a=c\n".toList := by decide +kernel

/-- `alias -x name` for a name that is no alias is not reported, and makes `unalias name` succeed -/
theorem export_undefined :
    (operands { xflag := true } (fun _ => none) empty [['a']]).2 = ([], 0) ∧
    value (operands { xflag := true } (fun _ => none) empty [['a']]).1 ['a'] = none ∧
    (unOperands (operands { xflag := true } (fun _ => none) empty [['a']]).1 [['a']]).2 = 0 ∧
    (unOperands empty [['a']]).2 = 1 := by decide +kernel

/-! ### Cases -/

example : (operands {} (fun _ => none) empty ["a=b=c".toList, ['a'], "a=d".toList, ['z']]).2 = ("a=b=c\nz alias not found\n".toList, 1) := by decide +kernel

example : value (operands {} (fun _ => none) empty ["a=b=c".toList, ['a'], "a=d".toList, ['z']]).1 ['a'] = some ['d'] := by decide +kernel

example : (alias { plus := true } false (fun _ => none) [['a'], ['b']] ⟨fun _ => (operands {} (fun _ => none) empty ["a=1".toList, "b=2".toList]).1⟩ []).2 =
    ("a\nb\n".toList, 0) := by decide +kernel

end Ksh.AliasCmd
