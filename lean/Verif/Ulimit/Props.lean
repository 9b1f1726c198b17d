import Verif.Ulimit.Model
import Verif.Getopt.Props
/-!
# C54: resource limits scale without loss
-/

namespace Ksh.Ulimit

open Ksh.Getopt (Arg G Ev scan)

/-- Factors of the table. -/
theorem factors {l : Lim} (h : l ∈ limits) : l.factor = 1 ∨ l.factor = 512 ∨ l.factor = 1024 := by
  simp only [limits, List.mem_cons, List.not_mem_nil, or_false] at h
  rcases h with rfl | rfl | rfl | rfl | rfl | rfl | rfl | rfl | rfl <;> simp

/-- A number accepted as a limit: a text that is not `unlimited`, evaluates to `n`, and
begins with a digit if `n` is 0. -/
structure Numeral (e : Env) (v : Arg) (n : Int) : Prop where
  ev : e.ev v = some n
  ne : v ≠ "unlimited".toList
  zero : n = 0 → ∃ c r, v = c :: r ∧ Getopt.digit c = true

theorem value_num {e : Env} {l : Lim} {v : Arg} {n : Int} (h : Numeral e v n) :
    value e l v = some ((toU n * l.factor) % two64) := by
  unfold value
  rw [if_neg h.ne, h.ev]
  refine if_neg ?_
  rintro ⟨h0, hd⟩
  obtain ⟨c, r, rfl, hc⟩ := h.zero h0
  exact hd hc

theorem toU_nat (n : Int) (h0 : 0 ≤ n) (h1 : n < 2 ^ 63) : toU n = n.toNat := by
  simp only [toU, two64]
  rw [Int.emod_eq_of_lt h0 (by omega)]

theorem toI_small (m : Nat) (h : m < 2 ^ 63) : toI m = (m : Int) := by
  simp only [toI]; rw [if_pos h]

/-- `shown` sees the limit that `set` has set. -/
def sees (set shown : How) : Prop :=
  (shown.soft = true ∧ set.soft = true) ∨ (shown.soft = false ∧ shown.hard = true ∧ set.hard = true)

theorem print_after {inf : Nat} {l : Lim} {set shown : How} {k : K} {val : Nat} (hs : sees set shown) :
    printUlimit inf l shown (upd k l.option (newPair set val (k l.option))) =
      if val = inf then .unlimited else .num (toI (val / l.factor)) := by
  have : (if shown.soft then (upd k l.option (newPair set val (k l.option)) l.option).1
      else if shown.hard then (upd k l.option (newPair set val (k l.option)) l.option).2 else 0) = val := by
    rcases hs with ⟨h1, h2⟩ | ⟨h1, h2, h3⟩
    · simp [h1, h2, upd, newPair]
    · simp [h1, h2, h3, upd, newPair]
  simp only [printUlimit, this]

/-- C54: a limit that has been set is displayed as the number that was given exactly if the
scaled value fits in 64 bits and is not the one that stands for `unlimited`. -/
theorem set_shown {e : Env} {l : Lim} {v : Arg} {n : Int} {set shown : How} {k k' : K}
    (hl : l ∈ limits) (hv : Numeral e v n) (h0 : 0 ≤ n) (h1 : n < 2 ^ 63) (hs : sees set shown)
    (h : setUlimit e l v set k = some k') :
    printUlimit e.inf l shown k' = .num n ↔ n * l.factor < 2 ^ 64 ∧ n * l.factor ≠ e.inf := by
  obtain ⟨m, rfl⟩ : ∃ m : Nat, n = m := ⟨n.toNat, by omega⟩
  simp only [setUlimit, value_num hv] at h
  split at h
  · injection h with h
    rw [← h, print_after hs, toU_nat _ h0 h1]
    simp only [Int.toNat_natCast]
    have hf := factors hl
    have hm : m < 2 ^ 63 := by omega
    constructor
    · intro hp
      rcases Nat.lt_or_ge (m * l.factor) (2 ^ 64) with hlt | hge
      · have : ((m * l.factor : Nat) : Int) < ((2 ^ 64 : Nat) : Int) := Int.ofNat_lt.2 hlt
        refine ⟨by simpa using this, fun he => ?_⟩
        have he' : m * l.factor = e.inf := by
          have : ((m * l.factor : Nat) : Int) = ((e.inf : Nat) : Int) := by simpa using he
          exact Int.ofNat_inj.1 this
        rw [if_pos (by rw [show m * l.factor % two64 = m * l.factor from Nat.mod_eq_of_lt hlt, he'])] at hp
        cases hp
      · exfalso
        split at hp
        · cases hp
        · have hlt : m * l.factor % two64 < two64 := Nat.mod_lt _ (by decide)
          have hq : m * l.factor % two64 / l.factor < m := by
            rw [Nat.div_lt_iff_lt_mul (by omega)]
            simp only [two64] at hlt ⊢; omega
          rw [toI_small _ (by omega)] at hp
          simp only [Val.num.injEq] at hp
          omega
    · intro ⟨hlt, hinf⟩
      have hlt' : m * l.factor < 2 ^ 64 := by
        have : ((m * l.factor : Nat) : Int) < ((2 ^ 64 : Nat) : Int) := by simpa using hlt
        exact Int.ofNat_lt.1 this
      have hmod : m * l.factor % two64 = m * l.factor := Nat.mod_eq_of_lt hlt'
      rw [hmod]
      have hne : m * l.factor ≠ e.inf := by
        intro he; apply hinf; rw [← he]; simp
      rw [if_neg hne, Nat.mul_div_cancel _ (by omega), toI_small _ hm]
  · cases h

/-- `unlimited` is displayed as such. -/
theorem set_unlimited {e : Env} {l : Lim} {set shown : How} {k k' : K} (hs : sees set shown)
    (h : setUlimit e l "unlimited".toList set k = some k') : printUlimit e.inf l shown k' = .unlimited := by
  have hv : value e l "unlimited".toList = some e.inf := if_pos rfl
  unfold setUlimit at h
  rw [hv] at h
  generalize hR : e.inf = R at h
  simp only at h
  split at h
  · injection h with h
    rw [← h, print_after hs, if_pos rfl]
  · cases h

/-- Setting a limit to the number displayed rounds it down to the unit and does not change
what is displayed. -/
theorem restore {e : Env} {l : Lim} {v : Arg} {n : Int} {how : How} {k k' : K} (hl : l ∈ limits)
    (hodd : e.inf % 2 = 1)
    (hk : (k l.option).1 < two64 ∧ (k l.option).2 < two64) (hw : how.soft = true ∨ how.hard = true)
    (hp : printUlimit e.inf l how k = .num n) (h0 : 0 ≤ n) (hv : Numeral e v n)
    (h : setUlimit e l v how k = some k') :
    printUlimit e.inf l how k' = .num n ∧
    (how.soft = true → (k' l.option).1 = (k l.option).1 / l.factor * l.factor) ∧
    (how.soft = false → (k' l.option).2 = (k l.option).2 / l.factor * l.factor) := by
  obtain ⟨val, hval, hlt⟩ : ∃ val, val = (if how.soft then (k l.option).1
      else if how.hard then (k l.option).2 else 0) ∧ val < two64 := by
    refine ⟨_, rfl, ?_⟩
    split
    · exact hk.1
    · split
      · exact hk.2
      · decide
  simp only [printUlimit, ← hval] at hp
  have hf := factors hl
  split at hp
  · cases hp
  · next hni =>
    injection hp with hp
    have hq : val / l.factor < 2 ^ 63 ∧ n = ((val / l.factor : Nat) : Int) := by
      simp only [toI] at hp
      split at hp
      · next hq => exact ⟨hq, hp.symm⟩
      · exfalso
        have : val / l.factor ≤ val := Nat.div_le_self _ _
        simp only [two64] at hp hlt
        omega
    obtain ⟨hq1, hq2⟩ := hq
    have hn1 : n < 2 ^ 63 := by omega
    have hdm : val / l.factor * l.factor ≤ val := Nat.div_mul_le_self _ _
    have hfit : n * l.factor < 2 ^ 64 := by
      rw [hq2]
      have h2 : val / l.factor * l.factor < 2 ^ 64 := by simp only [two64] at hlt; omega
      have : ((val / l.factor * l.factor : Nat) : Int) < ((2 ^ 64 : Nat) : Int) := Int.ofNat_lt.2 h2
      simpa using this
    have hinf : n * l.factor ≠ e.inf := by
      rw [hq2]
      intro he
      have he' : val / l.factor * l.factor = e.inf := by
        have : ((val / l.factor * l.factor : Nat) : Int) = ((e.inf : Nat) : Int) := by simpa using he
        exact Int.ofNat_inj.1 this
      rcases hf with hf | hf | hf <;> rw [hf] at he' <;> omega
    have hs : sees how how := by
      cases hsf : how.soft with
      | true => left; exact ⟨hsf, hsf⟩
      | false =>
        right
        rcases hw with hw | hw
        · rw [hsf] at hw; cases hw
        · exact ⟨hsf, hw, hw⟩
    refine ⟨(set_shown hl hv h0 hn1 hs h).2 ⟨hfit, hinf⟩, ?_⟩
    simp only [setUlimit, value_num hv] at h
    split at h
    · injection h with h
      have hv2 : toU n * l.factor % two64 = val / l.factor * l.factor := by
        rw [toU_nat n h0 hn1, hq2, Int.toNat_natCast, Nat.mod_eq_of_lt (by omega)]
      rw [hv2] at h
      constructor
      · intro hsf
        rw [if_pos hsf] at hval
        rw [← h, ← hval]; simp [upd, newPair, hsf]
      · intro hsf
        have hh : how.hard = true := by
          rcases hw with hw | hw
          · rw [hsf] at hw; cases hw
          · exact hw
        rw [hsf, hh] at hval
        simp only [Bool.false_eq_true, if_false, if_true] at hval
        rw [← h, ← hval]; simp [upd, newPair, hh]
    · cases h

/-! ## The builtin -/

/-- The options of the command and its operands, as the specification of C22 has them. -/
def finishes (env : Env) (args : List Arg) (k : K) (r : Bool × K × List Line) : Prop :=
  ∃ name N, ∀ n ≥ N, ulimit n env (name :: args) k = some r

theorem ulimit_operands (env : Env) (args : List Arg) (k : K)
    (h : (scan false options false [] args).2 ≠ []) : ∀ name, ∃ N, ∀ n ≥ N,
    ulimit n env (name :: args) k = some (false, k, []) := by
  intro name
  obtain ⟨g, N, hN⟩ := Getopt.options_scanned false options name args
  refine ⟨N, fun n hn => ?_⟩
  obtain ⟨h1, h2⟩ := hN n hn
  simp only [ulimit, h1]
  split
  · rfl
  · rw [h2, if_pos h]

/-- A command without operands is the two passes over its options. -/
theorem ulimit_eq (env : Env) (args : List Arg) (k : K)
    (h : (scan false options false [] args).2 = []) : ∀ name, ∃ N oi, ∀ n ≥ N,
    ulimit n env (name :: args) k =
      (match pass1 (scan false options false [] args).1 ⟨true, true⟩ false with
      | none => some (false, k, [])
      | some (how, all) =>
        match pass2 env how (scan false options false [] args).1 k [] with
        | (false, k', out) => some (false, k', out)
        | (true, k', out) => some (true, k', out ++ last env.inf how all oi k')) ∧
      args.length + 1 ≤ oi := by
  intro name
  obtain ⟨g, N, hN⟩ := Getopt.options_scanned false options name args
  refine ⟨N, g.optind, fun n hn => ?_⟩
  obtain ⟨h1, h2⟩ := hN n hn
  rw [h] at h2
  constructor
  · simp only [ulimit, h1, h2]
    cases pass1 (scan false options false [] args).1 ⟨true, true⟩ false with
    | none => rfl
    | some p =>
      obtain ⟨how, all⟩ := p
      simp only [ne_eq, not_true_eq_false, if_false]
      obtain ⟨b, k', out⟩ := pass2 env how (scan false options false [] args).1 k []
      cases b <;> rfl
  · have := congrArg List.length h2
    simp at this; omega

/-- A bare value is refused, for every value: `ulimit 100` does not set the file size. -/
theorem bare_value_refused (env : Env) (v : Arg) (rest : List Arg) (k : K)
    (h : Getopt.optionLike false v = false) (hd : v ≠ ['-', '-']) (name : Arg) :
    ∃ N, ∀ n ≥ N, ulimit n env (name :: v :: rest) k = some (false, k, []) := by
  apply ulimit_operands
  rw [scan.eq_def]
  simp only
  rw [if_neg hd, h]
  simp

theorem kind_limit {l : Lim} (h : l ∈ limits) : Getopt.kind options l.option = .number ∧
    l.option ≠ 'a' ∧ l.option ≠ 'H' ∧ l.option ≠ 'S' ∧ l.option ≠ '?' ∧ l.option ≠ '-' ∧
    limits.find? (fun x => x.option = l.option) = some l := by
  simp only [limits, List.mem_cons, List.not_mem_nil, or_false] at h
  rcases h with rfl | rfl | rfl | rfl | rfl | rfl | rfl | rfl | rfl <;> decide +kernel

/-- `-H`, `-S` or nothing. -/
def flagArgs (how : How) : List Arg :=
  if how.soft && how.hard then [] else if how.soft then [['-', 'S']] else [['-', 'H']]

def goodHow (how : How) : Prop := how.soft = true ∨ how.hard = true

theorem scan_dash (c : Char) (r : List Arg) (p : Bool) (h : c ≠ '-') :
    scan false options p [] (['-', c] :: r) = scan false options false [c] r := by
  rw [scan.eq_def]
  simp only
  rw [if_neg (by simpa using h)]
  simp [Getopt.optionLike]

theorem scan_limit {l : Lim} (h : l ∈ limits) (v : Option Arg) (hv : ∀ x, v = some x → Getopt.number x = true) :
    scan false options false [] (['-', l.option] :: v.toList) = ([⟨false, l.option, v, none⟩], []) := by
  obtain ⟨h1, _, _, _, _, h2, _⟩ := kind_limit h
  rw [scan_dash _ _ _ h2, scan.eq_def]
  simp only [h1]
  cases v with
  | none => simp
  | some x =>
    have h0 : scan false options false [] [] = ([], []) := by rw [scan.eq_def]
    simp [hv x rfl, h0]

theorem scan_flags {l : Lim} (h : l ∈ limits) (how : How) (hw : goodHow how) (v : Option Arg)
    (hv : ∀ x, v = some x → Getopt.number x = true) :
    ∃ pre, scan false options false [] (flagArgs how ++ ['-', l.option] :: v.toList) =
      (pre ++ [⟨false, l.option, v, none⟩], []) ∧
      (∀ es all, pass1 (pre ++ es) ⟨true, true⟩ all = pass1 es how all) ∧
      (∀ env how' es k out, pass2 env how' (pre ++ es) k out = pass2 env how' es k out) := by
  have key : ∀ c, c ≠ '-' → Getopt.kind options c = .flag → c ≠ ' ' →
      scan false options false [] (['-', c] :: ['-', l.option] :: v.toList) =
      ([⟨false, c, none, none⟩] ++ [⟨false, l.option, v, none⟩], []) := by
    intro c hc hk _
    rw [scan_dash _ _ _ hc, scan.eq_def]
    simp only [hk]
    rw [scan_limit h v hv]; rfl
  rcases how with ⟨s, hd⟩
  cases s with
  | true =>
    cases hd with
    | true =>
      exact ⟨[], by simpa [flagArgs] using scan_limit h v hv, fun _ _ => rfl, fun _ _ _ _ _ => rfl⟩
    | false =>
      refine ⟨[⟨false, 'S', none, none⟩], ?_, ?_, ?_⟩
      · simpa [flagArgs] using key 'S' (by decide) (by decide +kernel) (by decide)
      · intro es all; simp [pass1]
      · intro env how' es k out; simp [pass2]
  | false =>
    cases hd with
    | true =>
      refine ⟨[⟨false, 'H', none, none⟩], ?_, ?_, ?_⟩
      · simpa [flagArgs] using key 'H' (by decide) (by decide +kernel) (by decide)
      · intro es all; simp [pass1]
      · intro env how' es k out; simp [pass2]
    | false => rcases hw with hw | hw <;> cases hw

/-- `ulimit [-HS] -x value` is `set_ulimit`. -/
theorem ulimit_set (env : Env) {l : Lim} (hl : l ∈ limits) (how : How) (hw : goodHow how) (v : Arg)
    (hv : Getopt.number v = true) (k : K) (name : Arg) : ∃ N, ∀ n ≥ N,
    ulimit n env (name :: flagArgs how ++ [['-', l.option], v]) k =
      match setUlimit env l v how k with
      | none => some (false, k, [])
      | some k' => some (true, k', []) := by
  obtain ⟨pre, h1, h2, h3⟩ := scan_flags hl how hw (some v) (by intro x hx; injection hx with hx; rw [← hx]; exact hv)
  obtain ⟨N, oi, hN⟩ := ulimit_eq env (flagArgs how ++ ['-', l.option] :: [v]) k (by rw [Option.toList_some] at h1; rw [h1]) name
  refine ⟨N, fun n hn => ?_⟩
  obtain ⟨g1, g2⟩ := hN n hn
  rw [List.cons_append, g1]
  obtain ⟨_, k1, k2, k3, k4, _, k5⟩ := kind_limit hl
  rw [Option.toList_some] at h1
  rw [h1]
  simp only [h2, h3]
  simp only [pass1, pass2, k1, k2, k3, k4, k5, if_false, or_self]
  have hlast : ∀ k', last env.inf how false oi k' = [] := by
    intro k'
    simp only [last, Bool.false_eq_true, if_false]
    rw [if_neg]; simp at g2; omega
  cases setUlimit env l v how k with
  | none => rfl
  | some k' => simp [hlast]

/-- `ulimit [-HS] -x` is `print_ulimit`. -/
theorem ulimit_show (env : Env) {l : Lim} (hl : l ∈ limits) (how : How) (hw : goodHow how)
    (k : K) (name : Arg) : ∃ N, ∀ n ≥ N,
    ulimit n env (name :: flagArgs how ++ [['-', l.option]]) k =
      some (true, k, [⟨none, printUlimit env.inf l how k⟩]) := by
  obtain ⟨pre, h1, h2, h3⟩ := scan_flags hl how hw none (by intro x hx; cases hx)
  obtain ⟨N, oi, hN⟩ := ulimit_eq env (flagArgs how ++ ['-', l.option] :: []) k (by rw [Option.toList_none] at h1; rw [h1]) name
  refine ⟨N, fun n hn => ?_⟩
  obtain ⟨g1, g2⟩ := hN n hn
  rw [List.cons_append, g1]
  obtain ⟨_, k1, k2, k3, k4, _, k5⟩ := kind_limit hl
  rw [Option.toList_none] at h1
  rw [h1]
  simp only [h2, h3]
  have hlast : ∀ k', last env.inf how false oi k' = [] := by
    intro k'
    simp only [last, Bool.false_eq_true, if_false]
    rw [if_neg]; simp at g2; omega
  simp [pass1, pass2, k1, k2, k3, k4, k5, hlast]

/-- C54, for the commands: `ulimit -x n` followed by `ulimit -x` displays `n`, for every
resource, with `-S`, `-H` or neither, exactly if the scaled value fits and is not the one
that stands for `unlimited`. -/
theorem ulimit_roundtrip (env : Env) {l : Lim} (hl : l ∈ limits) (how : How) (hw : goodHow how) (v : Arg)
    (hv : Getopt.number v = true) (n : Int) (hn : Numeral env v n) (h0 : 0 ≤ n) (h1 : n < 2 ^ 63)
    (k k' : K) (hset : setUlimit env l v how k = some k') (name : Arg) : ∃ N, ∀ m ≥ N,
    ulimit m env (name :: flagArgs how ++ [['-', l.option], v]) k = some (true, k', []) ∧
    (ulimit m env (name :: flagArgs how ++ [['-', l.option]]) k' = some (true, k', [⟨none, .num n⟩]) ↔
      n * l.factor < 2 ^ 64 ∧ n * l.factor ≠ env.inf) := by
  obtain ⟨N1, g1⟩ := ulimit_set env hl how hw v hv k name
  obtain ⟨N2, g2⟩ := ulimit_show env hl how hw k' name
  refine ⟨N1 + N2, fun m hm => ⟨?_, ?_⟩⟩
  · rw [g1 m (by omega), hset]
  · rw [g2 m (by omega)]
    have hs : sees how how := by
      rcases how with ⟨s, h⟩
      cases s with
      | true => left; exact ⟨rfl, rfl⟩
      | false =>
        right
        rcases hw with hw | hw
        · cases hw
        · exact ⟨rfl, hw, hw⟩
    rw [← set_shown hl hn h0 h1 hs hset]
    simp

/-- `ulimit -a` displays the nine resources in the order of the table and changes nothing. -/
theorem ulimit_all (env : Env) (k : K) (name : Arg) : ∃ N, ∀ n ≥ N,
    ulimit n env [name, ['-', 'a']] k =
      some (true, k, limits.map (fun l => ⟨some l.option, printUlimit env.inf l ⟨true, true⟩ k⟩)) := by
  have hs : scan false options false [] [['-', 'a']] = ([⟨false, 'a', none, none⟩], []) := by
    have h0 : scan false options false [] [] = ([], []) := by rw [scan.eq_def]
    have hk : Getopt.kind options 'a' = .flag := by decide +kernel
    rw [scan_dash _ _ _ (by decide), scan.eq_def]
    simp [hk, h0]
  obtain ⟨N, oi, hN⟩ := ulimit_eq env [['-', 'a']] k (by rw [hs]) name
  refine ⟨N, fun n hn => ?_⟩
  rw [(hN n hn).1, hs]
  simp [pass1, pass2, last]

/-! ## What is not touched -/

/-- A resource that no option names with a value keeps its limits, and with `-S` (`-H`) no
hard (soft) limit changes. -/
theorem pass2_frame (env : Env) (how : How) (c : Char) : ∀ (es : List Ev) (k k' : K) (out out' : List Line) (b : Bool),
    pass2 env how es k out = (b, k', out') →
    ((∀ e ∈ es, e.ret = c → e.optarg = none) → k' c = k c) ∧
    (how.hard = false → (k' c).2 = (k c).2) ∧ (how.soft = false → (k' c).1 = (k c).1) := by
  intro es
  induction es with
  | nil =>
    intro k k' out out' b h
    simp only [pass2, Prod.mk.injEq] at h
    obtain ⟨_, rfl, _⟩ := h; simp
  | cons e es ih =>
    intro k k' out out' b h
    have same : ∀ out, pass2 env how es k out = (b, k', out') →
        ((∀ x ∈ e :: es, x.ret = c → x.optarg = none) → k' c = k c) ∧
        (how.hard = false → (k' c).2 = (k c).2) ∧ (how.soft = false → (k' c).1 = (k c).1) := by
      intro out h
      obtain ⟨h1, h2⟩ := ih _ _ _ _ _ h
      exact ⟨fun hall => h1 (fun x hx => hall x (List.mem_cons_of_mem _ hx)), h2⟩
    have stop : ∀ x : Bool × K × List Line, x = (b, k', out') → x.2.1 = k →
        ((∀ x ∈ e :: es, x.ret = c → x.optarg = none) → k' c = k c) ∧
        (how.hard = false → (k' c).2 = (k c).2) ∧ (how.soft = false → (k' c).1 = (k c).1) := by
      intro x hx hk
      subst hx; simp only at hk; subst hk; simp
    simp only [pass2] at h
    split at h
    · exact same _ h
    · split at h
      · exact stop _ h rfl
      · split at h
        · exact stop _ h rfl
        · next l hl =>
          have hopt : l.option = e.ret := by simpa using List.find?_some hl
          split at h
          · next v hv =>
            split at h
            · exact stop _ h rfl
            · next k1 hset =>
              obtain ⟨h1, h2, h3⟩ := ih _ _ _ _ _ h
              simp only [setUlimit] at hset
              split at hset
              · cases hset
              · next val _ =>
                split at hset
                · injection hset with hset
                  subst hset
                  refine ⟨?_, ?_, ?_⟩
                  · intro hall
                    rw [h1 (fun x hx => hall x (List.mem_cons_of_mem _ hx))]
                    simp only [upd]
                    rw [if_neg]
                    intro hc
                    have := hall e List.mem_cons_self (by rw [hc, hopt])
                    rw [hv] at this; cases this
                  · intro hh
                    rw [h2 hh]
                    simp only [upd]
                    split
                    · next hc => simp [newPair, hh, hc]
                    · rfl
                  · intro hh
                    rw [h3 hh]
                    simp only [upd]
                    split
                    · next hc => simp [newPair, hh, hc]
                    · rfl
                · cases hset
          · exact same _ h

/-- The same for the command, whatever its arguments. -/
theorem ulimit_frame (n : Nat) (env : Env) (argv : List Arg) (k k' : K) (b : Bool) (out : List Line)
    (h : ulimit n env argv k = some (b, k', out)) (es : List Ev) (g : G)
    (hr : Getopt.run n false options argv Getopt.reset = some (es, g)) (c : Char)
    (hno : ∀ e ∈ es, e.ret = c → e.optarg = none) : k' c = k c := by
  simp only [ulimit, hr] at h
  split at h
  · simp only [Option.some.injEq, Prod.mk.injEq] at h; rw [h.2.1]
  · split at h
    · simp only [Option.some.injEq, Prod.mk.injEq] at h; rw [h.2.1]
    · next how all _ _ =>
      split at h
      · next k1 o1 hp =>
        simp only [Option.some.injEq, Prod.mk.injEq] at h
        rw [← h.2.1]; exact (pass2_frame env _ c _ _ _ _ _ _ hp).1 hno
      · next k1 o1 hp =>
        simp only [Option.some.injEq, Prod.mk.injEq] at h
        rw [← h.2.1]; exact (pass2_frame env _ c _ _ _ _ _ _ hp).1 hno

/-! ## Concrete cases -/

def RLIM_INFINITY : Nat := 2 ^ 64 - 1

def anyEnv : Env := ⟨RLIM_INFINITY, fun v => if v = "100".toList then some 100 else if v = "18014398509481984".toList then some (2 ^ 54) else none, fun _ _ => true⟩

/-- Overflow: 2^54 units of 1024 bytes wrap around to a limit of 0. -/
example : (setUlimit anyEnv ⟨1024, 'd'⟩ "18014398509481984".toList ⟨true, true⟩ (fun _ => (RLIM_INFINITY, RLIM_INFINITY))).map
    (fun k => k 'd') = some (0, 0) := by decide +kernel

example : (ulimit 10 anyEnv ["ulimit".toList, "-f".toList, "100".toList] (fun _ => (RLIM_INFINITY, RLIM_INFINITY))).map
    (fun r => (r.1, r.2.1 'f', r.2.2)) = some (true, (51200, 51200), []) := by decide +kernel

example : (ulimit 10 anyEnv ["ulimit".toList, "-S".toList, "-n".toList, "100".toList, "-n".toList, "-f".toList] (fun _ => (RLIM_INFINITY, RLIM_INFINITY))).map
    (fun r => (r.1, r.2.1 'n', r.2.2)) =
    some (true, (100, RLIM_INFINITY), [⟨none, .num 100⟩, ⟨none, .unlimited⟩]) := by decide +kernel

/-- A count of 2^63 or more is displayed as a negative number. -/
example : printUlimit RLIM_INFINITY ⟨1, 'n'⟩ ⟨true, true⟩ (fun _ => (2 ^ 63, RLIM_INFINITY)) = .num (-2 ^ 63) := by decide +kernel

/-- 1000 bytes are displayed as one unit of 512 bytes and restored as 512 bytes. -/
example : printUlimit RLIM_INFINITY ⟨512, 'f'⟩ ⟨true, true⟩ (fun _ => (1000, 1000)) = .num 1 := by decide +kernel

/-- `ulimit -H` alone displays nothing. -/
example : (ulimit 10 anyEnv ["ulimit".toList, "-H".toList] (fun _ => (0, 0))).map (fun r => (r.1, r.2.2)) = some (true, []) ∧
    (ulimit 10 anyEnv ["ulimit".toList] (fun _ => (0, 0))).map (fun r => (r.1, r.2.2)) =
      some (true, [⟨none, .num 0⟩]) := by decide +kernel

end Ksh.Ulimit
