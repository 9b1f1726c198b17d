import Verif.Typeset.Model
import Verif.Lex.Props

/-!
# C106: what the options of `typeset` do; C107: the lists can be read back
-/

namespace Ksh.Typeset

/-! ## C106 -/

/-- Spec: no flag is both set and cleared ("This property should be preserved", c_ksh.c:692) -/
def Disjoint (s c : FS) : Prop := ∀ f, ¬ (s f = true ∧ c f = true)

/-- Spec: the last option for the flag decides: `some false` is `-`, `some true` is `+` -/
def lastFor (f : Flag) (es : List Getopt.Ev) : Option Bool :=
  (es.reverse.find? fun e => decide (flagOf e.ret = some f)).map (·.plus)

theorem step_fset (t : T) (p : Bool) (c : Char) (o : Option (List Char)) (f : Flag) :
    (step t p c o).fset f = if flagOf c = some f then !p else t.fset f := by
  by_cases h : flagOf c = some f
  · cases p <;> simp [step, h]
  · cases p <;> simp [step, h] <;> (repeat' split) <;> rfl

theorem step_fclr (t : T) (p : Bool) (c : Char) (o : Option (List Char)) (f : Flag) :
    (step t p c o).fclr f = if flagOf c = some f then p else t.fclr f := by
  by_cases h : flagOf c = some f
  · cases p <;> simp [step, h]
  · cases p <;> simp [step, h] <;> (repeat' split) <;> rfl

/-- **C106** The last option for an attribute decides whether it is to be set or cleared. -/
theorem last_wins (es : List Getopt.Ev) (t t' : T) (h : options t es = some t') (f : Flag) :
    t'.fset f = (match lastFor f es with | some p => !p | none => t.fset f) ∧
    t'.fclr f = (match lastFor f es with | some p => p | none => t.fclr f) := by
  induction es generalizing t with
  | nil => cases h; exact ⟨rfl, rfl⟩
  | cons e es ih =>
    simp only [options] at h
    split at h
    · cases h
    · obtain ⟨h1, h2⟩ := ih _ h
      have e0 : lastFor f (e :: es) = (match lastFor f es with | some p => some p | none => if flagOf e.ret = some f then some e.plus else none) := by
        simp only [lastFor, List.reverse_cons, List.find?_append]
        cases es.reverse.find? fun e => decide (flagOf e.ret = some f) with
        | some x => rfl
        | none => by_cases hc : flagOf e.ret = some f <;> simp [hc]
      rw [h1, h2, e0, step_fset, step_fclr]
      cases lastFor f es with
      | some p => exact ⟨rfl, rfl⟩
      | none => by_cases hc : flagOf e.ret = some f <;> simp [hc]

theorem options_disjoint (es : List Getopt.Ev) (t t' : T) (h : options t es = some t') (hd : Disjoint t.fset t.fclr) :
    Disjoint t'.fset t'.fclr := by
  intro f
  obtain ⟨h1, h2⟩ := last_wins es t t' h f
  rw [h1, h2]
  cases lastFor f es with
  | some p => cases p <;> simp
  | none => exact hd f

/-- Spec: what is asked for once `-l` has taken precedence over `-u`, `-L` over `-R`, and `-Z`
without `-L` has been taken as `-ZR` -/
def asked (s : FS) : FS
  | .ucase => s .ucase && !s .lcase
  | .rjust => (s .rjust || s .zerofil) && !s .ljust
  | f => s f

theorem anyGroup_asked (s : FS) : anyGroup (asked s) = anyGroup s := by
  simp only [anyGroup, asked]
  cases s .ljust <;> cases s .rjust <;> cases s .zerofil <;> cases s .ucase <;> cases s .lcase <;> cases s .int <;> cases s .intu <;> rfl

theorem prefer_eq (s c : FS) : prefer s c = (asked s, if s .zerofil && !s .ljust then minus c .rjust else c) := by
  have h1 : ∀ t : FS, (if t .lcase then minus t .ucase else t) = fun f => t f && !(decide (f = .ucase) && t .lcase) := by
    intro t; funext f; by_cases h : t .lcase = true <;> simp [h, minus]
  have h2 : ∀ t : FS, (if t .ljust then minus t .rjust else t) = fun f => t f && !(decide (f = .rjust) && t .ljust) := by
    intro t; funext f; by_cases h : t .ljust = true <;> simp [h, minus]
  simp only [prefer, h1]
  by_cases hz : s .zerofil = true <;> by_cases hj : s .ljust = true <;> simp [hz, hj, minus] <;> funext f <;> cases f <;>
    simp_all [asked, plus, minus]

theorem exclude_fst (s c : FS) : (exclude s c).1 = asked s := by
  simp only [exclude, prefer_eq]

theorem exclude_snd (s c : FS) (f : Flag) :
    (exclude s c).2 f = ((c f && !(decide (f = .rjust) && s .zerofil && !s .ljust)) || (anyGroup s && !asked s f && group f)) := by
  simp only [exclude, prefer_eq, anyGroup_asked]
  by_cases hg : anyGroup s = true <;> by_cases hz : s .zerofil = true <;> by_cases hj : s .ljust = true <;> simp [hg, hz, hj, minus]

/-- **C106** The attributes to set and those to clear stay disjoint. -/
theorem exclude_disjoint (s c : FS) (h : Disjoint s c) : Disjoint (exclude s c).1 (exclude s c).2 := by
  intro f ⟨h1, h2⟩
  rw [exclude_fst] at h1
  rw [exclude_snd, h1] at h2
  simp only [Bool.not_true, Bool.and_false, Bool.false_and, Bool.or_false, Bool.and_eq_true] at h2
  apply h f
  refine ⟨?_, h2.1⟩
  have h3 := h2.2
  revert h1 h3
  cases f <;> simp [asked] <;> (try cases s .rjust) <;> (try cases s .zerofil) <;> (try cases s .ljust) <;> simp_all

/-- Spec: the attributes that say how a value is shown or stored: all but `-x`, `-r` and `-t` -/
def shapes : List Flag := [.int, .intu, .lcase, .ucase, .ljust, .rjust, .zerofil]

/-- Spec: the attributes afterwards: what is asked for is set; if that changes how values are shown or
stored, no other such attribute remains; else the others stay unless they are to be cleared. -/
def after (a s c : FS) : FS := fun f =>
  asked s f || (a f && !c f && !(shapes.contains f && shapes.any s))

theorem group_shapes (f : Flag) : group f = shapes.contains f := by cases f <;> decide

theorem anyGroup_shapes (s : FS) : anyGroup s = shapes.any s := by
  simp only [anyGroup, shapes, List.any_cons, List.any_nil, Bool.or_false]
  cases s .ljust <;> cases s .rjust <;> cases s .zerofil <;> cases s .ucase <;> cases s .lcase <;> cases s .int <;> cases s .intu <;> rfl

/-- **C106** This is what `typeset` does to the attributes of a variable. -/
theorem effect (a s c : FS) (h : Disjoint s c) : change a (exclude s c).1 (exclude s c).2 = after a s c := by
  funext f
  have hf := h f
  simp only [change, exclude_fst, exclude_snd, after, ← group_shapes, ← anyGroup_shapes]
  cases ha : asked s f with
  | true =>
    have : (c f && !(decide (f = .rjust) && s .zerofil && !s .ljust)) = false := by
      revert hf ha
      cases f <;> simp [asked] <;> cases s .rjust <;> cases s .zerofil <;> cases s .ljust <;> simp_all
    rw [this]
    simp
  | false =>
    have : (decide (f = .rjust) && s .zerofil && !s .ljust) = false := by
      revert ha
      cases f <;> simp [asked] <;> cases s .zerofil <;> cases s .ljust <;> simp
    simp only [this, Bool.not_false, Bool.and_true, Bool.or_false, Bool.false_or, Bool.not_false]
    cases a f <;> cases c f <;> cases group f <;> cases anyGroup s <;> rfl

/-- **C106** A variable never has both `-L` and `-R`, nor both `-l` and `-u`, whatever commands are
given. -/
theorem never_both (ops : List (FS × FS)) (hd : ∀ q ∈ ops, Disjoint q.1 q.2) (a : FS)
    (h1 : ¬ (a .ljust = true ∧ a .rjust = true)) (h2 : ¬ (a .lcase = true ∧ a .ucase = true)) :
    let b := ops.foldl (fun a q => change a (exclude q.1 q.2).1 (exclude q.1 q.2).2) a
    ¬ (b .ljust = true ∧ b .rjust = true) ∧ ¬ (b .lcase = true ∧ b .ucase = true) := by
  induction ops generalizing a with
  | nil => exact ⟨h1, h2⟩
  | cons q ops ih =>
    simp only [List.foldl_cons]
    have e := effect a q.1 q.2 (hd q (by simp))
    refine ih (fun x hx => hd x (by simp [hx])) _ ?_ ?_
    · rw [e]
      simp only [after, asked, ← group_shapes, ← anyGroup_shapes, group, anyGroup]
      revert h1
      cases a .ljust <;> cases a .rjust <;> cases q.1 .ljust <;> cases q.1 .rjust <;> cases q.1 .zerofil <;> simp
    · rw [e]
      simp only [after, asked, ← group_shapes, ← anyGroup_shapes, group, anyGroup]
      revert h2
      cases a .lcase <;> cases a .ucase <;> cases q.1 .lcase <;> cases q.1 .ucase <;> simp

/-! ## C107: the line of `typeset` -/

/-- the flags as the attributes of `Vars` -/
def toAttr (a : FS) : Vars.Attr :=
  ⟨a .int, a .expo, a .rdonly, a .ljust, a .rjust, a .zerofil, a .lcase, a .ucase, a .intu⟩

/-- a name that is not taken for the number after `-i` -/
def Operand (name : List Char) : Prop := name.head? ≠ some '-' ∧ name.head? ≠ some '+' ∧ Getopt.number name = false

theorem dec_spec (n : Nat) (h : n < 2 ^ 31) : Num.decVal (dec n) = n ∧ (∀ c ∈ dec n, Num.isDigit c = true) ∧ dec n ≠ [] := by
  have hs := (Num.u64ton_fits_iff n (by omega)).2 (by omega)
  obtain ⟨s, e⟩ := Option.isSome_iff_exists.1 hs
  obtain ⟨h1, h2, h3, _⟩ := Num.u64ton_value n (by omega) s e
  simp only [dec, e, Option.getD_some]
  exact ⟨h1, h2, h3⟩

theorem dec_getn (n : Nat) (h : n < 2 ^ 31 - 1) : Num.getn (dec n) = some (n : Int) := by
  obtain ⟨h1, h2, h3⟩ := dec_spec n (by omega)
  refine (Num.getn_spec _ _).2 ⟨⟨[], [], dec n, by simp, by simp, Or.inl rfl, h3, h2, by simp [h1]⟩, by omega, by omega⟩

theorem number_digit {c : Char} (h : Getopt.digit c = true) (r : List Char) : Getopt.number (c :: r) = true := by
  show (Getopt.digit c || _) = true
  rw [h, Bool.true_or]

theorem number_dash (w : List Char) : Getopt.number ('-' :: w) = false := by
  show (Getopt.digit '-' || decide ('-' :: w = "unlimited".toList)) = false
  have he : "unlimited".toList = ['u', 'n', 'l', 'i', 'm', 'i', 't', 'e', 'd'] := rfl
  rw [he, show Getopt.digit '-' = false from rfl]
  simp

theorem dec_number (n : Nat) (h : n < 2 ^ 31) : Getopt.number (dec n) = true := by
  obtain ⟨_, h2, h3⟩ := dec_spec n h
  cases hd : dec n with
  | nil => exact absurd hd h3
  | cons c r =>
    have := h2 c (by simp [hd])
    have hd : Getopt.digit c = true := this
    exact number_digit hd r

/-- words after which a word `-c` is taken as an option, with no number to it -/
def Plain (ws : List (List Char)) : Prop := ∀ w, ws.head? = some w → Getopt.number w = false

theorem scan_flag {c : Char} (hk : Getopt.kind optstring c = .flag) (hc : c ≠ '-') (r : List (List Char)) :
    Getopt.scan true optstring false [] (['-', c] :: r) =
      (⟨false, c, none, none⟩ :: (Getopt.scan true optstring false [] r).1, (Getopt.scan true optstring false [] r).2) := by
  rw [Getopt.scan.eq_def]
  have h1 : ¬ (['-', c] = ['-', '-']) := by simpa using hc
  simp only [if_neg h1]
  rw [if_pos (by simp [Getopt.optionLike])]
  simp only [List.head?_cons, List.tail_cons]
  rw [Getopt.scan.eq_def]
  simp only [hk]
  simp

theorem scan_number {c : Char} (hk : Getopt.kind optstring c = .number) (hc : c ≠ '-') (v : List Char) (hn : Getopt.number v = true) (hv : v ≠ []) (r : List (List Char)) :
    Getopt.scan true optstring false [] (('-' :: c :: v) :: r) =
      (⟨false, c, some v, none⟩ :: (Getopt.scan true optstring false [] r).1, (Getopt.scan true optstring false [] r).2) := by
  rw [Getopt.scan.eq_def]
  have h1 : ¬ ('-' :: c :: v = ['-', '-']) := by
    intro h
    cases h
    exact hc rfl
  simp only [if_neg h1]
  rw [if_pos (by simp [Getopt.optionLike])]
  simp only [List.head?_cons, List.tail_cons]
  rw [Getopt.scan.eq_def]
  simp only [hk, if_pos hv, if_pos hn]
  simp

theorem scan_bare {c : Char} (hk : Getopt.kind optstring c = .number) (hc : c ≠ '-') (w : List Char) (hn : Getopt.number w = false) (r : List (List Char)) :
    Getopt.scan true optstring false [] (['-', c] :: w :: r) =
      (⟨false, c, none, none⟩ :: (Getopt.scan true optstring false [] (w :: r)).1, (Getopt.scan true optstring false [] (w :: r)).2) := by
  rw [Getopt.scan.eq_def]
  have h1 : ¬ (['-', c] = ['-', '-']) := by simpa using hc
  simp only [if_neg h1]
  rw [if_pos (by simp [Getopt.optionLike])]
  simp only [List.head?_cons, List.tail_cons]
  rw [Getopt.scan.eq_def]
  simp only [hk]
  rw [if_neg (by simp)]
  simp only [hn, Bool.false_eq_true, if_false]
  simp

def opt (b : Bool) (c : Char) (o : Option (List Char)) : List Getopt.Ev := if b then [⟨false, c, o, none⟩] else []

theorem opt_any (b : Bool) (c : Char) (o : Option (List Char)) (p : Getopt.Ev → Bool) : (opt b c o).any p = (b && p ⟨false, c, o, none⟩) := by
  cases b <;> simp [opt]

theorem opt_foldl {α : Type} (b : Bool) (c : Char) (o : Option (List Char)) (g : α → Getopt.Ev → α) (x : α) :
    (opt b c o).foldl g x = if b then g x ⟨false, c, o, none⟩ else x := by
  cases b <;> simp [opt]

/-- the options of the list without `-Z` as events -/
def evs (a : FS) (field : Nat) : List Getopt.Ev :=
  opt (a .int) 'i' none ++ (opt (a .expo) 'x' none ++ (opt (a .rdonly) 'r' none ++ (opt (a .trace) 't' none ++
  (opt (a .ljust) 'L' (some (dec field)) ++ (opt (a .rjust) 'R' (some (dec field)) ++ (opt (a .lcase) 'l' none ++
  (opt (a .ucase) 'u' none ++ opt (a .intu) 'U' none)))))))

theorem scan_opt {c : Char} (b : Bool) (hk : Getopt.kind optstring c = .flag) (hc : c ≠ '-') (r : List (List Char)) (es : List Getopt.Ev) (rest : List (List Char))
    (h : Getopt.scan true optstring false [] r = (es, rest)) :
    Getopt.scan true optstring false [] ((if b then [['-', c]] else []) ++ r) = (opt b c none ++ es, rest) := by
  cases b
  · simpa [opt] using h
  · simp only [opt, if_true, List.cons_append, List.nil_append]
    rw [scan_flag hk hc, h]

theorem scan_num {c : Char} (b : Bool) (hk : Getopt.kind optstring c = .number) (hc : c ≠ '-') (n : Nat) (hn : n < 2 ^ 31) (r : List (List Char)) (es : List Getopt.Ev) (rest : List (List Char))
    (h : Getopt.scan true optstring false [] r = (es, rest)) :
    Getopt.scan true optstring false [] ((if b then ['-' :: c :: dec n] else []) ++ r) = (opt b c (some (dec n)) ++ es, rest) := by
  cases b
  · simpa [opt] using h
  · simp only [opt, if_true, List.cons_append, List.nil_append]
    rw [scan_number hk hc _ (dec_number n hn) (dec_spec n hn).2.2, h]

theorem plain_opt (b : Bool) (w : List Char) (hw : w.head? = some '-') (r : List (List Char)) (h : Plain r) : Plain ((if b then [w] else []) ++ r) := by
  cases b
  · simpa using h
  · intro v hv
    simp only [if_true, List.cons_append, List.nil_append, List.head?_cons, Option.some.injEq] at hv
    subst hv
    cases w with
    | nil => cases hw
    | cons d w =>
      simp only [List.head?_cons, Option.some.injEq] at hw
      subst hw
      exact number_dash w

/-- the words of the line are read as these options, and the name is the operand -/
theorem scan_words (a : FS) (hz : a .zerofil = false) (field : Nat) (hf : field < 2 ^ 31) (name : List Char) (hn : Operand name) :
    Getopt.scan true optstring false [] (optWords a field ++ [name]) = (evs a field, [name]) := by
  have h0 : Getopt.scan true optstring false [] [name] = ([], [name]) := (Getopt.scan_stops true optstring []).2.2.2.2 name hn.1 hn.2.1
  have p0 : Plain [name] := by intro w hw; cases hw; exact hn.2.2
  have hU := scan_opt (a .intu) (c := 'U') (by decide) (by decide) _ _ _ h0
  have pU := plain_opt (a .intu) ['-', 'U'] rfl _ p0
  have hu := scan_opt (a .ucase) (c := 'u') (by decide) (by decide) _ _ _ hU
  have pu := plain_opt (a .ucase) ['-', 'u'] rfl _ pU
  have hl := scan_opt (a .lcase) (c := 'l') (by decide) (by decide) _ _ _ hu
  have pl := plain_opt (a .lcase) ['-', 'l'] rfl _ pu
  have hR := scan_num (a .rjust) (c := 'R') (by decide) (by decide) field hf _ _ _ hl
  have pR := plain_opt (a .rjust) ('-' :: 'R' :: dec field) rfl _ pl
  have hL := scan_num (a .ljust) (c := 'L') (by decide) (by decide) field hf _ _ _ hR
  have pL := plain_opt (a .ljust) ('-' :: 'L' :: dec field) rfl _ pR
  have ht := scan_opt (a .trace) (c := 't') (by decide) (by decide) _ _ _ hL
  have pt := plain_opt (a .trace) ['-', 't'] rfl _ pL
  have hr := scan_opt (a .rdonly) (c := 'r') (by decide) (by decide) _ _ _ ht
  have pr := plain_opt (a .rdonly) ['-', 'r'] rfl _ pt
  have hx := scan_opt (a .expo) (c := 'x') (by decide) (by decide) _ _ _ hr
  have px := plain_opt (a .expo) ['-', 'x'] rfl _ pr
  simp only [optWords, hz, Bool.false_eq_true, if_false, List.nil_append, List.append_assoc, evs]
  cases hi : a .int with
  | false => simpa [opt] using hx
  | true =>
    simp only [if_true, List.cons_append, List.nil_append]
    generalize hws : ((if a .expo then [['-', 'x']] else []) ++ ((if a .rdonly then [['-', 'r']] else []) ++
      ((if a .trace then [['-', 't']] else []) ++ ((if a .ljust then ['-' :: 'L' :: dec field] else []) ++
      ((if a .rjust then ['-' :: 'R' :: dec field] else []) ++ ((if a .lcase then [['-', 'l']] else []) ++
      ((if a .ucase then [['-', 'u']] else []) ++ ((if a .intu then [['-', 'U']] else []) ++ [name])))))))) = ws at hx px
    cases ws with
    | nil => simp at hws
    | cons w ws =>
      rw [scan_bare (by decide) (by decide) w (px w rfl), hx]
      simp [opt]

/-- the options of a list that begin with `-` -/
theorem options_some (es : List Getopt.Ev) (t : T) (h : ∀ e ∈ es, e.ret ≠ '?' ∧ e.plus = false) :
    ∃ t', options t es = some t' ∧ (∀ f, t'.fset f = (t.fset f || es.any fun e => decide (flagOf e.ret = some f))) ∧
      (∀ f, t'.fclr f = (t.fclr f && !es.any fun e => decide (flagOf e.ret = some f))) ∧
      t'.fieldstr = es.foldl (fun x e => if e.ret = 'L' ∨ e.ret = 'R' ∨ e.ret = 'Z' then e.optarg else x) t.fieldstr ∧
      t'.basestr = es.foldl (fun x e => if e.ret = 'i' then e.optarg else x) t.basestr ∧
      t'.func = (t.func || es.any fun e => decide (e.ret = 'f')) := by
  induction es generalizing t with
  | nil => exact ⟨t, rfl, by simp, by simp, rfl, rfl, by simp⟩
  | cons e es ih =>
    obtain ⟨he, hp⟩ := h e (by simp)
    obtain ⟨t', h1, h2, h3, h4, h5, h6⟩ := ih (step t e.plus e.ret e.optarg) (fun x hx => h x (by simp [hx]))
    refine ⟨t', by simp only [options, if_neg he]; exact h1, ?_, ?_, ?_, ?_, ?_⟩
    · intro f
      rw [h2, step_fset, hp]
      by_cases hc : flagOf e.ret = some f <;> simp [hc]
    · intro f
      rw [h3, step_fclr, hp]
      by_cases hc : flagOf e.ret = some f <;> simp [hc]
    · rw [h4, List.foldl_cons]
      congr 1
      simp only [step, hp, Bool.false_eq_true, if_false]
      (repeat' split) <;> rfl
    · rw [h5, List.foldl_cons]
      congr 1
      simp only [step, hp, Bool.false_eq_true, if_false]
      (repeat' split) <;> rfl
    · rw [h6, List.any_cons]
      have : (step t e.plus e.ret e.optarg).func = (t.func || decide (e.ret = 'f')) := by
        simp only [step, hp, Bool.false_eq_true, if_false]
        by_cases hc : e.ret = 'f' <;> simp [hc] <;> (repeat' split) <;> rfl
      rw [this, Bool.or_assoc]

/-- **C107** (partial) The line `typeset` shows for a variable, read as a command, asks for exactly the
attributes and the field width of the variable.

Missing: with `-Z` the width is lost (`zerofil_loses_width`), a variable named `unlimited` is taken for
the base of `-i` (`unlimited_not_restored`), and the base of an integer is not shown
(`base_not_shown`). -/
theorem typeset_line_partial (a : FS) (hz : a .zerofil = false) (hj : ¬ (a .ljust = true ∧ a .rjust = true)) (hc : ¬ (a .lcase = true ∧ a .ucase = true))
    (field : Nat) (hf : field < 2 ^ 31 - 1) (name : List Char) (hn : Operand name) :
    ∃ es t, Getopt.scan true optstring false [] (optWords a field ++ [name]) = (es, [name]) ∧ options {} es = some t ∧
      ∃ s c, request t = some (s, c, if a .ljust = true ∨ a .rjust = true then (field : Int) else 0, 0) ∧
        change FS.empty s c = a ∧ t.func = false := by
  have hg := dec_getn field hf
  obtain ⟨t, ht, hset, hclr, hfs, hbs, hfn⟩ := options_some (evs a field) {} (by
    intro e he
    simp only [evs, List.mem_append, opt] at he
    rcases he with h | h | h | h | h | h | h | h | h <;> (split at h <;> simp at h) <;> subst h <;> simp)
  refine ⟨evs a field, t, scan_words a hz field (by omega) name hn, ht, ?_⟩
  have hset : t.fset = a := by
    funext f
    rw [hset f]
    simp only [evs, List.any_append, opt_any, flagOf]
    cases f <;> simp [FS.empty, hz]
  have hclr : t.fclr = FS.empty := by
    funext f
    rw [hclr f]; rfl
  have hfield : t.fieldstr = if a .ljust = true ∨ a .rjust = true then some (dec field) else none := by
    rw [hfs]
    simp only [evs, List.foldl_append, opt_foldl]
    cases h1 : a .ljust <;> cases h2 : a .rjust <;> simp
  have hbase : t.basestr = none := by
    rw [hbs]
    simp only [evs, List.foldl_append, opt_foldl]
    cases h1 : a .int <;> simp
  have hd : Disjoint a FS.empty := by intro f h; cases h.2
  refine ⟨(exclude a FS.empty).1, (exclude a FS.empty).2, ?_, ?_, ?_⟩
  · simp only [request, hset, hclr, hfield, hbase]
    by_cases hj2 : a .ljust = true ∨ a .rjust = true
    · simp only [if_pos hj2, hg]
    · simp only [if_neg hj2]
  · rw [effect _ _ _ hd]
    funext f
    simp only [after, FS.empty, Bool.false_and, Bool.or_false]
    cases f <;> simp only [asked, hz, Bool.or_false]
    · revert hj; cases a .rjust <;> cases a .ljust <;> simp
    · revert hc; cases a .ucase <;> cases a .lcase <;> simp
  · rw [hfn]
    simp only [evs, List.any_append, opt_any]
    simp

/-! ### What is missing -/

/-- the flags, width and base a command line asks for -/
def command (fuel : Nat) (ws : List (List Char)) : Option (FS × FS × Int × Int) :=
  (Getopt.run fuel true optstring (['t', 'y', 'p', 'e', 's', 'e', 't'] :: ws) Getopt.reset).bind fun q => (options {} q.1).bind request

def flags (l : List Flag) : FS := fun f => l.contains f

/-- `typeset -R5 -Z x`, as a zero filled variable of width 5 is shown, asks for the width 0. -/
theorem zerofil_loses_width : optWords (flags [.rjust, .zerofil]) 5 ++ [['x']] = [['-', 'R', '5'], ['-', 'Z'], ['x']] ∧
    (command 9 (optWords (flags [.rjust, .zerofil]) 5 ++ [['x']])).map (·.2.2.1) = some 0 := by decide +kernel

/-- An integer named `unlimited` is shown as `typeset -i unlimited`, which is an error. -/
theorem unlimited_not_restored : (optWords (flags [.int]) 0 ++ ["unlimited".toList]) = [['-', 'i'], "unlimited".toList] ∧
    (command 9 (optWords (flags [.int]) 0 ++ ["unlimited".toList])).isNone = true := by decide +kernel

/-- The base is not shown: `typeset -i16 x` and `typeset -i x` give the same line. -/
theorem base_not_shown : (command 9 [['-', 'i', '1', '6'], ['x']]).map (·.2.2.2) = some 16 ∧
    (command 9 (optWords (flags [.int]) 0 ++ [['x']])).map (·.2.2.2) = some 0 := by decide +kernel

/-! ## C107: `export -p` and `readonly -p` -/

/-- `export -p` or `readonly -p` -/
def dashP (f : Flag) : T := { fset := flags [f], thing := some '-', pflag := true }

/-- c_ksh.c:570-577 and the option `-p` -/
theorem dashP_options (f : Flag) : options { fset := flags [f] } [⟨false, 'p', none, none⟩] = some (dashP f) := by
  simp only [options, step, dashP, flagOf]
  simp

/-- Spec: the line for a variable that is exported -/
def exportLine (n : Entry) : List Char :=
  ['e', 'x', 'p', 'o', 'r', 't', ' '] ++ n.name ++ (match n.first.val with
    | some s => '=' :: (if n.first.flags .int && !n.first.flags .ljust && !n.first.flags .rjust then s else Lex.printQuoted s)
    | none => []) ++ ['\n']

/-- **C107** `export -p` outside of functions shows exactly the exported variables, each on one line
with its value if it has one. -/
theorem export_p (field : Elem → Nat) (sc : List Entry) (hs : ∀ n ∈ sc, n.array = false ∧ n.more = [] ∧ (n.first.flags .expo = true → n.user = true)) :
    list (dashP .expo) field [sc] = ((sc.filter fun n => n.first.flags .expo).map exportLine).flatten := by
  simp only [list, List.map_cons, List.map_nil, List.flatten_cons, List.flatten_nil, List.append_nil]
  induction sc with
  | nil => rfl
  | cons n sc ih =>
    obtain ⟨ha, hm, hu⟩ := hs n (by simp)
    simp only [List.map_cons, List.flatten_cons]
    rw [ih (fun m hm => hs m (by simp [hm]))]
    have e : entryLines true (fun f => (dashP .expo).fset f || (dashP .expo).fclr f) (some '-') field n = if n.first.flags .expo then exportLine n else [] := by
      have hfl : (fun f => (dashP .expo).fset f || (dashP .expo).fclr f) = flags [.expo] := by funext f; simp [dashP, FS.empty]
      rw [hfl]
      simp only [entryLines, hm, List.any_cons, List.any_nil, Bool.or_false]
      have s1 : someFlag (flags [.expo]) = true := by decide
      have s2 : someFlag (fun f => flags [.expo] f && n.first.flags f) = n.first.flags .expo := by simp [someFlag, anyGroup, flags]
      rw [s1, s2]
      cases hx : n.first.flags .expo with
      | false => cases hv : n.first.val <;> simp
      | true =>
        have s3 : (flags [.expo]) .expo = true := by decide
        rw [hu hx]
        simp only [Bool.not_true, Bool.and_false, Bool.false_eq_true, if_false, elemLines, ha, Bool.false_and, Option.isNone_some, s1,
          valueLine, s3, if_true, exportLine]
        cases hv : n.first.val <;> simp
    have e' : entryLines (dashP .expo).pflag (fun f => (dashP .expo).fset f || (dashP .expo).fclr f) (dashP .expo).thing field n = _ := e
    rw [e']
    cases hx : n.first.flags .expo <;> simp [hx]

theorem adv_bare_safe {rest : List Char} (hr : Lex.Safe rest) : ∀ (v : List Char) (skip : Nat) (out : List Lex.Sym), skip ≠ 1 →
    (∀ c ∈ v, Lex.needsQuote c = false) →
    ∃ skip', skip' ≠ 1 ∧ Lex.Adv ⟨[.base], v ++ rest, skip, out⟩ ⟨[.base], rest, skip', out ++ v.map .chr⟩
  | [], skip, out, hs, _ => ⟨skip, hs, by simpa using Lex.Adv.refl _⟩
  | c :: v, skip, out, hs, hv => by
    obtain ⟨h1, h2, h3⟩ := Lex.needs_props (hv c (by simp))
    have hv' := fun x (hx : x ∈ v) => hv x (by simp [hx])
    obtain ⟨s', h4, h5⟩ := adv_bare_safe hr v 0 (out ++ [.chr c]) (by decide) hv'
    refine ⟨s', h4, (Lex.adv_plain hs h1 h2 ?_).trans (by simpa using h5)⟩
    cases v with
    | nil => exact hr
    | cons d v =>
      obtain ⟨_, g2, g3⟩ := Lex.needs_props (hv' d (by simp))
      exact Or.inr (Or.inl ⟨d, v ++ rest, rfl, g3, g2.1⟩)

theorem text_append : ∀ (w : List Lex.Sym) (v : List Char) (u : List Char), Lex.text w = some v → Lex.text (u.map .chr ++ w) = some (u ++ v)
  | w, v, [], h => by simpa using h
  | w, v, c :: u, h => by simp [Lex.text, text_append w v u h]

/-- **C107** The word `name=value` of such a line is read back as one word with this text, also if the
value is empty. -/
theorem word_reread (name v rest : List Char) (hn : ∀ c ∈ name, Lex.needsQuote c = false) (hr : Lex.Ends rest) :
    ∃ w, (∃ N, ∀ n ≥ N, Lex.lexWord n (name ++ '=' :: Lex.printQuoted v ++ rest) = .word w rest) ∧ Lex.text w = some (name ++ '=' :: v) := by
  have hb : ∀ c ∈ name ++ ['='], Lex.needsQuote c = false := by
    intro c hc
    rcases List.mem_append.1 hc with h | h
    · exact hn c h
    · simp only [List.mem_singleton] at h; subst h; decide
  by_cases hq : v.any Lex.needsQuote = true
  · have hsafe : Lex.Safe (Lex.quoteLoop false v ++ rest) := by
      cases v with
      | nil => cases hq
      | cons c v =>
        by_cases hc : c = '\''
        · subst hc
          exact Or.inr (Or.inr ⟨'\'', Lex.quoteLoop false v ++ rest, by simp [Lex.quoteLoop], by decide⟩)
        · exact Or.inr (Or.inl ⟨'\'', c :: (Lex.quoteLoop true v ++ rest), by simp [Lex.quoteLoop, hc], by decide, by decide⟩)
    obtain ⟨s1, h1, h2⟩ := adv_bare_safe hsafe (name ++ ['=']) 0 [] (by decide) hb
    obtain ⟨s2, h3, h4⟩ := Lex.adv_quoteLoop (rest := rest) v false s1 ([] ++ (name ++ ['=']).map .chr) h1
    refine ⟨(name ++ ['=']).map .chr ++ Lex.qword false v, ?_, by simpa using text_append _ _ (name ++ ['=']) (Lex.text_qword v false)⟩
    have := Lex.lexes h3 hr (h2.trans (by simpa using h4))
    simpa [Lex.printQuoted, hq] using this
  · have hv : ∀ c ∈ v, Lex.needsQuote c = false := by
      intro c hc
      simp only [List.any_eq_true, not_exists, not_and, Bool.not_eq_true] at hq
      exact hq c hc
    obtain ⟨s1, h1, h2⟩ := Lex.adv_bare hr (name ++ '=' :: v) 0 [] (by decide) (by
      intro c hc
      rcases List.mem_append.1 hc with h | h
      · exact hn c h
      · rcases List.mem_cons.1 h with rfl | h
        · decide
        · exact hv c h)
    refine ⟨(name ++ '=' :: v).map .chr, ?_, Lex.text_chr _⟩
    have := Lex.lexes h1 hr h2
    simpa [Lex.printQuoted, hq] using this

/-- **C107** and the command then makes an exported variable with this value. -/
theorem export_restores (s : Vars.Str) (res : Nat → Option (Int × Nat)) :
    ∃ v, Vars.act (.typeset 0 { expo := true } {} 0 0 (some s) res none) {} = (some v, true) ∧ Vars.exported v = true ∧ Vars.text v.c0 = s := by
  refine ⟨_, rfl, rfl, rfl⟩

/-- Within a function that has its own `x` both are shown, the outer one last. -/
theorem shadowed_listed : list (dashP .expo) (fun _ => 0)
    [[{ name := ['x'], user := true, first := ⟨0, flags [.expo], some ['2']⟩ }], [{ name := ['x'], user := true, first := ⟨0, flags [.expo], some ['1']⟩ }]] =
    "export x=2\nexport x=1\n".toList := by decide +kernel

/-- `typeset -p` shows variables as `readonly` that are not. -/
theorem typeset_p_readonly : ∃ t, options {} [⟨false, 'p', none, none⟩] = some t ∧
    list t (fun _ => 0) [[{ name := ['x'], user := true, first := ⟨0, FS.empty, some ['1']⟩ }]] = "readonly x=1\n".toList := by
  refine ⟨_, rfl, ?_⟩
  decide +kernel

/-- The lines `readonly -p` shows for an array: the second fails once the first has been executed. -/
theorem readonly_array : list (dashP .rdonly) (fun _ => 0)
      [[{ name := ['x'], array := true, user := true, first := ⟨0, flags [.rdonly], some ['a']⟩, more := [⟨1, flags [.rdonly], some ['b']⟩] }]] =
      "readonly x[0]=a\nreadonly x[1]=b\n".toList ∧
    ∃ v, Vars.act (.typeset 0 { rdonly := true } {} 0 0 (some ['a']) (fun _ => none) none) {} = (some v, true) ∧
      (Vars.act (.typeset 1 { rdonly := true } {} 0 0 (some ['b']) (fun _ => none) none) v).2 = false := by
  refine ⟨by decide +kernel, _, rfl, by decide +kernel⟩

/-! ### Cases -/

/-- `typeset -u x` on an integer makes it a string in upper case; `typeset -LZ x` does not justify to
the right. -/
example : (after (flags [.int, .expo]) (flags [.ucase]) FS.empty .int, after (flags [.int, .expo]) (flags [.ucase]) FS.empty .expo,
    after FS.empty (flags [.ljust, .zerofil]) FS.empty .rjust, after FS.empty (flags [.zerofil]) FS.empty .rjust) = (false, true, false, true) := by decide

example : typesetLine ['x'] (flags [.expo, .rjust]) 12 = "typeset -x -R12 x\n".toList := by decide +kernel

end Ksh.Typeset
