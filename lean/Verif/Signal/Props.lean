import Verif.Signal.Model
import Verif.Getopts.Props
import Verif.Num.Props
import Verif.Lex.Props
/-!
# Names of signals, trap and kill: the properties (C100, C101)
-/

namespace Ksh.Signal
open Ksh.Getopt (Arg)

/-! ## Names -/

/-- What is assumed of the table of names. -/
structure Good (T : Table) : Prop where
  small : T.nsig < 2 ^ 31 - 1
  first : ∀ n nm, T.name n = some nm → ∃ c r, nm = c :: r ∧ Num.isDigit c = false
  nosig : ∀ n nm, T.name n = some nm → lower (nm.take 3) ≠ ['s', 'i', 'g']
  inj : ∀ n m a b, n ≤ T.nsig → m ≤ T.nsig → T.name n = some a → T.name m = some b → lower a = lower b → n = m
  bare : ∀ n nm, T.name n = some nm → ∀ c ∈ nm, Lex.needsQuote c = false

/-- Equal, or equal but for the case of letters. -/
def Same (ic : Bool) (a b : List Char) : Prop := if ic = true then lower a = lower b else a = b

/-- Does a text begin with a digit? -/
def numeric : List Char → Bool
  | c :: _ => Num.isDigit c
  | [] => false

/-- Specification: the signal that a text means.  A number, or a name with or without SIG. -/
def Means (T : Table) (ic : Bool) (s : List Char) (n : Nat) : Prop :=
  if numeric s = true then Num.PlainInt s n ∧ n < T.nsig
  else n ≤ T.nsig ∧ ∃ nm, T.name n = some nm ∧ (Same ic s nm ∨ Same ic s (['S', 'I', 'G'] ++ nm))

theorem upper_cases (c : Char) : c.toLower = c ∨ ∃ k, 65 ≤ k ∧ k ≤ 90 ∧ c = Char.ofNat k := by
  by_cases h : c.val ≥ 'A'.val ∧ c.val ≤ 'Z'.val
  · right
    refine ⟨c.toNat, ?_, ?_, (Char.ofNat_toNat c).symm⟩
    · have := UInt32.le_iff_toNat_le.mp h.1
      simpa using this
    · have := UInt32.le_iff_toNat_le.mp h.2
      simpa using this
  · left
    rw [Char.toLower, dif_neg h]

theorem upper_all {P : Char → Prop} [DecidablePred P] (h : ∀ i : Fin 26, P (Char.ofNat (65 + i))) (k : Nat) (h1 : 65 ≤ k) (h2 : k ≤ 90) :
    P (Char.ofNat k) := by
  have := h ⟨k - 65, by omega⟩
  rwa [show 65 + (k - 65) = k by omega] at this

theorem toLower_idem (c : Char) : c.toLower.toLower = c.toLower := by
  rcases upper_cases c with h | ⟨k, h1, h2, rfl⟩
  · rw [h, h]
  · exact upper_all (P := fun c => c.toLower.toLower = c.toLower) (by decide) k h1 h2

theorem toLower_digit (c : Char) : Num.isDigit c.toLower = Num.isDigit c := by
  rcases upper_cases c with h | ⟨k, h1, h2, rfl⟩
  · rw [h]
  · exact upper_all (P := fun c => Num.isDigit c.toLower = Num.isDigit c) (by decide) k h1 h2

theorem same_iff (ic : Bool) (a b : List Char) : same ic a b = true ↔ Same ic a b := by
  cases ic <;> simp [same, Same]

theorem Same.symm {ic : Bool} {a b : List Char} (h : Same ic a b) : Same ic b a := by
  cases ic
  · simp only [Same] at h ⊢; simpa using (by simpa using h : a = b).symm
  · simp only [Same, if_true] at h ⊢; exact h.symm

theorem Same.lower {ic : Bool} {a b : List Char} (h : Same ic a b) : lower a = lower b := by
  cases ic
  · have : a = b := by simpa [Same] using h
    rw [this]
  · simpa [Same] using h

theorem strip_same {ic : Bool} {s nm : List Char} (hn : Signal.lower (nm.take 3) ≠ ['s', 'i', 'g']) :
    Same ic nm (strip ic s) ↔ Same ic s nm ∨ Same ic s (['S', 'I', 'G'] ++ nm) := by
  have hsplit : s.take 3 ++ s.drop 3 = s := List.take_append_drop 3 s
  have hlow : Signal.lower s = Signal.lower (s.take 3) ++ Signal.lower (s.drop 3) := by
    conv => lhs; rw [← hsplit]
    simp [Signal.lower]
  have hno : Same ic s nm → ¬ Same ic (s.take 3) ['S', 'I', 'G'] := by
    intro h h3
    have h1 := h.lower
    have h2 := h3.lower
    apply hn
    have : Signal.lower (nm.take 3) = (Signal.lower nm).take 3 := by simp [Signal.lower, List.map_take]
    rw [this, ← h1]
    have h4 : (Signal.lower s).take 3 = Signal.lower (s.take 3) := by simp [Signal.lower, List.map_take]
    rw [h4, h2]
    decide
  rw [strip]
  by_cases h3 : same ic (s.take 3) ['S', 'I', 'G'] = true
  · rw [if_pos h3]
    rw [same_iff] at h3
    constructor
    · intro h
      right
      cases ic with
      | false =>
        simp only [Same, Bool.false_eq_true, if_false] at h h3 ⊢
        rw [← hsplit, h3, h]
      | true =>
        simp only [Same, if_true] at h h3 ⊢
        rw [hlow, h3, ← h]
        simp [Signal.lower]
    · rintro (h | h)
      · exact absurd h3 (hno h)
      · cases ic with
        | false =>
          simp only [Same, Bool.false_eq_true, if_false] at h ⊢
          rw [h]; rfl
        | true =>
          simp only [Same, if_true] at h h3 ⊢
          rw [hlow, h3] at h
          simp only [Signal.lower, List.map_append] at h ⊢
          exact (List.append_cancel_left h).symm
  · rw [if_neg h3]
    rw [same_iff] at h3
    constructor
    · exact fun h => .inl h.symm
    · rintro (h | h)
      · exact h.symm
      · exfalso
        apply h3
        cases ic with
        | false =>
          simp only [Same, Bool.false_eq_true, if_false] at h ⊢
          rw [h]; rfl
        | true =>
          simp only [Same, if_true] at h ⊢
          have h4 : Signal.lower (s.take 3) = (Signal.lower s).take 3 := by simp [Signal.lower, List.map_take]
          rw [h4, h]
          simp [Signal.lower]

theorem find_iff {T : Table} (hT : Good T) (ic : Bool) (s : List Char) (n : Nat) :
    find T ic s = some n ↔ n ≤ T.nsig ∧ ∃ nm, T.name n = some nm ∧ Same ic nm s := by
  have huniq : ∀ n m a b, n ≤ T.nsig → m ≤ T.nsig → T.name n = some a → T.name m = some b → Same ic a s → Same ic b s → n = m :=
    fun n m a b hn hm ha hb h1 h2 => hT.inj n m a b hn hm ha hb (by rw [h1.lower, h2.lower])
  have hp : ∀ i, (match T.name i with | some nm => same ic nm s | none => false) = true ↔ ∃ nm, T.name i = some nm ∧ Same ic nm s := by
    intro i
    cases h : T.name i with
    | none => simp
    | some nm => simp [same_iff]
  constructor
  · intro h
    have h1 := List.mem_of_find?_eq_some h
    have h2 := List.find?_some h
    rw [List.mem_range] at h1
    exact ⟨by omega, (hp n).mp h2⟩
  · rintro ⟨hn, nm, h1, h2⟩
    cases hf : find T ic s with
    | none =>
      exfalso
      have := List.find?_eq_none.mp hf n (List.mem_range.mpr (by omega))
      exact this ((hp n).mpr ⟨nm, h1, h2⟩)
    | some m =>
      have h3 := List.mem_of_find?_eq_some hf
      have h4 := (hp m).mp (List.find?_some (p := fun i => match T.name i with | some nm => same ic nm s | none => false) hf)
      rw [List.mem_range] at h3
      obtain ⟨nm', h5, h6⟩ := h4
      rw [huniq n m nm nm' hn (by omega) h1 h5 h2 h6]

/-- **C100**: gettrap finds exactly the signal that a text means. -/
theorem gettrap_iff {T : Table} (hT : Good T) (ic : Bool) (s : List Char) (n : Nat) : gettrap T s ic = some n ↔ Means T ic s n := by
  have hname : find T ic (strip ic s) = some n ↔
      n ≤ T.nsig ∧ ∃ nm, T.name n = some nm ∧ (Same ic s nm ∨ Same ic s (['S', 'I', 'G'] ++ nm)) := by
    rw [find_iff hT]
    constructor
    · rintro ⟨h1, nm, h2, h3⟩
      exact ⟨h1, nm, h2, (strip_same (hT.nosig n nm h2)).mp h3⟩
    · rintro ⟨h1, nm, h2, h3⟩
      exact ⟨h1, nm, h2, (strip_same (hT.nosig n nm h2)).mpr h3⟩
  cases s with
  | nil =>
    rw [Means, if_neg (by simp [numeric])]
    exact hname
  | cons c r =>
    rw [gettrap, Means]
    by_cases hd : Num.isDigit c = true
    · rw [if_pos hd, if_pos (show numeric (c :: r) = true from hd)]
      have hspec := Num.getn_spec (c :: r)
      constructor
      · intro h
        split at h
        · next v hv =>
          split at h
          · next hr =>
            simp only [Option.some.injEq] at h
            have hvn : v = (n : Int) := by omega
            rw [hvn] at hv hr
            exact ⟨((hspec _).mp hv).1, by omega⟩
          · cases h
        · cases h
      · rintro ⟨h1, h2⟩
        have hs := hT.small
        have := (hspec n).mpr ⟨h1, by omega, by omega⟩
        rw [this]
        simp only
        rw [if_pos ⟨by omega, by omega⟩]
        simp
    · rw [if_neg hd, if_neg (show ¬ numeric (c :: r) = true from hd)]
      exact hname

/-- **C100**: all the ways to write a signal mean the same: its name, the name with SIG, both in lower case. -/
theorem names_agree {T : Table} (hT : Good T) {n : Nat} (hn : n ≤ T.nsig) {nm : List Char} (h : T.name n = some nm) (ic : Bool) :
    gettrap T nm ic = some n ∧ gettrap T (['S', 'I', 'G'] ++ nm) ic = some n ∧ gettrap T (lower nm) true = some n ∧
    gettrap T (lower (['S', 'I', 'G'] ++ nm)) true = some n := by
  obtain ⟨c, r, rfl, hc⟩ := hT.first n nm h
  have hlowd : Num.isDigit c.toLower = false := by rw [toLower_digit, hc]
  have hll : ∀ s : List Char, lower (lower s) = lower s := by
    intro s
    simp [lower, toLower_idem]
  refine ⟨(gettrap_iff hT _ _ _).mpr ?_, (gettrap_iff hT _ _ _).mpr ?_, (gettrap_iff hT _ _ _).mpr ?_, (gettrap_iff hT _ _ _).mpr ?_⟩
  · rw [Means, if_neg (by simp [numeric, hc])]
    exact ⟨hn, _, h, .inl (by simp [Same])⟩
  · rw [Means, if_neg (by simp [numeric]; decide)]
    exact ⟨hn, _, h, .inr (by simp [Same])⟩
  · rw [Means, if_neg (by simp [numeric, lower, hlowd])]
    exact ⟨hn, _, h, .inl (by rw [Same, if_pos rfl, hll])⟩
  · rw [Means, if_neg (by simp [numeric, lower]; decide)]
    exact ⟨hn, _, h, .inr (by rw [Same, if_pos rfl, hll])⟩

/-! ## trap -/

/-- Commands one after the other; each has its name in front. -/
def runs (T : Table) (cmds : List (List Arg)) (st : St) : St := cmds.foldl (fun st c => (trap T c st).2.2) st

/-- What holds of the traps that commands have set. -/
def Inv (T : Table) (st : St) : Prop := ∀ n s, st n = some s → n ≤ T.nsig ∧ gettrap T s false = none ∧ s ≠ ['-']

theorem means_le {T : Table} {ic : Bool} {s : List Char} {n : Nat} (h : Means T ic s n) : n ≤ T.nsig := by
  rw [Means] at h
  split at h
  · omega
  · exact h.1

theorem inv_setAll {T : Table} (hT : Good T) {s : Option (List Char)} (hs : ∀ v, s = some v → gettrap T v false = none ∧ v ≠ ['-']) :
    ∀ (ws : List Arg) (st : St), Inv T st → Inv T (setAll T s ws st).2
  | [], _, h => h
  | w :: ws, st, h => by
    rw [setAll]
    cases hg : gettrap T w true with
    | none => exact h
    | some n =>
      refine inv_setAll hT hs ws _ ?_
      intro m v hv
      rw [St.set] at hv
      split at hv
      · next hm =>
        rw [hm]
        exact ⟨means_le ((gettrap_iff hT _ _ _).mp hg), hs v hv⟩
      · exact h m v hv

theorem inv_trap {T : Table} (hT : Good T) (argv : List Arg) (st : St) (h : Inv T st) : Inv T (trap T argv st).2.2 := by
  rw [trap]
  split
  · exact h
  · exact h
  · next w ws _ =>
    simp only
    split
    · next hw =>
      refine inv_setAll hT ?_ ws st h
      intro v hv
      rw [command] at hv
      split at hv
      · cases hv
      · next hne => cases hv; exact ⟨hw, hne⟩
    · exact inv_setAll hT (by intro v hv; cases hv) (w :: ws) st h

theorem inv_runs {T : Table} (hT : Good T) : ∀ (cmds : List (List Arg)) (st : St), Inv T st → Inv T (runs T cmds st)
  | [], _, h => h
  | c :: cs, st, h => inv_runs hT cs _ (inv_trap hT c st h)

theorem operands_dashes (name : Arg) (r : List Arg) : operands (name :: ['-', '-'] :: r) = some r := by
  simp [operands, Getopt.getopt, Getopt.pick, Getopt.fresh, Getopt.arg, Getopt.reset]

theorem setAll_good {T : Table} (hT : Good T) (s : Option (List Char)) : ∀ (ws : List Arg) (st : St),
    (∀ w ∈ ws, ∃ n, Means T true w n) → (setAll T s ws st).1 = 0 ∧
    ∀ m, ((∃ w ∈ ws, Means T true w m) → (setAll T s ws st).2 m = s) ∧
      ((¬ ∃ w ∈ ws, Means T true w m) → (setAll T s ws st).2 m = st m)
  | [], st, _ => ⟨rfl, fun m => ⟨by rintro ⟨w, h, _⟩; simp at h, fun _ => rfl⟩⟩
  | w :: ws, st, h => by
    obtain ⟨n, hn⟩ := h w (by simp)
    have hg := (gettrap_iff hT true w n).mpr hn
    rw [setAll, hg]
    obtain ⟨h1, h2⟩ := setAll_good hT s ws (st.set n s) fun v hv => h v (by simp [hv])
    refine ⟨h1, fun m => ⟨?_, ?_⟩⟩
    · rintro ⟨v, hv, hm⟩
      by_cases hex : ∃ w ∈ ws, Means T true w m
      · exact (h2 m).1 hex
      · rcases List.mem_cons.mp hv with rfl | hv
        · rw [(h2 m).2 hex]
          have := (gettrap_iff hT true v m).mpr hm
          rw [hg] at this
          cases this
          simp [St.set]
        · exact absurd ⟨v, hv, hm⟩ hex
    · intro hno
      rw [(h2 m).2 fun ⟨v, hv, hm⟩ => hno ⟨v, by simp [hv], hm⟩]
      rw [St.set, if_neg]
      rintro rfl
      exact hno ⟨w, by simp, hn⟩

theorem setAll_bad {T : Table} (hT : Good T) (s : Option (List Char)) {w : Arg} (hw : ∀ n, ¬ Means T true w n) (r : List Arg) :
    ∀ (ws : List Arg) (st : St), (∀ v ∈ ws, ∃ n, Means T true v n) → setAll T s (ws ++ w :: r) st = (1, (setAll T s ws st).2)
  | [], st, _ => by
    have : gettrap T w true = none := by
      cases h : gettrap T w true with
      | none => rfl
      | some n => exact absurd ((gettrap_iff hT true w n).mp h) (hw n)
    simp [setAll, this]
  | v :: ws, st, h => by
    obtain ⟨n, hn⟩ := h v (by simp)
    rw [List.cons_append, setAll, (gettrap_iff hT true v n).mpr hn, setAll, (gettrap_iff hT true v n).mpr hn]
    exact setAll_bad hT s hw r ws _ fun u hu => h u (by simp [hu])

/-- **C100**: `trap -- command signal ..` sets exactly the traps of these signals, `trap -- - signal ..` and `trap -- signal ..` remove
them; at a text that means no signal it stops with status 1. -/
theorem trap_sets {T : Table} (hT : Good T) (name c : Arg) (ws : List Arg) (st : St) (h : ∀ w ∈ ws, ∃ n, Means T true w n) :
    ((∀ n, ¬ Means T false c n) → ∃ st', trap T (name :: ['-', '-'] :: c :: ws) st = ([], 0, st') ∧
      (∀ m, (∃ w ∈ ws, Means T true w m) → st' m = if c = ['-'] then none else some c) ∧
      (∀ m, (¬ ∃ w ∈ ws, Means T true w m) → st' m = st m) ∧
      ∀ w r, (∀ n, ¬ Means T true w n) → trap T (name :: ['-', '-'] :: c :: (ws ++ w :: r)) st = ([], 1, st')) ∧
    (∀ n, Means T false c n → Means T true c n → ∃ st', trap T (name :: ['-', '-'] :: c :: ws) st = ([], 0, st') ∧
      (∀ m, (∃ w ∈ c :: ws, Means T true w m) → st' m = none) ∧
      (∀ m, (¬ ∃ w ∈ c :: ws, Means T true w m) → st' m = st m)) := by
  constructor
  · intro hc
    have hg : gettrap T c false = none := by
      cases h : gettrap T c false with
      | none => rfl
      | some n => exact absurd ((gettrap_iff hT false c n).mp h) (hc n)
    obtain ⟨h1, h2⟩ := setAll_good hT (command c) ws st h
    refine ⟨(setAll T (command c) ws st).2, ?_, fun m hm => (h2 m).1 hm, fun m hm => (h2 m).2 hm, fun w r hw => ?_⟩
    · rw [trap, operands_dashes]
      simp only [hg, if_true]
      exact Prod.ext rfl (Prod.ext h1 rfl)
    · rw [trap, operands_dashes]
      simp only [hg, if_true]
      rw [setAll_bad hT (command c) hw r ws st h]
  · intro n hc hc'
    have hg := (gettrap_iff hT false c n).mpr hc
    obtain ⟨h1, h2⟩ := setAll_good hT none (c :: ws) st (by
      intro w hw
      rcases List.mem_cons.mp hw with rfl | hw
      · exact ⟨n, hc'⟩
      · exact h w hw)
    refine ⟨(setAll T none (c :: ws) st).2, ?_, fun m hm => (h2 m).1 hm, fun m hm => (h2 m).2 hm⟩
    rw [trap, operands_dashes]
    simp only [hg]
    exact Prod.ext rfl (Prod.ext h1 rfl)

/-- Specification: reading a line as words separated by single blanks; each word expands to one field. -/
inductive Words : List Char → List Arg → Prop where
  | last {l : List Char} {w : List Lex.Sym} {v : Arg} : (∃ N, ∀ n ≥ N, Lex.lexWord n l = .word w ['\n']) →
    (∀ E blank, Ifs.expand E blank (Lex.pieces w) = [v]) → Words l [v]
  | more {l rest : List Char} {w : List Lex.Sym} {v : Arg} {vs : List Arg} :
    (∃ N, ∀ n ≥ N, Lex.lexWord n l = .word w (' ' :: rest)) → (∀ E blank, Ifs.expand E blank (Lex.pieces w) = [v]) →
    Words rest vs → Words l (v :: vs)

inductive ReadAll : List (List Char) → List (List Arg) → Prop where
  | nil : ReadAll [] []
  | cons {l ls c cs} : Words l c → ReadAll ls cs → ReadAll (l :: ls) (c :: cs)

theorem words_line {s nm : List Char} (hs : s ≠ []) (hn : nm ≠ []) (hb : ∀ c ∈ nm, Lex.needsQuote c = false) :
    Words (line s (some nm)) [['t', 'r', 'a', 'p'], ['-', '-'], s, nm] := by
  have hbare : ∀ v : List Char, (∀ c ∈ v, Lex.needsQuote c = false) → Lex.printQuoted v = v := by
    intro v hv
    rw [Lex.printQuoted, if_neg]
    simp only [List.any_eq_true, not_exists, not_and, Bool.not_eq_true]
    exact hv
  obtain ⟨w4, h4, _, e4, _⟩ := Lex.quoted_value_reread_partial nm ['\n'] hn (.inr ⟨[], .inr (.inl rfl)⟩)
  obtain ⟨w3, h3, _, e3, _⟩ := Lex.quoted_value_reread_partial s (' ' :: (nm ++ ['\n'])) hs (.inr ⟨_, .inl rfl⟩)
  obtain ⟨w2, h2, _, e2, _⟩ := Lex.quoted_value_reread_partial ['-', '-'] (' ' :: (Lex.printQuoted s ++ ' ' :: (nm ++ ['\n'])))
    (by simp) (.inr ⟨_, .inl rfl⟩)
  obtain ⟨w1, h1, _, e1, _⟩ := Lex.quoted_value_reread_partial ['t', 'r', 'a', 'p']
    (' ' :: '-' :: '-' :: ' ' :: (Lex.printQuoted s ++ ' ' :: (nm ++ ['\n']))) (by simp) (.inr ⟨_, .inl rfl⟩)
  rw [hbare _ (by decide)] at h1 h2
  rw [hbare nm hb] at h4
  have hl : line s (some nm) = ['t', 'r', 'a', 'p'] ++ ' ' :: '-' :: '-' :: ' ' :: (Lex.printQuoted s ++ ' ' :: (nm ++ ['\n'])) := by
    simp [line]
  rw [hl]
  exact .more h1 e1 (.more h2 e2 (.more h3 e3 (.last h4 e4)))

theorem trap_set {T : Table} (hT : Good T) {s nm : List Char} {n : Nat} (hn : n ≤ T.nsig) (hnm : T.name n = some nm)
    (h1 : gettrap T s false = none) (h2 : s ≠ ['-']) (name : Arg) (st : St) :
    trap T [name, ['-', '-'], s, nm] st = ([], 0, st.set n (some s)) := by
  rw [trap, operands_dashes]
  simp only [h1, if_true, command, if_neg h2, setAll]
  rw [(names_agree hT hn hnm true).1]

/-- **C100**: what `trap` prints, read again as commands, sets the same traps, whatever traps there are then.  It is assumed that no
signal is ignored by an empty command and that all trapped signals have names. -/
theorem listing_restores_partial {T : Table} (hT : Good T) (cmds0 : List (List Arg)) {st : St} (hst : st = runs T cmds0 fun _ => none)
    (hnamed : ∀ n s, st n = some s → T.name n ≠ none) (hne : ∀ n s, st n = some s → s ≠ []) :
    ∃ cmds, ReadAll (listing T st) cmds ∧ ∀ st0 n, runs T cmds st0 n = (st n).or (st0 n) := by
  have hinv : Inv T st := hst ▸ inv_runs hT cmds0 _ (fun n s h => (nomatch h))
  have key : ∀ L : List Nat, ∃ cmds, ReadAll (L.filterMap fun n => (st n).map fun s => line s (T.name n)) cmds ∧
      ∀ st0 n, runs T cmds st0 n = if n ∈ L then (st n).or (st0 n) else st0 n := by
    intro L
    induction L with
    | nil => exact ⟨[], .nil, fun st0 n => by simp [runs]⟩
    | cons k L ih =>
      obtain ⟨cmds, hr, hc⟩ := ih
      cases hk : st k with
      | none =>
        refine ⟨cmds, by simpa [List.filterMap_cons, hk] using hr, fun st0 n => ?_⟩
        rw [hc]
        by_cases hn : n = k
        · subst hn
          simp [hk]
        · simp [hn]
      | some s =>
        obtain ⟨i1, i2, i3⟩ := hinv k s hk
        cases hnm : T.name k with
        | none => exact absurd hnm (hnamed k s hk)
        | some nm =>
          obtain ⟨c, r, hcr, _⟩ := hT.first k nm hnm
          have hw := words_line (hne k s hk) (by rw [hcr]; simp) (hT.bare k nm hnm)
          refine ⟨[['t', 'r', 'a', 'p'], ['-', '-'], s, nm] :: cmds, ?_, fun st0 n => ?_⟩
          · rw [List.filterMap_cons, hk]
            simp only [Option.map_some, hnm]
            exact .cons hw hr
          · have hstep : runs T ([['t', 'r', 'a', 'p'], ['-', '-'], s, nm] :: cmds) st0 = runs T cmds (st0.set k (some s)) := by
              rw [runs, List.foldl_cons, trap_set hT i1 hnm i2 i3]
              rfl
            rw [hstep, hc]
            by_cases hn : n = k
            · subst hn
              simp [St.set, hk]
            · simp [St.set, hn]
  obtain ⟨cmds, hr, hc⟩ := key (List.range (T.nsig + 1))
  refine ⟨cmds, hr, fun st0 n => ?_⟩
  rw [hc]
  split
  · rfl
  · next hn =>
    cases h : st n with
    | none => rfl
    | some s => exact absurd (List.mem_range.mpr (by have := (hinv n s h).1; omega)) hn

/-! ## kill -/

/-- Specification: what is done for an operand. -/
def Targets (sig : Nat) (p : Arg) (c : Call) : Prop :=
  if p.head? = some '%' then c = .job p sig
  else (∃ n : Int, Num.PlainInt p n ∧ -2 ^ 31 < n ∧ n < 2 ^ 31 - 1 ∧ ((-1 ≤ n ∧ c = .pid n sig) ∨ (n < -1 ∧ c = .pgrp (-n) sig))) ∨
    ((∀ n : Int, Num.PlainInt p n → ¬ (-2 ^ 31 < n ∧ n < 2 ^ 31 - 1)) ∧ c = .bad p)

theorem target_spec (sig : Nat) (p : Arg) : Targets sig p (target sig p) := by
  rw [Targets, target]
  split
  · rfl
  · cases h : Num.getn p with
    | none =>
      right
      refine ⟨fun n hn hr => ?_, rfl⟩
      rw [(Num.getn_spec p n).mpr ⟨hn, hr⟩] at h
      cases h
    | some n =>
      left
      have := (Num.getn_spec p n).mp h
      refine ⟨n, this.1, this.2.1, this.2.2, ?_⟩
      simp only
      split
      · next hlt => exact .inr ⟨hlt, rfl⟩
      · next hlt => exact .inl ⟨by omega, rfl⟩

/-- An operand that is not taken for an option. -/
def plain (p : Arg) : Prop := p.head? ≠ some '-' ∨ p = ['-']

theorem fresh_stop {argv : List Arg} {g : Getopt.G} {p : Arg} (h : argv[g.optind]? = some p) (hp : plain p) :
    Getopt.fresh false argv g = some (none, { g with p := 0 }) := by
  have hlt : g.optind < argv.length := by
    rw [List.getElem?_eq_some_iff] at h; exact h.1
  rw [Getopt.fresh, Getopt.arg, if_pos (by omega), h]
  simp only
  rw [if_neg (by rintro rfl; rcases hp with hp | hp <;> simp at hp)]
  cases p with
  | nil => rfl
  | cons c r =>
    simp only
    split
    · rfl
    · next hc =>
      have : c = '-' := by simpa using hc
      subst this
      rcases hp with hp | hp
      · simp at hp
      · cases hp; rfl

/-- **C101**: `kill p ..` sends SIGTERM to each operand. -/
theorem kill_plain (T : Table) (p : Arg) (ps : List Arg) (hp : plain p) : kill T (p :: ps) = .calls ((p :: ps).map (target 15)) := by
  have hold : old p = false := by
    rcases hp with hp | hp
    · cases p with
      | nil => rfl
      | cons c r =>
        by_cases hc : c = '-'
        · subst hc; simp at hp
        · unfold old
          split
          · next h => cases h; exact absurd rfl hc
          · rfl
    · rw [hp]; rfl
  rw [kill]
  simp only [hold, Bool.false_eq_true, if_false]
  rw [options, Getopt.getopt, Getopt.pick, if_pos (show Getopt.reset.p = 0 from rfl), fresh_stop (p := p) rfl hp]
  simp [act, Getopt.reset]

/-- **C101**: `kill -SIG p ..` and `kill -SIG -- p ..` with a number or a name that begins with a capital send that signal to each
operand, also if an operand after `--` (or after the signal) begins with `-`. -/
theorem kill_old (T : Table) (s : Arg) (n : Nat) (hs : old ('-' :: s) = true) (hn : gettrap T s true = some n) (p : Arg) (ps : List Arg) :
    kill T (('-' :: s) :: ['-', '-'] :: p :: ps) = .calls ((p :: ps).map (target n)) ∧
    (p ≠ ['-', '-'] → kill T (('-' :: s) :: p :: ps) = .calls ((p :: ps).map (target n))) := by
  constructor
  · simp [kill, hs, hn, act]
  · intro hp
    simp [kill, hs, hn, act, hp]

/-- **C101**: `kill -s SIG p ..` sends that signal to each operand. -/
theorem kill_s (T : Table) (s : Arg) (n : Nat) (hn : gettrap T s true = some n) (p : Arg) (ps : List Arg) :
    kill T (['-', 's'] :: s :: ['-', '-'] :: p :: ps) = .calls ((p :: ps).map (target n)) ∧
    (plain p → kill T (['-', 's'] :: s :: p :: ps) = .calls ((p :: ps).map (target n))) := by
  have hstep : ∀ r : List Arg, Getopt.getopt false ['l', 's', ':'] (['k', 'i', 'l', 'l'] :: ['-', 's'] :: s :: r) Getopt.reset =
      some (some 's', none, ⟨3, 0, some s, false, false⟩) := by
    intro r
    simp [Getopt.getopt, Getopt.pick, Getopt.fresh, Getopt.arg, Getopt.reset, Getopt.strchr, Getopt.chr]
  have hold : old ['-', 's'] = false := by decide
  constructor
  · rw [kill]
    simp only [hold, Bool.false_eq_true, if_false, List.map_cons, List.sum_cons]
    rw [options, hstep]
    simp only [Option.getD_some, hn, if_true, show ¬ ('s' : Char) = 'l' by decide, if_false]
    rw [show List.length ['-', 's'] + 1 + (s.length + 1 + (List.length ['-', '-'] + 1 + (p.length + 1 + (ps.map (·.length + 1)).sum))) =
      (6 + s.length + 1 + (p.length + (ps.map (·.length + 1)).sum)) + 1 by simp; omega]
    rw [options]
    simp [Getopt.getopt, Getopt.pick, Getopt.fresh, Getopt.arg, act]
  · intro hp
    rw [kill]
    simp only [hold, Bool.false_eq_true, if_false, List.map_cons, List.sum_cons]
    rw [options, hstep]
    simp only [Option.getD_some, hn, if_true, show ¬ ('s' : Char) = 'l' by decide, if_false]
    rw [show List.length ['-', 's'] + 1 + (s.length + 1 + (p.length + 1 + (ps.map (·.length + 1)).sum)) =
      (3 + s.length + 1 + (p.length + (ps.map (·.length + 1)).sum)) + 1 by simp; omega]
    rw [options, Getopt.getopt, Getopt.pick, if_pos rfl, fresh_stop (p := p) rfl hp]
    simp [act]

/-- **C101**: `kill -l` names a signal by its number or by the exit status of a command that it ended, and the name means that
signal. -/
theorem status_named {T : Table} (hT : Good T) (hs : T.nsig ≤ 129) {n : Nat} (h0 : 0 < n) (hn : n < T.nsig) {nm : List Char}
    (hnm : T.name n = some nm) :
    statusName T n = .inl nm ∧ statusName T (128 + n) = .inl nm ∧ gettrap T nm true = some n := by
  refine ⟨?_, ?_, (names_agree hT (by omega) hnm true).1⟩
  · simp only [statusName]
    rw [if_neg (show ¬ ((128 : Int) < n ∧ (n : Int) < 128 + T.nsig) by omega), if_pos ⟨by omega, by omega⟩]
    simp [hnm]
  · simp only [statusName]
    rw [if_pos (show ((128 : Int) < 128 + n ∧ (128 + n : Int) < 128 + T.nsig) by omega), if_pos ⟨by omega, by omega⟩]
    have : ((128 : Int) + n - 128).toNat = n := by omega
    rw [this, hnm]

/-! ## Cases -/

/-- The table on Linux (amd64). -/
def linuxNames : List (List Char × Nat) := [
  (['H', 'U', 'P'], 1), (['I', 'N', 'T'], 2), (['Q', 'U', 'I', 'T'], 3), (['I', 'L', 'L'], 4), (['A', 'B', 'R', 'T'], 6),
  (['F', 'P', 'E'], 8), (['K', 'I', 'L', 'L'], 9), (['S', 'E', 'G', 'V'], 11), (['P', 'I', 'P', 'E'], 13), (['A', 'L', 'R', 'M'], 14),
  (['T', 'E', 'R', 'M'], 15), (['U', 'S', 'R', '1'], 10), (['U', 'S', 'R', '2'], 12), (['C', 'H', 'L', 'D'], 17),
  (['C', 'O', 'N', 'T'], 18), (['S', 'T', 'O', 'P'], 19), (['T', 'S', 'T', 'P'], 20), (['T', 'T', 'I', 'N'], 21),
  (['T', 'T', 'O', 'U'], 22), (['T', 'R', 'A', 'P'], 5), (['I', 'O', 'T'], 6), (['B', 'U', 'S'], 7), (['S', 'Y', 'S'], 31),
  (['S', 'T', 'K', 'F', 'L', 'T'], 16), (['U', 'R', 'G'], 23), (['I', 'O'], 29), (['P', 'O', 'L', 'L'], 29), (['C', 'L', 'D'], 17),
  (['X', 'C', 'P', 'U'], 24), (['X', 'F', 'S', 'Z'], 25), (['V', 'T', 'A', 'L', 'R', 'M'], 26), (['P', 'R', 'O', 'F'], 27),
  (['P', 'W', 'R'], 30), (['W', 'I', 'N', 'C', 'H'], 28)]

def linux : Table := initTable 65 linuxNames

theorem linux_name {n : Nat} {nm : List Char} (h : linux.name n = some nm) :
    (nm, n) ∈ (['E', 'X', 'I', 'T'], 0) :: (['E', 'R', 'R'], 65) :: linuxNames := by
  simp only [linux, initTable] at h
  split at h
  · next h0 => cases h; rw [h0]; exact List.mem_cons_self
  · split at h
    · next h1 => cases h; rw [h1]; exact List.mem_cons_of_mem _ List.mem_cons_self
    · cases hf : linuxNames.find? (fun x => x.2 == n) with
      | none => rw [hf] at h; cases h
      | some x =>
        rw [hf] at h
        have h1 := List.mem_of_find?_eq_some hf
        have h2 := List.find?_some hf
        simp only [Option.map_some, Option.some.injEq] at h
        simp only [beq_iff_eq] at h2
        rw [← h, ← h2]
        exact List.mem_cons_of_mem _ (List.mem_cons_of_mem _ h1)

/-- What is assumed of the table holds on Linux. -/
theorem linux_good : Good linux where
  small := by decide
  first n nm h := by
    have : ∀ x ∈ (['E', 'X', 'I', 'T'], 0) :: (['E', 'R', 'R'], 65) :: linuxNames, x.1 ≠ [] ∧ numeric x.1 = false := by decide +kernel
    have := this _ (linux_name h)
    cases nm with
    | nil => exact absurd rfl this.1
    | cons c r => exact ⟨c, r, rfl, this.2⟩
  nosig n nm h := by
    have : ∀ x ∈ (['E', 'X', 'I', 'T'], 0) :: (['E', 'R', 'R'], 65) :: linuxNames, lower (x.1.take 3) ≠ ['s', 'i', 'g'] := by decide +kernel
    exact this _ (linux_name h)
  inj n m a b _ _ h1 h2 h3 := by
    have : ∀ x ∈ (['E', 'X', 'I', 'T'], 0) :: (['E', 'R', 'R'], 65) :: linuxNames,
        ∀ y ∈ (['E', 'X', 'I', 'T'], 0) :: (['E', 'R', 'R'], 65) :: linuxNames, lower x.1 = lower y.1 → x.2 = y.2 := by decide +kernel
    exact this _ (linux_name h1) _ (linux_name h2) h3
  bare n nm h := by
    have : ∀ x ∈ (['E', 'X', 'I', 'T'], 0) :: (['E', 'R', 'R'], 65) :: linuxNames, ∀ c ∈ x.1, Lex.needsQuote c = false := by decide +kernel
    exact this _ (linux_name h)

def none' : St := fun _ => none

example : ((List.range 66).map (runs linux [[['t'], ['a', ' ', 'b'], ['s', 'i', 'g', 'i', 'n', 't'], ['0']]] none')).filter (· ≠ none) =
    [some ['a', ' ', 'b'], some ['a', ' ', 'b']] := by decide +kernel
example : listing linux (runs linux [[['t'], ['a', ' ', 'b'], ['s', 'i', 'g', 'i', 'n', 't']]] none') =
    [['t', 'r', 'a', 'p', ' ', '-', '-', ' ', '\'', 'a', ' ', 'b', '\'', ' ', 'I', 'N', 'T', '\n']] := by decide +kernel
example : kill linux [['-', 'H', 'U', 'P'], ['-', '5'], ['7'], ['%', '1'], ['x']] =
    .calls [.pgrp 5 1, .pid 7 1, .job ['%', '1'] 1, .bad ['x']] := by decide +kernel
example : kill linux [['-', 'l'], ['1', '3', '0'], ['9'], ['7', '0', '0']] = .names [.inl ['I', 'N', 'T'], .inl ['K', 'I', 'L', 'L'], .inr 700] none := by
  decide +kernel

/-- False of the code: `trap '' INT; trap` prints `trap --  INT`, which is read as a command that gives INT its default action. -/
theorem ignored_not_restored :
    listing linux (runs linux [[['t'], [], ['I', 'N', 'T']]] none') =
      [['t', 'r', 'a', 'p', ' ', '-', '-', ' ', ' ', 'I', 'N', 'T', '\n']] ∧
    runs linux [[['t'], [], ['I', 'N', 'T']], [['t'], ['-', '-'], ['I', 'N', 'T']]] none' 2 = none := by decide +kernel

/-- False of the code: signals without a name cannot be read again; `trap a 40; trap` prints `trap -- a (null %s)`. -/
theorem unnamed_signal : listing linux (runs linux [[['t'], ['a'], ['4', '0']]] none') =
    [['t', 'r', 'a', 'p', ' ', '-', '-', ' ', 'a', ' ', '(', 'n', 'u', 'l', 'l', ' ', '%', 's', ')', '\n']] := by decide +kernel

/-- The second of two names of a signal is unknown: IOT for ABRT. -/
theorem second_name_unknown : gettrap linux ['I', 'O', 'T'] true = none := by decide +kernel

/-- kill takes ERR for a signal, the number of which is NSIG. -/
theorem kill_err : kill linux [['-', 's', 'E', 'R', 'R'], ['7']] = .calls [.pid 7 65] := by decide +kernel

end Ksh.Signal
