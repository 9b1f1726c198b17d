import Verif.Names.Model

/-!
# Names, subscripts and assignments (C125), names of functions (C126)
-/

namespace Ksh.Names

open Ksh.Lex (Sym)

/-! ## Specification -/

/-- A name: a letter or underscore, then letters, digits and underscores. -/
def Name : Str → Prop
  | [] => False
  | c :: r => (c.isAlpha = true ∨ c = '_') ∧ ∀ d ∈ r, d.isAlphanum = true ∨ d = '_'

/-- More opening than closing brackets. -/
def surplus (s : Str) : Int := (s.count '[' : Int) - s.count ']'

/-- A subscript with its brackets: it begins with `[`, ends where the brackets are first even. -/
def Sub (s : Str) : Prop :=
  s.head? = some '[' ∧ surplus s = 0 ∧ ∀ k, 0 < k → k < s.length → 0 < surplus (s.take k)

/-- What can be assigned to: a name, or a name and a subscript. -/
def Place (n s : Str) : Prop := Name n ∧ (s = [] ∨ Sub s)

/-! ## Proofs -/

theorem letter_eq (c : Char) : letter c = true ↔ c.isAlpha = true ∨ c = '_' := by
  simp only [letter, Char.isAlpha, Char.isUpper, Char.isLower, Bool.or_eq_true, Bool.and_eq_true,
    decide_eq_true_eq, beq_iff_eq, UInt32.le_iff_toNat_le]
  have : c.toNat = c.val.toNat := rfl
  rw [this]
  simp
  grind

theorem letnum_eq (c : Char) : letnum c = true ↔ c.isAlphanum = true ∨ c = '_' := by
  unfold letnum
  rw [Bool.or_eq_true, letter_eq]
  simp only [digit, Char.isAlphanum, Char.isDigit, Bool.or_eq_true, Bool.and_eq_true,
    decide_eq_true_eq, UInt32.le_iff_toNat_le]
  have : c.toNat = c.val.toNat := rfl
  rw [this]
  simp
  grind

theorem surplus_cons (c : Char) (r : Str) :
    surplus (c :: r) = surplus r + (if c = '[' then 1 else if c = ']' then -1 else 0) := by
  simp only [surplus, List.count_cons]
  by_cases h1 : c = '['
  · subst h1; simp; omega
  · by_cases h2 : c = ']'
    · subst h2; simp; omega
    · simp [h1, h2]

/-- `t` brings the depth from `d` to nothing, and not before its end. -/
def Closes (d : Int) (t : Str) : Prop :=
  d + surplus t = 0 ∧ ∀ k, k < t.length → 0 < d + surplus (t.take k)

theorem closes_cons {d : Int} (hd : 0 < d) (c : Char) (t : Str) (_hc : ¬ (c = ']' ∧ d - 1 = 0)) :
    Closes d (c :: t) ↔
      Closes (d + (if c = '[' then 1 else if c = ']' then -1 else 0)) t := by
  generalize hx : (if c = '[' then (1 : Int) else if c = ']' then -1 else 0) = x
  constructor
  · rintro ⟨h1, h2⟩
    rw [surplus_cons, hx] at h1
    refine ⟨by omega, fun k hk => ?_⟩
    have := h2 (k + 1) (by simpa using hk)
    rw [List.take_succ_cons, surplus_cons, hx] at this
    omega
  · rintro ⟨h1, h2⟩
    refine ⟨by rw [surplus_cons, hx]; omega, fun k hk => ?_⟩
    cases k with
    | zero => simpa [surplus] using hd
    | succ k =>
      rw [List.take_succ_cons, surplus_cons, hx]
      have := h2 k (by simpa using hk)
      omega

theorem closes_end {d : Int} (c : Char) (hd : d - 1 = 0) (h : c = ']') : Closes d [c] := by
  subst h
  refine ⟨by simp [surplus]; omega, fun k hk => ?_⟩
  have : k = 0 := by simpa using hk
  subst this
  simp [surplus]; omega

theorem closes_nil {d : Int} (hd : 0 < d) : ¬ Closes d [] := by
  rintro ⟨h, -⟩
  simp [surplus] at h
  omega

theorem closes_stop {d : Int} (c : Char) (t : Str) (hd : d - 1 = 0) (hc : c = ']')
    (h : Closes d (c :: t)) : t = [] := by
  subst hc
  cases t with
  | nil => rfl
  | cons e t =>
    have := h.2 1 (by simp)
    simp [surplus] at this
    omega

theorem refLen_complete (t u : Str) : ∀ (d : Int) (n : Nat), 0 < d → Closes d t →
    refLen d n (t ++ u) = n + t.length := by
  induction t with
  | nil => intro d n hd h; exact absurd h (closes_nil hd)
  | cons c t ih =>
    intro d n hd h
    rw [List.cons_append, refLen]
    by_cases h1 : c = ']'
    · rw [if_pos h1]
      by_cases h2 : d - 1 = 0
      · rw [if_pos h2, closes_stop c t h2 h1 h]; rfl
      · rw [if_neg h2, ih (d - 1) (n + 1) (by omega)]
        · simp; omega
        · have := (closes_cons hd c t (fun h => h2 h.2)).1 h
          rw [h1] at this; simpa [Int.sub_eq_add_neg] using this
    · rw [if_neg h1]
      have := (closes_cons hd c t (fun h => h1 h.1)).1 h
      by_cases h2 : c = '['
      · rw [if_pos h2, ih (d + 1) (n + 1) (by omega)]
        · simp; omega
        · simpa [h2] using this
      · rw [if_neg h2, ih d (n + 1) hd]
        · simp; omega
        · simpa [h1, h2] using this

theorem refLen_sound (s : Str) : ∀ (d : Int) (n : Nat), 0 < d → refLen d n s ≠ 0 →
    ∃ t u, s = t ++ u ∧ Closes d t ∧ refLen d n s = n + t.length := by
  induction s with
  | nil => intro d n _ h; exact absurd rfl h
  | cons c r ih =>
    intro d n hd h
    rw [refLen] at h ⊢
    by_cases h1 : c = ']'
    · rw [if_pos h1] at h ⊢
      by_cases h2 : d - 1 = 0
      · rw [if_pos h2]
        exact ⟨[c], r, rfl, closes_end c h2 h1, rfl⟩
      · rw [if_neg h2] at h ⊢
        obtain ⟨t, u, e, hc, hl⟩ := ih (d - 1) (n + 1) (by omega) h
        refine ⟨c :: t, u, by rw [e]; rfl, (closes_cons hd c t (fun h => h2 h.2)).2 ?_, ?_⟩
        · rw [h1]; simpa [Int.sub_eq_add_neg] using hc
        · rw [hl]; simp; omega
    · rw [if_neg h1] at h ⊢
      by_cases h2 : c = '['
      · rw [if_pos h2] at h ⊢
        obtain ⟨t, u, e, hc, hl⟩ := ih (d + 1) (n + 1) (by omega) h
        refine ⟨c :: t, u, by rw [e]; rfl, (closes_cons hd c t (fun h => h1 h.1)).2 ?_, ?_⟩
        · simpa [h2] using hc
        · rw [hl]; simp; omega
      · rw [if_neg h2] at h ⊢
        obtain ⟨t, u, e, hc, hl⟩ := ih d (n + 1) hd h
        refine ⟨c :: t, u, by rw [e]; rfl, (closes_cons hd c t (fun h => h1 h.1)).2 ?_, ?_⟩
        · simpa [h1, h2] using hc
        · rw [hl]; simp; omega

theorem sub_iff (s : Str) : Sub s ↔ ∃ t, s = '[' :: t ∧ Closes 1 t := by
  constructor
  · rintro ⟨h1, h2, h3⟩
    cases s with
    | nil => cases h1
    | cons c t =>
      simp at h1
      subst h1
      refine ⟨t, rfl, ?_, fun k hk => ?_⟩
      · rw [surplus_cons, if_pos rfl] at h2; omega
      · have := h3 (k + 1) (by omega) (by simpa using hk)
        rw [List.take_succ_cons, surplus_cons, if_pos rfl] at this
        omega
  · rintro ⟨t, rfl, h1, h2⟩
    refine ⟨rfl, by rw [surplus_cons, if_pos rfl]; omega, fun k h0 hk => ?_⟩
    cases k with
    | zero => omega
    | succ k =>
      have := h2 k (by simpa using hk)
      rw [List.take_succ_cons, surplus_cons, if_pos rfl]
      omega

theorem arrayRefLen_open (r : Str) : arrayRefLen ('[' :: r) = refLen 1 1 r := by
  simp [arrayRefLen, refLen]

theorem arrayRefLen_sub (s u : Str) (h : Sub s) : arrayRefLen (s ++ u) = s.length := by
  obtain ⟨t, rfl, hc⟩ := (sub_iff s).1 h
  rw [List.cons_append, arrayRefLen_open, refLen_complete t u 1 1 (by omega) hc]
  simp; omega

theorem arrayRefLen_sound (s : Str) (h : s.head? = some '[') (hn : arrayRefLen s ≠ 0) :
    ∃ t u, s = t ++ u ∧ Sub t ∧ arrayRefLen s = t.length := by
  cases s with
  | nil => cases h
  | cons c r =>
    simp at h
    subst h
    rw [arrayRefLen_open] at hn ⊢
    obtain ⟨t, u, e, hc, hl⟩ := refLen_sound r 1 1 (by omega) hn
    exact ⟨'[' :: t, u, by rw [e]; rfl, (sub_iff _).2 ⟨t, rfl, hc⟩, by rw [hl]; simp; omega⟩

/-- The characters of a name and what follows. -/
theorem skipLetnum_spec (s : Str) : ∃ t, s = t ++ skipLetnum s ∧ (∀ c ∈ t, letnum c = true) ∧
    ∀ c r, skipLetnum s = c :: r → letnum c = false := by
  induction s with
  | nil => exact ⟨[], rfl, by simp, by simp [skipLetnum]⟩
  | cons c r ih =>
    rw [skipLetnum]
    by_cases h : letnum c = true
    · rw [if_pos h]
      obtain ⟨t, h1, h2, h3⟩ := ih
      refine ⟨c :: t, by rw [List.cons_append, ← h1], ?_, h3⟩
      intro d hd
      rcases List.mem_cons.1 hd with e | e
      · rw [e]; exact h
      · exact h2 d e
    · rw [if_neg h]
      refine ⟨[], rfl, by simp, ?_⟩
      intro d r' e
      cases e
      simpa using h

theorem skipLetnum_append (t u : Str) (ht : ∀ c ∈ t, letnum c = true)
    (hu : ∀ c r, u = c :: r → letnum c = false) : skipLetnum (t ++ u) = u := by
  induction t with
  | nil =>
    cases u with
    | nil => rfl
    | cons c r => rw [List.nil_append, skipLetnum, if_neg (by simp [hu c r rfl])]
  | cons c t ih =>
    rw [List.cons_append, skipLetnum, if_pos (ht c List.mem_cons_self)]
    exact ih fun d hd => ht d (List.mem_cons_of_mem _ hd)

theorem name_iff (n : Str) : Name n ↔ ∃ c r, n = c :: r ∧ letter c = true ∧ ∀ d ∈ r, letnum d = true := by
  cases n with
  | nil => simp [Name]
  | cons c r =>
    simp only [Name]
    constructor
    · rintro ⟨h1, h2⟩
      exact ⟨c, r, rfl, (letter_eq c).2 h1, fun d hd => (letnum_eq d).2 (h2 d hd)⟩
    · rintro ⟨c', r', e, h1, h2⟩
      cases e
      exact ⟨(letter_eq c).1 h1, fun d hd => (letnum_eq d).1 (h2 d hd)⟩

/-- What may follow a name in a place: the end, or something that is no letter or digit. -/
theorem skip_name (n u : Str) (hn : Name n) (hu : ∀ c r, u = c :: r → letnum c = false) :
    skipVarname false (n ++ u) = u := by
  obtain ⟨c, r, rfl, h1, h2⟩ := (name_iff n).1 hn
  rw [List.cons_append, skipVarname, if_pos h1]
  simp only [Bool.false_and, Bool.false_eq_true, if_false]
  exact skipLetnum_append r u h2 hu

theorem skip_split (s : Str) (h : (skipVarname false s).length ≠ s.length) :
    ∃ n, Name n ∧ s = n ++ skipVarname false s ∧
      ∀ c r, skipVarname false s = c :: r → letnum c = false := by
  cases s with
  | nil => exact absurd rfl h
  | cons c r =>
    rw [skipVarname] at h ⊢
    by_cases hc : letter c = true
    · rw [if_pos hc] at h ⊢
      simp only [Bool.false_and, Bool.false_eq_true, if_false] at h ⊢
      obtain ⟨t, h1, h2, h3⟩ := skipLetnum_spec r
      refine ⟨c :: t, (name_iff _).2 ⟨c, t, rfl, hc, h2⟩, ?_, h3⟩
      rw [List.cons_append, ← h1]
    · rw [if_neg hc] at h; exact absurd rfl h

theorem sub_head {s : Str} (h : Sub s) : ∃ t, s = '[' :: t := by
  obtain ⟨t, e, -⟩ := (sub_iff s).1 h; exact ⟨t, e⟩

theorem sub_len {s : Str} (h : Sub s) : 2 ≤ s.length := by
  obtain ⟨t, e, hc⟩ := (sub_iff s).1 h
  cases t with
  | nil => exact absurd hc (closes_nil (by omega))
  | cons _ _ => rw [e]; simp

theorem open_not_letnum : letnum '[' = false := by decide
theorem eq_not_letnum : letnum '=' = false := by decide

/-- The coded side. -/
theorem skipWdLetnum_map (t : Str) (w : List Sym) (ht : ∀ c ∈ t, letnum c = true)
    (hw : ∀ c r, w = .chr c :: r → letnum c = false) :
    skipWdLetnum (t.map .chr ++ w) = w := by
  induction t with
  | nil =>
    cases w with
    | nil => rfl
    | cons s r =>
      cases s with
      | chr c => rw [List.map_nil, List.nil_append, skipWdLetnum, if_neg (by simp [hw c r rfl])]
      | _ => rfl
  | cons c t ih =>
    rw [List.map_cons, List.cons_append, skipWdLetnum, if_pos (ht c List.mem_cons_self)]
    exact ih fun d hd => ht d (List.mem_cons_of_mem _ hd)

theorem skipWdLetnum_spec (w : List Sym) : ∃ t : Str, w = t.map .chr ++ skipWdLetnum w ∧
    (∀ c ∈ t, letnum c = true) ∧ ∀ c r, skipWdLetnum w = .chr c :: r → letnum c = false := by
  induction w with
  | nil => exact ⟨[], rfl, by simp, by simp [skipWdLetnum]⟩
  | cons s r ih =>
    cases s with
    | chr c =>
      rw [skipWdLetnum]
      by_cases h : letnum c = true
      · rw [if_pos h]
        obtain ⟨t, h1, h2, h3⟩ := ih
        refine ⟨c :: t, by rw [List.map_cons, List.cons_append, ← h1], ?_, h3⟩
        intro d hd
        rcases List.mem_cons.1 hd with e | e
        · rw [e]; exact h
        · exact h2 d e
      · rw [if_neg h]
        refine ⟨[], rfl, by simp, ?_⟩
        intro d r' e
        cases e
        simpa using h
    | _ => exact ⟨[], rfl, by simp, by intro c r h; simp [skipWdLetnum] at h⟩

theorem skipWdSub_complete (t : Str) (w : List Sym) : ∀ d : Int, 0 < d → Closes d t →
    skipWdSub d (t.map .chr ++ w) = some w := by
  induction t with
  | nil => intro d hd h; exact absurd h (closes_nil hd)
  | cons c t ih =>
    intro d hd h
    rw [List.map_cons, List.cons_append, skipWdSub]
    by_cases h1 : c = ']'
    · rw [if_neg (by rw [h1]; decide), if_pos h1]
      by_cases h2 : d - 1 = 0
      · rw [if_pos h2, closes_stop c t h2 h1 h]; rfl
      · rw [if_neg h2, ih (d - 1) (by omega)]
        have := (closes_cons hd c t (fun h => h2 h.2)).1 h
        rw [h1] at this; simpa [Int.sub_eq_add_neg] using this
    · have := (closes_cons hd c t (fun h => h1 h.1)).1 h
      by_cases h2 : c = '['
      · rw [if_pos h2, ih (d + 1) (by omega)]
        simpa [h2] using this
      · rw [if_neg h2, if_neg h1, ih d hd]
        simpa [h1, h2] using this

theorem skipWdSub_sound (w : List Sym) : ∀ (d : Int) (x : List Sym), 0 < d → skipWdSub d w = some x →
    ∃ t : Str, w = t.map .chr ++ x ∧ Closes d t := by
  induction w with
  | nil => intro d x _ h; cases h
  | cons s r ih =>
    intro d x hd h
    cases s with
    | chr c =>
      rw [skipWdSub] at h
      by_cases h2 : c = '['
      · rw [if_pos h2] at h
        obtain ⟨t, e, hc⟩ := ih (d + 1) x (by omega) h
        refine ⟨c :: t, by rw [e]; rfl, (closes_cons hd c t (fun h => ?_)).2 ?_⟩
        · rw [h2] at h; exact absurd h.1 (by decide)
        · simpa [h2] using hc
      · rw [if_neg h2] at h
        by_cases h1 : c = ']'
        · rw [if_pos h1] at h
          by_cases h3 : d - 1 = 0
          · rw [if_pos h3] at h
            cases h
            exact ⟨[c], rfl, closes_end c h3 h1⟩
          · rw [if_neg h3] at h
            obtain ⟨t, e, hc⟩ := ih (d - 1) x (by omega) h
            refine ⟨c :: t, by rw [e]; rfl, (closes_cons hd c t (fun h => h3 h.2)).2 ?_⟩
            rw [h1]; simpa [Int.sub_eq_add_neg] using hc
        · rw [if_neg h1] at h
          obtain ⟨t, e, hc⟩ := ih d x hd h
          refine ⟨c :: t, by rw [e]; rfl, (closes_cons hd c t (fun h => h1 h.1)).2 ?_⟩
          simpa [h1, h2] using hc
    | _ => cases h

theorem skipWdSub_open (w : List Sym) : skipWdSub 0 (.chr '[' :: w) = skipWdSub 1 w := by
  rw [skipWdSub, if_pos rfl]; rfl

/-- A place, written without quotes, is skipped as a whole. -/
theorem skipWd_place (n s : Str) (w : List Sym) (h : Place n s)
    (hw : ∀ c r, w = .chr c :: r → letnum c = false ∧ (s = [] → c ≠ '[')) :
    skipWdVarname true ((n ++ s).map .chr ++ w) = w := by
  obtain ⟨hn, hs⟩ := h
  obtain ⟨c, r, rfl, h1, h2⟩ := (name_iff n).1 hn
  rw [List.map_append, List.append_assoc, List.map_cons, List.cons_append, skipWdVarname, if_pos h1]
  rcases hs with rfl | hs
  · rw [List.map_nil, List.nil_append, skipWdLetnum_map r w h2 fun c r e => (hw c r e).1]
    rw [if_neg]
    intro hc
    simp only [Bool.true_and, beq_iff_eq] at hc
    cases w with
    | nil => cases hc
    | cons s x =>
      simp at hc
      subst hc
      exact (hw '[' x rfl).2 rfl rfl
  · obtain ⟨t, rfl, hc⟩ := (sub_iff s).1 hs
    rw [skipWdLetnum_map r _ h2 (by
      intro c x e
      rw [List.map_cons, List.cons_append] at e
      cases e; exact open_not_letnum)]
    rw [List.map_cons, List.cons_append, if_pos (by simp), skipWdSub_open,
      skipWdSub_complete t w 1 (by omega) hc]
    rfl

/-- Whatever is skipped is a place. -/
theorem skipWd_sound (w : List Sym) (h : (skipWdVarname true w).length ≠ w.length) :
    ∃ n s, Place n s ∧ w = (n ++ s).map .chr ++ skipWdVarname true w := by
  cases w with
  | nil => exact absurd rfl h
  | cons x r =>
    cases x with
    | chr c =>
      rw [skipWdVarname] at h ⊢
      by_cases hc : letter c = true
      · rw [if_pos hc] at h ⊢
        obtain ⟨t, h1, h2, h3⟩ := skipWdLetnum_spec r
        have hname : Name (c :: t) := (name_iff _).2 ⟨c, t, rfl, hc, h2⟩
        by_cases hb : (true && (skipWdLetnum r).head? == some (.chr '[')) = true
        · rw [if_pos hb] at h ⊢
          simp only [Bool.true_and, beq_iff_eq] at hb
          cases hl : skipWdLetnum r with
          | nil => rw [hl] at hb; cases hb
          | cons y z =>
            rw [hl] at hb h1
            simp at hb
            subst hb
            rw [skipWdSub_open]
            cases hk : skipWdSub 1 z with
            | none =>
              exact ⟨c :: t, [], ⟨hname, Or.inl rfl⟩, by
                rw [List.append_nil, List.map_cons, List.cons_append, Option.getD_none, ← h1]⟩
            | some x =>
              obtain ⟨u, e, hcl⟩ := skipWdSub_sound z 1 x (by omega) hk
              refine ⟨c :: t, '[' :: u, ⟨hname, Or.inr ((sub_iff _).2 ⟨u, rfl, hcl⟩)⟩, ?_⟩
              rw [h1, e, Option.getD_some]
              simp
        · rw [if_neg hb] at h ⊢
          exact ⟨c :: t, [], ⟨hname, Or.inl rfl⟩, by
            rw [List.append_nil, List.map_cons, List.cons_append, ← h1]⟩
      · rw [if_neg hc] at h; exact absurd rfl h
    | _ => exact absurd rfl h

theorem place_ne {n s : Str} (h : Place n s) : n ++ s ≠ [] := by
  obtain ⟨c, r, rfl, -⟩ := (name_iff n).1 h.1
  simp

/-! ## Theorems -/

/-- **C125.**  `array_ref_len` finds the subscript a string begins with. -/
theorem subscript (s u : Str) (h : Sub s) : arrayRefLen (s ++ u) = s.length :=
  arrayRefLen_sub s u h

/-- **C125.**  It finds one only where there is one. -/
theorem subscript_only (s : Str) (h : s.head? = some '[') (hn : ∀ t u, s = t ++ u → ¬ Sub t) :
    arrayRefLen s = 0 := by
  by_cases h0 : arrayRefLen s = 0
  · exact h0
  · obtain ⟨t, u, e, ht, -⟩ := arrayRefLen_sound s h h0
    exact absurd ht (hn t u e)

/-- **C125.**  A word is taken for an assignment exactly when it begins, without any quoting, with
a name, perhaps a subscript, and an equals sign. -/
theorem assignment (w : List Sym) :
    isWdVarassign w = true ↔
      ∃ n s rest, Place n s ∧ w = (n ++ s).map .chr ++ .chr '=' :: rest := by
  unfold isWdVarassign
  rw [Bool.and_eq_true, decide_eq_true_eq, beq_iff_eq]
  constructor
  · rintro ⟨h1, h2⟩
    obtain ⟨n, s, hp, e⟩ := skipWd_sound w h1
    cases hl : skipWdVarname true w with
    | nil => rw [hl] at h2; cases h2
    | cons x r =>
      rw [hl] at h2 e
      simp at h2
      subst h2
      exact ⟨n, s, r, hp, e⟩
  · rintro ⟨n, s, rest, hp, rfl⟩
    rw [skipWd_place n s _ hp (by
      intro c r e
      cases e
      exact ⟨eq_not_letnum, fun _ => by decide⟩)]
    refine ⟨?_, rfl⟩
    have := place_ne hp
    have : 0 < (n ++ s).length := List.length_pos_iff.2 this
    simp only [List.length_append, List.length_map, List.length_cons] at this ⊢
    omega

/-- **C125.**  A word is taken for a variable name exactly when it is a name or a name with a
subscript, unquoted. -/
theorem variable_word (w : List Sym) :
    isWdVarname true w = true ↔ ∃ n s, Place n s ∧ w = (n ++ s).map .chr := by
  unfold isWdVarname
  rw [Bool.and_eq_true, decide_eq_true_eq, List.isEmpty_iff]
  constructor
  · rintro ⟨h1, h2⟩
    obtain ⟨n, s, hp, e⟩ := skipWd_sound w h1
    rw [h2, List.append_nil] at e
    exact ⟨n, s, hp, e⟩
  · rintro ⟨n, s, hp, rfl⟩
    have := skipWd_place n s [] hp (by intro c r e; cases e)
    rw [List.append_nil] at this
    rw [this]
    refine ⟨?_, rfl⟩
    have : 0 < (n ++ s).length := List.length_pos_iff.2 (place_ne hp)
    simp only [List.length_map, List.length_nil] at this ⊢
    omega

/-- **C125.**  `typeset` finds in the expanded assignment the place the parser saw, whatever the
value has become. -/
theorem assigned (n s v : Str) (h : Place n s) :
    splitAssign false (n ++ s ++ '=' :: v) = some (n ++ s, some v) := by
  obtain ⟨hn, hs⟩ := h
  have hne : n ≠ [] := by
    obtain ⟨c, r, rfl, -⟩ := (name_iff n).1 hn; simp
  have hval : ∀ m : Str, valueAt false (m ++ '=' :: v) ('=' :: v) = some (m, some v) := by
    intro m
    simp [valueAt]
  rcases hs with rfl | hs
  · rw [List.append_nil]
    have := skip_name n ('=' :: v) hn (by intro c r e; cases e; exact eq_not_letnum)
    unfold splitAssign
    rw [this, if_neg (by simp [hne]), if_neg (by simp), hval]
  · obtain ⟨t, rfl⟩ := sub_head hs
    have := skip_name n ('[' :: t ++ '=' :: v) hn (by intro c r e; cases e; exact open_not_letnum)
    rw [← List.append_assoc] at this
    unfold splitAssign
    rw [this, if_neg (by simp [hne]), if_pos (by simp), arrayRefLen_sub _ _ hs,
      if_neg (by simp)]
    simp only [Bool.false_and, Bool.false_eq_true, if_false, List.drop_left]
    exact hval _

/-- **C125.**  The variable looked up for a place is the name, with the text between the outer
brackets as subscript. -/
theorem looked_up (n s : Str) (h : Place n s) :
    target (n ++ s) = (n, if s = [] then none else some ((s.take (s.length - 1)).drop 1)) := by
  obtain ⟨hn, hs⟩ := h
  have hne : n ≠ [] := by
    obtain ⟨c, r, rfl, -⟩ := (name_iff n).1 hn; simp
  rcases hs with rfl | hs
  · have := skip_name n [] hn (by intro c r e; cases e)
    unfold target
    rw [this]
    simp
  · obtain ⟨t, rfl⟩ := sub_head hs
    have := skip_name n ('[' :: t) hn (by intro c r e; cases e; exact open_not_letnum)
    have hl := arrayRefLen_sub _ [] hs
    rw [List.append_nil] at hl
    unfold target
    rw [this, hl, if_pos]
    · simp
    · simp [hne]

/-- **C125.**  What is taken from the environment at the start has a subscript of digits only, so
that nothing is expanded or evaluated for it. -/
theorem imported (var m : Str) (v : Option Str) (h : splitAssign true var = some (m, v)) :
    ∃ n s x, Name n ∧ (s = [] ∨ (Sub s ∧ ((s.take (s.length - 1)).drop 1).all digit = true)) ∧
      var = n ++ s ++ '=' :: x ∧ m = n ++ s ∧ v = some x := by
  unfold splitAssign at h
  by_cases h0 : (skipVarname false var).length = var.length
  · rw [if_pos h0] at h; cases h
  rw [if_neg h0] at h
  obtain ⟨n, hn, e, -⟩ := skip_split var h0
  have hval : ∀ pre val : Str, var = pre ++ val → valueAt true var val = some (m, v) →
      ∃ x, val = '=' :: x ∧ m = pre ∧ v = some x := by
    intro pre val e1 e2
    unfold valueAt at e2
    split at e2
    · rename_i x
      cases e2
      refine ⟨x, rfl, ?_, rfl⟩
      rw [e1]; simp
    · simp at e2
  by_cases hb : ((skipVarname false var).head? == some '[') = true
  · rw [if_pos hb] at h
    by_cases hz : arrayRefLen (skipVarname false var) = 0
    · rw [if_pos hz] at h; cases h
    rw [if_neg hz] at h
    obtain ⟨s, u, e1, hs, hl⟩ := arrayRefLen_sound _ (by simpa using hb) hz
    rw [hl] at h
    have e2 : (skipVarname false var).take (s.length - 1) = s.take (s.length - 1) := by
      rw [e1, List.take_append_of_le_length (by omega)]
    rw [e2] at h
    by_cases hd : ((s.take (s.length - 1)).drop 1).all digit = true
    · rw [hd] at h
      simp only [Bool.not_true, Bool.and_false, Bool.false_eq_true, if_false] at h
      obtain ⟨x, e3, e4, e5⟩ := hval (n ++ s) _ (by
        rw [List.append_assoc, e1, List.drop_left, ← e1]; exact e) h
      rw [e1, List.drop_left] at e3
      refine ⟨n, s, x, hn, Or.inr ⟨hs, hd⟩, ?_, e4, e5⟩
      rw [List.append_assoc, ← e3, ← e1]; exact e
    · rw [Bool.not_eq_true] at hd
      rw [hd] at h; simp at h
  · rw [if_neg hb] at h
    obtain ⟨x, e3, e4, e5⟩ := hval n _ e h
    refine ⟨n, [], x, hn, Or.inl rfl, ?_, by rw [List.append_nil]; exact e4, e5⟩
    rw [List.append_nil, ← e3]; exact e

theorem identLoop_map (t : Str) : ∀ n, t.length < n → identLoop n (t.map .chr) = (t, true) := by
  induction t with
  | nil => intro n h; cases n with
    | zero => omega
    | succ n => rfl
  | cons c t ih =>
    intro n h
    cases n with
    | zero => omega
    | succ n =>
      rw [List.map_cons, identLoop, ih n (by simpa using h)]

theorem identLoop_long (t : Str) : ∀ n, n ≤ t.length → (identLoop n (t.map .chr)).2 = false := by
  induction t with
  | nil => intro n h; have : n = 0 := by simpa using h
           subst this; rfl
  | cons c t ih =>
    intro n h
    cases n with
    | zero => rfl
    | succ n => rw [List.map_cons, identLoop]; exact ih n (by simpa using h)

/-- **C125.**  The variable of a `for` loop is the one written.  Missing from the full claim: only
if it has fewer than 64 characters. -/
theorem loop_variable_partial (n s : Str) (h : Place n s) (hl : (n ++ s).length < 64) :
    loopVar ((n ++ s).map .chr) = some (n ++ s) := by
  unfold loopVar
  rw [if_pos ((variable_word _).2 ⟨n, s, h, rfl⟩)]
  unfold ident
  rw [identLoop_map _ 64 hl]
  rfl

/-- **C125.**  For every longer one the loop gets a variable with no name at all, though the parser
takes the word. -/
theorem long_loop_variable (n s : Str) (h : Place n s) (hl : 64 ≤ (n ++ s).length) :
    loopVar ((n ++ s).map .chr) = some [] := by
  unfold loopVar
  rw [if_pos ((variable_word _).2 ⟨n, s, h, rfl⟩)]
  unfold ident
  rw [identLoop_long _ 64 hl]
  rfl

/-- Text after the subscript is ignored: `unset 'x[1]y'` removes `x[1]`. -/
theorem trailing_ignored (n s u : Str) (hn : Name n) (hs : Sub s) :
    target (n ++ s ++ u) = target (n ++ s) := by
  rw [looked_up n s ⟨hn, Or.inr hs⟩]
  have hne : n ≠ [] := by
    obtain ⟨c, r, rfl, -⟩ := (name_iff n).1 hn; simp
  obtain ⟨t, rfl⟩ := sub_head hs
  have := skip_name n ('[' :: t ++ u) hn (by intro c r e; cases e; exact open_not_letnum)
  rw [← List.append_assoc] at this
  have hl := arrayRefLen_sub _ u hs
  unfold target
  rw [this, hl, if_pos]
  · rw [List.take_append_of_le_length (l₁ := '[' :: t) (by omega)]
    simp
  · simp [hne]

/-- `unset 'x[1'` looks for, and makes, a variable whose name is `x[1`. -/
theorem unclosed : target ['x', '[', '1'] = (['x', '[', '1'], none) := by decide +kernel

/-- `typeset 'x[1]y'` is no error. -/
theorem typeset_trailing :
    splitAssign false ['x', '[', '1', ']', 'y'] = some (['x', '[', '1', ']', 'y'], none) := by
  decide +kernel

/-! ## Functions -/

/-- The characters of a symbol that stands for itself. -/
def plain : Sym → Option Str
  | .chr c => some [c]
  | .qchr c => some [c]
  | .oq => some []
  | .cq => some []
  | _ => none

/-- The characters of a word made of such symbols only. -/
def plainText : List Sym → Option Str
  | [] => some []
  | x :: r =>
    match plain x, plainText r with
    | some a, some b => some (a ++ b)
    | _, _ => none

/-- The characters the comment in syn.c names. -/
def forbidden (c : Char) : Prop :=
  c ∈ [' ', '\n', '\t', '$', '\'', '"', '\\', '`', '(', ')', '&', '|', ';', '=', '<', '>', '#', '[', '?', '*']

theorem forbidden_iff (c : Char) : (cquote.contains c || c == '=') = true ↔ forbidden c := by
  simp only [cquote, forbidden, Bool.or_eq_true, beq_iff_eq, List.contains_iff_mem, List.mem_cons,
    List.not_mem_nil, or_false]
  grind

theorem wdstrip_plain (w : List Sym) (t : Str) (h : plainText w = some t) : wdstrip w = t := by
  induction w generalizing t with
  | nil => cases h; rfl
  | cons x r ih =>
    rw [plainText] at h
    cases hr : plainText r with
    | none =>
      rw [hr] at h
      cases hx : plain x <;> rw [hx] at h <;> cases h
    | some b =>
      rw [hr] at h
      have ih := ih b hr
      cases x <;> simp [plain] at h <;> subst h <;> simp [wdstrip, ih]

/-- A word with every closing brace of an expansion after its opening. -/
def Opened : List Sym → Prop
  | [] => True
  | .csub _ :: _ => False
  | .osub _ _ :: _ => True
  | .com _ :: _ => True
  | .exp _ :: _ => True
  | _ :: r => Opened r

theorem opened_plain (w : List Sym) (ho : Opened w) (hw : ∀ c ∈ wdstrip w, ¬ forbidden c) :
    ∃ t, plainText w = some t := by
  induction w with
  | nil => exact ⟨[], rfl⟩
  | cons x r ih =>
    cases x with
    | chr c =>
      obtain ⟨t, ht⟩ := ih ho (fun d hd => hw d (by rw [wdstrip]; exact List.mem_cons_of_mem _ hd))
      exact ⟨[c] ++ t, by simp [plainText, plain, ht]⟩
    | qchr c =>
      obtain ⟨t, ht⟩ := ih ho (fun d hd => hw d (by rw [wdstrip]; exact List.mem_cons_of_mem _ hd))
      exact ⟨[c] ++ t, by simp [plainText, plain, ht]⟩
    | oq =>
      obtain ⟨t, ht⟩ := ih ho (fun d hd => hw d (by rw [wdstrip]; exact hd))
      exact ⟨[] ++ t, by simp [plainText, plain, ht]⟩
    | cq =>
      obtain ⟨t, ht⟩ := ih ho (fun d hd => hw d (by rw [wdstrip]; exact hd))
      exact ⟨[] ++ t, by simp [plainText, plain, ht]⟩
    | com s => exact absurd (by simp [forbidden]) (hw '$' (by simp [wdstrip]))
    | exp s => exact absurd (by simp [forbidden]) (hw '$' (by simp [wdstrip]))
    | osub b n => exact absurd (by simp [forbidden]) (hw '$' (by simp [wdstrip]))
    | csub b => exact absurd ho (by simp [Opened])
    | opat c => exact absurd (by simp [forbidden]) (hw '(' (by simp [wdstrip]))
    | spat => exact absurd (by simp [forbidden]) (hw '|' (by simp [wdstrip]))
    | cpat => exact absurd (by simp [forbidden]) (hw ')' (by simp [wdstrip]))

/-- **C126.**  A function gets exactly the name that was written, with its quotes removed: the word
has no expansion, no command and no pattern in it, and the name needs no quoting. -/
theorem function_name (w : List Sym) (ho : Opened w) (f : Str) :
    funcName w = some f ↔ plainText w = some f ∧ ∀ c ∈ f, ¬ forbidden c := by
  unfold funcName
  have key : ((wdstrip w).any fun c => cquote.contains c || c == '=') = true ↔
      ∃ c ∈ wdstrip w, forbidden c := by
    rw [List.any_eq_true]
    constructor
    · rintro ⟨c, h1, h2⟩; exact ⟨c, h1, (forbidden_iff c).1 h2⟩
    · rintro ⟨c, h1, h2⟩; exact ⟨c, h1, (forbidden_iff c).2 h2⟩
  by_cases hb : ∃ c ∈ wdstrip w, forbidden c
  · rw [if_pos (key.2 hb)]
    constructor
    · intro h; cases h
    · rintro ⟨h1, h2⟩
      rw [← wdstrip_plain w f h1] at h2
      obtain ⟨c, h3, h4⟩ := hb
      exact absurd h4 (h2 c h3)
  · rw [if_neg (fun h => hb (key.1 h))]
    have hw : ∀ c ∈ wdstrip w, ¬ forbidden c := fun c hc hf => hb ⟨c, hc, hf⟩
    obtain ⟨t, ht⟩ := opened_plain w ho hw
    have e := wdstrip_plain w t ht
    constructor
    · intro h
      cases h
      exact ⟨by rw [e]; exact ht, hw⟩
    · rintro ⟨h1, -⟩
      rw [wdstrip_plain w f h1]

/-- The empty name is taken: `"" () { …; }`. -/
theorem empty_name : funcName [.oq, .cq] = some [] := by decide +kernel

/-- `wdstrip` drops what follows a command substitution. -/
theorem strip_truncates (s : Str) (r : List Sym) :
    wdstrip (.com s :: r) = wdstrip [.com s] := rfl

/-! ## Cases -/

example : Sub ['[', 'a', '[', '1', ']', ']'] := by
  refine ⟨rfl, by decide, ?_⟩
  intro k h1 h2
  have : k = 1 ∨ k = 2 ∨ k = 3 ∨ k = 4 ∨ k = 5 := by simp at h2; omega
  rcases this with rfl | rfl | rfl | rfl | rfl <;> decide
example : Place ['x', '1'] [] := ⟨by simp [Name], Or.inl rfl⟩
example : isWdVarassign [.chr 'x', .chr '[', .chr '1', .chr ']', .chr '=', .qchr 'a'] = true := by
  decide +kernel
example : isWdVarassign [.chr 'x', .qchr '=', .qchr 'a'] = false := by decide +kernel
example : isWdVarassign [.chr '1', .chr '='] = false := by decide +kernel
example : splitAssign false ['x', '[', '1', ']', '=', 'b', '=', 'c'] =
    some (['x', '[', '1', ']'], some ['b', '=', 'c']) := by decide +kernel
example : splitAssign true ['x', '[', '$', ']', '=', 'b'] = none := by decide +kernel
example : target ['x', '[', 'y', '[', '1', ']', ']'] = (['x'], some ['y', '[', '1', ']']) := by
  decide +kernel
example : loopVar ((List.replicate 64 'a').map .chr) = some [] ∧
    loopVar ((List.replicate 63 'a').map .chr) = some (List.replicate 63 'a') := by decide +kernel
example : funcName [.oq, .qchr 'a', .cq, .chr '-', .chr 'b'] = some ['a', '-', 'b'] := by decide +kernel
example : funcName [.chr 'a', .com ['x'], .chr 'b'] = none := by decide +kernel

end Ksh.Names
