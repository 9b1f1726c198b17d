import Verif.Expr.Lemmas

/-!
# The tokenizer follows the lexical rules
-/

namespace Ksh.Expr
open Ksh.Num

theorem digitVal_chars {c : Char} {d : Nat} (h : digitVal c = some d) :
    (c != '_' && (letnum c || c == '#')) = true ∧ (d < 10 → isDigit c = true) := by
  have h1 := digitVal_some h
  constructor
  · have hu : c ≠ '_' := by rintro rfl; rw [show digitVal '_' = none by decide] at h; simp at h
    simp [h1.1, hu]
  · intro hd
    unfold digitVal at h
    split at h
    · assumption
    · split at h
      · simp at h; omega
      · split at h
        · simp at h; omega
        · simp at h

theorem spells_all {b : Nat} {cs : List Char} {ds : List Nat} (h : SpellsDigits b cs ds) :
    ∀ c ∈ cs, ∃ d, digitVal c = some d ∧ d < b := by
  obtain ⟨_, h1, h2⟩ := h
  intro c hc
  have : digitVal c ∈ cs.map digitVal := List.mem_map_of_mem hc
  rw [h1] at this
  obtain ⟨d, hd, he⟩ := List.mem_map.1 this
  exact ⟨d, he.symm, h2 d hd⟩

/-- What a literal looks like and what `getint` makes of it. -/
theorem litVal_getint {t : List Char} {v : Int} (h : LitVal t v) :
    (∃ c r, t = c :: r ∧ isDigit c = true) ∧
    (∀ c ∈ t, (c != '_' && (letnum c || c == '#')) = true) ∧
    (∃ g, getint t true false = some g ∧ g.num = v) ∧ InRange v := by
  have scan : ∀ {b : Nat} {cs : List Char} {ds : List Nat} (hb : 2 ≤ b) (hbase : Bool),
      SpellsDigits b cs ds → ∃ g, getintLoop cs b hbase false 0 false = some g ∧
        g.num = wrap64 (digitsVal b ds) := by
    intro b cs ds hb hbase hs
    obtain ⟨ub', e, _⟩ := getint_chars hb hbase false [] cs ds 0 false hs.2.1 hs.2.2
    rw [List.append_nil, wrap64_zero] at e
    exact ⟨_, e.trans rfl, rfl⟩
  cases h with
  | @dec _ ds hs hz =>
    refine ⟨?_, ?_, ?_, wrap64_inRange _⟩
    · cases t with
      | nil => exact absurd rfl hs.1
      | cons c r =>
        obtain ⟨d, hd, hlt⟩ := spells_all hs c (by simp)
        exact ⟨c, r, rfl, (digitVal_chars hd).2 hlt⟩
    · intro c hc
      obtain ⟨d, hd, hlt⟩ := spells_all hs c hc
      exact (digitVal_chars hd).1
    · rw [getint_plain _ _ _ (by
        intro c r e
        have := hz (by rw [e]; rfl)
        rw [this] at e; simp at e)]
      exact scan (b := 10) (by omega) false hs
  | @oct cs ds hs =>
    refine ⟨⟨'0', cs, rfl, by decide⟩, ?_, ?_, wrap64_inRange _⟩
    · intro c hc
      rcases List.mem_cons.1 hc with rfl | hc
      · decide
      · obtain ⟨d, hd, hlt⟩ := spells_all hs c hc
        exact (digitVal_chars hd).1
    · cases cs with
      | nil => exact absurd rfl hs.1
      | cons c r =>
        have hx : ¬ (c = 'x' ∨ c = 'X') := by
          obtain ⟨d, hd, hlt⟩ := spells_all hs c (by simp)
          rintro (rfl | rfl)
          · rw [show digitVal 'x' = some 33 by decide] at hd; simp at hd; omega
          · rw [show digitVal 'X' = some 33 by decide] at hd; simp at hd; omega
        simp only [getint, hx, if_false]
        exact scan (b := 8) (by omega) true hs
  | @hex cs ds x hx hs =>
    refine ⟨⟨'0', x :: cs, rfl, by decide⟩, ?_, ?_, wrap64_inRange _⟩
    · intro c hc
      rcases List.mem_cons.1 hc with rfl | hc
      · decide
      · rcases List.mem_cons.1 hc with rfl | hc
        · rcases hx with rfl | rfl <;> decide
        · obtain ⟨d, hd, hlt⟩ := spells_all hs c hc
          exact (digitVal_chars hd).1
    · simp only [getint, hx, if_true]
      exact scan (b := 16) (by omega) true hs
  | @based ps pd cs ds b hp h0 hb h2 h36 hs =>
    refine ⟨?_, ?_, ?_, wrap64_inRange _⟩
    · cases ps with
      | nil => exact absurd rfl hp.1
      | cons c r =>
        obtain ⟨d, hd, hlt⟩ := spells_all hp c (by simp)
        exact ⟨c, r ++ '#' :: cs, rfl, (digitVal_chars hd).2 hlt⟩
    · intro c hc
      rcases List.mem_append.1 hc with hc | hc
      · obtain ⟨d, hd, hlt⟩ := spells_all hp c hc
        exact (digitVal_chars hd).1
      · rcases List.mem_cons.1 hc with rfl | hc
        · decide
        · obtain ⟨d, hd, hlt⟩ := spells_all hs c hc
          exact (digitVal_chars hd).1
    · rw [getint_plain _ _ _ (by
        intro c r e
        cases ps with
        | nil => exact absurd rfl hp.1
        | cons p ps =>
          simp only [List.cons_append, List.cons.injEq] at e
          exact h0 (by simp [e.1]))]
      obtain ⟨ub', e, _⟩ := getint_chars (b := 10) (by omega) false false ('#' :: cs) ps pd 0 false hp.2.1 hp.2.2
      have hv : val 10 0 pd = (b : Int) := hb
      rw [wrap64_zero, hv, wrap64_of_inRange (by unfold InRange int64Min int64Max; omega)] at e
      have hw : wrap32 (b : Int) = b := by unfold wrap32; rw [Int.bmod_eq_of_le] <;> omega
      have hstep : ∀ ub, getintLoop ('#' :: cs) 10 false false (b : Int) ub =
          getintLoop cs b true false 0 ub := by
        intro ub
        rw [getintLoop]
        simp only [hw]
        rw [if_neg (by decide), if_pos trivial, if_neg (by simp; omega)]
      have e' := e.trans (hstep ub')
      obtain ⟨ub2, e2, _⟩ := getint_chars (b := b) h2 true false [] cs ds 0 ub' hs.2.1 hs.2.2
      rw [List.append_nil, wrap64_zero] at e2
      exact ⟨_, (e'.trans e2).trans rfl, rfl⟩

theorem op_table : ∀ o : Op, ∃ as bs p, opinfo = as ++ (o, spell o, p) :: bs ∧
    (∀ a ∈ as, a.2.1 = spell a.1 ∧ ¬ a.2.1 <+: spell o) := by
  intro o
  refine ⟨opinfo.take o.idx, opinfo.drop (o.idx + 1), o.prec, ?_⟩
  cases o <;> decide

theorem op_head : ∀ o : Op, ∃ c r, spell o = c :: r ∧ isSpace c = false ∧ isLetter c = false ∧
    isDigit c = false := by
  intro o
  cases o <;> exact ⟨_, _, rfl, by decide, by decide, by decide⟩

theorem findOp_spell (o : Op) (rest : List Char)
    (hm : ∀ o', (spell o).length < (spell o').length → ¬ spell o' <+: spell o ++ rest) :
    ∃ p, findOp (spell o ++ rest) = some (o, spell o, p) := by
  obtain ⟨as, bs, p, ht, ha⟩ := op_table o
  refine ⟨p, ?_⟩
  unfold findOp
  rw [List.find?_eq_some_iff_append]
  refine ⟨by simp, as, bs, ht, ?_⟩
  intro a haa
  obtain ⟨h1, h2⟩ := ha a haa
  simp only [Bool.not_eq_true', Bool.eq_false_iff, ne_eq, List.isPrefixOf_iff_prefix]
  intro hp
  by_cases hl : (spell o).length < a.2.1.length
  · rw [h1] at hl hp
    exact hm _ hl hp
  · exact h2 (List.prefix_of_prefix_length_le hp (List.prefix_append _ _) (by omega))

/-- The state sits at the token list `ts`.  `real` says whether a name was read as
the real variable. -/
def At (real : Bool) (st : St) : List T → Prop
  | [] => st.tok = .fin
  | .op o :: ts => st.tok = .op o ∧ Lexes st.rest ts
  | .name x :: ts => st.tok = .var ∧ st.val = some (if real then .var x else .tmp 0 true) ∧
      Lexes st.rest ts
  | .num v :: ts => st.tok = .lit ∧ st.val = some (.tmp v false) ∧ InRange v ∧ Lexes st.rest ts

theorem takeWhile_append_stop {p : Char → Bool} {t rest : List Char} (h : ∀ c ∈ t, p c = true)
    (hr : ∀ c, rest.head? = some c → p c = false) :
    (t ++ rest).takeWhile p = t ∧ (t ++ rest).dropWhile p = rest := by
  induction t with
  | nil =>
    cases rest with
    | nil => simp
    | cons c r => simp [hr c rfl]
  | cons a t ih =>
    have := ih (fun c hc => h c (by simp [hc]))
    simp [h a (by simp), this]

theorem letter_not_space {c : Char} (h : isLetter c = true) : isSpace c = false := by
  have hc : isLower c = true ∨ isUpper c = true ∨ c = '_' := by
    unfold isLetter at h; simpa [or_assoc] using h
  rcases hc with h | h | rfl
  · unfold isLower at h
    simp only [Bool.and_eq_true, decide_eq_true_eq] at h
    have hne : ∀ x : Char, x < 'a' → (c == x) = false := by
      intro x hx
      simp only [beq_eq_false_iff_ne, ne_eq]
      rintro rfl
      exact absurd h.1 (by simpa using hx)
    simp [isSpace, hne ' ' (by decide), hne '\t' (by decide), hne '\n' (by decide), hne '\x0b' (by decide),
      hne '\x0c' (by decide), hne '\r' (by decide)]
  · unfold isUpper at h
    simp only [Bool.and_eq_true, decide_eq_true_eq] at h
    have hne : ∀ x : Char, x < 'A' → (c == x) = false := by
      intro x hx
      simp only [beq_eq_false_iff_ne, ne_eq]
      rintro rfl
      exact absurd h.1 (by simpa using hx)
    simp [isSpace, hne ' ' (by decide), hne '\t' (by decide), hne '\n' (by decide), hne '\x0b' (by decide),
      hne '\x0c' (by decide), hne '\r' (by decide)]
  · decide

theorem letter_letnum {c : Char} (h : isLetter c = true) : letnum c = true := by
  unfold isLetter at h; unfold letnum
  simp only [Bool.or_eq_true] at h ⊢
  left
  exact h

theorem digit_not_letter {c : Char} (h : isDigit c = true) : isLetter c = false := by
  unfold isDigit at h
  simp only [Bool.and_eq_true, decide_eq_true_eq] at h
  unfold isLetter isLower isUpper
  have h9 : c ≤ '9' := h.2
  have e1 : ¬ ('a' ≤ c) := fun h' => absurd (Char.le_trans h' h9) (by decide)
  have e2 : ¬ ('A' ≤ c) := fun h' => absurd (Char.le_trans h' h9) (by decide)
  have e3 : c ≠ '_' := by rintro rfl; revert h9; decide
  simp [e1, e2, e3]

/-- Reading a token of a well-lexed text. -/
theorem token_step {st : St} {ts : List T} (h : Lexes st.rest ts) :
    ∃ st', token true st = .ok st' ∧ st'.na = st.na ∧ st'.vars = st.vars ∧
      At (decide (st.na = 0)) st' ts := by
  generalize hr : st.rest = t at h
  unfold token
  rw [hr]
  cases h with
  | nil hws =>
    have := takeWhile_all hws
    simp only [this.2]
    exact ⟨_, rfl, rfl, rfl, rfl⟩
  | @op ws rest ts o hws hm hl =>
    obtain ⟨c, r, hs, hsp, hlet, hdig⟩ := op_head o
    have hd : (ws ++ (spell o ++ rest)).dropWhile isSpace = spell o ++ rest :=
      dropWhile_append_of_all hws (by rw [hs]; simp [hsp])
    obtain ⟨p, hf⟩ := findOp_spell o rest hm
    simp only [hd]
    have hcons : spell o ++ rest = c :: (r ++ rest) := by rw [hs]; rfl
    split
    · next h => rw [hcons] at h; simp at h
    · next c' r' h =>
      rw [hcons] at h
      simp only [List.cons.injEq] at h
      obtain ⟨rfl, _⟩ := h
      simp only [hlet, hdig, hf, Bool.false_eq_true, if_false]
      refine ⟨_, rfl, rfl, rfl, rfl, ?_⟩
      simpa using hl
  | @name ws rest ts c x hws hc hx hrest hl =>
    have hd : (ws ++ (c :: x ++ rest)).dropWhile isSpace = c :: x ++ rest :=
      dropWhile_append_of_all hws (by simp [letter_not_space hc])
    have htw := takeWhile_append_stop (p := letnum) (t := c :: x) (rest := rest)
      (by intro a ha; rcases List.mem_cons.1 ha with rfl | ha
          · exact letter_letnum hc
          · exact hx a ha)
      (by intro a ha; have := hrest a ha; unfold contName at this; simp at this; exact this.1)
    simp only [hd]
    rw [List.cons_append]
    simp only [hc, if_true]
    rw [← List.cons_append, htw.1, htw.2]
    have hb : ¬ rest.head? = some '[' := by
      intro hh; have := hrest _ hh; revert this; decide
    rw [if_neg hb]
    refine ⟨_, rfl, rfl, rfl, rfl, ?_, hl⟩
    by_cases h0 : st.na = 0 <;> simp [h0]
  | @num ws rest ts t v hws hlit hrest hl =>
    obtain ⟨⟨c, r, ht, hdig⟩, hall, ⟨g, hg, hgv⟩, hrange⟩ := litVal_getint hlit
    have hd : (ws ++ (t ++ rest)).dropWhile isSpace = t ++ rest :=
      dropWhile_append_of_all hws (by rw [ht]; simp [(digit_not_space hdig).1])
    have htw := takeWhile_append_stop (p := fun c => c != '_' && (letnum c || c == '#')) (t := t)
      (rest := rest) hall
      (by intro a ha
          have := hrest a ha
          unfold contNum at this
          simp only [Bool.and_eq_false_iff]; right; exact this)
    simp only [hd]
    have hcons : t ++ rest = c :: (r ++ rest) := by rw [ht]; rfl
    split
    · next h => rw [hcons] at h; simp at h
    · next c' r' h =>
      rw [hcons] at h
      simp only [List.cons.injEq] at h
      obtain ⟨rfl, _⟩ := h
      simp only [digit_not_letter hdig, hdig, Bool.false_eq_true, if_false, if_true, htw.1, htw.2, hg]
      exact ⟨_, rfl, rfl, rfl, rfl, by rw [hgv], hrange, hl⟩

end Ksh.Expr
