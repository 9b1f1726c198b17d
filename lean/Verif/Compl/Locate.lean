import Verif.Compl.Model
/-! # The word under the cursor -/

namespace Ksh.Compl

/-! ## Specification -/

/-- The characters that end a word on the line. -/
def stops : List Char := [' ', '\t', '\n', '|', '&', ';', '<', '>', '(', ')', '\'', '"', '`', '=', ':']

/-- The number of backslashes directly before position `i`. -/
def slashes (buf : List Char) (i : Nat) : Nat := ((buf.take i).reverse.takeWhile (· = '\\')).length

/-- The character at `i` ends a word: it is not quoted by a backslash. -/
def Ends (buf : List Char) (i : Nat) : Prop := (∃ c ∈ stops, buf[i]? = some c) ∧ slashes buf i % 2 = 0

/-- The word around `pos` is the part of the line from `start` to `stop`. -/
structure IsWord (buf : List Char) (pos start stop : Nat) : Prop where
  before : start ≤ pos
  behind : pos ≤ stop
  inside : stop ≤ buf.length
  whole : ∀ i, start ≤ i → i < stop → ¬ Ends buf i
  left : start = 0 ∨ Ends buf (start - 1)
  right : stop = buf.length ∨ Ends buf stop

/-- There is only one such part. -/
theorem IsWord.unique {buf pos a b a' b'} (h : IsWord buf pos a b) (h' : IsWord buf pos a' b') : a = a' ∧ b = b' := by
  constructor
  · rcases Nat.lt_trichotomy a a' with hl | hl | hl
    · rcases h'.left with h0 | h0
      · omega
      · exact absurd h0 (h.whole _ (by omega) (by have := h.behind; have := h'.before; omega))
    · exact hl
    · rcases h.left with h0 | h0
      · omega
      · exact absurd h0 (h'.whole _ (by omega) (by have := h'.behind; have := h.before; omega))
  · rcases Nat.lt_trichotomy b b' with hl | hl | hl
    · rcases h.right with h0 | h0
      · have := h'.inside; omega
      · exact absurd h0 (h'.whole _ (by have := h'.before; have := h.behind; omega) hl)
    · exact hl
    · rcases h'.right with h0 | h0
      · have := h.inside; omega
      · exact absurd h0 (h.whole _ (by have := h.before; have := h'.behind; omega) hl)

/-! ## Lemmas -/

theorem wordc_stops (c : Char) : wordc c = !stops.contains c := by
  rw [Bool.eq_iff_iff]
  simp [wordc, Lex.lex1, stops, and_assoc]

theorem wordc_false {c : Char} : wordc c = false ↔ c ∈ stops := by
  rw [wordc_stops]; simp

theorem wordc_true {c : Char} : wordc c = true ↔ c ∉ stops := by
  rw [wordc_stops]; simp

theorem slashes_zero (buf : List Char) : slashes buf 0 = 0 := by simp [slashes]

theorem slashes_succ {buf : List Char} {i : Nat} {c : Char} (h : buf[i]? = some c) :
    slashes buf (i + 1) = if c = '\\' then slashes buf i + 1 else 0 := by
  have e : buf.take (i + 1) = buf.take i ++ [c] := by
    rw [List.take_add_one, h]; rfl
  simp only [slashes, e, List.reverse_append, List.reverse_cons, List.reverse_nil, List.nil_append, List.singleton_append,
    List.takeWhile_cons]
  split <;> simp_all

theorem back_spec (buf : List Char) : ∀ pos, pos ≤ buf.length → ∃ start, back buf pos = some start ∧ start ≤ pos ∧
    (start = 0 ∨ ∃ c ∈ stops, buf[start - 1]? = some c ∧ (start - 1 = 0 ∨ buf[start - 2]? ≠ some '\\')) ∧
    ∀ i, start ≤ i → i < pos → ∃ c, buf[i]? = some c ∧ (c ∉ stops ∨ (0 < i ∧ buf[i - 1]? = some '\\'))
  | 0, _ => ⟨0, rfl, Nat.le_refl _, .inl rfl, fun i _ h => by omega⟩
  | s + 1, h => by
    have hs : buf[s]? = some (buf[s]'(by omega)) := List.getElem?_eq_getElem (by omega)
    generalize buf[s]'(by omega) = c at hs
    rw [back, hs]
    dsimp only
    by_cases hc : (wordc c || (decide (s > 0) && buf[s - 1]? == some '\\')) = true
    · rw [if_pos hc]
      obtain ⟨start, h1, h2, h3, h4⟩ := back_spec buf s (by omega)
      refine ⟨start, h1, by omega, h3, fun i hi hi' => ?_⟩
      by_cases his : i = s
      · subst his
        refine ⟨c, hs, ?_⟩
        simpa [wordc_true] using hc
      · exact h4 i hi (by omega)
    · rw [if_neg hc]
      refine ⟨s + 1, rfl, Nat.le_refl _, .inr ⟨c, ?_, hs, ?_⟩, fun i _ h => by omega⟩
      · simp only [Bool.or_eq_true, not_or, Bool.not_eq_true] at hc
        exact wordc_false.mp hc.1
      · simp only [Bool.or_eq_true, not_or, Bool.not_eq_true, Bool.and_eq_false_iff, decide_eq_false_iff_not, beq_eq_false_iff_ne] at hc
        rcases hc.2 with h0 | h0
        · left; omega
        · right; simpa using h0

theorem fwd_spec (buf : List Char) : ∀ n e, buf.length < n + e → e ≤ buf.length → slashes buf e % 2 = 0 →
    ∃ stop, fwd buf n e = some stop ∧ e ≤ stop ∧ stop ≤ buf.length ∧ (∀ i, e ≤ i → i < stop → ¬ Ends buf i) ∧
      (stop = buf.length ∨ Ends buf stop)
  | 0, e, h, h', _ => by omega
  | n + 1, e, h, h', hp => by
    rw [fwd]
    by_cases hl : e < buf.length
    · rw [if_pos hl]
      have hs : buf[e]? = some (buf[e]'hl) := List.getElem?_eq_getElem hl
      generalize buf[e]'hl = c at hs
      rw [hs]
      dsimp only
      by_cases hc : wordc c = true
      · rw [if_pos hc]
        have h1 := slashes_succ hs
        have here : ¬ Ends buf e := by
          rintro ⟨⟨d, hd, hd'⟩, -⟩
          rw [hs] at hd'
          cases hd'
          exact wordc_true.mp hc hd
        by_cases hb : c = '\\' ∧ e + 1 < buf.length
        · rw [if_pos hb]
          rw [if_pos hb.1] at h1
          have hs' : buf[e + 1]? = some (buf[e + 1]'hb.2) := List.getElem?_eq_getElem hb.2
          have h2 := slashes_succ hs'
          obtain ⟨stop, g1, g2, g3, g4, g5⟩ := fwd_spec buf n (e + 2) (by omega) (by omega) (by rw [h2]; split <;> omega)
          refine ⟨stop, g1, by omega, g3, fun i hi hi' => ?_, g5⟩
          by_cases hie : i = e
          · subst hie; exact here
          · by_cases hie' : i = e + 1
            · subst hie'
              rintro ⟨-, hq⟩
              omega
            · exact g4 i (by omega) hi'
        · rw [if_neg hb]
          have h3 : e + 1 = buf.length ∨ slashes buf (e + 1) % 2 = 0 := by
            by_cases h4 : c = '\\'
            · left
              have : ¬ (e + 1 < buf.length) := fun h5 => hb ⟨h4, h5⟩
              omega
            · right; rw [h1, if_neg h4]
          rcases h3 with h3 | h3
          · have g1 : fwd buf n (e + 1) = some (e + 1) := by
              cases n with
              | zero => omega
              | succ n => rw [fwd, if_neg (by omega)]
            refine ⟨e + 1, g1, by omega, by omega, fun i hi hi' => ?_, .inl h3⟩
            rw [show i = e by omega]
            exact here
          · obtain ⟨stop, g1, g2, g3, g4, g5⟩ := fwd_spec buf n (e + 1) (by omega) (by omega) h3
            refine ⟨stop, g1, by omega, g3, fun i hi hi' => ?_, g5⟩
            by_cases hie : i = e
            · subst hie; exact here
            · exact g4 i (by omega) hi'
      · rw [if_neg hc]
        exact ⟨e, rfl, Nat.le_refl _, h', fun i hi hi' => by omega,
          .inr ⟨⟨c, wordc_false.mp (by simpa using hc), hs⟩, hp⟩⟩
    · rw [if_neg hl]
      exact ⟨e, rfl, Nat.le_refl _, h', fun i hi hi' => by omega, .inl (by omega)⟩

theorem lastText_spec (buf : List Char) : ∀ p, p ≤ buf.length →
    lastText buf p = some (((buf.take p).reverse.dropWhile space).head?)
  | 0, _ => by simp [lastText]
  | p + 1, h => by
    have hs : buf[p]? = some (buf[p]'(by omega)) := List.getElem?_eq_getElem (by omega)
    generalize buf[p]'(by omega) = c at hs
    have e : buf.take (p + 1) = buf.take p ++ [c] := by rw [List.take_add_one, hs]; rfl
    rw [lastText, hs]
    dsimp only
    rw [e, List.reverse_append, List.reverse_cons, List.reverse_nil, List.nil_append, List.singleton_append, List.dropWhile_cons]
    by_cases hc : space c = true
    · rw [if_pos hc, if_pos hc, lastText_spec buf p (by omega)]
    · rw [if_neg hc, if_neg hc]; rfl

/-! ## Theorems -/

/-- The characters after which a command begins. -/
def begins : List Char := [';', '|', '&', '(', ')', '`']

/-- A word at `start` is the name of a command: only blanks are before it, or before these a character after which a
command begins, and it has no slash. -/
def CommandAt (buf : List Char) (start stop : Nat) : Prop :=
  (∀ c ∈ ((buf.take start).reverse.dropWhile space).head?, c ∈ begins) ∧ '/' ∉ (buf.drop start).take (stop - start)

theorem isCmd_iff (p : Option Char) (w : List Char) : isCmd p w = true ↔ (∀ c ∈ p, c ∈ begins) ∧ '/' ∉ w := by
  simp only [isCmd, Bool.and_eq_true, Bool.not_eq_true', List.contains_eq_mem, decide_eq_false_iff_not]
  refine and_congr ?_ Iff.rfl
  cases p with
  | none => simp
  | some c => simp [sep, begins, or_assoc]

/-- **C110** Locating a word reads nothing outside the line and answers a part of it that begins at or before the cursor,
for every line and every position of the cursor. -/
theorem located_inside (buf : List Char) (pos : Nat) (h : pos ≤ buf.length) :
    ∃ start len cmd, locate buf pos = some (start, len, cmd) ∧ start ≤ pos ∧ start + len ≤ buf.length ∧
      (cmd = true ↔ CommandAt buf start (start + len)) ∧ (∀ i, start ≤ i → i < start + len → ¬ Ends buf i) ∧
      (start + len = buf.length ∨ Ends buf (start + len)) := by
  obtain ⟨start, h1, h2, h3, h4⟩ := back_spec buf pos h
  have hp : slashes buf start % 2 = 0 := by
    rcases h3 with h3 | ⟨c, hc, hb, -⟩
    · rw [h3, slashes_zero]
    · by_cases h0 : start = 0
      · rw [h0, slashes_zero]
      · have := slashes_succ hb
        rw [show start - 1 + 1 = start by omega, if_neg (by rintro rfl; simp [stops] at hc)] at this
        rw [this]
  obtain ⟨stop, g1, g2, g3, g4, g5⟩ := fwd_spec buf (buf.length + 1) start (by omega) (by omega) hp
  have hcmd := isCmd_iff ((buf.take start).reverse.dropWhile space).head? ((buf.drop start).take (stop - start))
  generalize hc : isCmd ((buf.take start).reverse.dropWhile space).head? ((buf.drop start).take (stop - start)) = cmd at hcmd
  refine ⟨start, stop - start, cmd, ?_, h2, by omega, ?_, fun i hi hi' => g4 i hi (by omega), ?_⟩
  · rw [locate, if_neg (by omega), h1]
    dsimp only
    rw [g1]
    dsimp only
    rw [lastText_spec buf start (by omega)]
    dsimp only
    rw [hc]
  · rw [show start + (stop - start) = stop by omega]; exact hcmd
  · rw [show start + (stop - start) = stop by omega]; exact g5

/-- **C110** If each character that ends a word and follows a backslash follows an odd number of them, the word is the one
around the cursor. -/
theorem located_word_partial (buf : List Char) (pos : Nat) (h : pos ≤ buf.length)
    (hq : ∀ i, ∀ c ∈ stops, buf[i]? = some c → slashes buf i % 2 = 0 → slashes buf i = 0) :
    ∃ start len cmd, locate buf pos = some (start, len, cmd) ∧ IsWord buf pos start (start + len) := by
  obtain ⟨start, h1, h2, h3, h4⟩ := back_spec buf pos h
  obtain ⟨start', len, cmd, e, g1, g2, -, g3, g4⟩ := located_inside buf pos h
  have hst : start' = start := by
    rw [locate, if_neg (by omega), h1] at e
    dsimp only at e
    cases hf : fwd buf (buf.length + 1) start with
    | none => rw [hf] at e; simp at e
    | some x =>
      rw [hf] at e
      dsimp only at e
      rw [lastText_spec buf start (by omega)] at e
      simp only [Option.some.injEq, Prod.mk.injEq] at e
      exact e.1.symm
  subst hst
  have hback : ∀ i, start' ≤ i → i < pos → ¬ Ends buf i := by
    rintro i hi hi' ⟨⟨c, hc, hb⟩, hp⟩
    obtain ⟨d, hd, hor⟩ := h4 i hi hi'
    rw [hb] at hd
    cases hd
    rcases hor with hor | ⟨hi0, hor⟩
    · exact hor hc
    · have := slashes_succ hor
      rw [show i - 1 + 1 = i by omega, if_pos rfl] at this
      have := hq i c hc hb hp
      omega
  refine ⟨start', len, cmd, e, g1, ?_, g2, g3, ?_, g4⟩
  · rcases g4 with g4 | g4
    · omega
    · rcases Nat.lt_or_ge (start' + len) pos with hlt | hge
      · exact absurd g4 (hback _ (by omega) hlt)
      · exact hge
  · rcases h3 with h3 | ⟨c, hc, hb, hz⟩
    · exact .inl h3
    · right
      refine ⟨⟨c, hc, hb⟩, ?_⟩
      rcases hz with hz | hz
      · rw [hz, slashes_zero]
      · by_cases h0 : start' - 1 = 0
        · rw [h0, slashes_zero]
        · have hx : buf[start' - 2]? = some (buf[start' - 2]'(by omega)) := List.getElem?_eq_getElem (by omega)
          have := slashes_succ hx
          rw [show start' - 2 + 1 = start' - 1 by omega, if_neg (by rintro e'; rw [hx] at hz; exact hz (by rw [e']))] at this
          rw [this]

/-- **C110** fails as stated: behind a quoted backslash and a blank, the word found is the one before the cursor's. -/
theorem word_before_cursor : locate ['a', '\\', '\\', ' ', 'b', 'c'] 6 = some (0, 3, true) ∧
    IsWord ['a', '\\', '\\', ' ', 'b', 'c'] 6 4 6 := by
  refine ⟨by decide, by decide, by decide, by decide, ?_, .inr ⟨⟨' ', by decide, by decide⟩, by decide⟩, .inl (by decide)⟩
  rintro i h1 h2 ⟨⟨c, hc, hb⟩, -⟩
  have : i = 4 ∨ i = 5 := by omega
  rcases this with rfl | rfl <;> (simp only [List.getElem?_cons_succ, List.getElem?_cons_zero, Option.some.injEq] at hb; subst hb; simp [stops] at hc)

example : locate ['l', 's', ' ', 'a', '\\', ' ', 'b', ' ', 'c'] 5 = some (3, 4, false) := by decide
example : locate ['a', ';', ' ', 'l', 's'] 4 = some (3, 2, true) ∧ locate ['.', '/', 'a'] 3 = some (0, 3, false) := by decide

end Ksh.Compl
