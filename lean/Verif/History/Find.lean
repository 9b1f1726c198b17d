import Verif.History.Props
/-!
# `fc string`

`findhist` (history.c:496-515) and the part of `hist_get` that calls it (history.c:419-431).
-/
namespace Ksh.History

/-- The test in the loop of findhist. -/
def isHit (str : Bytes) (anchored : Bool) (s : Bytes) : Bool :=
  (anchored && str.isPrefixOf s) || (!anchored && (strstr str s).isSome)

/-- The loop of findhist, backwards from the entry `i - 1`: `none` is a wrong access. -/
def findBack (h : H) (str : Bytes) (anchored : Bool) : Nat → Option (Option Nat)
  | 0 => some none
  | i + 1 => (get h i).bind fun s => if isHit str anchored s then some (some i) else findBack h str anchored i

/-- The loop of findhist, forwards from the entry `i`, for `k` entries. -/
def findFwd (h : H) (str : Bytes) (anchored : Bool) : Nat → Nat → Option (Option Nat)
  | 0, _ => some none
  | k + 1, i => (get h i).bind fun s => if isHit str anchored s then some (some i) else findFwd h str anchored k (i + 1)

/-- findhist, history.c:496-515; `h.n - 1` is `histptr - history`. -/
def findhist (h : H) (start : Int) (fwd : Bool) (str : Bytes) (anchored : Bool) : Option (Option Nat) :=
  let maxhist : Int := h.n - 1
  let start := if start < 0 ∨ start ≥ maxhist then maxhist else start
  if start < 0 then some none
  else if fwd then findFwd h str anchored (h.n - start.toNat) start.toNat
  else findBack h str anchored (start.toNat + 1)

/-- hist_get of a string that is no number, history.c:419-431. -/
def getStr (h : H) (str : Bytes) : Option (Option Nat) :=
  let start : Int := (h.n : Int) - 1 - 1
  if str.head? = some 0x3f then findhist h start false str.tail false else findhist h start false str true

/-- The entry begins with the string, or, after a `?`, contains it. -/
def Matches (str s : Bytes) : Prop := if str.head? = some 0x3f then ∃ i, At str.tail s i else ∃ b, s = str ++ b

theorem isHit_iff (str s : Bytes) (anchored : Bool) :
    isHit str anchored s = true ↔ if anchored then ∃ b, s = str ++ b else ∃ i, At str s i := by
  cases anchored with
  | true =>
    simp only [isHit, Bool.true_and, Bool.not_true, Bool.false_and, Bool.or_false, if_true]
    exact isPrefixOf_iff str s
  | false =>
    simp only [isHit, Bool.false_and, Bool.not_false, Bool.true_and, Bool.false_or, Bool.false_eq_true, if_false]
    rcases strstr_spec str s with ⟨a, b, e, hf⟩ | ⟨e, hf⟩
    · simp only [e, Option.isSome_some, true_iff]
      exact ⟨_, a, b, hf.1, rfl⟩
    · simp only [e, Option.isSome_none, Bool.false_eq_true, false_iff, not_exists]
      exact hf

theorem findBack_spec {h : H} {items : List Bytes} (w : Holds h items) (str : Bytes) (anchored : Bool) (i : Nat) (hi : i ≤ h.n) :
    (∃ k s, findBack h str anchored i = some (some k) ∧ k < i ∧ items[k]? = some s ∧ isHit str anchored s = true ∧
      ∀ j t, k < j → j < i → items[j]? = some t → isHit str anchored t = false) ∨
    (findBack h str anchored i = some none ∧ ∀ j t, j < i → items[j]? = some t → isHit str anchored t = false) := by
  induction i with
  | zero => exact Or.inr ⟨rfl, by intro j t hj; omega⟩
  | succ i ih =>
    obtain ⟨s, h1, h2⟩ := w.get (i := i) (by omega)
    simp only [findBack, h2, Option.bind_some]
    by_cases hh : isHit str anchored s = true
    · refine Or.inl ⟨i, s, by simp [hh], by omega, h1, hh, ?_⟩
      intro j t h3 h4
      omega
    · rw [if_neg hh]
      have hs : ∀ j t, j = i → items[j]? = some t → isHit str anchored t = false := by
        rintro j t rfl ht
        rw [h1] at ht
        cases ht
        simpa using hh
      rcases ih (by omega) with ⟨k, s', e1, e2, e3, e4, e5⟩ | ⟨e1, e2⟩
      · refine Or.inl ⟨k, s', e1, by omega, e3, e4, ?_⟩
        intro j t h3 h4 h5
        by_cases hj : j = i
        · exact hs j t hj h5
        · exact e5 j t h3 (by omega) h5
      · refine Or.inr ⟨e1, ?_⟩
        intro j t h4 h5
        by_cases hj : j = i
        · exact hs j t hj h5
        · exact e2 j t (by omega) h5

/-- **C66** `fc string` finds the most recent command before the current one that begins with the
string (`?string`: contains it), and fails exactly if there is none.

Partial: there must be a command before the current one, see `finds_itself`. -/
theorem find_recent_partial {h : H} {items : List Bytes} (w : Holds h items) (hn : 2 ≤ h.n) (str : Bytes) :
    (∃ k s, getStr h str = some (some k) ∧ k + 1 < h.n ∧ items[k]? = some s ∧ Matches str s ∧
      ∀ j t, k < j → j + 1 < h.n → items[j]? = some t → ¬ Matches str t) ∨
    (getStr h str = some none ∧ ∀ j t, j + 1 < h.n → items[j]? = some t → ¬ Matches str t) := by
  have key : ∀ (s : Bytes) (anchored : Bool) (M : Bytes → Prop), (∀ t, isHit s anchored t = true ↔ M t) →
      ∀ r, r = findhist h ((h.n : Int) - 1 - 1) false s anchored →
      (∃ k s, r = some (some k) ∧ k + 1 < h.n ∧ items[k]? = some s ∧ M s ∧ ∀ j t, k < j → j + 1 < h.n → items[j]? = some t → ¬ M t) ∨
      (r = some none ∧ ∀ j t, j + 1 < h.n → items[j]? = some t → ¬ M t) := by
    intro s anchored M hM r hr
    have e : findhist h ((h.n : Int) - 1 - 1) false s anchored = findBack h s anchored (h.n - 1) := by
      simp only [findhist]
      have e1 : ¬ ((h.n : Int) - 1 - 1 < 0 ∨ (h.n : Int) - 1 - 1 ≥ (h.n : Int) - 1) := by omega
      have e2 : ¬ ((h.n : Int) - 1 - 1 < 0) := by omega
      have e3 : (if (h.n : Int) - 1 - 1 < 0 ∨ (h.n : Int) - 1 - 1 ≥ (h.n : Int) - 1 then (h.n : Int) - 1 else (h.n : Int) - 1 - 1) = (h.n : Int) - 1 - 1 :=
        if_neg e1
      rw [e3, if_neg e2, if_neg (by simp)]
      congr 1
      omega
    rw [e] at hr
    subst hr
    rcases findBack_spec w s anchored (h.n - 1) (by omega) with ⟨k, t, e1, e2, e3, e4, e5⟩ | ⟨e1, e2⟩
    · refine Or.inl ⟨k, t, e1, by omega, e3, (hM t).1 e4, ?_⟩
      intro j t h1 h2 h3 h4
      have := e5 j t h1 (by omega) h3
      rw [(hM t).2 h4] at this
      simp at this
    · refine Or.inr ⟨e1, ?_⟩
      intro j t h2 h3 h4
      have := e2 j t (by omega) h3
      rw [(hM t).2 h4] at this
      simp at this
  unfold getStr
  by_cases hq : str.head? = some 0x3f
  · rw [if_pos hq]
    exact key str.tail false _ (fun t => by simpa [Matches, hq] using isHit_iff str.tail t false) _ rfl
  · rw [if_neg hq]
    exact key str true _ (fun t => by simpa [Matches, hq] using isHit_iff str t true) _ rfl

/-- **C66** When the `fc` command is the only entry, the search finds that command itself. -/
theorem finds_itself : ∃ h, run (init 9 (fun _ => false)) [.cmd [0x66, 0x63, 0x20, 0x66]] = some h ∧ getStr h [0x66] = some (some 0) := by
  refine ⟨_, rfl, ?_⟩
  decide +kernel

example : ∃ h, run (init 9 (fun _ => false)) [.cmd [0x61, 0x62], .cmd [0x61, 0x63], .cmd [0x62, 0x61], .cmd [0x61]] = some h ∧
    getStr h [0x61] = some (some 1) ∧ getStr h [0x3f, 0x61] = some (some 2) ∧ getStr h [0x63] = some none := by
  refine ⟨_, rfl, ?_, ?_, ?_⟩ <;> decide +kernel

end Ksh.History
