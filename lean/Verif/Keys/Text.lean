import Verif.Keys.Safe
/-!
# Texts bound to keys are read like typed keys
-/

namespace Ksh.Keys

/-- The same characters, all typed. -/
def flat (i : In) : In := ⟨i.unget, none, ((i.mac.map (·.2)).getD []) ++ i.tty⟩

/-- The text that is being read is there and is ASCII. -/
def Ascii (kb : List Entry) (i : In) : Prop := ∀ id r, i.mac = some (id, r) → Live kb id ∧ ∀ b ∈ r, b < 128

theorem sgn_ascii {b : Nat} (h : b < 128) : sgn b = b := by rw [sgn, if_pos h]

theorem getc_flat {kb : List Entry} {i i' : In} {c : Int} (h : Ascii kb i) (e : getc kb i = some (c, i')) :
    getc kb (flat i) = some (c, flat i') ∧ Ascii kb i' := by
  rw [getc] at e
  by_cases hu : 0 ≤ i.unget
  · rw [if_pos hu] at e
    simp only [Option.some.injEq, Prod.mk.injEq] at e
    obtain ⟨rfl, rfl⟩ := e
    refine ⟨?_, h⟩
    rw [getc, if_pos (by exact hu)]
    rfl
  · rw [if_neg hu] at e
    have hx : ∀ j : In, j.mac = none → j.unget = i.unget → some (xgetc j) = some (c, i') →
        getc kb j = some (c, flat i') ∧ Ascii kb i' := by
      intro j hm hju e
      have hi : i'.mac = none := by
        have := xgetc_mac j
        simp only [Option.some.injEq] at e
        rw [e, hm] at this; exact this
      refine ⟨?_, fun id r h => by rw [hi] at h; cases h⟩
      rw [getc, if_neg (by rw [hju]; exact hu), hm]
      have : flat i' = i' := by
        obtain ⟨u, m, t⟩ := i'
        simp only at hi
        subst hi; rfl
      rw [this]; exact e
    cases hm : i.mac with
    | none =>
      rw [hm] at e
      have : flat i = i := by
        obtain ⟨u, m, t⟩ := i
        simp only at hm
        subst hm; rfl
      rw [this]
      exact hx i hm rfl e
    | some p =>
      obtain ⟨id, r⟩ := p
      obtain ⟨hl, ha⟩ := h id r hm
      have hl' : kb.any (·.id == id) = true := hl
      rw [hm] at e
      simp only [hl', if_true] at e
      cases r with
      | nil =>
        have : flat i = { i with mac := none } := by simp [flat, hm]
        rw [this]
        exact hx _ rfl rfl e
      | cons b r =>
        simp only [Option.some.injEq, Prod.mk.injEq] at e
        obtain ⟨rfl, rfl⟩ := e
        constructor
        · rw [getc, if_neg (by exact hu)]
          simp only [flat, hm, sgn_ascii (ha b (by simp))]
          simp [xgetc]
        · intro id' r' h'
          simp only [Option.some.injEq, Prod.mk.injEq] at h'
          obtain ⟨rfl, rfl⟩ := h'
          exact ⟨hl, fun c hc => ha c (by simp [hc])⟩

theorem conts_flat {kb : List Entry} {c : Int} : ∀ (n : Nat) (buf : List Nat) (i : In) {buf' : List Nat} {i' : In},
    Ascii kb i → conts kb c n buf i = some (buf', i') →
    conts kb c n buf (flat i) = some (buf', flat i') ∧ Ascii kb i'
  | 0, buf, i, _, _, h, e => by
    simp only [conts, Option.some.injEq, Prod.mk.injEq] at e ⊢
    obtain ⟨rfl, rfl⟩ := e; exact ⟨⟨rfl, rfl⟩, h⟩
  | 1, buf, i, _, _, h, e => by
    simp only [conts, Option.some.injEq, Prod.mk.injEq] at e ⊢
    obtain ⟨rfl, rfl⟩ := e; exact ⟨⟨rfl, rfl⟩, h⟩
  | n + 2, buf, i, buf', i', h, e => by
    rw [conts] at e ⊢
    cases hg : getc kb i with
    | none => rw [hg] at e; cases e
    | some p =>
      obtain ⟨cc, i1⟩ := p
      obtain ⟨g1, h1⟩ := getc_flat h hg
      rw [hg] at e
      rw [g1]
      simp only at e ⊢
      by_cases hc : cc = -1
      · rw [if_pos hc] at e ⊢
        simp only [Option.some.injEq, Prod.mk.injEq] at e ⊢
        obtain ⟨rfl, rfl⟩ := e; exact ⟨⟨rfl, rfl⟩, h1⟩
      · rw [if_neg hc] at e ⊢
        by_cases hr : reject c (n + 2) cc = true
        · rw [if_pos hr] at e ⊢
          simp only [Option.some.injEq, Prod.mk.injEq] at e ⊢
          obtain ⟨rfl, rfl⟩ := e; exact ⟨⟨rfl, rfl⟩, h1⟩
        · rw [if_neg hr] at e ⊢
          exact conts_flat (n + 1) _ i1 h1 e

theorem getu8_flat {kb : List Entry} {buf : List Nat} {i i' : In} {o : Option (List Nat)} (h : Ascii kb i)
    (e : getu8 kb buf i = some (o, i')) : getu8 kb buf (flat i) = some (o, flat i') ∧ Ascii kb i' := by
  rw [getu8] at e ⊢
  cases hg : getc kb i with
  | none => rw [hg] at e; cases e
  | some p =>
    obtain ⟨c, i1⟩ := p
    obtain ⟨g1, h1⟩ := getc_flat h hg
    rw [hg] at e
    rw [g1]
    simp only at e ⊢
    by_cases hc : c = -1
    · rw [if_pos hc] at e ⊢
      simp only [Option.some.injEq, Prod.mk.injEq] at e ⊢
      obtain ⟨rfl, rfl⟩ := e; exact ⟨⟨rfl, rfl⟩, h1⟩
    · rw [if_neg hc] at e ⊢
      cases hcn : conts kb c (ulen c) (buf ++ [byte c]) i1 with
      | none => rw [hcn] at e; cases e
      | some q =>
        obtain ⟨b2, i2⟩ := q
        obtain ⟨g2, h2⟩ := conts_flat _ _ i1 h1 hcn
        rw [hcn] at e
        rw [g2]
        simp only at e ⊢
        split at e
        · next hl =>
          rw [if_pos hl]
          simp only [Option.some.injEq, Prod.mk.injEq] at e ⊢
          obtain ⟨rfl, rfl⟩ := e; exact ⟨⟨rfl, rfl⟩, h2⟩
        · cases e

/-- The action does not involve a text binding. -/
def NoText (text : Nat) (a : Act) : Prop :=
  (∀ k, a ≠ .text k) ∧ ∀ k c, a = .call k c → k.fn ≠ text ∨ k.args = none

theorem fire_flat {text : Nat} {k : Entry} {line : List Nat} {i i' : In} {a : Act} (hn : NoText text a)
    (e : fire text k line i = (a, i')) : fire text k line (flat i) = (a, flat i') := by
  simp only [fire] at e ⊢
  cases ha : k.args with
  | none =>
    rw [ha] at e
    simp only [Prod.mk.injEq] at e ⊢
    obtain ⟨rfl, rfl⟩ := e; exact ⟨rfl, rfl⟩
  | some t =>
    rw [ha] at e
    simp only at e ⊢
    split at e
    · simp only [Prod.mk.injEq] at e
      exact absurd e.1.symm (hn.1 k)
    · simp only [Prod.mk.injEq] at e
      obtain ⟨rfl, rfl⟩ := e
      rw [if_neg]
      intro h
      rcases hn.2 k _ rfl with h' | h'
      · exact h' h.1
      · rw [ha] at h'; cases h'

theorem unbound_flat {line : List Nat} {n : Nat} {i i' : In} {a : Act} (e : unbound line n i = (a, i')) :
    unbound line n (flat i) = (a, flat i') := by
  simp only [unbound] at e ⊢
  split at e
  · next h => rw [if_pos h]; simp only [Prod.mk.injEq] at e ⊢; obtain ⟨rfl, rfl⟩ := e; exact ⟨rfl, rfl⟩
  · next h =>
    rw [if_neg h]
    split at e
    · next h => rw [if_pos h]; simp only [Prod.mk.injEq] at e ⊢; obtain ⟨rfl, rfl⟩ := e; exact ⟨rfl, rfl⟩
    · next h => rw [if_neg h]; simp only [Prod.mk.injEq] at e ⊢; obtain ⟨rfl, rfl⟩ := e; exact ⟨rfl, rfl⟩

theorem keys_flat {text : Nat} {kb : List Entry} {a : Act} {i' : In} (hn : NoText text a) :
    ∀ (n : Nat) (line : List Nat) (t : Nat) (i : In), Ascii kb i → keys text kb n line t i = some (a, i') →
    keys text kb n line t (flat i) = some (a, flat i') ∧ Ascii kb i'
  | 0, _, _, _, _, e => by cases e
  | n + 1, line, t, i, h, e => by
    rw [keys] at e ⊢
    cases hg : getu8 kb line i with
    | none => rw [hg] at e; cases e
    | some p =>
      obtain ⟨o, i1⟩ := p
      obtain ⟨g1, h1⟩ := getu8_flat h hg
      rw [hg] at e
      rw [g1]
      cases o with
      | none =>
        simp only [Option.some.injEq, Prod.mk.injEq] at e ⊢
        obtain ⟨rfl, rfl⟩ := e; exact ⟨⟨rfl, rfl⟩, h1⟩
      | some line' =>
        simp only at e ⊢
        split at e
        · next k hs =>
          rw [Option.some.injEq] at e
          simp only [fire_flat hn e, true_and]
          have hi : i' = i1 := by
            simp only [fire] at e
            cases ha : k.args with
            | none => rw [ha] at e; simp only [Prod.mk.injEq] at e; exact e.2.symm
            | some t =>
              rw [ha] at e
              simp only at e
              split at e
              · simp only [Prod.mk.injEq] at e
                exact absurd e.1.symm (hn.1 k)
              · simp only [Prod.mk.injEq] at e; exact e.2.symm
          rw [hi]; exact h1
        · next o hs =>
          rw [Option.some.injEq] at e
          simp only [unbound_flat e, true_and]
          have := unbound_in line' (t + 1) i1
          rw [e] at this
          rw [show i' = i1 from this]; exact h1
        · exact keys_flat hn n line' (t + 1) i1 h1 e

theorem size_flat (i : In) : (flat i).size = i.size := by
  simp only [In.size, flat]
  cases i.mac with
  | none => simp; rfl
  | some p => simp [Nat.add_assoc]; rfl

end Ksh.Keys
