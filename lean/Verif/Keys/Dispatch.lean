import Verif.Keys.Lemmas
/-!
# Which command a key sequence runs
-/

namespace Ksh.Keys

/-- Nothing pushed back, no text running: the keys come from the terminal. -/
def plain (t : List Nat) : In := ⟨-1, none, t⟩

theorem getc_plain (kb : List Entry) (b : Nat) (t : List Nat) : getc kb (plain (b :: t)) = some ((b : Int), plain t) := rfl

theorem getc_plain_nil (kb : List Entry) : getc kb (plain []) = some (-1, plain []) := rfl

theorem byte_ofNat {b : Nat} (h : b < 256) : byte (b : Int) = b := by
  simp only [byte]; omega

theorem ulen_one {b : Nat} (h : b < 192) : ulen (b : Int) = 1 := by
  have := byte_ofNat (b := b) (by omega)
  simp only [ulen, this]
  rw [if_neg (by omega), if_neg (by omega), if_neg (by omega)]

theorem getu8_plain (kb : List Entry) (line : List Nat) {b : Nat} (t : List Nat) (hb : b < 192)
    (hl : line.length < LINE) : getu8 kb line (plain (b :: t)) = some (some (line ++ [b]), plain t) := by
  have h1 : ¬ (b : Int) = -1 := by omega
  simp only [getu8, getc_plain, if_neg h1, ulen_one hb, conts, byte_ofNat (show b < 256 by omega)]
  rw [if_pos (by simp; omega)]

theorem getu8_nil (kb : List Entry) (line : List Nat) : getu8 kb line (plain []) = some (none, plain []) := rfl

/-- What has been typed is the sequence of an entry and begins no other. -/
def Runs (kb : List Entry) (p : List Nat) (k : Entry) : Prop :=
  k ∈ kb ∧ k.seq = p ∧ ∀ k' ∈ kb, p <+: k'.seq → k' = k

/-- What has been typed begins no binding. -/
def Dead (kb : List Entry) (p : List Nat) : Prop := ∀ k ∈ kb, ¬ p <+: k.seq

theorem scan_runs {kb : List Entry} {p : List Nat} {k : Entry} (h : Runs kb p k)
    (hd : kb.Pairwise fun a b => a.id ≠ b.id) : scan p kb 0 none = (1, some k) := by
  obtain ⟨hk, hs, hu⟩ := h
  rcases scan_cases p kb with ⟨h1, _⟩ | ⟨k1, hk1, hp, hu1, h2⟩ | ⟨⟨a, b, hs', ha, hb⟩, _⟩
  · exact absurd (hs ▸ List.prefix_refl _) (h1 k hk)
  · have e : k = k1 := hu1 k hk (hs ▸ List.prefix_refl _)
    subst e
    rw [h2, if_pos (by rw [hs])]
  · exfalso
    have ha' : a ∈ kb := hs'.subset (by simp)
    have hb' : b ∈ kb := hs'.subset (by simp)
    have := hd.sublist hs'
    rw [List.pairwise_cons] at this
    exact this.1 b (by simp) (by rw [hu a ha' ha, hu b hb' hb])

theorem scan_dead {kb : List Entry} {p : List Nat} (h : Dead kb p) : scan p kb 0 none = (0, none) :=
  scan_none p kb 0 none (by decide) h

theorem runs_of_scan {kb : List Entry} {p : List Nat} {k : Entry} (h : scan p kb 0 none = (1, some k)) :
    Runs kb p k := by
  rcases scan_cases p kb with ⟨_, h2⟩ | ⟨k1, hk1, hp, hu, h2⟩ | ⟨_, o, h2⟩
  · rw [h2] at h; cases h
  · rw [h2] at h
    split at h
    · next hl =>
      cases h
      exact ⟨hk1, (hp.eq_of_length hl.symm).symm, hu⟩
    · cases h
  · rw [h2] at h; cases h

theorem dead_of_scan {kb : List Entry} {p : List Nat} {o : Option Entry} (h : scan p kb 0 none = (0, o)) :
    Dead kb p := by
  rcases scan_cases p kb with ⟨h1, _⟩ | ⟨k1, hk1, hp, hu, h2⟩ | ⟨_, o, h2⟩
  · exact h1
  · rw [h2] at h; cases h
  · rw [h2] at h; cases h

/-- One round in which the keys typed so far decide nothing. -/
theorem keys_open {text : Nat} {kb : List Entry} {n : Nat} {line : List Nat} {t : Nat} {b : Nat} {r : List Nat}
    (hb : b < 192) (hl : line.length < LINE) (hr : ∀ k, ¬ Runs kb (line ++ [b]) k) (hd : ¬ Dead kb (line ++ [b])) :
    keys text kb (n + 1) line t (plain (b :: r)) = keys text kb n (line ++ [b]) (t + 1) (plain r) := by
  rw [keys, getu8_plain kb line r hb hl]
  simp only
  split
  · next k h => exact absurd (runs_of_scan h) (hr k)
  · next o h => exact absurd (dead_of_scan h) hd
  · rfl

theorem keys_runs {text : Nat} {kb : List Entry} {n : Nat} {line : List Nat} {t : Nat} {b : Nat} {r : List Nat}
    {k : Entry} (hi : kb.Pairwise fun a b => a.id ≠ b.id)
    (hb : b < 192) (hl : line.length < LINE) (hr : Runs kb (line ++ [b]) k) :
    keys text kb (n + 1) line t (plain (b :: r)) = some (fire text k (line ++ [b]) (plain r)) := by
  rw [keys, getu8_plain kb line r hb hl]
  simp only [scan_runs hr hi]

theorem keys_dead {text : Nat} {kb : List Entry} {n : Nat} {line : List Nat} {t : Nat} {b : Nat} {r : List Nat}
    (hb : b < 192) (hl : line.length < LINE) (hr : Dead kb (line ++ [b])) :
    keys text kb (n + 1) line t (plain (b :: r)) = some (unbound (line ++ [b]) (t + 1) (plain r)) := by
  rw [keys, getu8_plain kb line r hb hl]
  simp only [scan_dead hr]

/-- Keys that decide nothing are collected. -/
theorem keys_collect {text : Nat} {kb : List Entry} : ∀ (p : List Nat) (n : Nat) (line : List Nat) (t : Nat) (r : List Nat),
    (∀ b ∈ p, b < 192) → (line ++ p).length ≤ LINE →
    (∀ q, q ≠ [] → q <+: p → (∀ k, ¬ Runs kb (line ++ q) k) ∧ ¬ Dead kb (line ++ q)) →
    keys text kb (n + p.length) line t (plain (p ++ r)) = keys text kb n (line ++ p) (t + p.length) (plain r)
  | [], n, line, t, r, _, _, _ => by simp
  | b :: p, n, line, t, r, hb, hl, ho => by
    have h1 := ho [b] (by simp) ⟨p, rfl⟩
    have hlen : line.length < LINE := by simp at hl; omega
    have : n + (b :: p).length = (n + p.length) + 1 := by simp; omega
    rw [this, List.cons_append, keys_open (hb b (by simp)) hlen h1.1 h1.2,
      keys_collect p n (line ++ [b]) (t + 1) r (fun c hc => hb c (by simp [hc])) (by simpa using hl) ?_]
    · simp [Nat.add_comm, Nat.add_left_comm]
    · intro q hq hp
      have := ho (b :: q) (by simp) (List.cons_prefix_cons.mpr ⟨rfl, hp⟩)
      simpa using this

theorem size_plain (t : List Nat) : (plain t).size = t.length := by
  simp [In.size, plain]

/-- What a binding does when it is reached. -/
def effect (text : Nat) (k : Entry) (rest : List Nat) : Act × In :=
  if k.fn = text ∧ k.args ≠ none then (.text k, ⟨-1, some (k.id, k.args.getD []), rest⟩)
  else (.call k (k.seq.getLastD 0), plain rest)

theorem fire_effect (text : Nat) (k : Entry) (rest : List Nat) : fire text k k.seq (plain rest) = effect text k rest := by
  simp only [fire, effect, plain]
  cases h : k.args with
  | none => simp
  | some a => simp

end Ksh.Keys
