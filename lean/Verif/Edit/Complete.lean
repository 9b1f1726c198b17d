import Verif.Edit.Model
/-!
# C52: completion prefix and base name
-/

namespace Ksh.Edit

/-- Words do not contain NUL. -/
def NoNul (w : List Char) : Prop := '\x00' ∉ w

/-- `n` is the length of the longest prefix that all words share. -/
def IsLongest (words : List (List Char)) (n : Nat) : Prop :=
  (∀ w ∈ words, n ≤ w.length) ∧ (∀ w ∈ words, ∀ w' ∈ words, w.take n = w'.take n) ∧
  ∀ m, (∀ w ∈ words, m ≤ w.length) → (∀ w ∈ words, ∀ w' ∈ words, w.take m = w'.take m) → m ≤ n

theorem chr_lt {p : List Char} {j : Nat} (h : j < p.length) : chr p j = some p[j] := by
  simp [chr, h]

theorem take_succ_eq {p w : List Char} {j : Nat} (hp : j < p.length) (hw : j < w.length)
    (h : p.take j = w.take j) (hc : p[j] = w[j]) : p.take (j+1) = w.take (j+1) := by
  rw [List.take_succ_eq_append_getElem hp, List.take_succ_eq_append_getElem hw, h, hc]

/-- The inner loop finds the longest prefix `p` shares with the first `plen` characters. -/
theorem inner_spec (w0 p : List Char) (h0 : NoNul w0) (plen : Nat) (hpl : plen ≤ w0.length) :
    ∀ k, k ≤ plen → plen - k ≤ p.length → p.take (plen - k) = w0.take (plen - k) →
    ∃ l, inner w0 p plen k = some l ∧ l ≤ plen ∧ l ≤ p.length ∧ p.take l = w0.take l ∧
      ∀ m, m ≤ plen → m ≤ p.length → p.take m = w0.take m → m ≤ l := by
  intro k
  induction k with
  | zero =>
    intro _ h1 h2
    exact ⟨plen, rfl, Nat.le_refl _, h1, h2, fun m hm _ _ => hm⟩
  | succ k ih =>
    intro hk h1 h2
    have hw : plen - (k+1) < w0.length := by omega
    simp only [inner, chr_lt hw]
    have hstop : ∀ x, chr p (plen - (k+1)) = some x → x ≠ w0[plen - (k+1)] →
        ∀ m, m ≤ plen → m ≤ p.length → p.take m = w0.take m → m ≤ plen - (k+1) := by
      intro x hx hne m hm hm2 hm3
      by_cases hlt : m ≤ plen - (k+1)
      · exact hlt
      · exfalso
        have hlt' : plen - (k+1) < p.length := by omega
        rw [chr_lt hlt'] at hx
        injection hx with hx
        apply hne
        rw [← hx]
        have : (p.take m)[plen - (k+1)]? = (w0.take m)[plen - (k+1)]? := by rw [hm3]
        rw [List.getElem?_take, List.getElem?_take, if_pos (by omega), if_pos (by omega)] at this
        rw [List.getElem?_eq_getElem hlt', List.getElem?_eq_getElem hw] at this
        injection this
    rcases Nat.lt_or_ge (plen - (k+1)) p.length with hlt | hge
    · simp only [chr_lt hlt]
      by_cases hc : p[plen - (k+1)] = w0[plen - (k+1)]
      · rw [if_neg (by simpa using hc)]
        have heq : plen - (k+1) + 1 = plen - k := by omega
        refine ih (by omega) (by omega) ?_
        rw [← heq]; exact take_succ_eq hlt hw h2 hc
      · rw [if_pos hc]
        exact ⟨_, rfl, by omega, by omega, h2, hstop _ (chr_lt hlt) hc⟩
    · have hz : chr p (plen - (k+1)) = some '\x00' := by
        simp only [chr]; rw [if_neg (by omega), if_pos (by omega)]
      have hne : '\x00' ≠ w0[plen - (k+1)] := by
        intro h; apply h0; rw [h]; exact List.getElem_mem _
      simp only [hz]
      rw [if_pos hne]
      exact ⟨_, rfl, by omega, by omega, h2, hstop _ hz hne⟩

theorem outer_spec (w0 : List Char) (h0 : NoNul w0) : ∀ (ps : List (List Char)) (plen : Nat),
    plen ≤ w0.length →
    ∃ l, outer w0 ps plen = some l ∧ l ≤ plen ∧ (∀ p ∈ ps, l ≤ p.length ∧ p.take l = w0.take l) ∧
      ∀ m, m ≤ plen → (∀ p ∈ ps, m ≤ p.length ∧ p.take m = w0.take m) → m ≤ l := by
  intro ps
  induction ps with
  | nil => intro plen _; exact ⟨plen, rfl, Nat.le_refl _, by simp, fun m hm _ => hm⟩
  | cons p ps ih =>
    intro plen hpl
    obtain ⟨l, h1, h2, h3, h4, h5⟩ := inner_spec w0 p h0 plen hpl plen (Nat.le_refl _) (by omega) (by simp)
    obtain ⟨l', g1, g2, g3, g4⟩ := ih l (by omega)
    simp only [outer, h1]
    refine ⟨l', g1, by omega, ?_, ?_⟩
    · intro q hq
      simp only [List.mem_cons] at hq
      rcases hq with rfl | hq
      · refine ⟨by omega, ?_⟩
        have := congrArg (List.take l') h4
        rwa [List.take_take, List.take_take, Nat.min_eq_left g2] at this
      · exact g3 q hq
    · intro m hm hall
      have hp := hall p List.mem_cons_self
      exact g4 m (h5 m hm hp.1 hp.2) (fun q hq => hall q (List.mem_cons_of_mem _ hq))

/-- C52: `x_longest_prefix` is the longest common prefix, and reads no word beyond its
terminator. -/
theorem longestPrefix_spec (words : List (List Char)) (hne : words ≠ []) (hn : ∀ w ∈ words, NoNul w) :
    ∃ n, longestPrefix words = some n ∧ IsLongest words n := by
  cases words with
  | nil => exact absurd rfl hne
  | cons w ws =>
    obtain ⟨l, h1, h2, h3, h4⟩ := outer_spec w (hn w List.mem_cons_self) ws w.length (Nat.le_refl _)
    refine ⟨l, h1, ?_, ?_, ?_⟩
    · intro x hx
      simp only [List.mem_cons] at hx
      rcases hx with rfl | hx
      · exact h2
      · exact (h3 x hx).1
    · have key : ∀ x ∈ w :: ws, x.take l = w.take l := by
        intro x hx
        simp only [List.mem_cons] at hx
        rcases hx with rfl | hx
        · rfl
        · exact (h3 x hx).2
      intro x hx y hy
      rw [key x hx, key y hy]
    · intro m hm heq
      refine h4 m (hm w List.mem_cons_self) ?_
      intro p hp
      exact ⟨hm p (List.mem_cons_of_mem _ hp), heq p (List.mem_cons_of_mem _ hp) w List.mem_cons_self⟩

/-- There is only one such length. -/
theorem longest_unique {words : List (List Char)} {n m : Nat} (hn : IsLongest words n)
    (hm : IsLongest words m) : n = m := by
  have h1 := hn.2.2 m hm.1 hm.2.1
  have h2 := hm.2.2 n hn.1 hn.2.1
  omega

/-! ## Base name -/

/-- `s` is a directory part `d`, a name `b` and trailing slashes `t`. -/
structure Parts (s d b t : List Char) : Prop where
  eq : s = d ++ b ++ t
  name : b ≠ [] ∧ '/' ∉ b
  slashes : ∀ c ∈ t, c = '/'
  dir : d = [] ∨ d.getLast? = some '/'

/-- Every string that is not made of slashes only has parts. -/
theorem parts_exist (s : List Char) (h : ∃ c ∈ s, c ≠ '/') : ∃ d b t, Parts s d b t := by
  -- from the back: trailing slashes, then the name
  have h1 : ∀ l : List Char, (∃ c ∈ l, c ≠ '/') → ∃ u t, l = u ++ t ∧ (∀ c ∈ t, c = '/') ∧
      ∃ v c, u = v ++ [c] ∧ c ≠ '/' := by
    intro l
    induction l with
    | nil => rintro ⟨c, hc, _⟩; cases hc
    | cons x l ih =>
      rintro ⟨c, hc, hne⟩
      by_cases hl : ∃ c ∈ l, c ≠ '/'
      · obtain ⟨u, t, g1, g2, v, c, g3, g4⟩ := ih hl
        exact ⟨x :: u, t, by simp [g1], g2, x :: v, c, by simp [g3], g4⟩
      · simp only [List.mem_cons] at hc
        have hall : ∀ c ∈ l, c = '/' := by
          intro y hy
          by_cases hyy : y = '/'
          · exact hyy
          · exact absurd ⟨y, hy, hyy⟩ hl
        rcases hc with rfl | hc
        · exact ⟨[c], l, rfl, hall, [], c, rfl, hne⟩
        · exact absurd (hall c hc) hne
  have h2 : ∀ v : List Char, ∃ d b, v = d ++ b ∧ '/' ∉ b ∧ (d = [] ∨ d.getLast? = some '/') := by
    intro v
    induction v with
    | nil => exact ⟨[], [], rfl, by simp, Or.inl rfl⟩
    | cons x v ih =>
      obtain ⟨d, b, g1, g2, g3⟩ := ih
      cases d with
      | nil =>
        by_cases hx : x = '/'
        · exact ⟨[x], b, by simpa using g1, g2, Or.inr (by simp [hx])⟩
        · refine ⟨[], x :: b, by simpa using g1, ?_, Or.inl rfl⟩
          simp only [List.mem_cons, not_or]; exact ⟨Ne.symm hx, g2⟩
      | cons y d =>
        refine ⟨x :: y :: d, b, by simpa using g1, g2, Or.inr ?_⟩
        rcases g3 with g3 | g3
        · cases g3
        · simpa using g3
  obtain ⟨u, t, g1, g2, v, c, g3, g4⟩ := h1 s h
  obtain ⟨d, b, k1, k2, k3⟩ := h2 v
  refine ⟨d, b ++ [c], t, ⟨?_, ?_, g2, k3⟩⟩
  · rw [g1, g3, k1]; simp
  · refine ⟨by simp, ?_⟩
    simp only [List.mem_append, List.mem_singleton, not_or]
    exact ⟨k2, Ne.symm g4⟩

theorem skipSlash_spec (s : List Char) (n : Nat) (hn : n = 0 ∨ s[(n : Nat)]? ≠ some '/') :
    ∀ k, (∀ i, n < i → i ≤ n + k → s[(i : Nat)]? = some '/') → skipSlash s (n + k) = n := by
  intro k
  induction k with
  | zero =>
    intro _
    cases n with
    | zero => rfl
    | succ n =>
      simp only [skipSlash]
      rcases hn with hn | hn
      · cases hn
      · rw [if_neg hn]
  | succ k ih =>
    intro h
    have := h (n + k + 1) (by omega) (by omega)
    rw [show n + (k+1) = (n + k) + 1 from rfl]
    simp only [skipSlash]
    rw [if_pos this]
    exact ih (fun i h1 h2 => h i h1 (by omega))

theorem skipName_spec (s : List Char) (n : Nat) (hn : n = 0 ∨ s[(n : Nat)]? = some '/') :
    ∀ k, (∀ i, n < i → i ≤ n + k → s[(i : Nat)]? ≠ some '/') → skipName s (n + k) = n := by
  intro k
  induction k with
  | zero =>
    intro _
    cases n with
    | zero => rfl
    | succ n =>
      simp only [skipName]
      rcases hn with hn | hn
      · cases hn
      · rw [if_neg (by simpa using hn)]
  | succ k ih =>
    intro h
    have := h (n + k + 1) (by omega) (by omega)
    rw [show n + (k+1) = (n + k) + 1 from rfl]
    simp only [skipName]
    rw [if_pos this]
    exact ih (fun i h1 h2 => h i h1 (by omega))

/-- C52: the base name starts right after the directory part. -/
theorem basename_spec {s d b t : List Char} (h : Parts s d b t) : basename s = d.length := by
  obtain ⟨rfl, ⟨hb1, hb2⟩, ht, hd⟩ := h
  have hbl : 0 < b.length := List.length_pos_iff.2 hb1
  have hmid : ∀ i, d.length ≤ i → i < d.length + b.length → (d ++ b ++ t)[(i : Nat)]? ≠ some '/' := by
    intro i h1 h2 h
    rw [List.append_assoc, List.getElem?_append_right h1, List.getElem?_append_left (by omega)] at h
    exact hb2 (List.mem_of_getElem? h)
  have htail : ∀ i, d.length + b.length ≤ i → i < d.length + b.length + t.length →
      (d ++ b ++ t)[(i : Nat)]? = some '/' := by
    intro i h1 h2
    rw [List.getElem?_append_right (by simp; omega), List.getElem?_eq_getElem (by simp; omega)]
    rw [ht _ (List.getElem_mem _)]
  have hne : d ++ b ++ t ≠ [] := by simp [hb1]
  simp only [basename]
  rw [if_neg hne]
  have hlen : (d ++ b ++ t).length - 1 = (d.length + b.length - 1) + t.length := by
    simp; omega
  have hs1 : skipSlash (d ++ b ++ t) ((d ++ b ++ t).length - 1) = d.length + b.length - 1 := by
    rw [hlen]
    refine skipSlash_spec _ _ (Or.inr (hmid _ (by omega) (by omega))) _ ?_
    intro i h1 h2
    exact htail i (by omega) (by omega)
  rw [hs1]
  rcases hd with rfl | hd
  · have hs2 : skipName ([] ++ b ++ t) (b.length - 1) = 0 := by
      have := skipName_spec ([] ++ b ++ t) 0 (Or.inl rfl) (b.length - 1)
        (fun i h1 h2 => hmid i (by simp) (by simp; omega))
      simpa using this
    simp only [List.length_nil, Nat.zero_add]
    rw [hs2]
    rw [if_neg (fun h => hmid 0 (by simp) (by simpa using hbl) h.1)]
  · have hdl : 0 < d.length := by
      cases d with
      | nil => simp at hd
      | cons x d => simp
    have hlast : (d ++ b ++ t)[d.length - 1]? = some '/' := by
      rw [List.append_assoc, List.getElem?_append_left (by omega), ← List.getLast?_eq_getElem?]
      exact hd
    have hs2 : skipName (d ++ b ++ t) (d.length + b.length - 1) = d.length - 1 := by
      have := skipName_spec (d ++ b ++ t) (d.length - 1) (Or.inr hlast) b.length
        (fun i h1 h2 => hmid i (by omega) (by omega))
      have he : d.length - 1 + b.length = d.length + b.length - 1 := by omega
      rwa [he] at this
    rw [hs2, if_pos ⟨hlast, by simp; omega⟩]
    omega

theorem skipSlash_all (s : List Char) (h : ∀ i, 0 < i → i < s.length → s[(i : Nat)]? = some '/') :
    skipSlash s (s.length - 1) = 0 := by
  have := skipSlash_spec s 0 (Or.inl rfl) (s.length - 1) (fun i h1 h2 => h i h1 (by omega))
  simpa using this

/-- Only slashes: at most the first one is the directory part.  The comment at
edit.c:824-834 says `length - 1`, 2 for `///`; the code gives 1. -/
theorem basename_slashes (n : Nat) : basename (List.replicate (n+1) '/') = if n = 0 then 0 else 1 := by
  have hget : ∀ i, i < n + 1 → (List.replicate (n+1) '/')[(i : Nat)]? = some '/' := by
    intro i hi; rw [List.getElem?_replicate, if_pos hi]
  have hs := skipSlash_all (List.replicate (n+1) '/') (fun i _ h2 => hget i (by simpa using h2))
  simp only [basename]
  rw [if_neg (by simp), hs]
  simp only [skipName, List.length_replicate]
  by_cases hn : n = 0
  · subst hn; simp
  · rw [if_neg hn, if_pos ⟨hget 0 (by omega), by omega⟩]

theorem basename_le (s : List Char) : basename s ≤ s.length := by
  by_cases h : ∃ c ∈ s, c ≠ '/'
  · obtain ⟨d, b, t, hp⟩ := parts_exist s h
    rw [basename_spec hp, hp.eq]; simp
  · cases s with
    | nil => simp [basename]
    | cons x s =>
      have hall : ∀ c ∈ x :: s, c = '/' := by
        intro y hy
        by_cases hyy : y = '/'
        · exact hyy
        · exact absurd ⟨y, hy, hyy⟩ h
      have : x :: s = List.replicate (s.length + 1) '/' := by
        rw [List.eq_replicate_iff]; exact ⟨rfl, hall⟩
      rw [this, basename_slashes]
      split <;> simp

/-! ## What is listed -/

theorem backSlash_spec (w : List Char) : ∀ n, n ≤ w.length →
    backSlash w n ≤ n ∧ (w.take (backSlash w n) = [] ∨ (w.take (backSlash w n)).getLast? = some '/') := by
  intro n
  induction n with
  | zero => intro _; simp [backSlash]
  | succ n ih =>
    intro h
    simp only [backSlash]
    split
    · obtain ⟨h1, h2⟩ := ih (by omega)
      exact ⟨by omega, h2⟩
    · next hs =>
      have hs' : w[(n : Nat)]? = some '/' := by simpa using hs
      refine ⟨Nat.le_refl _, Or.inr ?_⟩
      rw [List.take_succ_eq_append_getElem (by omega)]
      rw [List.getElem?_eq_getElem (by omega)] at hs'
      rw [List.getLast?_append]
      simpa using hs'

/-- The words listed are the candidates with a common directory part taken off: nothing
else is lost. -/
theorem listing_common (cmd : Bool) (words : List (List Char)) (hne : words ≠ [])
    (hn : ∀ w ∈ words, NoNul w) :
    ∃ out d, listing cmd words = some out ∧ words = out.map (d ++ ·) ∧
      (d = [] ∨ d.getLast? = some '/') := by
  have self : ∀ ws : List (List Char), ws = ws.map (([] : List Char) ++ ·) := by intro ws; simp
  cases cmd with
  | true => exact ⟨words, [], rfl, self _, Or.inl rfl⟩
  | false =>
    obtain ⟨n, h1, h2, h3, h4⟩ := longestPrefix_spec words hne hn
    simp only [listing, h1, Bool.false_eq_true, if_false]
    by_cases hpos : n > 0
    · rw [if_pos hpos]
      -- the prefix used is shared by all words
      obtain ⟨p, hp, hpl, hpe⟩ : ∃ p, p = oneWord words n ∧
          (∀ w ∈ words, p ≤ w.length) ∧ (∀ w ∈ words, ∀ w' ∈ words, w.take p = w'.take p) := by
        refine ⟨_, rfl, ?_⟩
        simp only [oneWord]
        split
        · next w =>
          refine ⟨?_, ?_⟩
          · intro x hx
            simp only [List.mem_singleton] at hx; subst hx; exact basename_le _
          · intro x hx y hy
            simp only [List.mem_singleton] at hx hy; subst hx; subst hy; rfl
        · exact ⟨h2, h3⟩
      rw [← hp]
      simp only [cut]
      by_cases hany : words.any (fun w => basename (w.drop p) > p) = true
      · rw [if_pos hany]; exact ⟨words, [], rfl, self _, Or.inl rfl⟩
      · rw [if_neg hany]
        cases words with
        | nil => exact absurd rfl hne
        | cons w0 ws =>
          simp only
          have hw0 := hpl w0 List.mem_cons_self
          obtain ⟨k1, k2⟩ := backSlash_spec w0 p hw0
          refine ⟨_, w0.take (backSlash w0 p), rfl, ?_, k2⟩
          rw [List.map_map]
          symm
          rw [List.map_congr_left (g := id), List.map_id]
          intro w hw
          have heq := congrArg (List.take (backSlash w0 p)) (hpe w0 List.mem_cons_self w hw)
          rw [List.take_take, List.take_take, Nat.min_eq_left k1] at heq
          simp only [Function.comp, id]
          rw [heq, List.take_append_drop]
    · rw [if_neg hpos]; exact ⟨words, [], rfl, self _, Or.inl rfl⟩

/-- A single candidate is listed by its base name. -/
theorem listing_single {w d b t : List Char} (hn : NoNul w) (h : Parts w d b t) :
    listing false [w] = some [w.drop (basename w)] ∧ basename w = d.length := by
  have hb := basename_spec h
  refine ⟨?_, hb⟩
  obtain ⟨n, h1, h2, h3, h4⟩ := longestPrefix_spec [w] (by simp) (by simpa using hn)
  have hnl : n = w.length := by
    have ha := h2 w (by simp)
    have hbb := h4 w.length (by simp) (by simp)
    omega
  have hbl : 0 < b.length := List.length_pos_iff.2 h.name.1
  have hpos : n > 0 := by rw [hnl, h.eq]; simp; omega
  have hdrop : w.drop d.length = b ++ t := by rw [h.eq]; simp
  have hz : basename (w.drop d.length) = 0 := by
    have := basename_spec (s := b ++ t) (d := []) (b := b) (t := t) ⟨by simp, h.name, h.slashes, Or.inl rfl⟩
    rw [hdrop]; simpa using this
  simp only [listing, h1, Bool.false_eq_true, if_false, if_pos hpos, oneWord, cut, hb]
  have hany : [w].any (fun w => decide (basename (w.drop d.length) > d.length)) = false := by
    simp [hz]
  rw [hany]
  simp only [Bool.false_eq_true, if_false, List.map_cons, List.map_nil, Option.some.injEq, List.cons.injEq, and_true]
  congr 1
  rcases h.dir with rfl | hd
  · rfl
  · cases hdl : d.length with
    | zero => rfl
    | succ k =>
      simp only [backSlash]
      have : w[(k : Nat)]? = some '/' := by
        rw [h.eq, List.append_assoc, List.getElem?_append_left (by omega)]
        rw [List.getLast?_eq_getElem?, hdl] at hd
        exact hd
      rw [if_neg (by simpa using this)]

theorem backSlash_eq {w : List Char} {n : Nat} (hn : n = 0 ∨ w[n-1]? = some '/') : ∀ k,
    (∀ i, n ≤ i → i < n + k → w[(i : Nat)]? ≠ some '/') → backSlash w (n + k) = n := by
  intro k
  induction k with
  | zero =>
    intro _
    cases n with
    | zero => rfl
    | succ n =>
      simp only [backSlash]
      rcases hn with hn | hn
      · cases hn
      · rw [if_neg (by simpa using hn)]
  | succ k ih =>
    intro h
    rw [show n + (k+1) = (n + k) + 1 from rfl]
    simp only [backSlash]
    rw [if_pos (h (n+k) (by omega) (by omega))]
    exact ih (fun i h1 h2 => h i h1 (by omega))

/-- C52 (partial): candidates of one directory are listed by their base names.  Missing:
candidates of different directories, where less than the directory part may be taken off
(`listing_nested`), and a candidate that is itself the common directory
(`listing_empty`). -/
theorem listing_same_dir_partial (words : List (List Char)) (d : List Char) (hn : ∀ w ∈ words, NoNul w)
    (hp : ∀ w ∈ words, ∃ b t, Parts w d b t ∧ t.length ≤ 1)
    (hdiff : ∃ w ∈ words, ∃ w' ∈ words, w ≠ w') :
    listing false words = some (words.map (fun w => w.drop (basename w))) := by
  obtain ⟨u, hu, v, hv, huv⟩ := hdiff
  have hne : words ≠ [] := by rintro rfl; cases hu
  obtain ⟨n, h1, h2, h3, h4⟩ := longestPrefix_spec words hne hn
  have hout : words.map (fun w => w.drop (basename w)) = words.map (fun w => w.drop d.length) := by
    apply List.map_congr_left
    intro w hw
    obtain ⟨b, t, h, _⟩ := hp w hw
    rw [basename_spec h]
  rw [hout]
  have hge : d.length ≤ n := by
    apply h4
    · intro w hw
      obtain ⟨b, t, h, _⟩ := hp w hw
      rw [h.eq]; simp
    · intro w hw w' hw'
      obtain ⟨b, t, h, _⟩ := hp w hw
      obtain ⟨b', t', h', _⟩ := hp w' hw'
      rw [h.eq, h'.eq]; simp
  simp only [listing, h1, Bool.false_eq_true, if_false]
  by_cases hpos : n > 0
  · rw [if_pos hpos]
    have hmatch : oneWord words n = n := by
      simp only [oneWord]
      split
      · next w =>
        simp only [List.mem_singleton] at hu hv
        exact absurd (hu.trans hv.symm) huv
      · rfl
    rw [hmatch]
    simp only [cut]
    -- the common prefix does not contain a trailing slash
    have hle : ∀ w ∈ words, ∀ b t, Parts w d b t → t.length ≤ 1 → n ≤ d.length + b.length := by
      intro w hw b t h ht
      by_cases hle : n ≤ d.length + b.length
      · exact hle
      · exfalso
        have hwl := h2 w hw
        have hwlen : w.length = d.length + b.length + t.length := by rw [h.eq]; simp; omega
        have hnw : n = w.length := by omega
        have hall : ∀ x ∈ words, x = w := by
          intro x hx
          have htk := h3 x hx w hw
          rw [hnw, List.take_length] at htk
          obtain ⟨b', t', h', ht'⟩ := hp x hx
          have hxlen : x.length = d.length + b'.length + t'.length := by rw [h'.eq]; simp; omega
          have hxl := h2 x hx
          -- `x` begins with `w`, which ends in a slash
          have hx2 : x = w ++ x.drop w.length := by rw [← htk, List.length_take, Nat.min_eq_left (by omega), List.take_append_drop]
          have hrest : x.drop w.length = [] := by
            have hslash : x[d.length + b.length]? = some '/' := by
              rw [hx2, List.getElem?_append_left (by omega), h.eq,
                List.getElem?_append_right (by simp)]
              rw [List.getElem?_eq_getElem (by simp; omega)]
              rw [h.slashes _ (List.getElem_mem _)]
            -- so the name of `x` is not longer than that of `w`
            have hb' : b'.length ≤ b.length := by
              by_cases hb' : b'.length ≤ b.length
              · exact hb'
              · exfalso
                rw [h'.eq, List.append_assoc, List.getElem?_append_right (by omega),
                  List.getElem?_append_left (by omega)] at hslash
                exact h'.name.2 (List.mem_of_getElem? hslash)
            apply List.eq_nil_of_length_eq_zero
            rw [List.length_drop]; omega
          rw [hx2, hrest, List.append_nil]
        exact huv ((hall u hu).trans (hall v hv).symm)
    have hany : words.any (fun w => decide (basename (w.drop n) > n)) = false := by
      rw [List.any_eq_false]
      intro w hw
      simp only [decide_eq_true_eq, Nat.not_lt]
      obtain ⟨b, t, h, ht⟩ := hp w hw
      have hl := hle w hw b t h ht
      have hd : w.drop n = b.drop (n - d.length) ++ t := by
        rw [h.eq, List.append_assoc, List.drop_append, List.drop_append]
        have e1 : d.drop n = [] := List.drop_eq_nil_of_le hge
        have e2 : n - d.length - b.length = 0 := by omega
        rw [e1, e2]; rfl
      by_cases hb : b.drop (n - d.length) = []
      · rw [hd, hb, List.nil_append]
        have := basename_le t
        omega
      · have := basename_spec (s := w.drop n) (d := []) (b := b.drop (n - d.length)) (t := t)
          ⟨by rw [hd]; simp, ⟨hb, fun hm => h.name.2 (List.mem_of_mem_drop hm)⟩, h.slashes, Or.inl rfl⟩
        rw [this]; simp
    rw [hany]
    simp only [Bool.false_eq_true, if_false]
    cases words with
    | nil => exact absurd rfl hne
    | cons w0 ws =>
      simp only [Option.some.injEq]
      obtain ⟨b, t, h, ht⟩ := hp w0 List.mem_cons_self
      have hl := hle w0 List.mem_cons_self b t h ht
      have hbs : backSlash w0 n = d.length := by
        have := backSlash_eq (w := w0) (n := d.length) ?_ (n - d.length) ?_
        · rwa [Nat.add_sub_cancel' hge] at this
        · rcases h.dir with rfl | hd
          · left; rfl
          · right
            have hdl : 0 < d.length := by
              cases d with
              | nil => simp at hd
              | cons x d => simp
            rw [h.eq, List.append_assoc, List.getElem?_append_left (by omega), ← List.getLast?_eq_getElem?]
            exact hd
        · intro i h1 h2 hc
          rw [h.eq, List.append_assoc, List.getElem?_append_right h1, List.getElem?_append_left (by omega)] at hc
          exact h.name.2 (List.mem_of_getElem? hc)
      rw [hbs]
  · rw [if_neg hpos]
    have hd0 : d = [] := List.eq_nil_of_length_eq_zero (by omega)
    simp [hd0]

/-- Candidates in different directories below a longer common one: the test of
edit.c:375 compares with the wrong length, so the listing shows `x/1` and `y/2`. -/
theorem listing_nested :
    listing false ["abc/x/1".toList, "abc/y/2".toList] = some ["x/1".toList, "y/2".toList] ∧
    basename "abc/x/1".toList = 6 := by
  decide

/-- A candidate that is a prefix directory of the others is listed as nothing. -/
theorem listing_empty :
    listing false ["abc/".toList, "abc/d".toList] = some ["".toList, "d".toList] := by
  decide

example : longestPrefix ["foobar".toList, "foobaz".toList, "foo".toList] = some 3 := by decide
example : basename "/etc//".toList = 1 ∧ basename "/etc/fo".toList = 5 ∧ basename "///".toList = 1 := by decide
example : listing false ["/usr/bin/a".toList, "/usr/bin/ab/".toList] = some ["a".toList, "ab/".toList] := by
  decide
/-- Candidates in different directories near the root are listed in full. -/
example : listing false ["a/x/1".toList, "a/yyyy/2".toList] = some ["a/x/1".toList, "a/yyyy/2".toList] := by
  decide

end Ksh.Edit
