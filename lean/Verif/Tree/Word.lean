import Verif.Tree.Spec

/-!
# Words are copied whole (C48)
-/

namespace Ksh.Tree

/-- The scan depends on the bytes it passes only. -/
theorem scan_take (c : UInt8) : ∀ (s : Bytes) (m : M) (nest : Int) (k n : Nat), scan c m nest k s = some n →
    k < n ∧ n ≤ k + s.length ∧ ∀ r, scan c m nest k (s.take (n - k) ++ r) = some n := by
  intro s
  induction s with
  | nil => intro m nest k n h; cases m <;> simp [scan] at h
  | cons b s ih =>
    intro m nest k n h
    have stop : ∀ {x : Option Nat}, x = some n → (x = some (k + 1)) → k < n ∧ n ≤ k + (b :: s).length ∧ n - k = 1 := by
      intro x h1 h2; rw [h1] at h2; simp at h2; subst h2; simp
    have go : ∀ m' nest', scan c m' nest' (k + 1) s = some n → k < n ∧ n ≤ k + (b :: s).length ∧
        ∀ r, scan c m' nest' (k + 1) (((b :: s).take (n - k)).tail ++ r) = some n ∧ (b :: s).take (n - k) = b :: ((b :: s).take (n - k)).tail := by
      intro m' nest' h'
      obtain ⟨h1, h2, h3⟩ := ih m' nest' (k + 1) n h'
      refine ⟨by omega, by simp; omega, fun r => ?_⟩
      have : n - k = (n - (k + 1)) + 1 := by omega
      rw [this]
      simp only [List.take_succ_cons, List.tail_cons, and_true]
      exact h3 r
    cases m with
    | one =>
      simp only [scan] at h
      obtain ⟨h1, h2, h3⟩ := go _ _ h
      refine ⟨h1, h2, fun r => ?_⟩
      rw [(h3 r).2]; simp only [List.cons_append, scan]; exact (h3 r).1
    | text =>
      simp only [scan] at h
      obtain ⟨h1, h2, h3⟩ := go _ _ h
      refine ⟨h1, h2, fun r => ?_⟩
      rw [(h3 r).2]; simp only [List.cons_append, scan]; exact (h3 r).1
    | close =>
      simp only [scan] at h
      by_cases hc : c = CSUBST ∧ nest = 0
      · rw [if_pos hc] at h
        simp only [Option.some.injEq] at h
        subst h
        refine ⟨by omega, by simp, fun r => ?_⟩
        have : k + 1 - k = 1 := by omega
        rw [this]; simp only [List.take_succ_cons, List.take_zero, List.cons_append, scan]; rw [if_pos hc]
      · rw [if_neg hc] at h
        obtain ⟨h1, h2, h3⟩ := go _ _ h
        refine ⟨h1, h2, fun r => ?_⟩
        rw [(h3 r).2]; simp only [List.cons_append, scan]; rw [if_neg hc]; exact (h3 r).1
    | code =>
      have one : k + 1 = n → k < n ∧ n ≤ k + (b :: s).length ∧ ∀ r, (b :: s).take (n - k) ++ r = b :: r := by
        intro e; subst e
        refine ⟨by omega, by simp, fun r => ?_⟩
        have : k + 1 - k = 1 := by omega
        rw [this]; simp
      simp only [scan] at h
      by_cases h0 : b = EOS
      · rw [if_pos h0] at h
        simp only [Option.some.injEq] at h
        refine ⟨(one h).1, (one h).2.1, fun r => ?_⟩
        rw [(one h).2.2 r]; simp only [scan]; rw [if_pos h0, h]
      rw [if_neg h0] at h
      by_cases h1 : b = CHAR ∨ b = QCHAR
      · rw [if_pos h1] at h
        obtain ⟨g1, g2, g3⟩ := go _ _ h
        refine ⟨g1, g2, fun r => ?_⟩
        rw [(g3 r).2]; simp only [List.cons_append, scan]; rw [if_neg h0, if_pos h1]; exact (g3 r).1
      rw [if_neg h1] at h
      by_cases h2 : b = COMSUB ∨ b = EXPRSUB
      · rw [if_pos h2] at h
        obtain ⟨g1, g2, g3⟩ := go _ _ h
        refine ⟨g1, g2, fun r => ?_⟩
        rw [(g3 r).2]; simp only [List.cons_append, scan]; rw [if_neg h0, if_neg h1, if_pos h2]; exact (g3 r).1
      rw [if_neg h2] at h
      by_cases h3 : b = OQUOTE ∨ b = CQUOTE
      · rw [if_pos h3] at h
        obtain ⟨g1, g2, g3⟩ := go _ _ h
        refine ⟨g1, g2, fun r => ?_⟩
        rw [(g3 r).2]; simp only [List.cons_append, scan]; rw [if_neg h0, if_neg h1, if_neg h2, if_pos h3]; exact (g3 r).1
      rw [if_neg h3] at h
      by_cases h4 : b = OSUBST
      · rw [if_pos h4] at h
        obtain ⟨g1, g2, g3⟩ := go _ _ h
        refine ⟨g1, g2, fun r => ?_⟩
        rw [(g3 r).2]; simp only [List.cons_append, scan]; rw [if_neg h0, if_neg h1, if_neg h2, if_neg h3, if_pos h4]; exact (g3 r).1
      rw [if_neg h4] at h
      by_cases h5 : b = CSUBST
      · rw [if_pos h5] at h
        obtain ⟨g1, g2, g3⟩ := go _ _ h
        refine ⟨g1, g2, fun r => ?_⟩
        rw [(g3 r).2]; simp only [List.cons_append, scan]; rw [if_neg h0, if_neg h1, if_neg h2, if_neg h3, if_neg h4, if_pos h5]; exact (g3 r).1
      rw [if_neg h5] at h
      by_cases h6 : b = OPAT
      · rw [if_pos h6] at h
        obtain ⟨g1, g2, g3⟩ := go _ _ h
        refine ⟨g1, g2, fun r => ?_⟩
        rw [(g3 r).2]; simp only [List.cons_append, scan]; rw [if_neg h0, if_neg h1, if_neg h2, if_neg h3, if_neg h4, if_neg h5, if_pos h6]; exact (g3 r).1
      rw [if_neg h6] at h
      by_cases h7 : b = SPAT ∨ b = CPAT
      · rw [if_pos h7] at h
        by_cases h8 : c = b ∧ nest = 0
        · rw [if_pos h8] at h
          simp only [Option.some.injEq] at h
          refine ⟨(one h).1, (one h).2.1, fun r => ?_⟩
          rw [(one h).2.2 r]; simp only [scan]
          rw [if_neg h0, if_neg h1, if_neg h2, if_neg h3, if_neg h4, if_neg h5, if_neg h6, if_pos h7, if_pos h8, h]
        · rw [if_neg h8] at h
          obtain ⟨g1, g2, g3⟩ := go _ _ h
          refine ⟨g1, g2, fun r => ?_⟩
          rw [(g3 r).2]; simp only [List.cons_append, scan]
          rw [if_neg h0, if_neg h1, if_neg h2, if_neg h3, if_neg h4, if_neg h5, if_neg h6, if_pos h7, if_neg h8]; exact (g3 r).1
      · rw [if_neg h7] at h
        obtain ⟨g1, g2, g3⟩ := go _ _ h
        refine ⟨g1, g2, fun r => ?_⟩
        rw [(g3 r).2]; simp only [List.cons_append, scan]
        rw [if_neg h0, if_neg h1, if_neg h2, if_neg h3, if_neg h4, if_neg h5, if_neg h6, if_neg h7]; exact (g3 r).1

theorem wdscan_le {s : Bytes} {c : UInt8} {n : Nat} (h : wdscan s c = some n) : n ≤ s.length := by
  have := (scan_take c s .code 0 0 n h).2.1; omega

theorem wdscan_take {s : Bytes} {c : UInt8} {n : Nat} (h : wdscan s c = some n) (r : Bytes) : wdscan (s.take n ++ r) c = some n := by
  simpa [wdscan] using (scan_take c s .code 0 0 n h).2.2 r

/-! ## Scanning what the lexer writes -/

theorem scan_text (c : UInt8) (nest : Int) : ∀ (s : Bytes) (k : Nat) (r : Bytes), (0 : UInt8) ∉ s →
    scan c .text nest k (s ++ 0 :: r) = scan c .code nest (k + s.length + 1) r
  | [], k, r, _ => by simp [scan]
  | b :: s, k, r, h => by
    simp only [List.mem_cons, not_or] at h
    simp only [List.cons_append, scan, if_neg (fun e : b = 0 => h.1 e.symm)]
    rw [scan_text c nest s (k + 1) r h.2, List.length_cons]
    congr 1; omega

/-- An item that is neither an opening nor a closing one is passed; `SPAT` only if not looked for. -/
theorem scan_atom (c : UInt8) (i : Item) (hi : i.ok) (h : (∀ s, i ≠ .osubst s) ∧ (∀ c, i ≠ .csubst c) ∧ (∀ c, i ≠ .opat c) ∧ i ≠ .cpat)
    (nest : Int) (k : Nat) (r : Bytes) (hs : i = .spat → ¬ (c = SPAT ∧ nest = 0)) :
    scan c .code nest k (i.enc ++ r) = scan c .code nest (k + i.enc.length) r := by
  cases i with
  | char b => rfl
  | qchar b => rfl
  | comsub s =>
    have := scan_text c nest s (k + 1) r hi
    simp only [Item.enc, List.append_assoc, List.cons_append, List.nil_append]
    change scan c .text nest (k + 1) (s ++ 0 :: r) = _
    rw [this]
    congr 1; simp; omega
  | exprsub s =>
    have := scan_text c nest s (k + 1) r hi
    simp only [Item.enc, List.append_assoc, List.cons_append, List.nil_append]
    change scan c .text nest (k + 1) (s ++ 0 :: r) = _
    rw [this]
    congr 1; simp; omega
  | oquote => rfl
  | cquote => rfl
  | osubst s => exact absurd rfl (h.1 s)
  | csubst b => exact absurd rfl (h.2.1 b)
  | opat b => exact absurd rfl (h.2.2.1 b)
  | spat =>
    change (if c = SPAT ∧ nest = 0 then some (k + 1) else scan c .code nest (k + 1) r) = _
    rw [if_neg (hs rfl)]
    rfl
  | cpat => exact absurd rfl h.2.2.2

theorem scan_osubst (c : UInt8) (s : Bytes) (hs : (0 : UInt8) ∉ s) (nest : Int) (k : Nat) (r : Bytes) :
    scan c .code nest k ((Item.osubst s).enc ++ r) = scan c .code (nest + 1) (k + (Item.osubst s).enc.length) r := by
  have := scan_text c (nest + 1) s (k + 1) r hs
  simp only [Item.enc, List.append_assoc, List.cons_append, List.nil_append]
  change scan c .text (nest + 1) (k + 1) (s ++ 0 :: r) = _
  rw [this]
  congr 1; simp; omega

theorem scan_csubst (c b : UInt8) (nest : Int) (k : Nat) (r : Bytes) : scan c .code nest k ((Item.csubst b).enc ++ r) =
    if c = CSUBST ∧ nest = 0 then some (k + 2) else scan c .code (nest - 1) (k + 2) r := rfl

theorem scan_opat (c b : UInt8) (nest : Int) (k : Nat) (r : Bytes) : scan c .code nest k ((Item.opat b).enc ++ r) =
    scan c .code (nest + 1) (k + 2) r := rfl

theorem scan_cpat (c : UInt8) (nest : Int) (k : Nat) (r : Bytes) : scan c .code nest k (Item.cpat.enc ++ r) =
    if c = CPAT ∧ nest = 0 then some (k + 1) else scan c .code (nest - 1) (k + 1) r := rfl

theorem scan_items (w : List Item) : ∀ (nest : Int) (k : Nat) (r : Bytes), (∀ i ∈ w, i.ok) →
    ∃ nest', scan EOS .code nest k (enc w ++ r) = scan EOS .code nest' (k + (enc w).length) r := by
  induction w with
  | nil => intro nest k r _; exact ⟨nest, rfl⟩
  | cons i w ih =>
    intro nest k r hw
    have hi := hw i (by simp)
    have hw' : ∀ j ∈ w, j.ok := fun j hj => hw j (by simp [hj])
    have e : enc (i :: w) = i.enc ++ enc w := rfl
    rw [e, List.append_assoc, List.length_append]
    have fin : ∀ n1, scan EOS .code nest k (i.enc ++ (enc w ++ r)) = scan EOS .code n1 (k + i.enc.length) (enc w ++ r) →
        ∃ nest', scan EOS .code nest k (i.enc ++ (enc w ++ r)) = scan EOS .code nest' (k + (i.enc.length + (enc w).length)) r := by
      intro n1 h1
      obtain ⟨n2, h2⟩ := ih n1 (k + i.enc.length) r hw'
      exact ⟨n2, by rw [h1, h2, Nat.add_assoc]⟩
    cases i with
    | osubst s => exact fin _ (scan_osubst EOS s hi nest k _)
    | csubst b => exact fin (nest - 1) (by rw [scan_csubst, if_neg (fun h => absurd h.1 (by decide))]; rfl)
    | opat b => exact fin _ (scan_opat EOS b nest k _)
    | cpat => exact fin (nest - 1) (by rw [scan_cpat, if_neg (fun h => absurd h.1 (by decide))]; rfl)
    | _ => exact fin nest (scan_atom EOS _ hi (by simp) nest k _ (fun _ h => absurd h.1 (by decide)))

/-- `wdscan` for `EOS` finds the end of every word the lexer can write, whatever follows it in
memory. -/
theorem wdscan_end (w : List Item) (hw : ∀ i ∈ w, i.ok) (r : Bytes) :
    wdscan (enc w ++ EOS :: r) EOS = some ((enc w).length + 1) := by
  obtain ⟨n, h⟩ := scan_items w 0 0 (EOS :: r) hw
  simp only [wdscan, h, scan, if_true, Nat.zero_add]

theorem scan_bal (c : UInt8) (hc : c = CSUBST ∨ c = CPAT ∨ c = EOS) {w : List Item} (hb : Bal w) : ∀ (nest : Int) (k : Nat) (r : Bytes), 0 ≤ nest → (∀ i ∈ w, i.ok) →
    scan c .code nest k (enc w ++ r) = scan c .code nest (k + (enc w).length) r := by
  induction hb with
  | nil => intro nest k r _ _; rfl
  | atom i w h _ ih =>
    intro nest k r hn hw
    have e : enc (i :: w) = i.enc ++ enc w := rfl
    rw [e, List.append_assoc, scan_atom c i (hw i (by simp)) h nest k _ (fun _ g => by rcases hc with rfl | rfl | rfl <;> exact absurd g.1 (by decide)),
      ih nest _ r hn (fun j hj => hw j (by simp [hj])), List.length_append, Nat.add_assoc]
  | subst s b u w _ _ ihu ihw =>
    intro nest k r hn hw
    have e : enc (.osubst s :: u ++ .csubst b :: w) = (Item.osubst s).enc ++ (enc u ++ ((Item.csubst b).enc ++ enc w)) := by
      simp [enc]
    rw [e, List.append_assoc, List.append_assoc, List.append_assoc]
    rw [scan_osubst c s (hw (.osubst s) (by simp)), ihu (nest + 1) _ _ (by omega) (fun j hj => hw j (by simp [hj])), scan_csubst,
      if_neg (by rintro ⟨-, h⟩; omega), show nest + 1 - 1 = nest by omega, ihw nest _ r hn (fun j hj => hw j (by simp [hj]))]
    congr 1
    simp only [List.length_append, show (Item.csubst b).enc.length = 2 from rfl]
    omega
  | pat b u w _ _ ihu ihw =>
    intro nest k r hn hw
    have e : enc (.opat b :: u ++ .cpat :: w) = (Item.opat b).enc ++ (enc u ++ (Item.cpat.enc ++ enc w)) := by
      simp [enc]
    rw [e, List.append_assoc, List.append_assoc, List.append_assoc]
    rw [scan_opat, ihu (nest + 1) _ _ (by omega) (fun j hj => hw j (by simp [hj])), scan_cpat,
      if_neg (by rintro ⟨-, h⟩; omega), show nest + 1 - 1 = nest by omega, ihw nest _ r hn (fun j hj => hw j (by simp [hj]))]
    congr 1
    simp only [List.length_append, show (Item.opat b).enc.length = 2 from rfl, show Item.cpat.enc.length = 1 from rfl]
    omega

/-- `wdscan` for `CSUBST` finds the brace that closes the substitution it is in (eval.c:302, 387),
past all substitutions and patterns in between. -/
theorem wdscan_close {w : List Item} (hb : Bal w) (hw : ∀ i ∈ w, i.ok) (b : UInt8) (r : Bytes) :
    wdscan (enc w ++ (Item.csubst b).enc ++ r) CSUBST = some ((enc w).length + 2) := by
  rw [wdscan, List.append_assoc, scan_bal CSUBST (Or.inl rfl) hb 0 0 _ (by omega) hw, scan_csubst, if_pos ⟨rfl, rfl⟩, Nat.zero_add]

end Ksh.Tree
