import Verif.Compl.Locate
import Verif.Lex.Lemmas
/-! # Completion runs no command -/

namespace Ksh.Compl

open Lex

/-- A text in which no character that ends a word stands without a backslash before it. -/
def Clean : List Char → Prop
  | [] => True
  | [c] => c ∉ stops
  | c :: d :: r => if c = '\\' then Clean r else c ∉ stops ∧ Clean (d :: r)

theorem clean_bs {i : List Char} : Clean ('\\' :: i) ↔ Clean (i.drop 1) := by
  cases i with
  | nil => simp [Clean, stops]
  | cons d r => simp [Clean]

theorem clean_cons {c : Char} {r : List Char} (h : c ≠ '\\') : Clean (c :: r) ↔ c ∉ stops ∧ Clean r := by
  cases r with
  | nil => simp [Clean]
  | cons d r => simp [Clean, h]

/-- The rest of the input, behind a character that was read; `sk` is `backslash_skip`. -/
def In (i : List Char) (sk : Nat) : Prop := if sk = 1 then Clean (i.drop 1) else Clean i

theorem bn_clean : ∀ (k : Nat) (i : List Char), i.length ≤ k → Clean i → ∃ c i' sk, bn i = (c, i', sk) ∧ sk ≠ 2 ∧ In i' sk ∧
    (∀ d ∈ c, d ∉ stops ∧ (d = '\\' ↔ sk = 1)) ∧ (c = none → i' = [] ∧ sk = 0)
  | _, [], _, _ => ⟨none, [], 0, by simp [bn], by decide, by simp [In, Clean], by simp, fun _ => ⟨rfl, rfl⟩⟩
  | k, c :: r, hk, h => by
    by_cases hc : c = '\\'
    · subst hc
      rw [clean_bs] at h
      cases r with
      | nil => exact ⟨some '\\', [], 1, by simp [bn], by decide, by simp [In, Clean], by simp [stops], by simp⟩
      | cons d r =>
        by_cases hd : d = '\n'
        · cases k with
          | zero => simp at hk
          | succ k =>
            obtain ⟨c, i', sk, h1, h2⟩ := bn_clean k r (by simp only [List.length_cons] at hk; omega) (by simpa using h)
            exact ⟨c, i', sk, by simpa [bn, hd] using h1, h2⟩
        · exact ⟨some '\\', d :: r, 1, by simp [bn, hd], by decide, by simpa [In] using h, by simp [stops], by simp⟩
    · rw [clean_cons hc] at h
      exact ⟨some c, r, 0, by unfold bn; split <;> simp_all, by decide, by simpa [In] using h.2, by simpa [hc] using h.1, by simp⟩

theorem get_clean {i : List Char} {sk : Nat} (hs : sk ≠ 1) (h : Clean i) : ∃ c i' sk', getsc false sk i = (c, i', sk') ∧ In i' sk' ∧
    (∀ d ∈ c, d ∉ stops ∧ (d = '\\' ↔ sk' = 1)) ∧ (c = none → i' = [] ∧ sk' = 0) := by
  obtain ⟨c, i', sk', h1, -, h2⟩ := bn_clean i.length i (Nat.le_refl _) h
  exact ⟨c, i', sk', by simpa [getsc, hs] using h1, h2⟩

theorem get_skipped {i : List Char} (h : In i 1) : ∃ c i', getsc false 1 i = (c, i', 2) ∧ Clean i' := by
  cases i with
  | nil => exact ⟨none, [], by simp [getsc], by simp [Clean]⟩
  | cons d r => exact ⟨some d, r, by simp [getsc], by simpa [In] using h⟩

theorem unget_clean {c : Option Char} {i : List Char} {sk : Nat} (h : In i sk) (hc : ∀ d ∈ c, d ∉ stops ∧ (d = '\\' ↔ sk = 1))
    (h2 : sk ≠ 2) (hn : c = none → i = [] ∧ sk = 0) : ∃ i' sk', ungetsc c i sk = (i', sk') ∧ sk' ≠ 1 ∧ Clean i' := by
  cases c with
  | none =>
    obtain ⟨rfl, rfl⟩ := hn rfl
    exact ⟨[], 0, rfl, by decide, by simp [Clean]⟩
  | some d =>
    obtain ⟨h3, h4⟩ := hc d rfl
    refine ⟨d :: i, sk - 1, rfl, by omega, ?_⟩
    by_cases hd : d = '\\'
    · subst hd
      rw [clean_bs]
      simpa [In, h4.mp rfl] using h
    · rw [clean_cons hd]
      have : sk ≠ 1 := fun e => hd (h4.mpr e)
      exact ⟨h3, by simpa [In, this] using h⟩

/-- Look at a character and put it back. -/
theorem peek_clean {i : List Char} {sk : Nat} (hs : sk ≠ 1) (h : Clean i) : ∃ c i' sk' i2 sk2, getsc false sk i = (c, i', sk') ∧
    ungetsc c i' sk' = (i2, sk2) ∧ sk2 ≠ 1 ∧ Clean i2 ∧ In i' sk' ∧ (∀ d ∈ c, d ∉ stops ∧ (d = '\\' ↔ sk' = 1)) ∧ (c = none → i' = [] ∧ sk' = 0) ∧ sk' ≠ 2 := by
  obtain ⟨c, i', sk', h1, h0, h2, h3, h4⟩ := bn_clean i.length i (Nat.le_refl _) h
  have hg : getsc false sk i = (c, i', sk') := by simpa [getsc, hs] using h1
  obtain ⟨i2, sk2, g1, g2, g3⟩ := unget_clean h2 h3 h0 h4
  exact ⟨c, i', sk', i2, sk2, hg, g1, g2, g3, h2, h3, h4, h0⟩

/-! ## Names -/

/-- The name of a parameter: plain characters, and perhaps a subscript that is clean text. -/
def NameOk (name : List Char) : Prop :=
  ∃ a t, name = a ++ t ∧ '[' ∉ a ∧ (t = [] ∨ ∃ t', t = '[' :: t' ∧ Clean t')

theorem arraySub_clean : ∀ (n depth : Nat) (i : List Char) (sk : Nat) (acc : List Char), 0 < depth → In i sk → ∀ t i2 s2,
    arraySub n depth i sk acc = some (t, i2, s2) → (s2 ≠ 1 ∧ Clean i2) ∧ ∃ t', t = acc ++ t' ∧ t' ≠ [] ∧ In t' sk
  | 0, _, _, _, _, _, _, t, i2, s2, h => by simp [arraySub] at h
  | n + 1, depth, i, sk, acc, hd0, hin, t, i2, s2, h => by
    rw [arraySub] at h
    have key : ∃ c i' sk', getsc false sk i = (c, i', sk') ∧ In i' sk' ∧ (sk ≠ 1 → ∀ d ∈ c, d ∉ stops ∧ (d = '\\' ↔ sk' = 1)) ∧ (sk = 1 → sk' = 2) := by
      by_cases hs : sk = 1
      · subst hs
        obtain ⟨c, i', h1, h2⟩ := get_skipped hin
        exact ⟨c, i', 2, h1, by simpa [In] using h2, fun h => absurd rfl h, fun _ => rfl⟩
      · obtain ⟨c, i', sk', h1, h2, h3, -⟩ := get_clean hs (by simpa [In, hs] using hin)
        exact ⟨c, i', sk', h1, h2, fun _ => h3, fun h => absurd h hs⟩
    obtain ⟨c, i', sk', hg, hin', hc, hsk⟩ := key
    rw [hg] at h
    dsimp only at h
    cases c with
    | none => simp at h
    | some c =>
      dsimp only at h
      have wrap : ∀ t'' : List Char, In t'' sk' → (t'' = [] → sk' ≠ 1) → In (c :: t'') sk := by
        intro t'' ht he
        by_cases hs : sk = 1
        · have := hsk hs
          simp only [In, hs, this] at ht ⊢
          simpa using ht
        · obtain ⟨k1, k2⟩ := hc hs c rfl
          simp only [In, hs, if_false]
          by_cases hb : c = '\\'
          · subst hb
            rw [clean_bs]
            simpa [In, k2.mp rfl] using ht
          · rw [clean_cons hb]
            have : sk' ≠ 1 := fun e => hb (k2.mpr e)
            exact ⟨k1, by simpa [In, this] using ht⟩
      generalize hd : (if c = '[' then depth + 1 else if c = ']' then depth - 1 else depth) = dep at h
      by_cases hdep : dep = 0
      · rw [if_pos hdep] at h
        simp only [Option.some.injEq, Prod.mk.injEq] at h
        obtain ⟨rfl, rfl, rfl⟩ := h
        have hcl : c = ']' := by
          by_cases h1 : c = '['
          · rw [if_pos h1] at hd; omega
          · by_cases h2 : c = ']'
            · exact h2
            · rw [if_neg h1, if_neg h2] at hd; omega
        have hne : sk' ≠ 1 := by
          by_cases hs : sk = 1
          · have := hsk hs; omega
          · intro e
            have := (hc hs c rfl).2.mpr e
            rw [hcl] at this
            simp at this
        exact ⟨⟨hne, by simpa [In, hne] using hin'⟩, [c], rfl, by simp, wrap [] (by simp [In, Clean]) (fun _ => hne)⟩
      · rw [if_neg hdep] at h
        by_cases hnl : c = '\n'
        · rw [if_pos hnl] at h; cases h
        · rw [if_neg hnl] at h
          obtain ⟨h1, t', rfl, ht, h2⟩ := arraySub_clean n _ i' sk' (acc ++ [c]) (by omega) hin' t i2 s2 h
          exact ⟨h1, c :: t', by simp, by simp, wrap t' h2 (fun e => absurd e ht)⟩

theorem nameOk_plain {acc : List Char} (h : '[' ∉ acc) : NameOk acc := ⟨acc, [], by simp, h, .inl rfl⟩

theorem braceVar_clean : ∀ (n : Nat) (ps : PS) (i : List Char) (sk : Nat) (acc : List Char), sk ≠ 1 → Clean i → '[' ∉ acc → ∀ name i2 s2,
    braceVar n ps i sk acc = some (name, i2, s2) → (s2 ≠ 1 ∧ Clean i2) ∧ NameOk name
  | 0, _, _, _, _, _, _, _, name, i2, s2, h => by simp [braceVar] at h
  | n + 1, ps, i, sk, acc, hs, hcl, hacc, name, i2, s2, h => by
    obtain ⟨c, i', sk', j, sj, hg, hu, hj1, hj2, hin, hc, hn, hs2⟩ := peek_clean hs hcl
    have fin : some (acc, j, sj) = some (name, i2, s2) → (s2 ≠ 1 ∧ Clean i2) ∧ NameOk name := by
      intro e
      simp only [Option.some.injEq, Prod.mk.injEq] at e
      obtain ⟨rfl, rfl, rfl⟩ := e
      exact ⟨⟨hj1, hj2⟩, nameOk_plain hacc⟩
    rw [braceVar] at h
    simp only [hg, hu] at h
    cases c with
    | none => exact fin h
    | some c =>
      dsimp only at h
      obtain ⟨k1, k2⟩ := hc c rfl
      have on : ∀ ps', c ≠ '[' → c ≠ '\\' → braceVar n ps' i' sk' (acc ++ [c]) = some (name, i2, s2) → (s2 ≠ 1 ∧ Clean i2) ∧ NameOk name := by
        intro ps' h1 h2 h3
        have hk : sk' ≠ 1 := fun e => h2 (k2.mpr e)
        exact braceVar_clean n ps' i' sk' (acc ++ [c]) hk (by simpa [In, hk] using hin)
          (by simp only [List.mem_append, List.mem_singleton, not_or]; exact ⟨hacc, fun e => h1 e.symm⟩) name i2 s2 h3
      have ok : (alpha c = true ∨ digit c = true ∨ var1 c = true ∨ letnum c = true ∨ c = '#') → c ≠ '[' ∧ c ≠ '\\' := by
        rintro (hh | hh | hh | hh | hh) <;> constructor <;> rintro rfl <;> revert hh <;> decide
      have first : (if alpha c then braceVar n .ident i' sk' (acc ++ [c]) else if digit c then braceVar n .number i' sk' (acc ++ [c])
          else if var1 c then braceVar n .var1 i' sk' (acc ++ [c]) else some (acc, j, sj)) = some (name, i2, s2) →
          (s2 ≠ 1 ∧ Clean i2) ∧ NameOk name := by
        intro h
        by_cases h1 : alpha c = true
        · rw [if_pos h1] at h; exact on _ (ok (.inl h1)).1 (ok (.inl h1)).2 h
        · rw [if_neg h1] at h
          by_cases h2 : digit c = true
          · rw [if_pos h2] at h; exact on _ (ok (.inr (.inl h2))).1 (ok (.inr (.inl h2))).2 h
          · rw [if_neg h2] at h
            by_cases h3 : var1 c = true
            · rw [if_pos h3] at h; exact on _ (ok (.inr (.inr (.inl h3)))).1 (ok (.inr (.inr (.inl h3)))).2 h
            · rw [if_neg h3] at h; exact fin h
      cases ps with
      | initial =>
        dsimp only at h
        by_cases h1 : c = '#'
        · rw [if_pos h1] at h
          exact on _ (ok (.inr (.inr (.inr (.inr h1))))).1 (ok (.inr (.inr (.inr (.inr h1))))).2 h
        · rw [if_neg h1] at h; exact first h
      | hash => exact first h
      | ident =>
        dsimp only at h
        by_cases h1 : letnum c = true
        · rw [if_pos h1] at h
          exact on _ (ok (.inr (.inr (.inr (.inl h1))))).1 (ok (.inr (.inr (.inr (.inl h1))))).2 h
        · rw [if_neg h1] at h
          by_cases h2 : c = '['
          · rw [if_pos h2] at h
            cases ha : arraySub (i'.length + 1) 1 i' sk' [] with
            | none => rw [ha] at h; simp at h
            | some x =>
              obtain ⟨t, ia, sa⟩ := x
              rw [ha] at h
              obtain ⟨⟨ha1, ha2⟩, t', rfl, -, ht⟩ := arraySub_clean _ 1 i' sk' [] (by decide) hin t ia sa ha
              obtain ⟨d, i3, s3, i4, s4, e1, e2, e3, e4, -⟩ := peek_clean ha1 ha2
              simp only [e1, e2, Option.some.injEq, Prod.mk.injEq] at h
              obtain ⟨rfl, rfl, rfl⟩ := h
              have hk : sk' ≠ 1 := fun e => by have := k2.mpr e; rw [h2] at this; simp at this
              exact ⟨⟨e3, e4⟩, acc, '[' :: t, rfl, hacc, .inr ⟨t, rfl, by simpa [In, hk] using ht⟩⟩
          · rw [if_neg h2] at h; exact fin h
      | number =>
        dsimp only at h
        by_cases h1 : digit c = true
        · rw [if_pos h1] at h; exact on _ (ok (.inr (.inl h1))).1 (ok (.inr (.inl h1))).2 h
        · rw [if_neg h1] at h; exact fin h
      | var1 => exact fin h

theorem nameRun_clean : ∀ (n : Nat) (i : List Char) (sk : Nat) (acc : List Char), sk ≠ 1 → Clean i → '[' ∉ acc → ∃ name i2 s2,
    nameRun n i sk acc = (name, i2, s2) ∧ (s2 ≠ 1 ∧ Clean i2) ∧ NameOk name
  | 0, i, sk, acc, h1, h2, h3 => ⟨acc, i, sk, rfl, ⟨h1, h2⟩, nameOk_plain h3⟩
  | n + 1, i, sk, acc, hs, hcl, hacc => by
    obtain ⟨c, i', sk', j, sj, hg, hu, hj1, hj2, hin, hc, hn, hs2⟩ := peek_clean hs hcl
    rw [nameRun]
    simp only [hg]
    cases c with
    | none => simp only [hu]; exact ⟨acc, j, sj, rfl, ⟨hj1, hj2⟩, nameOk_plain hacc⟩
    | some c =>
      dsimp only
      by_cases h1 : letnum c = true
      · rw [if_pos h1]
        have hb : c ≠ '\\' ∧ c ≠ '[' := by constructor <;> rintro rfl <;> revert h1 <;> decide
        have hk : sk' ≠ 1 := fun e => hb.1 ((hc c rfl).2.mpr e)
        exact nameRun_clean n i' sk' (acc ++ [c]) hk (by simpa [In, hk] using hin)
          (by simp only [List.mem_append, List.mem_singleton, not_or]; exact ⟨hacc, fun e => hb.2 e.symm⟩)
      · rw [if_neg h1]
        simp only [hu]
        exact ⟨acc, j, sj, rfl, ⟨hj1, hj2⟩, nameOk_plain hacc⟩

/-! ## The loop -/

/-- No command and no expression; names as above. -/
def SymOk : Sym → Prop
  | .com _ => False
  | .exp _ => False
  | .osub _ name => NameOk name
  | _ => True

/-- Only these states are reached. -/
def StOk (st : List St) : Prop := ∀ x ∈ st, x = .base ∨ x = .brace ∨ x = .tbrace

structure Ok (s : LS) : Prop where
  st : StOk s.stack
  skip : s.skip ≠ 1
  inp : Clean s.inp
  out : ∀ x ∈ s.out, SymOk x

theorem StOk.ign {st} (h : StOk st) : ignoring st = false := by
  cases st with
  | nil => rfl
  | cons x r => rcases h x (by simp) with rfl | rfl | rfl <;> rfl

theorem StOk.cons {st x} (h : StOk st) (hx : x = .base ∨ x = .brace ∨ x = .tbrace) : StOk (x :: st) := by
  intro y hy
  rcases List.mem_cons.mp hy with rfl | hy
  · exact hx
  · exact h y hy

/-- A state in which the character `c` was just read. -/
structure Read (s : LS) (c : Char) : Prop where
  st : StOk s.stack
  here : (c ∉ stops ∧ c ≠ '\\' ∧ s.skip ≠ 1 ∧ Clean s.inp) ∨ (c = '\\' ∧ s.skip = 1 ∧ In s.inp 1)
  out : ∀ x ∈ s.out, SymOk x

theorem out_app {o l : List Sym} (h : ∀ x ∈ o, SymOk x) (hl : ∀ x ∈ l, SymOk x) : ∀ x ∈ o ++ l, SymOk x := by
  intro x hx
  rcases List.mem_append.mp hx with hx | hx
  · exact h x hx
  · exact hl x hx

theorem unescape_ok {s : LS} (h : Read s '\\') : Ok (unescape s) := by
  have hs : s.skip = 1 ∧ In s.inp 1 := by rcases h.here with h' | h'; exact absurd rfl h'.2.1; exact h'.2
  obtain ⟨c, i', h1, h2⟩ := get_skipped hs.2
  rw [unescape, h.st.ign, hs.1, h1]
  cases c with
  | none => exact ⟨h.st, by simp, h2, h.out⟩
  | some d => exact ⟨h.st, by simp, h2, out_app h.out (by simp [SymOk])⟩

theorem subst_ok {s : LS} {c : Char} (h : Read s c) : ∀ s', subst s c = some s' → Ok s' := by
  intro s' e
  unfold subst at e
  rw [h.st.ign] at e
  rcases h.here with ⟨h1, h2, h3, h4⟩ | ⟨rfl, hs, hin⟩
  · rw [if_neg h2] at e
    by_cases hd : c = '$'
    · rw [if_pos hd] at e
      obtain ⟨d, i', sk', j, sj, hg, hu, hj1, hj2, hin, hc, hn, hs2⟩ := peek_clean h3 h4
      simp only [hg] at e
      cases d with
      | none =>
        simp only [hu, Option.some.injEq] at e
        subst e
        exact ⟨h.st, hj1, hj2, out_app h.out (by simp [SymOk])⟩
      | some d =>
        obtain ⟨k1, k2⟩ := hc d rfl
        have hp : d ≠ '(' := by rintro rfl; simp [stops] at k1
        dsimp only at e
        rw [if_neg hp] at e
        by_cases hbr : d = '{'
        · rw [if_pos hbr] at e
          have hk : sk' ≠ 1 := fun e => by have := k2.mpr e; rw [hbr] at this; simp at this
          have hcl : Clean i' := by simpa [In, hk] using hin
          cases hb : braceVar (i'.length + 1) .initial i' sk' [] with
          | none => rw [hb] at e; simp at e
          | some x =>
            obtain ⟨name, ib, sb⟩ := x
            rw [hb] at e
            obtain ⟨⟨b1, b2⟩, b3⟩ := braceVar_clean _ _ i' sk' [] hk hcl (by simp) name ib sb hb
            obtain ⟨x1, i1, s1, j1, t1, e1, e2, e3, e4, e5, e6, e7, e8⟩ := peek_clean b1 b2
            dsimp only at e
            simp only [e1] at e
            have st_ok : ∀ x : Option Char, StOk ((if x = some '#' || x = some '%' then St.tbrace
                else match s.stack with
                  | .dquote :: _ => .braceq
                  | .braceq :: _ => .braceq
                  | _ => .brace) :: s.stack) := by
              intro x
              refine h.st.cons ?_
              split
              · simp
              · split
                · rename_i r hst; have := h.st .dquote (by rw [hst]; simp); simp at this
                · rename_i r hst; have := h.st .braceq (by rw [hst]; simp); simp at this
                · simp
            by_cases hco : x1 = some ':'
            · have hk1 : s1 ≠ 1 := fun ee => by have := (e6 ':' (by rw [hco]; rfl)).2.mpr ee; simp at this
              obtain ⟨x2, i2, s2, j2, t2, f1, f2, f3, f4, -⟩ := peek_clean hk1 (by simpa [In, hk1] using e5)
              simp only [hco, if_true, f1, f2, Option.some.injEq] at e
              subst e
              exact ⟨st_ok x2, f3, f4, out_app (out_app h.out (by simpa [SymOk] using b3)) (by simp [SymOk])⟩
            · simp only [hco, if_false, e2, Option.some.injEq] at e
              subst e
              exact ⟨st_ok x1, e3, e4, out_app h.out (by simpa [SymOk] using b3)⟩
        · rw [if_neg hbr] at e
          by_cases ha : alpha d = true
          · rw [if_pos ha] at e
            have hb : d ≠ '\\' ∧ d ≠ '[' := by constructor <;> rintro rfl <;> revert ha <;> decide
            have hk : sk' ≠ 1 := fun e => hb.1 (k2.mpr e)
            obtain ⟨name, i2, s2, r1, ⟨r2, r3⟩, r4⟩ := nameRun_clean (i'.length + 1) i' sk' [d] hk (by simpa [In, hk] using hin)
              (by simp only [List.mem_singleton]; exact fun e => hb.2 e.symm)
            simp only [r1, Option.some.injEq] at e
            subst e
            exact ⟨h.st, r2, r3, out_app h.out (by simpa [SymOk] using r4)⟩
          · rw [if_neg ha] at e
            by_cases hv : (var1 d || digit d) = true
            · rw [if_pos hv] at e
              have hb : d ≠ '\\' ∧ d ≠ '[' := by constructor <;> rintro rfl <;> revert hv <;> decide
              have hk : sk' ≠ 1 := fun e => hb.1 (k2.mpr e)
              simp only [Option.some.injEq] at e
              subst e
              refine ⟨h.st, hk, by simpa [In, hk] using hin, out_app h.out ?_⟩
              have : NameOk [d] := nameOk_plain (by simp only [List.mem_singleton]; exact fun e => hb.2 e.symm)
              simpa [SymOk] using this
            · rw [if_neg hv] at e
              simp only [hu, Option.some.injEq] at e
              subst e
              exact ⟨h.st, hj1, hj2, out_app h.out (by simp [SymOk])⟩
    · rw [if_neg hd] at e
      rw [if_neg (by rintro rfl; simp [stops] at h1)] at e
      simp only [Option.some.injEq] at e
      subst e
      exact ⟨h.st, h3, h4, out_app h.out (by simp [SymOk])⟩
  · rw [if_pos rfl] at e
    obtain ⟨d, i', h1, h2⟩ := get_skipped hin
    rw [hs, h1] at e
    cases d with
    | none =>
      simp only [Option.some.injEq] at e
      subst e
      exact ⟨h.st, by simp, h2, by simpa using h.out⟩
    | some d =>
      dsimp only at e
      split at e <;> (simp only [Option.some.injEq] at e; subst e; exact ⟨h.st, by simp, h2, out_app h.out (by simp [SymOk])⟩)

theorem sbase2_ok {s : LS} {c : Char} (h : Read s c) : ∀ s', sbase2 s c = some s' → Ok s' := by
  intro s' e
  unfold sbase2 at e
  by_cases hb : c = '\\'
  · subst hb
    have hu := unescape_ok h
    rw [if_pos rfl] at e
    have hs : s.skip = 1 ∧ In s.inp 1 := by rcases h.here with h' | h'; exact absurd rfl h'.2.1; exact h'.2
    obtain ⟨d, i', h1, h2⟩ := get_skipped hs.2
    rw [h.st.ign, hs.1, h1] at e
    cases d with
    | none => simp only [Option.some.injEq] at e; subst e; exact ⟨h.st, by simp, h2, h.out⟩
    | some d => simp only [Option.some.injEq] at e; subst e; exact ⟨h.st, by simp, h2, out_app h.out (by simp [SymOk])⟩
  · rw [if_neg hb] at e
    have hq : c ∉ stops := by rcases h.here with h' | h'; exact h'.1; exact absurd h'.1 hb
    rw [if_neg (by rintro rfl; simp [stops] at hq), if_neg (by rintro rfl; simp [stops] at hq)] at e
    exact subst_ok h s' e

theorem sbase1_ok {s : LS} {c : Char} (h : Read s c) : ∀ s', sbase1 s c = some s' → Ok s' := by
  intro s' e
  unfold sbase1 at e
  split at e
  · rename_i hp
    have hb : c ≠ '\\' := by rintro rfl; revert hp; decide
    rcases h.here with ⟨h1, h2, h3, h4⟩ | h'
    · obtain ⟨d, i', sk', j, sj, hg, hu, hj1, hj2, hin, hc, hn, hs2⟩ := peek_clean h3 h4
      simp only [h.st.ign, hg] at e
      rw [if_neg (by rintro rfl; have := (hc '(' rfl).1; simp [stops] at this)] at e
      simp only [hu] at e
      exact sbase2_ok (s := { s with inp := j, skip := sj }) ⟨h.st, .inl ⟨h1, h2, hj1, hj2⟩, h.out⟩ s' e
    · exact absurd h'.1 hb
  · exact sbase2_ok h s' e

theorem stepW_ok {u : Bool} {s : LS} {c : Char} (h : Read s c) : ∀ s', stepW u s c = some s' → Ok s' := by
  intro s' e
  have hstops : c ∉ stops := by
    rcases h.here with h' | h'
    · exact h'.1
    · rw [h'.1]; simp [stops]
  have pop : ∀ x r, s.stack = x :: r → c ≠ '\\' → Ok { s with stack := r, out := s.out ++ [Sym.csub true] } := by
    intro x r hst hb
    rcases h.here with ⟨-, -, h3, h4⟩ | h'
    · exact ⟨fun y hy => h.st y (by rw [hst]; exact List.mem_cons_of_mem _ hy), h3, h4, out_app h.out (by simp [SymOk])⟩
    · exact absurd h'.1 hb
  unfold stepW at e
  split at e
  · split at e
    · rename_i hu
      simp only [Option.some.injEq] at e
      subst e
      exact unescape_ok (hu.1 ▸ h)
    · exact subst_ok h s' e
  · rename_i r hst
    have := h.st .dquote (by rw [hst]; simp)
    simp at this
  · unfold step at e
    cases hst : s.stack with
    | nil => rw [hst] at e; simp at e
    | cons x r =>
      rcases h.st x (by rw [hst]; simp) with rfl | rfl | rfl
      · rw [hst] at e; exact sbase1_ok h s' e
      · rw [hst] at e
        dsimp only at e
        by_cases hc : c = '}'
        · rw [if_pos hc] at e
          simp only [Option.some.injEq] at e
          subst e
          exact pop _ r hst (by rw [hc]; decide)
        · rw [if_neg hc] at e
          exact sbase1_ok h s' e
      · rw [hst] at e
        dsimp only at e
        by_cases hc : c = '}'
        · rw [if_pos hc] at e
          simp only [Option.some.injEq] at e
          subst e
          exact pop _ r hst (by rw [hc]; decide)
        · rw [if_neg hc, if_neg (by rintro rfl; simp [stops] at hstops), if_neg (by rintro rfl; simp [stops] at hstops)] at e
          exact sbase1_ok h s' e

theorem loopW_ok {u : Bool} : ∀ (n : Nat) (s : LS), Ok s → ∀ w rest, loopW u n s = .word w rest → ∀ x ∈ w, SymOk x
  | 0, s, _, w, rest, e => by simp [loopW] at e
  | n + 1, s, h, w, rest, e => by
    rw [loopW, h.st.ign] at e
    obtain ⟨c, i', sk', hg, hin, hc, hn⟩ := get_clean h.skip h.inp
    simp only [hg] at e
    cases c with
    | none =>
      dsimp only at e
      split at e
      · simp only [Res.word.injEq] at e
        rw [← e.1]; exact h.out
      · cases e
    | some c =>
      dsimp only at e
      obtain ⟨k1, k2⟩ := hc c rfl
      have hr : Read { s with inp := i', skip := sk' } c := by
        refine ⟨h.st, ?_, h.out⟩
        by_cases hb : c = '\\'
        · right
          have := k2.mp hb
          exact ⟨hb, this, by rw [this] at hin; exact hin⟩
        · left
          have hk : sk' ≠ 1 := fun e => hb (k2.mpr e)
          exact ⟨k1, hb, hk, by simpa [In, hk] using hin⟩
      cases hs : stepW u { s with inp := i', skip := sk' } c with
      | none => rw [hs] at e; simp at e
      | some s' => rw [hs] at e; exact loopW_ok n s' (stepW_ok hr s' hs) w rest e

theorem clean_quiet {u n i w rest} (h : Clean i) (e : oneWord u n i = .word w rest) : ∀ x ∈ w, SymOk x :=
  loopW_ok n _ ⟨fun x hx => by simp at hx; exact .inl hx, Nat.zero_ne_one, h, by simp⟩ w rest e

/-! ## The located word -/

theorem clean_star : ∀ (k : Nat) (l : List Char), l.length ≤ k → Clean l → Clean (l ++ ['*'])
  | _, [], _, _ => by simp [Clean, stops]
  | k, c :: r, hk, h => by
    cases k with
    | zero => simp at hk
    | succ k =>
      by_cases hc : c = '\\'
      · subst hc
        rw [List.cons_append, clean_bs]
        rw [clean_bs] at h
        cases r with
        | nil => simp [Clean]
        | cons d r => simpa using clean_star k r (by simp only [List.length_cons] at hk; omega) (by simpa using h)
      · rw [clean_cons hc] at h
        rw [List.cons_append, clean_cons hc]
        exact ⟨h.1, clean_star k r (by simp only [List.length_cons] at hk; omega) h.2⟩

theorem clean_init : ∀ (k : Nat) (l r : List Char), l.length ≤ k → Clean (l ++ r) → Clean l
  | _, [], _, _, _ => by simp [Clean]
  | k, c :: l, r, hk, h => by
    cases k with
    | zero => simp at hk
    | succ k =>
      by_cases hc : c = '\\'
      · subst hc
        rw [List.cons_append, clean_bs] at h
        rw [clean_bs]
        cases l with
        | nil => simp [Clean]
        | cons d l => simpa using clean_init k l r (by simp only [List.length_cons] at hk; omega) (by simpa using h)
      · rw [List.cons_append, clean_cons hc] at h
        rw [clean_cons hc]
        exact ⟨h.1, clean_init k l r (by simp only [List.length_cons] at hk; omega) h.2⟩

theorem segment_clean (buf : List Char) : ∀ (k e : Nat), e + k ≤ buf.length → slashes buf e % 2 = 0 →
    (∀ i, e ≤ i → i < e + k → ¬ Ends buf i) → Clean ((buf.drop e).take k) := by
  intro k
  induction k using Nat.strongRecOn with
  | ind k ih =>
    intro e hk hp hne
    cases k with
    | zero => simp [Clean]
    | succ k =>
      have hs : buf[e]? = some (buf[e]'(by omega)) := List.getElem?_eq_getElem (by omega)
      generalize hcc : buf[e]'(by omega) = c at hs
      have hd : buf.drop e = c :: buf.drop (e + 1) := by rw [← hcc]; exact List.drop_eq_getElem_cons (by omega)
      have hc : c ∉ stops := fun hm => hne e (by omega) (by omega) ⟨⟨c, hm, hs⟩, hp⟩
      rw [hd, List.take_succ_cons]
      have h1 := slashes_succ hs
      by_cases hb : c = '\\'
      · rw [if_pos hb] at h1
        subst hb
        rw [clean_bs]
        cases k with
        | zero => simp [Clean]
        | succ k =>
          have hs' : buf[e + 1]? = some (buf[e + 1]'(by omega)) := List.getElem?_eq_getElem (by omega)
          have h2 := slashes_succ hs'
          have hd' : buf.drop (e + 1) = buf[e + 1]'(by omega) :: buf.drop (e + 2) := List.drop_eq_getElem_cons (by omega)
          rw [hd', List.take_succ_cons, List.drop_succ_cons, List.drop_zero]
          exact ih k (by omega) (e + 2) (by omega) (by rw [h2]; split <;> omega) (fun i hi hi' => hne i (by omega) (by omega))
      · rw [if_neg hb] at h1
        rw [clean_cons hb]
        exact ⟨hc, ih k (by omega) (e + 1) (by omega) (by omega) (fun i hi hi' => hne i (by omega) (by omega))⟩

/-- Reading the text as a word makes no command substitution and no arithmetic one. -/
def Quiet (text : List Char) : Prop :=
  ∀ u n w rest, oneWord u n text = .word w rest → (∀ s, Sym.com s ∉ w) ∧ ∀ s, Sym.exp s ∉ w

theorem quiet_of_clean {i} (h : Clean i) : Quiet i := fun _ _ _ _ e =>
  ⟨fun _ hs => clean_quiet h e _ hs, fun _ hs => clean_quiet h e _ hs⟩

/-- **C112** The word completion takes from the line and expands, be it as a file name or as a command, contains no command
substitution and no arithmetic one, and neither do the subscripts in it when they are expanded in turn. -/
theorem completion_runs_nothing (buf : List Char) (pos : Nat) (hpos : pos ≤ buf.length) (start len : Nat) (cmd : Bool)
    (hl : locate buf pos = some (start, len, cmd)) :
    Quiet (addGlob ((buf.drop start).take len)) ∧
    ∀ u n w rest, oneWord u n (addGlob ((buf.drop start).take len)) = .word w rest →
      ∀ br a t, Sym.osub br (a ++ '[' :: t ++ [']']) ∈ w → '[' ∉ a → Quiet t := by
  obtain ⟨start', len', cmd', h1, h2, h3, -, h4, -⟩ := located_inside buf pos hpos
  rw [hl] at h1
  simp only [Option.some.injEq, Prod.mk.injEq] at h1
  obtain ⟨rfl, rfl, rfl⟩ := h1
  have hp : slashes buf start % 2 = 0 := by
    obtain ⟨st, g1, g2, g3, -⟩ := back_spec buf pos hpos
    have : st = start := by
      rw [locate, if_neg (by omega), g1] at hl
      dsimp only at hl
      cases hf : fwd buf (buf.length + 1) st with
      | none => rw [hf] at hl; simp at hl
      | some x =>
        rw [hf] at hl
        dsimp only at hl
        rw [lastText_spec buf st (by omega)] at hl
        simp only [Option.some.injEq, Prod.mk.injEq] at hl
        exact hl.1
    subst this
    rcases g3 with g3 | ⟨c, hc, hb, -⟩
    · rw [g3, slashes_zero]
    · by_cases h0 : st = 0
      · rw [h0, slashes_zero]
      · have := slashes_succ hb
        rw [show st - 1 + 1 = st by omega, if_neg (by rintro rfl; simp [stops] at hc)] at this
        rw [this]
  have hseg := segment_clean buf len start (by omega) hp h4
  have hcl : Clean (addGlob ((buf.drop start).take len)) := by
    unfold addGlob
    split
    · exact hseg
    · split
      · exact clean_star _ _ (Nat.le_refl _) hseg
      · exact hseg
  refine ⟨quiet_of_clean hcl, fun u n w rest e br a t hm ha => ?_⟩
  obtain ⟨a', t', hat, ha', ht'⟩ := clean_quiet hcl e _ hm
  have hcut : ∀ (a a' t t' : List Char), '[' ∉ a → '[' ∉ a' → a ++ '[' :: t = a' ++ t' → (t' = [] ∨ ∃ t2, t' = '[' :: t2 ∧ Clean t2) → Clean t := by
    intro a
    induction a with
    | nil =>
      intro a' t t' _ h2 h3 h4
      cases a' with
      | nil =>
        rcases h4 with rfl | ⟨t2, rfl, h5⟩
        · simp at h3
        · simp only [List.nil_append, List.cons.injEq, true_and] at h3; rw [h3]; exact h5
      | cons x a' => simp only [List.nil_append, List.cons_append, List.cons.injEq] at h3; exact absurd (by rw [h3.1]; simp) h2
    | cons x a ih =>
      intro a' t t' h1 h2 h3 h4
      cases a' with
      | nil =>
        rcases h4 with rfl | ⟨t2, rfl, h5⟩
        · simp at h3
        · simp only [List.nil_append, List.cons_append, List.cons.injEq] at h3; exact absurd (by rw [h3.1]; simp) h1
      | cons y a' =>
        simp only [List.cons_append, List.cons.injEq] at h3
        exact ih a' t t' (fun hm => h1 (List.mem_cons_of_mem _ hm)) (fun hm => h2 (List.mem_cons_of_mem _ hm)) h3.2 h4
  have hct : Clean (t ++ [']']) := hcut a a' _ t' ha ha' (by simpa using hat) ht'
  exact quiet_of_clean (clean_init _ _ _ (Nat.le_refl _) hct)

/-- A word with substitutions; the text behind the parenthesis is not part of it. -/
example : locate ['l', 's', ' ', '$', 'x', '$', '(', 'a', ')'] 5 = some (3, 3, false) ∧
    oneWord true 20 (addGlob ['$', 'x', '$']) = .word [.osub false ['x'], .csub false, .chr '$'] [] ∧
    oneWord true 30 (addGlob ['$', '{', 'a', '[', '\\', '`', ']', '}', 'b']) =
      .word [.osub true ['a', '[', '\\', '`', ']'], .csub true, .chr 'b'] [] := by decide +kernel
/-- A text that is not so. -/
example : oneWord true 20 ['$', '(', 'a', ')'] = .word [.com ['a']] [] ∧ ¬ Clean ['$', '(', 'a', ')'] := by
  refine ⟨by decide +kernel, by simp [Clean, stops]⟩

end Ksh.Compl
