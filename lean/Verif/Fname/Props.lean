import Verif.Fname.Model
/-!
# C77: file name generation
-/

namespace Ksh.Fname

open Ksh.Glob (debunk)

/-! ## Specification -/

/-- The text of a pattern: components, each after a number of slashes, and slashes at the end. -/
def ptext : List (Nat × List B) → Nat → List B
  | [], t => List.replicate t 47
  | (s, c) :: L, t => List.replicate s 47 ++ (c ++ ptext L t)

/-- Every MAGIC has the byte it marks after it. -/
def Coded : List B → Prop
  | [] => True
  | [c] => c ≠ 7
  | c :: d :: p => if c = 7 then Coded p else Coded (d :: p)

/-- Components are not empty and have no slash; only the first may be without one before it. -/
def Good : Bool → List (Nat × List B) → Prop
  | _, [] => True
  | first, (s, c) :: L => (first = false → 1 ≤ s) ∧ c ≠ [] ∧ 47 ∉ c ∧ Coded c ∧ Good false L

/-- The path made of these names. -/
def path : List (Nat × List B) → List (List B) → Nat → List B
  | (s, _) :: L, m :: ms, t => List.replicate s 47 ++ (m ++ path L ms t)
  | _, _, t => List.replicate t 47

/-- A name of a file that a component can stand for. -/
structure Name (m : List B) : Prop where
  ne : m ≠ []
  slash : 47 ∉ m
  dot : m ≠ [46]
  dots : m ≠ [46, 46]

/-- What a component stands for: a pattern for the names it matches, where a dot at the beginning must be
there in the pattern; other text for itself. -/
def Fit (S : Sys) (c m : List B) : Prop :=
  if S.hg c = true then Name m ∧ (m.head? = some 46 → c.head? = some 46) ∧ S.mt m c = true else m = debunk c

/-- The name of a directory for `opendir`. -/
def dirOf (q : List B) : List B := if q = [] then [46] else q

/-- Names for all components, where the directories in which patterns are looked for can be read. -/
def Names (S : Sys) : List B → List (Nat × List B) → List (List B) → Prop
  | _, [], [] => True
  | pre, (s, c) :: L, m :: ms => Fit S c m ∧ (S.hg c = true → S.ls (dirOf (pre ++ List.replicate s 47)) ≠ none) ∧ Names S (pre ++ List.replicate s 47 ++ m) L ms
  | _, _, _ => False

/-- A path that the pattern generates: it exists, and if it ends in a slash it is a directory. -/
def Gen (S : Sys) (pre : List B) (L : List (Nat × List B)) (t : Nat) (p : List B) : Prop :=
  ∃ ms, Names S pre L ms ∧ p = pre ++ path L ms t ∧ S.lstat p ≠ none ∧ (p.getLast? = some 47 → S.isDir p = true)

/-- A file system that does not change and whose directories can be searched. -/
structure Consistent (S : Sys) : Prop where
  names : ∀ {q l n}, S.ls q = some l → n ∈ l → n ≠ [] ∧ 47 ∉ n
  nodup : ∀ {q l}, S.ls q = some l → l.Nodup
  entry : ∀ {q l n}, (q = [] ∨ q.getLast? = some 47) → S.ls (dirOf q) = some l → Name n → (n ∈ l ↔ S.lstat (q ++ n) ≠ none)
  up : ∀ {q r}, q ≠ [] → S.lstat (q ++ 47 :: r) ≠ none → S.lstat q ≠ none
  empty : S.hg [] = false

def HasPat (S : Sys) (L : List (Nat × List B)) : Prop := ∃ x ∈ L, S.hg x.2 = true

/-- With the option `markdirs` directories get a slash. -/
def marked (S : Sys) (md : Bool) (p : List B) : List B := if md = true ∧ p ≠ [] ∧ p.getLast? ≠ some 47 ∧ S.isDir p = true then p ++ [47] else p

/-! ## The text of a component -/

theorem debunk_append : ∀ (c l : List B), Coded c → debunk (c ++ l) = debunk c ++ debunk l
  | [], l, _ => rfl
  | [c], l, h => by
    have hc : c ≠ 7 := h
    cases l with
    | nil => simp [debunk, hc]
    | cons d l => simp [debunk, hc]
  | c :: d :: p, l, h => by
    unfold Coded at h
    by_cases hc : c = 7
    · rw [if_pos hc] at h
      have ih := debunk_append p l h
      have hm : ¬ c ≠ 7 := by simp [hc]
      simp only [List.cons_append, debunk, hm, if_false, ih]
      split <;> simp
    · rw [if_neg hc] at h
      have ih := debunk_append (d :: p) l h
      have hm : c ≠ 7 := hc
      have e1 : debunk (c :: d :: p) = c :: debunk (d :: p) := by rw [debunk, if_pos hm]
      have e2 : debunk (c :: d :: p ++ l) = c :: debunk (d :: p ++ l) := by
        simp only [List.cons_append]; rw [debunk, if_pos hm]
      rw [e1, e2, ih]; rfl

theorem debunk_ne : ∀ (c : List B), c ≠ [] → Coded c → debunk c ≠ []
  | [], h, _ => absurd rfl h
  | [c], _, h => by
    have hc : c ≠ 7 := h
    simp [debunk, hc]
  | c :: d :: p, _, _ => by
    rw [debunk]
    split
    · simp
    · split
      · split <;> simp
      · simp

theorem debunk_slash : ∀ (c : List B), 47 ∉ c → 47 ∉ debunk c
  | [], _ => by simp [debunk]
  | [c], h => by
    rw [debunk]
    split
    · simp
    · exact h
  | c :: d :: p, h => by
    have h1 : (47 : B) ≠ c := fun e => h (by simp [e])
    have h2 : (47 : B) ≠ d := fun e => h (by simp [e])
    have h3 : (47 : B) ∉ d :: p := fun e => h (List.mem_cons_of_mem _ e)
    have h4 : (47 : B) ∉ p := fun e => h3 (List.mem_cons_of_mem _ e)
    rw [debunk]
    split
    · simp only [List.mem_cons, not_or]
      have := debunk_slash (d :: p) h3
      exact ⟨h1, this⟩
    · have ih := debunk_slash p h4
      split
      · rename_i he
        have hd : d - 128 ≠ 47 := by
          intro e
          simp only [Glob.isExt, e] at he
          simp at he
        split <;> simp [ih, Ne.symm hd]
      · simp only [List.mem_cons, not_or]
        exact ⟨h2, ih⟩

/-! ## One component -/

def cont (xs tail : List B) : Option (List B) := if xs ≠ [] then after tail else some tail

theorem takeWhile_slash (s : Nat) (l : List B) (h : l.head? ≠ some 47) : (List.replicate s 47 ++ l).takeWhile (· == 47) = List.replicate s 47 ∧
    (List.replicate s 47 ++ l).dropWhile (· == 47) = l := by
  induction s with
  | zero =>
    cases l with
    | nil => simp
    | cons c l =>
      have : (c == 47) = false := by simpa using h
      simp [this]
  | succ s ih =>
    simp only [List.replicate_succ, List.cons_append, List.takeWhile_cons, List.dropWhile_cons, BEq.rfl, if_true]
    exact ⟨by rw [ih.1], ih.2⟩

theorem takeWhile_comp (c l : List B) (hc : 47 ∉ c) (h : l = [] ∨ l.head? = some 47) : (c ++ l).takeWhile (· != 47) = c ∧ (c ++ l).dropWhile (· != 47) = l := by
  induction c with
  | nil =>
    cases l with
    | nil => simp
    | cons d l =>
      have : d = 47 := by simpa using h
      simp [this]
  | cons d c ih =>
    simp only [List.mem_cons, not_or] at hc
    have hd : (d != 47) = true := by simpa using (Ne.symm hc.1)
    simp only [List.cons_append, List.takeWhile_cons, List.dropWhile_cons, hd, if_true]
    exact ⟨by rw [(ih hc.2).1], (ih hc.2).2⟩

theorem ptext_head {L : List (Nat × List B)} (h : Good false L) (t : Nat) : ptext L t = [] ∨ (ptext L t).head? = some 47 := by
  cases L with
  | nil => cases t <;> simp [ptext, List.replicate_succ]
  | cons x L =>
    obtain ⟨s, c⟩ := x
    obtain ⟨h1, -⟩ := h
    have := h1 rfl
    cases s with
    | zero => omega
    | succ s => simp [ptext, List.replicate_succ]

/-- The string looked at, with the slash that was overwritten. -/
theorem cont_lead {xs tail sp : List B} (h : cont xs tail = some sp) (ht : xs ≠ [] → tail = [] ∨ tail.head? = some 47) :
    (if xs ≠ [] then xs ++ [47] else xs) ++ sp = xs ++ tail := by
  unfold cont at h
  by_cases hx : xs = []
  · simp only [hx, ne_eq, not_true_eq_false, if_false, Option.some.injEq] at h ⊢
    rw [h]
  · simp only [ne_eq, hx, not_false_eq_true, if_true] at h ⊢
    rcases ht hx with ht | ht
    · rw [ht] at h; cases h
    · cases tail with
      | nil => cases h
      | cons c l =>
        simp only [after, Option.some.injEq] at h
        simp only [List.head?_cons, Option.some.injEq] at ht
        subst h ht
        simp

theorem globit_some (S : Sys) (md : Bool) (xs sp : List B) (ex gl : Bool) (s : Nat) (c tail : List B)
    (hsp : ∃ k, sp = List.replicate k 47 ++ (c ++ tail) ∧ (if xs ≠ [] then xs ++ [47] else xs) ++ List.replicate k 47 = xs ++ List.replicate s 47)
    (hc : c.head? ≠ some 47) (hc2 : 47 ∉ c) (ht : tail = [] ∨ tail.head? = some 47) (hct : c = [] → tail = []) :
    globit S md xs (some sp) ex gl =
      if S.hg c then ((S.ls (dirOf (xs ++ List.replicate s 47))).getD []).flatMap fun n =>
          if taken S c n then globit S md (xs ++ List.replicate s 47 ++ n) (after tail) (after tail).isSome true else []
      else globit S md (xs ++ List.replicate s 47 ++ debunk c) (after tail) ex gl := by
  obtain ⟨k, rfl, hk⟩ := hsp
  have hhead : (c ++ tail).head? ≠ some 47 := by
    cases c with
    | nil => simp [hct rfl]
    | cons d c => simpa using hc
  obtain ⟨h1, h2⟩ := takeWhile_slash k (c ++ tail) hhead
  obtain ⟨h3, h4⟩ := takeWhile_comp c tail hc2 ht
  rw [globit]
  simp only [h1, h2, h3, hk]
  split
  · rename_i h
    rw [h2, h4] at h
    rw [h]
    simp only [dirOf, Option.isSome_none]
    rw [globit]
    congr 1
    congr 1
    funext n
    rw [globit]
  · rename_i r h
    rw [h2, h4] at h
    rw [h]
    simp only [dirOf, Option.isSome_some]

theorem globit_comp (S : Sys) (md : Bool) (xs : List B) (ex gl : Bool) {s : Nat} {c : List B} {L : List (Nat × List B)} (hg : Good (decide (xs = [])) ((s, c) :: L)) (t : Nat) :
    globit S md xs (cont xs (ptext ((s, c) :: L) t)) ex gl =
      if S.hg c then ((S.ls (dirOf (xs ++ List.replicate s 47))).getD []).flatMap fun n =>
          if taken S c n then globit S md (xs ++ List.replicate s 47 ++ n) (after (ptext L t)) (after (ptext L t)).isSome true else []
      else globit S md (xs ++ List.replicate s 47 ++ debunk c) (after (ptext L t)) ex gl := by
  obtain ⟨h1, h2, h3, h4, h5⟩ := hg
  have hhead : c.head? ≠ some 47 := by
    cases c with
    | nil => simp
    | cons d c => simp only [List.head?_cons, ne_eq, Option.some.injEq]; rintro rfl; exact h3 (by simp)
  by_cases hx : xs = []
  · subst hx
    refine globit_some S md [] _ ex gl s c _ ⟨s, by simp [ptext], by simp⟩ hhead h3 (ptext_head h5 t) (fun h => absurd h h2)
  · have hs := h1 (by simpa using hx)
    have e : cont xs (ptext ((s, c) :: L) t) = some (List.replicate (s - 1) 47 ++ (c ++ ptext L t)) := by
      cases s with
      | zero => omega
      | succ s => simp [cont, hx, ptext, List.replicate_succ, after]
    rw [e]
    refine globit_some S md xs _ ex gl s c _ ⟨s - 1, rfl, ?_⟩ hhead h3 (ptext_head h5 t) (fun h => absurd h h2)
    cases s with
    | zero => omega
    | succ s => simp [hx, List.replicate_succ]

theorem globit_end (S : Sys) (hS : S.hg [] = false) (md : Bool) (xs : List B) (ex gl : Bool) (t : Nat) :
    globit S md xs (cont xs (ptext [] t)) ex gl = finish S md (xs ++ List.replicate t 47) ex gl := by
  have hnone : ∀ sp k, sp = List.replicate k 47 → (if xs ≠ [] then xs ++ [47] else xs) ++ List.replicate k 47 = xs ++ List.replicate t 47 →
      globit S md xs (some sp) ex gl = finish S md (xs ++ List.replicate t 47) ex gl := by
    intro sp k h1 h2
    rw [globit_some S md xs sp ex gl t [] [] ⟨k, by simp [h1], h2⟩ (by simp) (by simp) (Or.inl rfl) (fun _ => rfl)]
    simp only [hS, Bool.false_eq_true, if_false, after]
    rw [globit, show debunk [] = [] from rfl, List.append_nil]
  by_cases hx : xs = []
  · subst hx
    exact hnone _ t rfl (by simp)
  · cases t with
    | zero => simp [cont, hx, ptext, after, globit]
    | succ t =>
      have e : cont xs (ptext [] (t + 1)) = some (List.replicate t 47) := by simp [cont, hx, ptext, List.replicate_succ, after]
      rw [e]
      exact hnone _ t rfl (by simp [hx, List.replicate_succ])

theorem cont_after {xs : List B} (h : xs ≠ []) (l : List B) : after l = cont xs l := by simp [cont, h]

/-! ## The paths generated -/

theorem getLast?_name {q n : List B} (hn : n ≠ []) (hs : 47 ∉ n) : (q ++ n).getLast? ≠ some 47 := by
  rw [List.getLast?_append]
  cases hl : n.getLast? with
  | none => exact absurd (List.getLast?_eq_none_iff.1 hl) hn
  | some c =>
    simp only [Option.some_or, ne_eq, Option.some.injEq]
    rintro rfl
    exact hs (List.mem_of_getLast? hl)

theorem getLast?_slashes {xs : List B} {s : Nat} (h : xs ≠ [] → 1 ≤ s) : xs ++ List.replicate s 47 = [] ∨ (xs ++ List.replicate s 47).getLast? = some 47 := by
  cases s with
  | zero =>
    left
    cases xs with
    | nil => rfl
    | cons c l => have := h (by simp); omega
  | succ s =>
    right
    rw [List.getLast?_append]
    simp [List.getLast?_replicate]

theorem taken_iff (S : Sys) (c n : List B) (hn : n ≠ [] ∧ 47 ∉ n) : taken S c n = true ↔ Name n ∧ (n.head? = some 46 → c.head? = some 46) ∧ S.mt n c = true := by
  unfold taken
  simp only [Bool.and_eq_true, Bool.not_eq_true', Bool.or_eq_false_iff, beq_eq_false_iff_ne, ne_eq, Bool.and_eq_false_imp, beq_iff_eq, Bool.not_eq_false']
  constructor
  · rintro ⟨⟨⟨h1, h2⟩, h3⟩, h4⟩
    exact ⟨⟨hn.1, hn.2, h1, h2⟩, h3, h4⟩
  · rintro ⟨h1, h3, h4⟩
    exact ⟨⟨⟨h1.dot, h1.dots⟩, h3⟩, h4⟩

theorem finish_mem (S : Sys) (xs : List B) (gl : Bool) (p : List B) :
    p ∈ finish S false xs true gl ↔ p = xs ∧ S.lstat p ≠ none ∧ (p.getLast? = some 47 → S.isDir p = true) := by
  unfold finish
  simp only [Bool.true_or, if_true, Bool.true_and, Bool.false_and, Bool.false_eq_true, if_false]
  by_cases h1 : S.lstat xs = none
  · simp only [h1, if_true, List.not_mem_nil, false_iff]
    rintro ⟨rfl, h, -⟩
    exact h h1
  · simp only [h1, if_false]
    by_cases h2 : xs.getLast? = some 47
    · cases h3 : S.isDir xs
      · simp only [h2, decide_true, Bool.not_false, Bool.and_self, if_true, List.not_mem_nil, false_iff]
        rintro ⟨rfl, -, h⟩
        rw [h h2] at h3
        cases h3
      · simp only [h2, decide_true, Bool.not_true, Bool.and_false, Bool.false_eq_true, if_false, List.mem_singleton]
        constructor
        · rintro rfl; exact ⟨rfl, h1, fun _ => h3⟩
        · exact fun h => h.1
    · simp only [h2, decide_false, Bool.false_and, Bool.false_eq_true, if_false, List.mem_singleton]
      constructor
      · rintro rfl; exact ⟨rfl, h1, fun h => absurd h h2⟩
      · exact fun h => h.1

theorem path_ptext_nil {L : List (Nat × List B)} (hL : Good false L) {t : Nat} (h : after (ptext L t) = none) : L = [] ∧ t = 0 := by
  cases L with
  | nil =>
    cases t with
    | zero => exact ⟨rfl, rfl⟩
    | succ t => simp [ptext, List.replicate_succ, after] at h
  | cons x L =>
    obtain ⟨s, c⟩ := x
    obtain ⟨h1, h2, -⟩ := hL
    have := h1 rfl
    cases s with
    | zero => omega
    | succ s => simp [ptext, List.replicate_succ, after] at h

theorem path_head {L : List (Nat × List B)} {S : Sys} {pre : List B} {ms : List (List B)} (hL : Good false L) (hn : Names S pre L ms) (t : Nat) : path L ms t = [] ∨ ∃ r, path L ms t = 47 :: r := by
  cases L with
  | nil =>
    cases t with
    | zero => left; simp [path]
    | succ t => right; exact ⟨List.replicate t 47, by simp [path, List.replicate_succ]⟩
  | cons x L =>
    obtain ⟨s, c⟩ := x
    cases ms with
    | nil => exact absurd hn (by simp [Names])
    | cons m ms =>
      obtain ⟨h1, -⟩ := hL
      have := h1 rfl
      cases s with
      | zero => omega
      | succ s => right; exact ⟨List.replicate s 47 ++ (m ++ path L ms t), by simp [path, List.replicate_succ]⟩

theorem globit_mem {S : Sys} (hS : Consistent S) : ∀ (L : List (Nat × List B)) (t : Nat) (xs : List B) (ex gl : Bool), Good (decide (xs = [])) L →
    (HasPat S L ∨ ex = true) → ∀ p, p ∈ globit S false xs (cont xs (ptext L t)) ex gl ↔ Gen S xs L t p := by
  intro L
  induction L with
  | nil =>
    intro t xs ex gl hg hp p
    have hex : ex = true := by
      rcases hp with ⟨x, hx, -⟩ | h
      · simp at hx
      · exact h
    subst hex
    rw [globit_end S hS.empty, finish_mem]
    unfold Gen
    constructor
    · rintro ⟨rfl, h1, h2⟩
      exact ⟨[], trivial, by simp [path], h1, h2⟩
    · rintro ⟨ms, hm, hp, h1, h2⟩
      cases ms with
      | nil => exact ⟨by simpa [path] using hp, h1, h2⟩
      | cons m ms => exact absurd hm (by simp [Names])
  | cons x L ih =>
    obtain ⟨s, c⟩ := x
    intro t xs ex gl hg hp p
    have hsl : xs ≠ [] → 1 ≤ s := fun h => hg.1 (by simpa using h)
    have hL : Good false L := hg.2.2.2.2
    rw [globit_comp S false xs ex gl hg t]
    cases hc : S.hg c with
    | false =>
      simp only [Bool.false_eq_true, if_false]
      have hne : xs ++ List.replicate s 47 ++ debunk c ≠ [] := by simp [debunk_ne c hg.2.1 hg.2.2.2.1]
      rw [cont_after hne, ih t _ ex gl (by rw [decide_eq_false hne]; exact hL) ?_ p]
      · unfold Gen
        constructor
        · rintro ⟨ms, h1, h2, h3⟩
          exact ⟨debunk c :: ms, ⟨by simp [Fit, hc], by simp [hc], h1⟩, by rw [h2]; simp [path], h3⟩
        · rintro ⟨ms, h1, h2, h3⟩
          cases ms with
          | nil => exact absurd h1 (by simp [Names])
          | cons m ms =>
            obtain ⟨h1, -, h4⟩ := h1
            have hm : m = debunk c := by simpa [Fit, hc] using h1
            subst hm
            exact ⟨ms, h4, by rw [h2]; simp [path], h3⟩
      · rcases hp with ⟨x, hx, hxp⟩ | h
        · rcases List.mem_cons.1 hx with rfl | hx
          · rw [hc] at hxp; cases hxp
          · exact Or.inl ⟨x, hx, hxp⟩
        · exact Or.inr h
    | true =>
      simp only [if_true, List.mem_flatMap]
      have hq := getLast?_slashes (xs := xs) hsl
      -- the paths that begin with a name
      have hrec : ∀ n, n ≠ [] → 47 ∉ n → S.lstat (xs ++ List.replicate s 47 ++ n) ≠ none →
          (p ∈ globit S false (xs ++ List.replicate s 47 ++ n) (after (ptext L t)) (after (ptext L t)).isSome true ↔ Gen S (xs ++ List.replicate s 47 ++ n) L t p) := by
        intro n hn hn2 hex
        have hne : xs ++ List.replicate s 47 ++ n ≠ [] := by simp [hn]
        cases ha : after (ptext L t) with
        | none =>
          obtain ⟨rfl, rfl⟩ := path_ptext_nil hL ha
          rw [globit]
          simp only [finish, Option.isSome_none, Bool.false_or, Bool.false_and, Bool.false_eq_true, if_false, List.mem_singleton]
          unfold Gen
          constructor
          · rintro rfl
            exact ⟨[], trivial, by simp [path], hex, fun h => absurd h (getLast?_name hn hn2)⟩
          · rintro ⟨ms, hm, hp, -⟩
            cases ms with
            | nil => simpa [path] using hp
            | cons m ms => exact absurd hm (by simp [Names])
        | some r =>
          rw [← ha, cont_after hne]
          rw [show (cont (xs ++ List.replicate s 47 ++ n) (ptext L t)).isSome = true by rw [← cont_after hne, ha]; rfl]
          exact ih t _ true true (by rw [decide_eq_false hne]; exact hL) (Or.inr rfl) p
      constructor
      · rintro ⟨n, hn, hp⟩
        cases hl : S.ls (dirOf (xs ++ List.replicate s 47)) with
        | none => rw [hl] at hn; simp at hn
        | some l =>
          rw [hl] at hn
          simp only [Option.getD_some] at hn
          have hnn := hS.names hl hn
          by_cases ht : taken S c n = true
          · rw [if_pos ht] at hp
            have ht' := (taken_iff S c n hnn).1 ht
            have hex := (hS.entry hq hl ht'.1).1 hn
            obtain ⟨ms, h1, h2, h3⟩ := (hrec n hnn.1 hnn.2 hex).1 hp
            exact ⟨n :: ms, ⟨by simp only [Fit, hc, if_true]; exact ht', fun _ => by rw [hl]; simp, h1⟩, by rw [h2]; simp [path], h3⟩
          · rw [if_neg ht] at hp
            simp at hp
      · rintro ⟨ms, h1, h2, h3, h4⟩
        cases ms with
        | nil => exact absurd h1 (by simp [Names])
        | cons m ms =>
          obtain ⟨hf, hr, hms⟩ := h1
          simp only [Fit, hc, if_true] at hf
          cases hl : S.ls (dirOf (xs ++ List.replicate s 47)) with
          | none => exact absurd hl (hr hc)
          | some l =>
            have hp : p = xs ++ List.replicate s 47 ++ m ++ path L ms t := by rw [h2]; simp [path]
            have hne : xs ++ List.replicate s 47 ++ m ≠ [] := by simp [hf.1.ne]
            have hex : S.lstat (xs ++ List.replicate s 47 ++ m) ≠ none := by
              rcases path_head hL hms t with h | ⟨r, h⟩
              · rw [h, List.append_nil] at hp
                rw [← hp]; exact h3
              · rw [h] at hp
                rw [hp] at h3
                exact hS.up hne h3
            have hm := (hS.entry hq hl hf.1).2 hex
            refine ⟨m, by simpa using hm, ?_⟩
            rw [if_pos ((taken_iff S c m ⟨hf.1.ne, hf.1.slash⟩).2 hf)]
            exact (hrec m hf.1.ne hf.1.slash hex).2 ⟨ms, hms, hp, h3, h4⟩

/-! ## Each path once -/

theorem pre_form {S : Sys} (hS : Consistent S) : ∀ (L : List (Nat × List B)) (t : Nat) (xs : List B) (ex gl : Bool), Good (decide (xs = [])) L →
    ∀ p ∈ globit S false xs (cont xs (ptext L t)) ex gl, ∃ r, p = xs ++ r ∧ (xs ≠ [] → r = [] ∨ r.head? = some 47) := by
  intro L
  induction L with
  | nil =>
    intro t xs ex gl hg p hp
    rw [globit_end S hS.empty] at hp
    have : p = xs ++ List.replicate t 47 := by
      revert hp
      unfold finish
      simp only [Bool.false_and, Bool.false_eq_true, if_false]
      split
      · split
        · simp
        · split <;> simp
      · simp
    exact ⟨_, this, fun _ => by cases t <;> simp [List.replicate_succ]⟩
  | cons x L ih =>
    obtain ⟨s, c⟩ := x
    intro t xs ex gl hg p hp
    have hsl : xs ≠ [] → 1 ≤ s := fun h => hg.1 (by simpa using h)
    have hL : Good false L := hg.2.2.2.2
    have fin : ∀ m ex gl, m ≠ [] → p ∈ globit S false (xs ++ List.replicate s 47 ++ m) (after (ptext L t)) ex gl → ∃ r, p = xs ++ r ∧ (xs ≠ [] → r = [] ∨ r.head? = some 47) := by
      intro m ex gl hm hp
      have hne : xs ++ List.replicate s 47 ++ m ≠ [] := by simp [hm]
      rw [cont_after hne] at hp
      obtain ⟨r, h1, -⟩ := ih t _ ex gl (by rw [decide_eq_false hne]; exact hL) p hp
      refine ⟨List.replicate s 47 ++ (m ++ r), by rw [h1]; simp, fun hx => Or.inr ?_⟩
      have := hsl hx
      cases s with
      | zero => omega
      | succ s => simp [List.replicate_succ]
    rw [globit_comp S false xs ex gl hg t] at hp
    cases hc : S.hg c with
    | false =>
      rw [hc] at hp
      exact fin _ _ _ (debunk_ne c hg.2.1 hg.2.2.2.1) (by simpa using hp)
    | true =>
      rw [hc] at hp
      simp only [if_true, List.mem_flatMap] at hp
      obtain ⟨n, hn, hp⟩ := hp
      cases hl : S.ls (dirOf (xs ++ List.replicate s 47)) with
      | none => rw [hl] at hn; simp at hn
      | some l =>
        rw [hl] at hn
        by_cases ht : taken S c n = true
        · rw [if_pos ht] at hp
          exact fin n _ _ (hS.names hl hn).1 hp
        · rw [if_neg ht] at hp; simp at hp

theorem name_inj {n m r u : List B} (hn : 47 ∉ n) (hm : 47 ∉ m) (hr : r = [] ∨ r.head? = some 47) (hu : u = [] ∨ u.head? = some 47) (h : n ++ r = m ++ u) : n = m := by
  have h1 := (takeWhile_comp n r hn hr).1
  have h2 := (takeWhile_comp m u hm hu).1
  rw [h] at h1
  exact h1.symm.trans h2

theorem globit_nodup {S : Sys} (hS : Consistent S) : ∀ (L : List (Nat × List B)) (t : Nat) (xs : List B) (ex gl : Bool), Good (decide (xs = [])) L →
    (globit S false xs (cont xs (ptext L t)) ex gl).Nodup := by
  intro L
  induction L with
  | nil =>
    intro t xs ex gl hg
    rw [globit_end S hS.empty]
    unfold finish
    simp only [Bool.false_and, Bool.false_eq_true, if_false]
    split
    · split
      · simp
      · split <;> simp
    · simp
  | cons x L ih =>
    obtain ⟨s, c⟩ := x
    intro t xs ex gl hg
    have hL : Good false L := hg.2.2.2.2
    have fin : ∀ m ex gl, m ≠ [] → (globit S false (xs ++ List.replicate s 47 ++ m) (after (ptext L t)) ex gl).Nodup := by
      intro m ex gl hm
      have hne : xs ++ List.replicate s 47 ++ m ≠ [] := by simp [hm]
      rw [cont_after hne]
      exact ih t _ ex gl (by rw [decide_eq_false hne]; exact hL)
    rw [globit_comp S false xs ex gl hg t]
    cases hc : S.hg c with
    | false =>
      simpa using fin _ ex gl (debunk_ne c hg.2.1 hg.2.2.2.1)
    | true =>
      simp only [if_true]
      cases hl : S.ls (dirOf (xs ++ List.replicate s 47)) with
      | none => simp
      | some l =>
        simp only [Option.getD_some]
        unfold List.Nodup
        rw [List.pairwise_flatMap]
        refine ⟨fun n hn => ?_, ?_⟩
        · by_cases ht : taken S c n = true
          · rw [if_pos ht]; exact fin n _ _ (hS.names hl hn).1
          · rw [if_neg ht]; simp
        · have key : ∀ n ∈ l, ∀ p, p ∈ (if taken S c n = true then globit S false (xs ++ List.replicate s 47 ++ n) (after (ptext L t)) (after (ptext L t)).isSome true else []) →
              ∃ r, p = xs ++ List.replicate s 47 ++ (n ++ r) ∧ (r = [] ∨ r.head? = some 47) := by
            intro n hn p hp
            by_cases ht : taken S c n = true
            · rw [if_pos ht] at hp
              have hne : xs ++ List.replicate s 47 ++ n ≠ [] := by simp [(hS.names hl hn).1]
              rw [cont_after hne] at hp
              obtain ⟨r, h1, h2⟩ := pre_form hS L t _ _ true (by rw [decide_eq_false hne]; exact hL) p hp
              exact ⟨r, by rw [h1]; simp, h2 hne⟩
            · rw [if_neg ht] at hp; simp at hp
          refine List.Pairwise.imp_of_mem ?_ (hS.nodup hl)
          intro a b ha hb hab x hx y hy hxy
          obtain ⟨r, h1, h2⟩ := key a ha x hx
          obtain ⟨u, h3, h4⟩ := key b hb y hy
          rw [h1, h3] at hxy
          exact hab (name_inj (hS.names hl ha).2 (hS.names hl hb).2 h2 h4 (List.append_cancel_left hxy))

/-! ## `markdirs` -/

theorem finish_marked (S : Sys) (xs : List B) : finish S true xs true true = (finish S false xs true true).map (marked S true) := by
  unfold finish
  simp only [Bool.true_or, Bool.true_and, Bool.false_and, Bool.false_eq_true, if_false, if_true]
  by_cases h1 : S.lstat xs = none
  · simp [h1]
  · simp only [h1, if_false]
    by_cases h2 : xs.getLast? = some 47
    · have : marked S true xs = xs := by simp [marked, h2]
      cases h3 : S.isDir xs <;> simp [h2, this]
    · by_cases h4 : xs = []
      · subst h4; simp [marked]
      · cases h3 : S.isDir xs <;> simp [h2, h4, h3, marked]

theorem globit_marked {S : Sys} (hS : Consistent S) : ∀ (L : List (Nat × List B)) (t : Nat) (xs : List B) (ex gl : Bool), Good (decide (xs = [])) L →
    (HasPat S L ∨ (ex = true ∧ gl = true)) →
    globit S true xs (cont xs (ptext L t)) ex gl = (globit S false xs (cont xs (ptext L t)) ex gl).map (marked S true) := by
  intro L
  induction L with
  | nil =>
    intro t xs ex gl hg hp
    rcases hp with ⟨x, hx, -⟩ | ⟨rfl, rfl⟩
    · simp at hx
    · rw [globit_end S hS.empty, globit_end S hS.empty, finish_marked]
  | cons x L ih =>
    obtain ⟨s, c⟩ := x
    intro t xs ex gl hg hp
    have hsl : xs ≠ [] → 1 ≤ s := fun h => hg.1 (by simpa using h)
    have hL : Good false L := hg.2.2.2.2
    rw [globit_comp S true xs ex gl hg t, globit_comp S false xs ex gl hg t]
    cases hc : S.hg c with
    | false =>
      simp only [Bool.false_eq_true, if_false]
      have hne : xs ++ List.replicate s 47 ++ debunk c ≠ [] := by simp [debunk_ne c hg.2.1 hg.2.2.2.1]
      rw [cont_after hne]
      refine ih t _ ex gl (by rw [decide_eq_false hne]; exact hL) ?_
      rcases hp with ⟨x, hx, hxp⟩ | h
      · rcases List.mem_cons.1 hx with rfl | hx
        · rw [hc] at hxp; cases hxp
        · exact Or.inl ⟨x, hx, hxp⟩
      · exact Or.inr h
    | true =>
      simp only [if_true]
      cases hl : S.ls (dirOf (xs ++ List.replicate s 47)) with
      | none => simp
      | some l =>
        simp only [Option.getD_some, List.map_flatMap]
        unfold List.flatMap
        congr 1
        apply List.map_congr_left
        intro n hn
        have hnn := hS.names hl hn
        by_cases ht : taken S c n = true
        · rw [if_pos ht, if_pos ht]
          have hne : xs ++ List.replicate s 47 ++ n ≠ [] := by simp [hnn.1]
          have hex := (hS.entry (getLast?_slashes (xs := xs) hsl) hl ((taken_iff S c n hnn).1 ht).1).1 hn
          cases ha : after (ptext L t) with
          | none =>
            rw [globit, globit]
            have hlast := getLast?_name (q := xs ++ List.replicate s 47) hnn.1 hnn.2
            cases hd : S.isDir (xs ++ List.replicate s 47 ++ n) <;> simp_all [finish, marked]
          | some r =>
            rw [← ha, cont_after hne]
            rw [show (cont (xs ++ List.replicate s 47 ++ n) (ptext L t)).isSome = true by rw [← cont_after hne, ha]; rfl]
            exact ih t _ true true (by rw [decide_eq_false hne]; exact hL) (Or.inr ⟨rfl, rfl⟩)
        · rw [if_neg ht, if_neg ht]; rfl

/-! ## Every pattern has such components -/

/-- Every MAGIC marks a byte that is not a slash. -/
def Pairs : List B → Prop
  | [] => True
  | [c] => c ≠ 7
  | c :: d :: p => if c = 7 then d ≠ 47 ∧ Pairs p else Pairs (d :: p)

theorem pairs_slash {l : List B} (h : Pairs (47 :: l)) : Pairs l := by
  cases l with
  | nil => exact trivial
  | cons d l => simpa [Pairs] using h

theorem pairs_comp : ∀ (l : List B), Pairs l → Coded (l.takeWhile (· != 47)) ∧ Pairs (l.dropWhile (· != 47))
  | [], _ => ⟨trivial, trivial⟩
  | [c], h => by
    by_cases hc : c = 47
    · subst hc; simp [Coded, Pairs]
    · simp only [List.takeWhile_cons, List.dropWhile_cons, show (c != 47) = true by simpa using hc, if_true]
      exact ⟨h, trivial⟩
  | c :: d :: p, h => by
    unfold Pairs at h
    by_cases hc : c = 7
    · rw [if_pos hc] at h
      have ih := pairs_comp p h.2
      subst hc
      simp only [List.takeWhile_cons, List.dropWhile_cons, show ((7 : B) != 47) = true by decide, show (d != 47) = true by simpa using h.1, if_true]
      exact ⟨by unfold Coded; rw [if_pos rfl]; exact ih.1, ih.2⟩
    · rw [if_neg hc] at h
      by_cases hs : c = 47
      · subst hs
        refine ⟨by simp [Coded], ?_⟩
        simpa [Pairs] using h
      · have ih := pairs_comp (d :: p) h
        have e : (c != 47) = true := by simpa using hs
        rw [List.takeWhile_cons, List.dropWhile_cons]
        simp only [e, if_true]
        refine ⟨?_, ih.2⟩
        have := ih.1
        revert this
        cases List.takeWhile (fun x => x != 47) (d :: p) with
        | nil => intro _; exact hc
        | cons a b => intro h'; unfold Coded; rw [if_neg hc]; exact h'

theorem takeWhile_head (l : List B) : (l.dropWhile (· != 47)) = [] ∨ (l.dropWhile (· != 47)).head? = some 47 := by
  induction l with
  | nil => left; rfl
  | cons c l ih =>
    by_cases h : c = 47
    · subst h; right; rfl
    · rw [List.dropWhile_cons, if_pos (by simpa using h)]; exact ih

theorem mem_takeWhile (l : List B) : 47 ∉ l.takeWhile (· != 47) := by
  induction l with
  | nil => simp
  | cons c l ih =>
    rw [List.takeWhile_cons]
    by_cases h : c = 47
    · simp [h]
    · rw [if_pos (by simpa using h)]
      simp only [List.mem_cons, not_or]
      exact ⟨Ne.symm h, ih⟩

theorem slashes (l : List B) : ∃ k r, l = List.replicate k 47 ++ r ∧ r.head? ≠ some 47 := by
  induction l with
  | nil => exact ⟨0, [], rfl, by simp⟩
  | cons c l ih =>
    by_cases h : c = 47
    · obtain ⟨k, r, h1, h2⟩ := ih
      exact ⟨k + 1, r, by rw [h1, h]; rfl, h2⟩
    · exact ⟨0, c :: l, rfl, by simpa using h⟩

theorem pairs_slashes (k : Nat) (r : List B) (h : Pairs (List.replicate k 47 ++ r)) : Pairs r := by
  induction k with
  | zero => exact h
  | succ k ih => exact ih (pairs_slash h)

/-- Every word is a list of components with slashes. -/
theorem parse : ∀ (n : Nat) (cp : List B), cp.length ≤ n → ∀ first, (first = false → cp = [] ∨ cp.head? = some 47) → Pairs cp → ∃ L t, Good first L ∧ cp = ptext L t := by
  intro n
  induction n with
  | zero =>
    intro cp hn first _ _
    have : cp = [] := List.length_eq_zero_iff.1 (by omega)
    exact ⟨[], 0, trivial, by simp [this, ptext]⟩
  | succ n ih =>
    intro cp hn first hf hp
    obtain ⟨k, r, h1, h2⟩ := slashes cp
    subst h1
    cases hr : r with
    | nil => exact ⟨[], k, trivial, by simp [ptext]⟩
    | cons c r' =>
      rw [← hr]
      have hp' := pairs_slashes k r hp
      obtain ⟨h3, h4⟩ := pairs_comp r hp'
      have hc : c ≠ 47 := by rw [hr] at h2; simpa using h2
      have hne : r.takeWhile (· != 47) ≠ [] := by
        rw [hr, List.takeWhile_cons, if_pos (by simpa using hc)]; simp
      have hsum : r.takeWhile (· != 47) ++ r.dropWhile (· != 47) = r := List.takeWhile_append_dropWhile
      have hlen : (r.dropWhile (· != 47)).length ≤ n := by
        have e := congrArg List.length hsum
        simp only [List.length_append] at e hn
        have : 0 < (r.takeWhile (· != 47)).length := List.length_pos_iff.2 hne
        simp only [List.length_replicate] at hn
        omega
      obtain ⟨L, t, h5, h6⟩ := ih _ hlen false (fun _ => takeWhile_head r) h4
      refine ⟨(k, r.takeWhile (· != 47)) :: L, t, ⟨fun h => ?_, hne, mem_takeWhile r, h3, h5⟩, ?_⟩
      · rcases hf h with e | e
        · simp [hr] at e
        · cases k with
          | zero => exact absurd e h2
          | succ k => omega
      · rw [ptext, ← h6, hsum]

/-! ## The theorems -/

theorem names_text {t : Nat} : ∀ {L : List (Nat × List B)} {first : Bool}, Good first L → debunk (ptext L t) = path L (L.map fun x => debunk x.2) t := by
  have hrep : ∀ k (l : List B), debunk (List.replicate k 47 ++ l) = List.replicate k 47 ++ debunk l := by
    intro k l
    induction k with
    | zero => rfl
    | succ k ih =>
      have := debunk_append [47] (List.replicate k 47 ++ l) (by simp [Coded])
      rw [List.replicate_succ, List.cons_append, List.cons_append, ← ih]
      simpa [debunk] using this
  intro L
  induction L with
  | nil => intro first _; have := hrep t []; simpa [ptext, path, debunk] using this
  | cons x L ih =>
    obtain ⟨s, c⟩ := x
    intro first h
    rw [ptext, hrep, debunk_append c _ h.2.2.2.1, ih h.2.2.2.2]
    rfl

theorem gen_last {S : Sys} {t : Nat} {p : List B} : ∀ {L : List (Nat × List B)} {first : Bool} {pre : List B}, L ≠ [] → Good first L → Gen S pre L t p → p ≠ [] ∧ (p.getLast? = some 47 ↔ 0 < t) := by
  intro L
  induction L with
  | nil => intro _ _ h; exact absurd rfl h
  | cons x L ih =>
    obtain ⟨s, c⟩ := x
    intro first pre _ hg ⟨ms, h1, h2, h3⟩
    cases ms with
    | nil => exact absurd h1 (by simp [Names])
    | cons m ms =>
      obtain ⟨hf, -, hms⟩ := h1
      have hp : p = pre ++ List.replicate s 47 ++ m ++ path L ms t := by rw [h2]; simp [path]
      by_cases hL : L = []
      · subst hL
        cases ms with
        | cons m ms => exact absurd hms (by simp [Names])
        | nil =>
          have hm : m ≠ [] ∧ 47 ∉ m := by
            unfold Fit at hf
            by_cases hc : S.hg c = true
            · rw [if_pos hc] at hf; exact ⟨hf.1.ne, hf.1.slash⟩
            · rw [if_neg hc] at hf; subst hf; exact ⟨debunk_ne c hg.2.1 hg.2.2.2.1, debunk_slash c hg.2.2.1⟩
          refine ⟨by rw [hp]; simp [hm.1], ?_⟩
          cases t with
          | zero =>
            have := getLast?_name (q := pre ++ List.replicate s 47) hm.1 hm.2
            rw [hp]
            simp only [path, List.replicate_zero, List.append_nil, Nat.lt_irrefl, iff_false]
            exact this
          | succ t =>
            rw [hp]
            simp [path, List.getLast?_append, List.getLast?_replicate]
      · exact ih hL hg.2.2.2.2 ⟨ms, hms, hp, h3⟩

theorem marked_inj {S : Sys} {L : List (Nat × List B)} {t : Nat} {first md : Bool} {pre p q : List B} (hL : L ≠ []) (hg : Good first L) (hp : Gen S pre L t p) (hq : Gen S pre L t q)
    (h : marked S md p = marked S md q) : p = q := by
  have h1 := (gen_last hL hg hp).2
  have h2 := (gen_last hL hg hq).2
  unfold marked at h
  by_cases ht : 0 < t
  · rw [if_neg (fun h => h.2.2.1 (h1.2 ht)), if_neg (fun h => h.2.2.1 (h2.2 ht))] at h
    exact h
  · have h1' : p.getLast? ≠ some 47 := fun e => ht (h1.1 e)
    have h2' : q.getLast? ≠ some 47 := fun e => ht (h2.1 e)
    by_cases e1 : md = true ∧ p ≠ [] ∧ p.getLast? ≠ some 47 ∧ S.isDir p = true
    · rw [if_pos e1] at h
      by_cases e2 : md = true ∧ q ≠ [] ∧ q.getLast? ≠ some 47 ∧ S.isDir q = true
      · rw [if_pos e2] at h; exact List.append_cancel_right h
      · rw [if_neg e2] at h
        exact absurd (by rw [← h]; simp) h2'
    · rw [if_neg e1] at h
      by_cases e2 : md = true ∧ q ≠ [] ∧ q.getLast? ≠ some 47 ∧ S.isDir q = true
      · rw [if_pos e2] at h
        exact absurd (by rw [h]; simp) h1'
      · rw [if_neg e2] at h; exact h

theorem globit_md {S : Sys} (hS : Consistent S) {L : List (Nat × List B)} {t : Nat} (hg : Good true L) (hp : HasPat S L) (md : Bool) :
    globit S md [] (some (ptext L t)) false false = (globit S false [] (some (ptext L t)) false false).map (marked S md) := by
  cases md with
  | false =>
    have : marked S false = id := by funext p; simp [marked]
    rw [this, List.map_id]
  | true => exact globit_marked hS L t [] false false hg (Or.inl hp)

/-- **C77** A word with a pattern becomes the paths that it generates and that exist, each once, in order;
or, if there are none, its own text. -/
theorem glob_spec {S : Sys} (hS : Consistent S) {sort : List (List B) → List (List B)} {le : List B → List B → Prop}
    (hperm : ∀ l, (sort l).Perm l) (hsort : ∀ l, (sort l).Pairwise le) (md : Bool) {L : List (Nat × List B)} {t : Nat} (hg : Good true L) (hp : HasPat S L) :
    ((∃ p, Gen S [] L t p) → (∀ q, q ∈ glob S sort md (ptext L t) ↔ ∃ p, Gen S [] L t p ∧ q = marked S md p) ∧
      (glob S sort md (ptext L t)).Pairwise (fun a b => le a b ∧ a ≠ b)) ∧
    ((¬ ∃ p, Gen S [] L t p) → glob S sort md (ptext L t) = [debunk (ptext L t)]) := by
  have hLne : L ≠ [] := by rintro rfl; obtain ⟨x, hx, -⟩ := hp; simp at hx
  have hmem : ∀ p, p ∈ globit S false [] (some (ptext L t)) false false ↔ Gen S [] L t p := fun p => globit_mem hS L t [] false false hg (Or.inl hp) p
  have hnd : (globit S false [] (some (ptext L t)) false false).Nodup := globit_nodup hS L t [] false false hg
  have hmd := globit_md hS (t := t) hg hp md
  have hmem' : ∀ q, q ∈ globit S md [] (some (ptext L t)) false false ↔ ∃ p, Gen S [] L t p ∧ q = marked S md p := by
    intro q
    rw [hmd, List.mem_map]
    constructor
    · rintro ⟨p, h1, h2⟩; exact ⟨p, (hmem p).1 h1, h2.symm⟩
    · rintro ⟨p, h1, h2⟩; exact ⟨p, (hmem p).2 h1, h2.symm⟩
  have hnd' : (globit S md [] (some (ptext L t)) false false).Nodup := by
    rw [hmd]
    unfold List.Nodup
    rw [List.pairwise_map]
    refine List.Pairwise.imp_of_mem ?_ hnd
    intro a b ha hb hab h
    exact hab (marked_inj hLne hg ((hmem a).1 ha) ((hmem b).1 hb) h)
  constructor
  · rintro ⟨p, hp⟩
    have hne : globit S md [] (some (ptext L t)) false false ≠ [] := by
      intro h
      have := (hmem' _).2 ⟨p, hp, rfl⟩
      rw [h] at this
      simp at this
    have e : glob S sort md (ptext L t) = sort (globit S md [] (some (ptext L t)) false false) := by
      unfold glob; rw [if_neg hne]
    rw [e]
    refine ⟨fun q => by rw [(hperm _).mem_iff]; exact hmem' q, ?_⟩
    exact (hsort _).and ((hperm _).nodup_iff.2 hnd')
  · intro h
    have he : globit S md [] (some (ptext L t)) false false = [] := by
      apply List.eq_nil_iff_forall_not_mem.2
      intro q hq
      obtain ⟨p, hp, -⟩ := (hmem' q).1 hq
      exact h ⟨p, hp⟩
    unfold glob
    rw [if_pos he]

/-- **C77** A word without a pattern is left as it is; no file is looked at. -/
theorem glob_literal {S : Sys} (hE : S.hg [] = false) {sort : List (List B) → List (List B)} (hperm : ∀ l, (sort l).Perm l) (md : Bool) {L : List (Nat × List B)} {t : Nat} (hg : Good true L) (hp : ¬ HasPat S L) :
    glob S sort md (ptext L t) = [debunk (ptext L t)] := by
  have key : ∀ (L : List (Nat × List B)) (xs : List B), Good (decide (xs = [])) L → ¬ HasPat S L →
      globit S md xs (cont xs (ptext L t)) false false = [xs ++ path L (L.map fun x => debunk x.2) t] := by
    intro L
    induction L with
    | nil =>
      intro xs _ _
      rw [globit_end S hE]
      simp [finish, path]
    | cons x L ih =>
      obtain ⟨s, c⟩ := x
      intro xs hg hp
      have hc : S.hg c = false := by
        cases h : S.hg c with
        | false => rfl
        | true => exact absurd ⟨(s, c), by simp, h⟩ hp
      have hne : xs ++ List.replicate s 47 ++ debunk c ≠ [] := by simp [debunk_ne c hg.2.1 hg.2.2.2.1]
      rw [globit_comp S md xs false false hg t, hc]
      simp only [Bool.false_eq_true, if_false]
      rw [cont_after hne, ih _ (by rw [decide_eq_false hne]; exact hg.2.2.2.2) (fun ⟨x, hx, h⟩ => hp ⟨x, List.mem_cons_of_mem _ hx, h⟩)]
      simp [path]
  have h : globit S md [] (some (ptext L t)) false false = [debunk (ptext L t)] := by
    have := key L [] hg hp
    rw [names_text hg]
    rw [List.nil_append] at this
    exact this
  unfold glob
  rw [h, if_neg (by simp)]
  exact List.perm_singleton.1 (hperm _)

/-! ## A file system -/

/-- What a number stands for: a directory (readable, names, the directory above), a symbolic link, another file. -/
inductive Node where
  | dir (readable : Bool) (entries : List (List B × Nat)) (parent : Nat)
  | link (to : Option Nat)
  | file

structure Fs where
  node : Nat → Node
  root : Nat
  cwd : Nat

namespace Fs

def deref (F : Fs) (i : Nat) : Option Nat :=
  match F.node i with
  | .link to => to
  | _ => some i

def isDirNode (F : Fs) (i : Nat) : Bool :=
  match F.node i with
  | .dir _ _ _ => true
  | _ => false

/-- The directory that `i` is or points to. -/
def dirAt (F : Fs) (i : Nat) : Option Nat := (F.deref i).filter F.isDirNode

def find (F : Fs) (i : Nat) (name : List B) : Option Nat :=
  match F.node i with
  | .dir _ es up => if name = [46] then some i else if name = [46, 46] then some up else (es.find? (fun e => e.1 == name)).map (·.2)
  | _ => none

def step (F : Fs) (i : Nat) (name : List B) : Option Nat := (F.dirAt i).bind (fun j => F.find j name)

def walk (F : Fs) : Nat → List (List B) → Option Nat
  | i, [] => some i
  | i, c :: l => (F.step i c).bind (fun j => walk F j l)

/-- The components of a path. -/
def comps : List B → List B → List (List B)
  | acc, [] => if acc = [] then [] else [acc]
  | acc, c :: l => if c = 47 then (if acc = [] then comps [] l else acc :: comps [] l) else comps (acc ++ [c]) l

def start (F : Fs) (p : List B) : Nat := if p.head? = some 47 then F.root else F.cwd

def resolve (F : Fs) (p : List B) : Option Nat :=
  if p = [] then none
  else (F.walk (F.start p) (comps [] p)).bind (fun i => if p.getLast? = some 47 then F.dirAt i else some i)

def kind (F : Fs) (i : Nat) : Kind :=
  match F.node i with
  | .dir _ _ _ => .dir
  | .link _ => .link
  | .file => .other

def list (F : Fs) (i : Nat) : Option (List (List B)) :=
  match F.node i with
  | .dir true es _ => some ([46] :: [46, 46] :: es.map (·.1))
  | _ => none

def sys (F : Fs) (hg : List B → Bool) (mt : List B → List B → Bool) : Sys where
  ls q := ((F.resolve q).bind F.dirAt).bind F.list
  lstat q := (F.resolve q).map F.kind
  stat q := ((F.resolve q).bind F.deref).map F.kind
  hg := hg
  mt := mt

structure Valid (F : Fs) : Prop where
  names : ∀ {i r es up}, F.node i = .dir r es up → ∀ e ∈ es, Name e.1
  nodup : ∀ {i r es up}, F.node i = .dir r es up → (es.map (·.1)).Nodup
  root : F.isDirNode F.root = true
  cwd : F.isDirNode F.cwd = true

theorem comps_append (r : List B) : ∀ (q acc : List B), comps acc (q ++ 47 :: r) = comps acc q ++ comps [] r
  | [], acc => by
    simp only [List.nil_append, comps, if_true]
    split <;> simp
  | c :: q, acc => by
    simp only [List.cons_append, comps]
    split
    · split
      · exact comps_append r q []
      · rw [comps_append r q []]; rfl
    · exact comps_append r q _

theorem comps_name : ∀ (n acc : List B), 47 ∉ n → comps acc n = if acc ++ n = [] then [] else [acc ++ n]
  | [], acc, _ => by simp [comps]
  | c :: n, acc, h => by
    simp only [List.mem_cons, not_or] at h
    rw [comps, if_neg (Ne.symm h.1), comps_name n _ h.2]
    simp

theorem walk_append (F : Fs) : ∀ (l m : List (List B)) (i : Nat), F.walk i (l ++ m) = (F.walk i l).bind (fun j => F.walk j m)
  | [], m, i => rfl
  | c :: l, m, i => by
    simp only [List.cons_append, walk]
    cases F.step i c with
    | none => rfl
    | some j => exact walk_append F l m j

theorem dirAt_dir {F : Fs} {i : Nat} (h : F.isDirNode i = true) : F.dirAt i = some i := by
  have h' := h
  unfold isDirNode at h'
  unfold dirAt deref
  cases hn : F.node i <;> simp_all

theorem dirAt_isDir {F : Fs} {i j : Nat} (h : F.dirAt i = some j) : F.isDirNode j = true := by
  unfold dirAt at h
  exact (Option.filter_eq_some_iff.1 h).2

theorem walk_some_dir {F : Fs} {i : Nat} {l : List (List B)} (h : F.walk i l ≠ none) (hl : l ≠ []) : F.dirAt i ≠ none := by
  cases l with
  | nil => exact absurd rfl hl
  | cons c l =>
    intro e
    simp [walk, step, e] at h

theorem head_append {q r : List B} (h : q ≠ []) : (q ++ r).head? = q.head? := by
  cases q with
  | nil => exact absurd rfl h
  | cons c q => rfl

theorem up {F : Fs} {q r : List B} (hq : q ≠ []) (h : F.resolve (q ++ 47 :: r) ≠ none) : F.resolve q ≠ none := by
  unfold resolve at *
  rw [if_neg (by simp)] at h
  rw [if_neg hq]
  have hs : F.start (q ++ 47 :: r) = F.start q := by unfold start; rw [head_append hq]
  rw [hs, comps_append, walk_append] at h
  cases hw : F.walk (F.start q) (comps [] q) with
  | none => rw [hw] at h; simp at h
  | some i =>
    rw [hw] at h
    simp only [Option.bind_some] at h ⊢
    by_cases hl : q.getLast? = some 47
    · rw [if_pos hl]
      by_cases hr : comps [] r = []
      · -- nothing but slashes
        rw [hr] at h
        simp only [walk, Option.bind_some] at h
        have hlast : (q ++ 47 :: r).getLast? = some 47 := by
          have hsl : ∀ (r acc : List B), comps acc r = [] → acc = [] ∧ (r = [] ∨ r.getLast? = some 47) := by
            intro r
            induction r with
            | nil => intro acc h; simp only [comps] at h; by_cases ha : acc = [] <;> simp_all
            | cons c r ih =>
              intro acc h
              simp only [comps] at h
              by_cases hc : c = 47
              · rw [if_pos hc] at h
                by_cases ha : acc = []
                · rw [if_pos ha] at h
                  refine ⟨ha, Or.inr ?_⟩
                  rcases (ih [] h).2 with e | e
                  · simp [e, hc]
                  · rw [List.getLast?_cons, e]; simp
                · rw [if_neg ha] at h; simp at h
              · rw [if_neg hc] at h
                have := (ih _ h).1
                simp at this
          rw [List.getLast?_append, List.getLast?_cons]
          rcases (hsl r [] hr).2 with e | e
          · simp [e]
          · simp [e]
        rw [if_pos hlast] at h
        exact h
      · refine walk_some_dir (l := comps [] r) (fun e => h ?_) hr
        rw [e]; rfl
    · rw [if_neg hl]; simp

theorem list_some {F : Fs} {i : Nat} {l : List (List B)} (h : F.list i = some l) : ∃ es up, F.node i = .dir true es up ∧ l = [46] :: [46, 46] :: es.map (·.1) := by
  unfold list at h
  split at h
  · rename_i es up hn
    exact ⟨es, up, hn, (Option.some.inj h).symm⟩
  · cases h

/-- There are such file systems: every directory graph with proper names. -/
theorem consistent {F : Fs} (hF : F.Valid) {hg : List B → Bool} (hE : hg [] = false) (mt : List B → List B → Bool) : Consistent (F.sys hg mt) where
  names := by
    intro q l n h hn
    simp only [sys, Option.bind_eq_some_iff] at h
    obtain ⟨j, -, h⟩ := h
    obtain ⟨es, up, h1, rfl⟩ := list_some h
    simp only [List.mem_cons, List.mem_map] at hn
    rcases hn with rfl | rfl | ⟨e, he, rfl⟩
    · simp
    · simp
    · exact ⟨(hF.names h1 e he).ne, (hF.names h1 e he).slash⟩
  nodup := by
    intro q l h
    simp only [sys, Option.bind_eq_some_iff] at h
    obtain ⟨j, -, h⟩ := h
    obtain ⟨es, up, h1, rfl⟩ := list_some h
    simp only [List.nodup_cons, List.mem_cons, List.mem_map, not_or, not_exists, not_and]
    exact ⟨⟨by simp, fun e he h => (hF.names h1 e he).dot h⟩, fun e he h => (hF.names h1 e he).dots h, hF.nodup h1⟩
  entry := by
    intro q l n hq hl hn
    simp only [sys, Option.bind_eq_some_iff] at hl
    obtain ⟨j, ⟨i, hi, hij⟩, hl⟩ := hl
    obtain ⟨es, up, h1, rfl⟩ := list_some hl
    -- the directory of `q` is `j`
    have key : F.resolve (q ++ n) = F.find j n := by
      have hne : q ++ n ≠ [] := by simp [hn.ne]
      have hlast : (q ++ n).getLast? ≠ some 47 := getLast?_name hn.ne hn.slash
      unfold resolve
      rw [if_neg hne]
      simp only [hlast, if_false]
      rw [Option.bind_fun_some]
      rcases hq with rfl | hq
      · have hst : F.start ([] ++ n) = F.cwd := by
          unfold start
          rw [if_neg]
          intro h
          exact hn.slash (List.mem_of_mem_head? (by simpa using h))
        have hc := comps_name n [] hn.slash
        rw [List.nil_append, if_neg hn.ne] at hc
        rw [hst, List.nil_append, hc]
        have hi' : i = F.cwd := by
          have hd := dirAt_dir hF.cwd
          have hcwd := hF.cwd
          simp only [dirOf, if_true, resolve, start] at hi
          simp only [isDirNode] at hcwd
          revert hi
          simp only [show comps [] [46] = [[46]] from rfl, walk, step, find]
          cases hnode : F.node F.cwd <;> simp_all
        subst hi'
        simp only [walk, step, hij, Option.bind_some, Option.bind_fun_some]
      · obtain ⟨q', rfl⟩ : ∃ q', q = q' ++ [47] := by
          have hne' : q ≠ [] := by rintro rfl; simp at hq
          refine ⟨q.dropLast, ?_⟩
          rw [List.getLast?_eq_some_getLast hne', Option.some.injEq] at hq
          have := List.dropLast_concat_getLast hne'
          rw [hq] at this
          exact this.symm
        have hst : F.start (q' ++ [47] ++ n) = F.start (q' ++ [47]) := by unfold start; rw [head_append (by simp)]
        have hc := comps_name n [] hn.slash
        rw [List.nil_append, if_neg hn.ne] at hc
        have e1 : comps [] (q' ++ [47] ++ n) = comps [] q' ++ [n] := by
          rw [List.append_assoc]
          show comps [] (q' ++ 47 :: n) = _
          rw [comps_append, hc]
        have e2 : comps [] (q' ++ [47]) = comps [] q' := by
          have := comps_append [] q' []
          simpa [comps] using this
        rw [hst, e1, walk_append]
        have ed : dirOf (q' ++ [47]) = q' ++ [47] := by simp [dirOf]
        rw [ed] at hi
        unfold resolve at hi
        rw [if_neg (by simp), e2, Option.bind_eq_some_iff] at hi
        obtain ⟨a, ha, hi⟩ := hi
        rw [if_pos (by simp)] at hi
        have : i = j := by
          rw [dirAt_dir (dirAt_isDir hi)] at hij
          exact Option.some.inj hij
        subst this
        rw [ha]
        simp only [Option.bind_some, walk, step, hi, Option.bind_fun_some]
    show _ ↔ (F.resolve (q ++ n)).map F.kind ≠ none
    rw [key]
    simp only [List.mem_cons, hn.dot, hn.dots, false_or, find, h1, if_false]
    rw [ne_eq, Option.map_eq_none_iff, Option.map_eq_none_iff, List.find?_eq_none]
    simp only [List.mem_map, beq_iff_eq]
    constructor
    · rintro ⟨e, h2, h3⟩ h; exact h e h2 h3
    · intro h
      refine Classical.byContradiction fun h' => h fun e h2 h3 => h' ⟨e, h2, h3⟩
  up := by
    intro q r hq h
    simp only [sys, ne_eq, Option.map_eq_none_iff] at h ⊢
    exact Fs.up hq h
  empty := hE

/-- There, what counts as a directory is a directory or a link to one. -/
theorem isDir_iff (F : Fs) (hg : List B → Bool) (mt : List B → List B → Bool) (p : List B) :
    (F.sys hg mt).isDir p = true ↔ ∃ i j, F.resolve p = some i ∧ (j = i ∨ F.node i = .link (some j)) ∧ ∃ r es up, F.node j = .dir r es up := by
  unfold Sys.isDir sys
  simp only [Bool.or_eq_true, Bool.and_eq_true, beq_iff_eq, Option.map_eq_some_iff, Option.bind_eq_some_iff]
  have hk : ∀ i, F.kind i = .dir ↔ ∃ r es up, F.node i = .dir r es up := by
    intro i; unfold kind; cases F.node i <;> simp
  constructor
  · rintro (⟨i, h1, h2⟩ | ⟨⟨i, h1, h2⟩, j, ⟨i', h3, h4⟩, h5⟩)
    · exact ⟨i, i, h1, Or.inl rfl, (hk i).1 h2⟩
    · rw [h1] at h3
      cases h3
      refine ⟨i, j, h1, Or.inr ?_, (hk j).1 h5⟩
      revert h2 h4
      unfold kind deref
      cases F.node i <;> simp
  · rintro ⟨i, j, h1, h2 | h2, h3⟩
    · subst h2; exact Or.inl ⟨j, h1, (hk j).2 h3⟩
    · exact Or.inr ⟨⟨i, h1, by simp [kind, h2]⟩, j, ⟨i, h1, by simp [deref, h2]⟩, (hk j).2 h3⟩

end Fs

/-! ## Examples -/

/-- The directory `b` with the files `x` and `.h` is in `/`; so are the file `a` and the link `c` to `b`. -/
def exFs : Fs where
  node i := if i = 0 then .dir true [([97], 1), ([98], 2), ([99], 3)] 0 else if i = 2 then .dir true [([120], 4), ([46, 104], 4)] 0
    else if i = 3 then .link (some 2) else .file
  root := 0
  cwd := 0

theorem exFs_valid : exFs.Valid where
  names := by
    intro i r es up h e he
    simp only [exFs] at h
    split at h
    · cases h; simp at he; rcases he with rfl | rfl | rfl <;> exact ⟨by decide, by decide, by decide, by decide⟩
    · split at h
      · cases h; simp at he; rcases he with rfl | rfl <;> exact ⟨by decide, by decide, by decide, by decide⟩
      · split at h <;> cases h
  nodup := by
    intro i r es up h
    simp only [exFs] at h
    split at h
    · cases h; decide
    · split at h
      · cases h; decide
      · split at h <;> cases h
  root := rfl
  cwd := rfl

def exSys : Sys := exFs.sys Glob.hasGlobbing (fun n p => Glob.gmatch 100 n p true == some true)

theorem exSys_consistent : Consistent exSys := Fs.consistent exFs_valid (by decide) _

/-- `*/x` -/
def exPat : List (Nat × List B) := [(0, [7, 42]), (1, [120])]

example : Good true exPat ∧ HasPat exSys exPat := by
  refine ⟨by simp [Good, Coded, exPat], (0, [7, 42]), by simp [exPat], by decide⟩

/-- `b/x` and `c/x` -/
example : globit exSys false [] (some (ptext exPat 0)) false false = [[98, 47, 120], [99, 47, 120]] := by decide +kernel

/-- `*` with `markdirs`: `a`, `b/`, `c/` -/
example : globit exSys true [] (some [7, 42]) false false = [[97], [98, 47], [99, 47]] := by decide +kernel

/-- `b/.*`: neither `.` nor `..` -/
example : globit exSys false [] (some [98, 47, 46, 7, 42]) false false = [[98, 47, 46, 104]] := by decide +kernel

/-- `*/` only directories -/
example : globit exSys false [] (some [7, 42, 47]) false false = [[98, 47], [99, 47]] := by decide +kernel

/-- `*/y`: the word itself -/
example : glob exSys id false [7, 42, 47, 121] = [[42, 47, 121]] := by decide +kernel

end Ksh.Fname
