import Verif.Glob.Lemmas
/-! # `has_globbing` agrees with the pattern language -/

namespace Ksh.Glob

/-- fuel does not matter once it exceeds the length -/
theorem hg_fuel : ∀ (f g : Nat) (p : List B) (nest bnest : Int) (saw inb : Bool), p.length < f → p.length < g →
    hasGlobbingLoop f p nest bnest saw inb = hasGlobbingLoop g p nest bnest saw inb := by
  intro f
  induction f with
  | zero => intro g p _ _ _ _ h; omega
  | succ f ih =>
    intro g p nest bnest saw inb hf hg
    cases g with
    | zero => omega
    | succ g =>
      cases p with
      | nil => rfl
      | cons c p =>
        simp only [List.length_cons] at hf hg
        have e : ∀ (q : List B) n b s i, q.length ≤ p.length →
            hasGlobbingLoop f q n b s i = hasGlobbingLoop g q n b s i :=
          fun q n b s i h => ih g q n b s i (by omega) (by omega)
        have h1 : (p.drop 1).length ≤ p.length := by simp
        have h2 : ∀ (q : List B) (P : Prop) [Decidable P], q.length ≤ p.length →
            (if P then q.drop 2 else q).length ≤ p.length := by
          intro q P _ h
          split
          · simp only [List.length_drop]; omega
          · exact h
        unfold hasGlobbingLoop
        simp only [e p _ _ _ _ (Nat.le_refl _), e (p.drop 1) _ _ _ _ h1,
          e _ _ _ _ _ (h2 _ _ (h2 _ _ h1))]

/-- `has_globbing` from a state in the middle of the scan. -/
def H (p : List B) (nest bnest : Int) (saw inb : Bool) : Bool :=
  hasGlobbingLoop (p.length + 1) p nest bnest saw inb

theorem hasGlobbing_eq (p : List B) : hasGlobbing p = H p 0 0 false false := rfl

theorem H_nil (nest b saw inb) : H [] nest b saw inb = (saw && !inb && nest == 0) := rfl

theorem hg_H {f p nest b saw inb} (h : p.length < f) : hasGlobbingLoop f p nest b saw inb = H p nest b saw inb :=
  hg_fuel _ _ _ _ _ _ _ h (by omega)

theorem H_plain {c p nest b saw inb} (h : c ≠ 7) : H (c :: p) nest b saw inb = H p nest b saw inb := by
  rw [H, hasGlobbingLoop]
  simp only [h, ne_eq, not_false_eq_true, if_true]
  exact hg_H (by first | omega | simp)

theorem H_other {d p nest b saw inb} (h1 : d ≠ 42) (h2 : d ≠ 63) (h3 : d ≠ 91) (h4 : d ≠ 93) (h5 : isExt d = false)
    (h6 : d ≠ 124) (h7 : d ≠ 41) : H (7 :: d :: p) nest b saw inb = H p nest b saw inb := by
  rw [H, hasGlobbingLoop]
  simp only [ne_eq, not_true_eq_false, if_false, at'_zero, List.drop_succ_cons, List.drop_zero, h1, h2, h3, h4, h5,
    h6, h7, or_self, Bool.false_eq_true]
  exact hg_H (by simp; omega)

theorem H_star {d p nest b saw inb} (h : d = 42 ∨ d = 63) : H (7 :: d :: p) nest b saw inb = H p nest b true inb := by
  rw [H, hasGlobbingLoop]
  simp only [ne_eq, not_true_eq_false, if_false, at'_zero, List.drop_succ_cons, List.drop_zero, h, if_true]
  exact hg_H (by simp; omega)

theorem H_lbrk_in {p nest b saw} : H (7 :: 91 :: p) nest b saw true = H p nest b saw true := by
  rw [H, hasGlobbingLoop]
  simp
  exact hg_H (by first | omega | simp)

/-- behind an opening `[` -/
def openSkip (q : List B) : List B :=
  let q := if at' q 0 = 7 ∧ at' q 1 = 33 then q.drop 2 else q
  if at' q 0 = 7 ∧ at' q 1 = 93 then q.drop 2 else q

theorem openSkip_len (q : List B) : (openSkip q).length ≤ q.length := by
  unfold openSkip
  have : ∀ (q : List B) (P : Prop) [Decidable P], (if P then q.drop 2 else q).length ≤ q.length := by
    intro q P _; split <;> simp
  exact Nat.le_trans (this _ _) (this _ _)

theorem H_lbrk_out {p nest b saw} : H (7 :: 91 :: p) nest b saw false = H (openSkip p) nest b true true := by
  rw [H, hasGlobbingLoop]
  simp only [ne_eq, not_true_eq_false, if_false, at'_zero, List.drop_succ_cons, List.drop_zero, if_true,
    show ¬ ((91 : Nat) = 42 ∨ (91 : Nat) = 63) by omega, Bool.not_false]
  have := openSkip_len p
  exact hg_H (p := openSkip p) (by simp; omega)

theorem H_rbrk_in {p nest saw} : H (7 :: 93 :: p) nest 0 saw true = H p nest 0 saw false := by
  rw [H, hasGlobbingLoop]
  simp
  exact hg_H (by first | omega | simp)

theorem H_rbrk_out {p nest b saw} : H (7 :: 93 :: p) nest b saw false = H p nest b saw false := by
  rw [H, hasGlobbingLoop]
  simp
  exact hg_H (by first | omega | simp)

theorem H_ext {d p nest b saw} (h : isExt d = true) : H (7 :: d :: p) nest b saw false = H p (nest + 1) b true false := by
  have hd : 128 ≤ d := by
    simp [isExt] at h; exact h.1
  rw [H, hasGlobbingLoop]
  simp only [ne_eq, not_true_eq_false, if_false, at'_zero, List.drop_succ_cons, List.drop_zero, h, if_true,
    show ¬ (d = 42 ∨ d = 63) by omega, show ¬ d = 91 by omega, show ¬ d = 93 by omega, Bool.false_eq_true]
  exact hg_H (by simp; omega)

theorem H_bar {p nest b saw} : H (7 :: 124 :: p) nest b saw false = H p nest b saw false := by
  rw [H, hasGlobbingLoop]
  simp [isExt]
  exact hg_H (by first | omega | simp)

theorem H_close {p b saw} {nest : Int} : H (7 :: 41 :: p) nest b saw false =
    H p (if nest ≠ 0 then nest - 1 else nest) b saw false := by
  rw [H, hasGlobbingLoop]
  simp only [ne_eq, not_true_eq_false, if_false, at'_zero, List.drop_succ_cons, List.drop_zero,
    show isExt 41 = false by decide, Bool.false_eq_true, if_true,
    show ¬ ((41 : Nat) = 42 ∨ (41 : Nat) = 63) by omega, show ¬ ((41 : Nat) = 91) by omega,
    show ¬ ((41 : Nat) = 93) by omega, show ¬ ((41 : Nat) = 124) by omega]
  split
  · exact hg_H (by simp; omega)
  · exact hg_H (by simp; omega)

/-! ## Brackets -/

def BChar.isOpen (a : BChar) : Bool := a.marked && a.c == 91

def Item.hasOpen : Item → Bool
  | .one a => a.isOpen
  | .range a b => a.isOpen || b.isOpen
  | .cls _ => false

/-- No unquoted `[` character behind a class (`has_globbing` takes the end of the class
for the end of the bracket). -/
def brkScanOk : Bool → List Item → Bool
  | _, [] => true
  | seen, i :: l => !(seen && i.hasOpen) && brkScanOk (seen || i.isCls) l

theorem H_bchar {a : BChar} (h : a.Ok ∨ a = ⟨true, 45⟩) {Y nest inb} (hi : inb = false → a.isOpen = false) :
    H (a.enc ++ Y) nest 0 true inb = H Y nest 0 true inb := by
  obtain ⟨m, c⟩ := a
  rcases h with h | h
  · cases m
    · simp [BChar.Ok] at h
      simp only [BChar.enc]
      exact H_plain h.2
    · simp [BChar.Ok] at h
      simp only [BChar.enc, if_true, List.cons_append, List.nil_append]
      rcases h with rfl | rfl | h | h | rfl
      · cases inb
        · simp [BChar.isOpen] at hi
        · exact H_lbrk_in
      · exact H_other (by omega) (by omega) (by omega) (by omega) (by decide) (by omega) (by omega)
      · rw [H_star (Or.inl h)]
      · rw [H_star (Or.inr h)]
      · exact H_other (by omega) (by omega) (by omega) (by omega) (by decide) (by omega) (by omega)
  · cases h
    exact H_other (d := 45) (by omega) (by omega) (by omega) (by omega) (by decide) (by omega) (by omega)

theorem H_name {Y nest saw inb} : ∀ {n : List B}, NameOk n → H (n ++ Y) nest 0 saw inb = H Y nest 0 saw inb
  | [], _ => rfl
  | c :: n, h => by
    rw [List.cons_append, H_plain (h c (by simp)).2.1, H_name fun d hd => h d (by simp [hd])]

theorem H_cls {n Y nest inb} (h : NameOk n) :
    H ((Item.cls n).enc ++ Y) nest 0 true inb = H Y nest 0 true false := by
  have : (Item.cls n).enc ++ Y = 7 :: 91 :: 58 :: (n ++ 58 :: 7 :: 93 :: Y) := by simp [Item.enc]
  rw [this]
  have hh : H (58 :: (n ++ 58 :: 7 :: 93 :: Y)) nest 0 true true = H Y nest 0 true false := by
    rw [H_plain (by omega), H_name h, H_plain (by omega), H_rbrk_in]
  cases inb
  · rw [H_lbrk_out]
    simpa [openSkip] using hh
  · rw [H_lbrk_in]; exact hh

theorem H_item {i : Item} (h : i.Ok ∨ i = hyphen) {Y nest inb} (hi : inb = false → i.hasOpen = false) :
    H (i.enc ++ Y) nest 0 true inb = H Y nest 0 true (inb && !i.isCls) := by
  cases i with
  | cls n =>
    have : NameOk n := by
      rcases h with h | h
      · exact h
      · simp [hyphen] at h
    rw [H_cls this]; simp [Item.isCls]
  | one a =>
    have : a.Ok ∨ a = ⟨true, 45⟩ := by
      rcases h with h | h
      · exact Or.inl h
      · simp [hyphen] at h; exact Or.inr h
    rw [Item.enc, H_bchar this hi]; simp [Item.isCls]
  | range a b =>
    have : a.Ok ∧ b.Ok := by
      rcases h with h | h
      · exact h
      · simp [hyphen] at h
    rw [Item.enc, List.append_assoc, List.append_assoc, H_bchar (Or.inl this.1), List.cons_append, List.cons_append,
      List.nil_append, H_other (by omega) (by omega) (by omega) (by omega) (by decide) (by omega) (by omega),
      H_bchar (Or.inl this.2)]
    · simp [Item.isCls]
    · intro h0; have := hi h0; simp [Item.hasOpen] at this; exact this.2
    · intro h0; have := hi h0; simp [Item.hasOpen] at this; exact this.1

theorem H_tail {X nest} : ∀ {l : List Item} {inb : Bool}, TailOk l → brkScanOk (!inb) l = true →
    H (E l X) nest 0 true inb = H X nest 0 true false
  | [], inb, _, _ => by
    cases inb
    · exact H_rbrk_out
    · exact H_rbrk_in
  | i :: l, inb, h, hs => by
    simp only [brkScanOk, Bool.and_eq_true] at hs
    have hok : i.Ok ∨ i = hyphen := by
      rcases h.1 with ⟨h, -⟩ | h
      · exact Or.inr h
      · exact Or.inl h
    rw [E_cons, H_item hok]
    · exact H_tail h.2.2 (by simpa using hs.2)
    · rintro rfl; simpa using hs.1

theorem H_brk {b : Brk} (h : b.Ok) (hs : brkScanOk false b.items = true) {X nest saw} :
    H (b.enc ++ X) nest 0 saw false = H X nest 0 true false := by
  obtain ⟨neg, l⟩ := b
  have he : Brk.enc ⟨neg, l⟩ ++ X = 7 :: 91 :: ((if neg then [7, 33] else []) ++ E l X) := by
    simp [Brk.enc, E]
  rw [he, H_lbrk_out]
  cases l with
  | nil => exact absurd h id
  | cons i l =>
    obtain ⟨h1, h2, h3, h4⟩ := h
    simp only at hs
    simp only [brkScanOk, Bool.false_and, Bool.not_false, Bool.true_and, Bool.false_or] at hs
    have h33 : neg = false → ¬ (at' (E (i :: l) X) 0 = 7 ∧ at' (E (i :: l) X) 1 = 33) := by
      rintro rfl
      rw [E_cons]
      have h3 := h3 rfl
      cases i with
      | cls n => simp [Item.enc]
      | one a =>
        obtain ⟨m, c⟩ := a
        cases m
        · rcases h1 with h | h | h
          · simp [hyphen] at h
          · simp [rbrack] at h
          · simp [Item.Ok, BChar.Ok] at h; simp [Item.enc, BChar.enc, h.2]
        · have := h3 ⟨true, c⟩ (Or.inl rfl) rfl
          simpa [Item.enc, BChar.enc] using this.1
      | range a b =>
        obtain ⟨m, c⟩ := a
        cases m
        · rcases h1 with h | h | h
          · simp [hyphen] at h
          · simp [rbrack] at h
          · simp [Item.Ok, BChar.Ok] at h; simp [Item.enc, BChar.enc, h.1.2]
        · have := h3 ⟨true, c⟩ (Or.inr ⟨b, rfl⟩) rfl
          simpa [Item.enc, BChar.enc] using this.1
    have hq : openSkip ((if neg then [7, 33] else []) ++ E (i :: l) X) =
        if at' (E (i :: l) X) 0 = 7 ∧ at' (E (i :: l) X) 1 = 93 then (E (i :: l) X).drop 2 else E (i :: l) X := by
      cases neg
      · simp only [openSkip, Bool.false_eq_true, if_false, List.nil_append, if_neg (h33 rfl)]
      · simp [openSkip]
    rw [hq]
    by_cases hr : i = rbrack
    · subst hr
      have : E (rbrack :: l) X = 7 :: 93 :: E l X := by simp [E_cons, rbrack, Item.enc, BChar.enc]
      rw [this]
      simp only [at'_zero, at'_succ, and_self, if_true, List.drop_succ_cons, List.drop_zero]
      exact H_tail h4 (by simpa [rbrack, Item.isCls] using hs)
    · have hok : i.Ok ∨ i = hyphen := by
        rcases h1 with h | h | h
        · exact Or.inr h
        · exact absurd h hr
        · exact Or.inl h
      have h93 : ¬ (at' (E (i :: l) X) 0 = 7 ∧ at' (E (i :: l) X) 1 = 93) := by
        rw [E_cons]
        rcases hok with h | rfl
        · cases i with
          | cls n => simp [Item.enc]
          | one a =>
            obtain ⟨m, c⟩ := a
            cases m <;> simp [Item.Ok, BChar.Ok, Item.enc, BChar.enc] at * <;> omega
          | range a b =>
            obtain ⟨m, c⟩ := a
            cases m <;> simp [Item.Ok, BChar.Ok, Item.enc, BChar.enc] at * <;> omega
        · simp [hyphen, Item.enc, BChar.enc]
      rw [if_neg h93, E_cons, H_item hok (by simp)]
      exact H_tail h4 (by simpa using hs)

/-! ## Patterns -/

mutual
/-- Every bracket of the pattern satisfies `brkScanOk`. -/
def Pat.ScanOk : Pat → Prop
  | .eps => True
  | .lit _ r => r.ScanOk
  | .esc _ r => r.ScanOk
  | .any r => r.ScanOk
  | .star r => r.ScanOk
  | .brk b r => brkScanOk false b.items = true ∧ r.ScanOk
  | .ext _ a r => a.ScanOk ∧ r.ScanOk
def Alts.ScanOk : Alts → Prop
  | .one p => p.ScanOk
  | .or p a => p.ScanOk ∧ a.ScanOk
end

theorem H_esc {c : B} (h : c = 33 ∨ c = 45 ∨ c = 93 ∨ c = 7 ∨ c = 123 ∨ c = 44 ∨ c = 125) {p nest saw} :
    H (7 :: c :: p) nest 0 saw false = H p nest 0 saw false := by
  by_cases h93 : c = 93
  · subst h93; exact H_rbrk_out
  · have he : isExt c = false := by
      have : ¬ 128 ≤ c := by omega
      simp [isExt, this]
    exact H_other (by omega) (by omega) (by omega) h93 he (by omega) (by omega)

mutual
theorem H_pat : ∀ (p : Pat), p.Ok → p.ScanOk → ∀ (Y : List B) (nest : Int) (saw : Bool), 0 ≤ nest →
    H (p.enc ++ Y) nest 0 saw false = H Y nest 0 (saw || !p.plain) false
  | .eps, _, _, Y, nest, saw, _ => by simp [Pat.enc, Pat.plain]
  | .lit c r, h, hs, Y, nest, saw, hn => by
    have h' : c ≠ 0 ∧ c ≠ 7 ∧ r.Ok := h
    rw [Pat.enc, List.cons_append, H_plain h'.2.1, H_pat r h'.2.2 hs Y nest saw hn, Pat.plain]
  | .esc c r, h, hs, Y, nest, saw, hn => by
    rw [Pat.enc, List.cons_append, List.cons_append, H_esc h.1, H_pat r h.2 hs Y nest saw hn, Pat.plain]
  | .any r, h, hs, Y, nest, saw, hn => by
    rw [Pat.enc, List.cons_append, List.cons_append, H_star (Or.inr rfl), H_pat r h hs Y nest true hn]
    simp [Pat.plain]
  | .star r, h, hs, Y, nest, saw, hn => by
    rw [Pat.enc, List.cons_append, List.cons_append, H_star (Or.inl rfl), H_pat r h hs Y nest true hn]
    simp [Pat.plain]
  | .brk b r, h, hs, Y, nest, saw, hn => by
    have h' : b.Ok ∧ r.Ok := h
    have hs' : brkScanOk false b.items = true ∧ r.ScanOk := hs
    rw [Pat.enc, List.append_assoc, H_brk h'.1 hs'.1, H_pat r h'.2 hs'.2 Y nest true hn]
    simp [Pat.plain]
  | .ext o a r, h, hs, Y, nest, saw, hn => by
    have h' : a.Ok ∧ r.Ok := h
    have hs' : a.ScanOk ∧ r.ScanOk := hs
    rw [Pat.enc, List.cons_append, List.cons_append, H_ext o.byte_ext, List.append_assoc,
      H_alts a h'.1 hs'.1 _ nest hn, H_pat r h'.2 hs'.2 Y nest true hn]
    simp [Pat.plain]
theorem H_alts : ∀ (a : Alts), a.Ok → a.ScanOk → ∀ (Y : List B) (nest : Int), 0 ≤ nest →
    H (a.enc ++ Y) (nest + 1) 0 true false = H Y nest 0 true false
  | .one p, h, hs, Y, nest, hn => by
    rw [Alts.enc, List.append_assoc, H_pat p h hs _ _ true (by omega), Bool.true_or, List.cons_append,
      List.cons_append, List.nil_append, H_close, if_pos (by omega)]
    congr 1; omega
  | .or p a, h, hs, Y, nest, hn => by
    have h' : p.Ok ∧ a.Ok := h
    have hs' : p.ScanOk ∧ a.ScanOk := hs
    rw [Alts.enc, List.append_assoc, H_pat p h'.1 hs'.1 _ _ true (by omega), Bool.true_or, List.cons_append,
      List.cons_append, H_bar, H_alts a h'.2 hs'.2 Y nest hn]
end

/-- `has_globbing` says "pattern" exactly for patterns with a construct. -/
theorem scan_enc {p : Pat} (h : p.Ok) (hs : p.ScanOk) : hasGlobbing p.enc = !p.plain := by
  have := H_pat p h hs [] 0 false (by omega)
  rw [List.append_nil] at this
  rw [hasGlobbing_eq, this, H_nil]
  simp

/-! ## Literal text -/

/-- `p` is how the expander writes the literal text `t`: some characters carry a mark,
none of the marked ones is a pattern operator. -/
inductive Literal : List B → List B → Prop
  | nil : Literal [] []
  | char {c p t} : c ≠ 7 → c ≠ 0 → Literal p t → Literal (c :: p) (c :: t)
  | mark {d p t} : d ≠ 42 → d ≠ 63 → d ≠ 91 → d ≠ 0 → isExt d = false → Literal p t →
      Literal (7 :: d :: p) (d :: t)

theorem Literal.H {p t : List B} (h : Literal p t) : ∀ nest, H p nest 0 false false = false := by
  induction h with
  | nil => intro n; rfl
  | char h _ _ ih => intro n; rw [H_plain h]; exact ih n
  | @mark d p t h1 h2 h3 h4 h5 _ ih =>
    intro n
    by_cases a : d = 93
    · subst a; rw [H_rbrk_out]; exact ih n
    by_cases b : d = 124
    · subst b; rw [H_bar]; exact ih n
    by_cases c : d = 41
    · subst c; rw [H_close]; exact ih _
    · rw [H_other h1 h2 h3 a h5 b c]; exact ih n

theorem debunk_plain {c : B} {p} (h : c ≠ 7) : debunk (c :: p) = c :: debunk p := by
  cases p with
  | nil => simp [debunk, h]
  | cons d p => simp [debunk, h]

theorem Literal.debunk {p t : List B} (h : Literal p t) : debunk p = t := by
  induction h with
  | nil => rfl
  | char h _ _ ih => rw [debunk_plain h, ih]
  | mark _ _ _ _ h5 _ ih => simp [Glob.debunk, h5, ih]

theorem not_op {d : B} (h5 : isExt d = false) :
    ¬ (d = 128 + 43 ∨ d = 128 + 42) ∧ ¬ (d = 128 + 63 ∨ d = 128 + 64 ∨ d = 128 + 32) ∧ ¬ (d = 128 + 33) := by
  refine ⟨?_, ?_, ?_⟩
  · rintro (rfl | rfl) <;> revert h5 <;> decide
  · rintro (rfl | rfl | rfl) <;> revert h5 <;> decide
  · rintro rfl; revert h5; decide

theorem Literal.gm {p t : List B} (h : Literal p t) : ∀ s, CStr s →
    Ev (fun n => gm n s p p.length) (s = t) := by
  induction h with
  | nil =>
    intro s _
    refine Ev.succ (g := fun _ => some (s == [])) (Ev.const (by simp)) (fun n => by simp [Glob.gm])
  | @char c p t h h0 _ ih =>
    intro s hs
    have hg : ∀ n, Glob.gm (n + 1) s (c :: p) (c :: p).length =
        if at' s 0 ≠ c then some false else Glob.gm n (s.drop 1) p p.length := fun n => by
      have := @gm_lit n s c p p.length (by omega) h
      simpa using this
    cases s with
    | nil =>
      refine Ev.succ (g := fun _ => some false) (Ev.false (by simp)) fun n => ?_
      rw [hg, if_pos (by simpa using fun h => h0 h.symm)]
    | cons a s =>
      by_cases hac : a = c
      · subst hac
        refine Ev.succ (g := fun n => Glob.gm n s p p.length)
          ((ih s (cstr_drop hs (u := [a]) rfl).2).congr (by simp)) fun n => ?_
        rw [hg]; simp
      · refine Ev.succ (g := fun _ => some false) (Ev.false (by simp [hac])) fun n => ?_
        rw [hg, if_pos (by simpa using hac)]
  | @mark c p t h1 h2 h3 h4 h5 _ ih =>
    intro s hs
    obtain ⟨n1, n2, n3⟩ := not_op h5
    have hg : ∀ n, Glob.gm (n + 1) s (7 :: c :: p) (7 :: c :: p).length =
        if at' s 0 ≠ c then some false else if s = [] then some false
        else Glob.gm n (s.drop 1) p p.length := fun n => by
      have : ¬ (p.length : Int) + 2 ≤ 0 := by omega
      have hl : ((7 :: c :: p).length : Int) = p.length + 2 := by simp [Int.add_assoc]
      rw [hl, Glob.gm]
      simp only [this, at'_zero, ne_eq, not_true_eq_false, if_false, List.drop_succ_cons, List.drop_zero, h1, h2, h3,
        n1, n2, n3, show (p.length : Int) + 2 - 2 = p.length by omega]
    cases s with
    | nil =>
      refine Ev.succ (g := fun _ => some false) (Ev.false (by simp)) fun n => ?_
      rw [hg, if_pos (by simpa using fun h => h4 h.symm)]
    | cons a s =>
      by_cases hac : a = c
      · subst hac
        refine Ev.succ (g := fun n => Glob.gm n s p p.length)
          ((ih s (cstr_drop hs (u := [a]) rfl).2).congr (by simp)) fun n => ?_
        rw [hg]; simp
      · refine Ev.succ (g := fun _ => some false) (Ev.false (by simp [hac])) fun n => ?_
        rw [hg, if_pos (by simpa using hac)]

theorem plain_literal : ∀ (p : Pat), p.Ok → p.plain = true → Literal p.enc p.text
  | .eps, _, _ => .nil
  | .lit c r, h, hp => .char h.2.1 h.1 (plain_literal r h.2.2 hp)
  | .esc c r, h, hp => by
    have h' : (c = 33 ∨ c = 45 ∨ c = 93 ∨ c = 7 ∨ c = 123 ∨ c = 44 ∨ c = 125) ∧ r.Ok := h
    have he : isExt c = false := by
      have : ¬ 128 ≤ c := by omega
      simp [isExt, this]
    exact .mark (by omega) (by omega) (by omega) (by omega) he (plain_literal r h'.2 hp)
  | .any r, _, hp => by simp [Pat.plain] at hp
  | .star r, _, hp => by simp [Pat.plain] at hp
  | .brk b r, _, hp => by simp [Pat.plain] at hp
  | .ext o a r, _, hp => by simp [Pat.plain] at hp

theorem plain_den : ∀ (p : Pat), p.plain = true → ∀ s, p.Den s ↔ s = p.text
  | .eps, _, s => Iff.rfl
  | .lit c r, hp, s => by
    have := plain_den r hp
    simp only [Pat.Den, this, Pat.text]
    exact ⟨by rintro ⟨t, rfl, rfl⟩; rfl, by rintro rfl; exact ⟨_, rfl, rfl⟩⟩
  | .esc c r, hp, s => by
    have := plain_den r hp
    simp only [Pat.Den, this, Pat.text]
    exact ⟨by rintro ⟨t, rfl, rfl⟩; rfl, by rintro rfl; exact ⟨_, rfl, rfl⟩⟩
  | .any r, hp, _ => by simp [Pat.plain] at hp
  | .star r, hp, _ => by simp [Pat.plain] at hp
  | .brk b r, hp, _ => by simp [Pat.plain] at hp
  | .ext o a r, hp, _ => by simp [Pat.plain] at hp

end Ksh.Glob
