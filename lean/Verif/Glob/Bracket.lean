import Verif.Glob.Spec
/-! # Bracket expressions: `cclass` computes membership -/

namespace Ksh.Glob

@[simp] theorem at'_zero (c : B) (p : List B) : at' (c :: p) 0 = c := rfl
@[simp] theorem at'_succ (c : B) (p : List B) (i : Nat) : at' (c :: p) (i + 1) = at' p i := rfl
@[simp] theorem at'_nil (i : Nat) : at' [] i = 0 := rfl

/-- decidable counterparts of the specification -/
def Item.memB (c : B) : Item → Bool
  | .one a => c == a.c
  | .range a b => decide (a.c ≤ c) && decide (c ≤ b.c)
  | .cls n => match ctypeOf n with
    | some f => f c
    | none => false

def Item.validB : Item → Bool
  | .one _ => true
  | .range a b => decide (a.c ≤ b.c)
  | .cls n => (ctypeOf n).isSome

theorem inR_iff {lo hi c : B} : inR lo hi c = true ↔ lo ≤ c ∧ c ≤ hi := by
  simp [inR]

theorem ctype_names {n : List B} {f : B → Bool} (h : ctypeOf n = some f) :
    ∃ s ∈ classNames, bytes s = n ∧ ∀ c, f c = true ↔ ClassMem s c := by
  unfold ctypeOf at h
  simp only [Option.map_eq_some_iff] at h
  obtain ⟨e, he, rfl⟩ := h
  have hm := List.mem_of_find?_eq_some he
  have hn := List.find?_some he
  simp only [beq_iff_eq] at hn
  simp only [List.mem_cons, List.not_mem_nil, or_false] at hm
  rcases hm with rfl | rfl | rfl | rfl | rfl | rfl | rfl | rfl | rfl | rfl | rfl <;>
    refine ⟨_, ?_, hn, ?_⟩ <;> (try simp [classNames]) <;> intro c <;>
    simp only [ClassMem, Bool.or_eq_true, Bool.and_eq_true, inR_iff, beq_iff_eq, Bool.not_eq_true',
      ← Bool.not_eq_true, not_or, not_and] <;> omega

theorem ctype_isSome {s : String} (h : s ∈ classNames) : (ctypeOf (bytes s)).isSome = true := by
  simp only [classNames, List.mem_cons, List.not_mem_nil, or_false] at h
  rcases h with rfl | rfl | rfl | rfl | rfl | rfl | rfl | rfl | rfl | rfl | rfl <;> rfl

theorem bytes_inj {s t : String} (hs : s ∈ classNames) (ht : t ∈ classNames)
    (h : bytes s = bytes t) : s = t := by
  have : ∀ s ∈ classNames, ∀ t ∈ classNames, bytes s = bytes t → s = t := by decide +kernel
  exact this s hs t ht h

theorem Item.memB_iff (c : B) (i : Item) : i.memB c = true ↔ i.Mem c := by
  cases i with
  | one a => simp [memB, Mem]
  | range a b => simp [memB, Mem]
  | cls n =>
    simp only [memB, Mem]
    cases h : ctypeOf n with
    | none =>
      constructor
      · intro h; simp at h
      · rintro ⟨s, hs, rfl, _⟩
        have := ctype_isSome hs
        simp [h] at this
    | some f =>
      obtain ⟨s, hs, hn, hf⟩ := ctype_names h
      constructor
      · intro hc; exact ⟨s, hs, hn, (hf c).1 hc⟩
      · rintro ⟨t, ht, hn', hc⟩
        have := bytes_inj ht hs (hn'.trans hn.symm)
        subst this
        exact (hf c).2 hc

theorem Item.validB_iff (i : Item) : i.validB = true ↔ i.Valid := by
  cases i with
  | one a => simp [validB, Valid]
  | range a b => simp [validB, Valid]
  | cls n =>
    simp only [validB, Valid]
    constructor
    · intro h
      cases h' : ctypeOf n with
      | none => simp [h'] at h
      | some f =>
        obtain ⟨s, hs, hn, _⟩ := ctype_names h'
        exact ⟨s, hs, hn⟩
    · rintro ⟨s, hs, rfl⟩
      exact ctype_isSome hs

/-- The text of the remaining items and the end of the bracket. -/
def E (l : List Item) (X : List B) : List B := itemsEnc l ++ 7 :: 93 :: X

/-- What the loop must return. -/
def R (neg : Bool) (sub : B) (X : List B) (l : List Item) (found : Bool) : Option (List B) :=
  if l.all Item.validB && ((found || l.any (Item.memB sub)) != neg) then some X else none

theorem E_cons (i : Item) (l X) : E (i :: l) X = i.enc ++ E l X := by simp [E, itemsEnc]

theorem atEnd_E {l X} (h : TailOk l) : atEnd (E l X) = l.isEmpty := by
  cases l with
  | nil => simp [E, itemsEnc, atEnd]
  | cons i l =>
    obtain ⟨h1, -, -⟩ := h
    rw [E_cons]
    rcases h1 with ⟨rfl, rfl⟩ | h1
    · simp [hyphen, Item.enc, BChar.enc, atEnd]
    · cases i with
      | one a =>
        obtain ⟨m, c⟩ := a
        cases m <;> simp [Item.Ok, BChar.Ok, Item.enc, BChar.enc, atEnd] at * <;> omega
      | range a b =>
        obtain ⟨m, c⟩ := a
        cases m <;> simp [Item.Ok, BChar.Ok, Item.enc, BChar.enc, atEnd] at * <;> omega
      | cls n => simp [Item.enc, atEnd]

theorem atRange_E {l X} (h : TailOk l) : atRange (E l X) = false := by
  cases l with
  | nil => simp [E, itemsEnc, atRange]
  | cons i l =>
    obtain ⟨h1, -, -⟩ := h
    rw [E_cons]
    rcases h1 with ⟨rfl, rfl⟩ | h1
    · simp [hyphen, Item.enc, BChar.enc, atRange, E, itemsEnc]
    · cases i with
      | one a =>
        obtain ⟨m, c⟩ := a
        cases m <;> simp [Item.Ok, BChar.Ok, Item.enc, BChar.enc, atRange] at * <;> omega
      | range a b =>
        obtain ⟨m, c⟩ := a
        cases m <;> simp [Item.Ok, BChar.Ok, Item.enc, BChar.enc, atRange] at * <;> omega
      | cls n => simp [Item.enc, atRange]

theorem cclassChar_enc {a : BChar} {Y} (h : a.Ok ∨ a = ⟨true, 45⟩ ∨ a = ⟨true, 93⟩) :
    cclassChar (a.enc ++ Y) = (a.c, Y) ∧ a.c ≠ 0 := by
  rcases h with h | rfl | rfl
  · obtain ⟨m, c⟩ := a
    cases m
    · simp [BChar.Ok] at h
      simp [cclassChar, BChar.enc, h]
    · simp [BChar.Ok] at h
      have : ¬ 128 ≤ c := by omega
      have : c ≠ 0 := by omega
      simp [cclassChar, BChar.enc, *]
  · simp [cclassChar, BChar.enc]
  · simp [cclassChar, BChar.enc]

theorem cclassEnd_enc {a : BChar} {Y} (h : a.Ok) :
    cclassEnd (a.enc ++ Y) = (a.c, Y) := by
  obtain ⟨m, c⟩ := a
  cases m
  · simp [BChar.Ok] at h
    simp [cclassEnd, BChar.enc, h]
  · simp [BChar.Ok] at h
    have : ¬ 128 ≤ c := by omega
    simp [cclassEnd, BChar.enc, *]

theorem R_nil (neg sub) (X : List B) (found) (Y) : cclassRet (7 :: 93 :: Y) neg found = R neg sub Y [] found := by
  cases found <;> cases neg <;> simp [cclassRet, R]

theorem R_cons {i : Item} (hv : i.validB = true) (neg sub X l found) :
    R neg sub X (i :: l) found = R neg sub X l (found || i.memB sub) := by
  simp [R, hv, Bool.or_assoc]

theorem R_invalid {i : Item} (hv : i.validB = false) (neg sub X l found) :
    R neg sub X (i :: l) found = none := by
  simp [R, hv]

/-- the character phase on a single character -/
theorem one_step {again orig p sub neg found c l X} (hc : cclassChar p = (c, E l X)) (h0 : c ≠ 0)
    (hl : TailOk l) (hag : l ≠ [] → ∀ fd, again (E l X) fd = R neg sub X l fd) (m : Bool) :
    cclassOne again orig p sub neg found = R neg sub X (.one ⟨m, c⟩ :: l) found := by
  rw [R_cons (by rfl)]
  simp only [cclassOne, hc, if_neg h0, atRange_E hl]
  have hf : (c == sub || (decide (c ≤ sub) && decide (sub ≤ c))) = Item.memB sub (.one ⟨m, c⟩) := by
    rw [Bool.eq_iff_iff]; simp [Item.memB]; omega
  simp only [Bool.false_eq_true, false_and, if_false, hf, atEnd_E hl]
  cases l with
  | nil => simp only [List.isEmpty_nil, if_true]; exact R_nil _ _ X _ _
  | cons i l => simp only [List.isEmpty_cons, Bool.false_eq_true, if_false]; exact hag (by simp) _

/-- the character phase on a range -/
theorem range_step {again orig p sub neg found c b l X} (hb : b.Ok)
    (hc : cclassChar p = (c, 7 :: 45 :: (b.enc ++ E l X))) (h0 : c ≠ 0)
    (hl : TailOk l) (hag : l ≠ [] → ∀ fd, again (E l X) fd = R neg sub X l fd) (m : Bool) :
    cclassOne again orig p sub neg found = R neg sub X (.range ⟨m, c⟩ b :: l) found := by
  have hr : atRange (7 :: 45 :: (b.enc ++ E l X)) = true := by
    obtain ⟨m, c⟩ := b
    cases m <;> simp [BChar.Ok, BChar.enc, atRange] at *
    · exact Or.inl hb.2
    · omega
  simp only [cclassOne, hc, if_neg h0, hr, if_true, List.drop_succ_cons, List.drop_zero,
    cclassEnd_enc hb, true_and]
  by_cases hlt : b.c < c
  · rw [if_pos hlt, R_invalid (by simp [Item.validB, hlt])]
  · rw [if_neg hlt, R_cons (by simp [Item.validB]; omega)]
    have hf : (c == sub || (decide (c ≤ sub) && decide (sub ≤ b.c))) = Item.memB sub (.range ⟨m, c⟩ b) := by
      rw [Bool.eq_iff_iff]; simp [Item.memB]; omega
    simp only [hf, atEnd_E hl]
    cases l with
    | nil => simp only [List.isEmpty_nil, if_true]; exact R_nil _ _ X _ _
    | cons i l => simp only [List.isEmpty_cons, Bool.false_eq_true, if_false]; exact hag (by simp) _

def Item.isCls : Item → Bool
  | .cls _ => true
  | _ => false

theorem item_step {again orig sub neg found i l X} (hi : i.isCls = false)
    (hok : i.Ok ∨ i = hyphen ∨ i = rbrack)
    (hl : TailOk l) (hag : l ≠ [] → ∀ fd, again (E l X) fd = R neg sub X l fd) :
    cclassOne again orig (E (i :: l) X) sub neg found = R neg sub X (i :: l) found := by
  rw [E_cons]
  cases i with
  | one a =>
    have h : a.Ok ∨ a = ⟨true, 45⟩ ∨ a = ⟨true, 93⟩ := by
      rcases hok with h | h | h
      · exact Or.inl h
      · simp [hyphen] at h; simp [h]
      · simp [rbrack] at h; simp [h]
    exact one_step (cclassChar_enc h).1 (cclassChar_enc (Y := E l X) h).2 hl hag a.marked
  | range a b =>
    have h : a.Ok ∧ b.Ok := by
      rcases hok with h | h | h
      · exact h
      · simp [hyphen] at h
      · simp [rbrack] at h
    have := cclassChar_enc (Y := 7 :: 45 :: (b.enc ++ E l X)) (Or.inl h.1)
    exact range_step h.2 (by simpa [Item.enc] using this.1) this.2 hl hag a.marked
  | cls n => simp [Item.isCls] at hi

theorem atClass_item {i l X} (hi : i.isCls = false) (hok : i.Ok ∨ i = hyphen ∨ i = rbrack)
    (hopen : i.headOpen = true → ¬ startsColon (itemsEnc l)) :
    atClass (E (i :: l) X) = false := by
  have hY : i.headOpen = true → at' (E l X) 0 ≠ 58 := by
    intro h
    have := hopen h
    unfold E
    cases hh : itemsEnc l with
    | nil => simp
    | cons c t => simp only [hh, startsColon] at this; simpa using this
  rw [E_cons]
  rcases hok with h | rfl | rfl
  · cases i with
    | one a =>
      obtain ⟨m, c⟩ := a
      cases m
      · simp only [Item.Ok, BChar.Ok, Item.enc, BChar.enc, atClass, Item.headOpen] at *
        simp at h hY ⊢
        exact ⟨fun h7 => absurd h7 h.2, hY⟩
      · simp only [Item.Ok, BChar.Ok, Item.enc, BChar.enc, atClass, Item.headOpen] at *
        simp at h hY ⊢
        assumption
    | range a b =>
      obtain ⟨⟨m, c⟩, b⟩ := a, b
      cases m <;> simp [Item.Ok, BChar.Ok, Item.enc, BChar.enc, atClass] at *
    | cls n => simp [Item.isCls] at hi
  · simp [hyphen, Item.enc, BChar.enc, atClass]
  · simp [rbrack, Item.enc, BChar.enc, atClass]

theorem posix_enc {n Y sub} (h : NameOk n) :
    posixCclass (n ++ 58 :: 7 :: 93 :: Y) sub =
      (match ctypeOf n with
       | none => .invalid
       | some f => if f sub then .yes else .no, Y) := by
  have h1 : (n ++ 58 :: 7 :: 93 :: Y).takeWhile (· ≠ 58) = n := by
    rw [List.takeWhile_append_of_pos (by intro a ha; simpa using (h a ha).1)]
    simp
  have h2 : (n ++ 58 :: 7 :: 93 :: Y).dropWhile (· ≠ 58) = 58 :: 7 :: 93 :: Y := by
    rw [List.dropWhile_append_of_pos (by intro a ha; simpa using (h a ha).1)]
    simp
  simp only [posixCclass, h1, h2]
  simp
  cases ctypeOf n <;> rfl

/-- The rest of a list behind a run of classes. -/
def dropCls : List Item → List Item
  | .cls _ :: l => dropCls l
  | l => l

def runOk : List Item → Bool
  | .cls n :: l => Item.validB (.cls n) && runOk l
  | _ => true

def runMem (sub : B) : List Item → Bool
  | .cls n :: l => Item.memB sub (.cls n) || runMem sub l
  | _ => false

theorem R_run (neg sub X) : ∀ l found, R neg sub X l found =
    if runOk l then R neg sub X (dropCls l) (found || runMem sub l) else none
  | [], found => by simp [runOk, dropCls, runMem]
  | .one a :: l, found => by simp [runOk, dropCls, runMem]
  | .range a b :: l, found => by simp [runOk, dropCls, runMem]
  | .cls n :: l, found => by
    cases hv : Item.validB (.cls n) with
    | false => rw [R_invalid hv]; simp [runOk, hv]
    | true =>
      rw [R_cons hv, R_run neg sub X l]
      simp [runOk, hv, dropCls, runMem, Bool.or_assoc]

theorem at3_nonCls {l X} (h : TailOk l) (hn : ∀ n l', l ≠ .cls n :: l') :
    ¬ (at' (E l X) 0 = MAGIC ∧ at' (E l X) 1 = 91 ∧ at' (E l X) 2 = 58) := by
  cases l with
  | nil => simp [E, itemsEnc]
  | cons i l =>
    obtain ⟨h1, h2, h3⟩ := h
    have : atClass (E (i :: l) X) = false := by
      refine atClass_item ?_ ?_ h2
      · cases i with
        | cls n => exact absurd rfl (hn n l)
        | _ => rfl
      · rcases h1 with ⟨h, -⟩ | h
        · exact Or.inr (Or.inl h)
        · exact Or.inl h
    intro hh
    simp [atClass, hh] at this

theorem names_enc (sub X) : ∀ (l : List Item) (f n found) (pre : List B), TailOk l → NameOk n →
    l.length < f → (pre = [7, 91, 58] ∨ pre = [91, 58]) →
    cclassNames f (pre ++ n ++ 58 :: 7 :: 93 :: E l X) sub found =
      if runOk (.cls n :: l) then some (E (dropCls l) X, found || runMem sub (.cls n :: l)) else none := by
  intro l
  induction l with
  | nil =>
    intro f n found pre _ hn hf hp
    cases f with
    | zero => omega
    | succ f =>
      have hd : List.drop ((if at' (pre ++ n ++ 58 :: 7 :: 93 :: E [] X) 0 = MAGIC then 1 else 0) + 2)
          (pre ++ n ++ 58 :: 7 :: 93 :: E [] X) = n ++ 58 :: 7 :: 93 :: E [] X := by
        rcases hp with rfl | rfl <;> simp
      simp only [cclassNames, hd, posix_enc hn]
      cases hc : ctypeOf n with
      | none => simp [runOk, Item.validB, hc]
      | some g =>
        cases hg : g sub <;>
          simp [runOk, Item.validB, hc, runMem, Item.memB, hg, dropCls, E, itemsEnc]
  | cons i l ih =>
    intro f n found pre hl hn hf hp
    cases f with
    | zero => omega
    | succ f =>
      have hd : List.drop ((if at' (pre ++ n ++ 58 :: 7 :: 93 :: E (i :: l) X) 0 = MAGIC then 1 else 0) + 2)
          (pre ++ n ++ 58 :: 7 :: 93 :: E (i :: l) X) = n ++ 58 :: 7 :: 93 :: E (i :: l) X := by
        rcases hp with rfl | rfl <;> simp
      have key : ∀ fd, (if at' (E (i :: l) X) 0 = MAGIC ∧ at' (E (i :: l) X) 1 = 91 ∧ at' (E (i :: l) X) 2 = 58
          then cclassNames f (E (i :: l) X) sub fd else some (E (i :: l) X, fd)) =
          if runOk (i :: l) then some (E (dropCls (i :: l)) X, fd || runMem sub (i :: l)) else none := by
        intro fd
        cases i with
        | cls m =>
          have hm : NameOk m := by
            rcases hl.1 with ⟨h, -⟩ | h
            · simp [hyphen] at h
            · exact h
          have := ih f m fd [7, 91, 58] hl.2.2 hm (by simp at hf; omega) (Or.inl rfl)
          rw [E_cons]
          simp only [Item.enc]
          simp only [List.append_assoc, List.cons_append, List.nil_append] at this ⊢
          simp only [at'_zero, at'_succ, and_self, if_true]
          rw [this]
          simp [dropCls]
        | one a =>
          rw [if_neg (at3_nonCls hl (by simp))]
          simp [runOk, dropCls, runMem]
        | range a b =>
          rw [if_neg (at3_nonCls hl (by simp))]
          simp [runOk, dropCls, runMem]
      simp only [cclassNames, hd, posix_enc hn]
      cases hc : ctypeOf n with
      | none => simp [runOk, Item.validB, hc]
      | some g =>
        have h1 : runOk (.cls n :: i :: l) = runOk (i :: l) := by
          simp [runOk, Item.validB, hc]
        have h2 : runMem sub (.cls n :: i :: l) = (g sub || runMem sub (i :: l)) := by
          simp [runMem, Item.memB, hc]
        rw [h1, h2, ← Bool.or_assoc]
        cases hg : g sub
        · have := key found
          simpa [hg, show (PC.no == PC.yes) = false from rfl] using this
        · have := key true
          simp only [hg, if_true, Bool.or_true, show (PC.yes == PC.yes) = true from rfl, Bool.true_or] at this ⊢
          exact this

theorem dropCls_len : ∀ l, (dropCls l).length ≤ l.length
  | [] => by simp [dropCls]
  | .one _ :: _ => by simp [dropCls]
  | .range _ _ :: _ => by simp [dropCls]
  | .cls _ :: l => by have := dropCls_len l; simp [dropCls]; omega

theorem dropCls_tail : ∀ {l}, TailOk l → TailOk (dropCls l)
  | [], h => by simpa [dropCls] using h
  | .one _ :: _, h => by simpa [dropCls] using h
  | .range _ _ :: _, h => by simpa [dropCls] using h
  | .cls _ :: l, h => by simp only [dropCls]; exact dropCls_tail h.2.2

theorem dropCls_head {l i l'} : dropCls l = i :: l' → i.isCls = false := by
  induction l with
  | nil => simp [dropCls]
  | cons j l ih =>
    cases j with
    | cls n => simp only [dropCls]; exact ih
    | one a => simp only [dropCls]; rintro ⟨⟩; rfl
    | range a b => simp only [dropCls]; rintro ⟨⟩; rfl

theorem TailOk.head {i l} (h : TailOk (i :: l)) : i.Ok ∨ i = hyphen ∨ i = rbrack := by
  rcases h.1 with ⟨h, -⟩ | h
  · exact Or.inr (Or.inl h)
  · exact Or.inl h

/-- a list that starts with a class, given the loop on shorter lists -/
theorem cls_step {orig sub neg X n l f found} (pre : List B) (hp : pre = [7, 91, 58] ∨ pre = [91, 58])
    (hn : NameOk n) (hl : TailOk l) (hf : l.length ≤ f)
    (ih : ∀ l', l'.length < l.length → l' ≠ [] → TailOk l' → ∀ fd,
      cclassLoop orig sub neg f (E l' X) fd = R neg sub X l' fd) :
    cclassLoop orig sub neg (f + 1) (pre ++ n ++ 58 :: 7 :: 93 :: E l X) found =
      R neg sub X (.cls n :: l) found := by
  have hat : atClass (pre ++ n ++ 58 :: 7 :: 93 :: E l X) = true := by
    rcases hp with rfl | rfl <;> simp [atClass]
  simp only [cclassLoop, hat, if_true]
  rw [names_enc sub X l (f + 1) n found pre hl hn (by omega) hp, R_run]
  cases hr : runOk (.cls n :: l) with
  | false => simp
  | true =>
    simp only [if_true, atEnd_E (dropCls_tail hl)]
    have hdc : dropCls (.cls n :: l) = dropCls l := rfl
    rw [hdc]
    have hlen := dropCls_len l
    have ht := dropCls_tail hl
    have hh := @dropCls_head l
    generalize dropCls l = l' at *
    cases l' with
    | nil => simp only [List.isEmpty_nil, if_true]; exact R_nil _ _ X _ _
    | cons i l' =>
      simp only [List.isEmpty_cons, Bool.false_eq_true, if_false]
      exact item_step (hh rfl) ht.head ht.2.2 (fun hne fd => ih l' (by simp at hlen; omega) hne ht.2.2 fd)

theorem loop_enc (orig sub neg X) : ∀ (k : Nat) (l : List Item), l.length ≤ k → ∀ f found, l ≠ [] → TailOk l →
    l.length ≤ f → cclassLoop orig sub neg f (E l X) found = R neg sub X l found := by
  intro k
  induction k with
  | zero => intro l hk; cases l <;> simp at hk; simp
  | succ k ihk =>
    intro l hk f found hne hl hf
    cases l with
    | nil => simp at hne
    | cons i l =>
      cases f with
      | zero => simp at hf
      | succ f =>
        simp at hf hk
        have ih : ∀ l', l'.length ≤ l.length → l' ≠ [] → TailOk l' → ∀ fd,
            cclassLoop orig sub neg f (E l' X) fd = R neg sub X l' fd :=
          fun l' h1 h2 h3 fd => ihk l' (by omega) f fd h2 h3 (by omega)
        cases hc : i.isCls with
        | false =>
          simp only [cclassLoop, atClass_item (X := X) hc hl.head hl.2.1, Bool.false_eq_true, if_false]
          exact item_step hc hl.head hl.2.2 (fun hne fd => ih l (by omega) hne hl.2.2 fd)
        | true =>
          cases i with
          | one a => simp [Item.isCls] at hc
          | range a b => simp [Item.isCls] at hc
          | cls n =>
            have hn : NameOk n := by
              rcases hl.1 with ⟨h, -⟩ | h
              · simp [hyphen] at h
              · exact h
            have := cls_step (orig := orig) (sub := sub) (neg := neg) (X := X) (found := found) [7, 91, 58]
              (Or.inl rfl) hn hl.2.2 (by omega : l.length ≤ f) (fun l' h1 h2 h3 fd => ih l' (by omega) h2 h3 fd)
            rw [E_cons]
            simpa [Item.enc] using this

theorem enc_len_item (i : Item) : 0 < i.enc.length := by
  cases i with
  | one a => simp only [Item.enc, BChar.enc]; split <;> simp
  | range a b => simp [Item.enc]; omega
  | cls n => simp [Item.enc]

theorem itemsEnc_len : ∀ l : List Item, l.length ≤ (itemsEnc l).length
  | [] => by simp [itemsEnc]
  | i :: l => by
    have := itemsEnc_len l
    have := enc_len_item i
    simp [itemsEnc]; omega

/-- the loop on the whole list; `strip`: the leading MAGIC has been skipped -/
theorem head_enc {orig sub neg X l f} (h : HeadOk neg l) (hf : l.length ≤ f) :
    cclassLoop orig sub neg f (E l X) false = R neg sub X l false ∧
    (neg = false → at' (E l X) 0 = 7 →
      cclassLoop orig sub neg f ((E l X).drop 1) false = R neg sub X l false) := by
  cases l with
  | nil => exact absurd h id
  | cons i l =>
    obtain ⟨h1, h2, h3, h4⟩ := h
    cases f with
    | zero => simp at hf
    | succ f =>
      simp at hf
      have hok : i.Ok ∨ i = hyphen ∨ i = rbrack := by
        rcases h1 with h | h | h
        · exact Or.inr (Or.inl h)
        · exact Or.inr (Or.inr h)
        · exact Or.inl h
      have ih : ∀ l', l'.length ≤ l.length → l' ≠ [] → TailOk l' → ∀ fd,
            cclassLoop orig sub neg f (E l' X) fd = R neg sub X l' fd :=
          fun l' a1 a2 a3 fd => loop_enc orig sub neg X l'.length l' (by omega) f fd a2 a3 (by omega)
      have hag := fun hne fd => ih l (by omega) hne h4 fd
      cases hc : i.isCls with
      | true =>
        cases i with
        | one a => simp [Item.isCls] at hc
        | range a b => simp [Item.isCls] at hc
        | cls n =>
          have hn : NameOk n := by
            rcases hok with h | h | h
            · exact h
            · simp [hyphen] at h
            · simp [rbrack] at h
          rw [E_cons]
          constructor
          · have := cls_step (orig := orig) (sub := sub) (neg := neg) (X := X) (found := false) [7, 91, 58]
              (Or.inl rfl) hn h4 (by omega : l.length ≤ f) (fun l' h1 h2 h3 fd => ih l' (by omega) h2 h3 fd)
            simpa [Item.enc] using this
          · intro _ _
            have := cls_step (orig := orig) (sub := sub) (neg := neg) (X := X) (found := false) [91, 58]
              (Or.inr rfl) hn h4 (by omega : l.length ≤ f) (fun l' h1 h2 h3 fd => ih l' (by omega) h2 h3 fd)
            simpa [Item.enc] using this
      | false =>
        constructor
        · simp only [cclassLoop, atClass_item (X := X) hc hok h2, Bool.false_eq_true, if_false]
          exact item_step hc hok h4 hag
        · intro hneg h7
          have h3 := h3 hneg
          cases i with
          | cls n => simp [Item.isCls] at hc
          | one a =>
            obtain ⟨m, c⟩ := a
            have h3 := h3 ⟨m, c⟩ (Or.inl rfl)
            cases m with
            | false =>
              rw [E_cons] at h7
              rcases hok with h | h | h
              · simp [Item.Ok, BChar.Ok, Item.enc, BChar.enc] at h h7
                exact absurd h7 h.2
              · simp [hyphen] at h
              · simp [rbrack] at h
            | true =>
              have h3 := h3 rfl
              have hd : (E (.one ⟨true, c⟩ :: l) X).drop 1 = c :: E l X := by
                simp [E_cons, Item.enc, BChar.enc]
              have hcl : atClass (c :: E l X) = false := by
                have := atClass_item (X := X) hc hok h2
                rw [E_cons] at this
                simp [Item.enc, BChar.enc, atClass] at this h3 ⊢
                exact ⟨fun h => absurd h h3.2, this⟩
              have hc0 : c ≠ 0 := by
                rcases hok with h | h | h
                · simp [Item.Ok, BChar.Ok] at h; omega
                · simp [hyphen] at h; omega
                · simp [rbrack] at h; omega
              rw [hd]
              simp only [cclassLoop, hcl, Bool.false_eq_true, if_false]
              refine one_step ?_ hc0 h4 hag true
              simp at h3
              simp [cclassChar, h3.2]
          | range a b =>
            obtain ⟨m, c⟩ := a
            have h3 := h3 ⟨m, c⟩ (Or.inr ⟨b, rfl⟩)
            have hab : BChar.Ok ⟨m, c⟩ ∧ b.Ok := by
              rcases hok with h | h | h
              · exact h
              · simp [hyphen] at h
              · simp [rbrack] at h
            cases m with
            | false =>
              rw [E_cons] at h7
              have h := hab.1
              simp [BChar.Ok, Item.enc, BChar.enc] at h h7
              exact absurd h7 h.2
            | true =>
              have h3 := h3 rfl
              have hd : (E (.range ⟨true, c⟩ b :: l) X).drop 1 = c :: 7 :: 45 :: (b.enc ++ E l X) := by
                simp [E_cons, Item.enc, BChar.enc]
              have hcl : atClass (c :: 7 :: 45 :: (b.enc ++ E l X)) = false := by
                simp [atClass]
              have hc0 : c ≠ 0 := by
                have h := hab.1
                simp [BChar.Ok] at h; omega
              rw [hd]
              simp only [cclassLoop, hcl, Bool.false_eq_true, if_false]
              refine range_step hab.2 ?_ hc0 h4 hag true
              simp at h3
              simp [cclassChar, h3.2]

/-- `cclass` on the text of a bracket expression. -/
theorem cclass_enc {b : Brk} (h : b.Ok) (sub : B) (X : List B) :
    cclass ((b.enc ++ X).drop 2) sub = R b.neg sub X b.items false := by
  obtain ⟨neg, l⟩ := b
  have hlen := itemsEnc_len l
  cases neg with
  | true =>
    have hd : ((Brk.enc ⟨true, l⟩ ++ X).drop 2) = 7 :: 33 :: E l X := by
      simp [Brk.enc, E]
    rw [hd]
    simp only [cclass, at'_zero, at'_succ, if_true, List.drop_succ_cons, List.drop_zero]
    exact (head_enc h (by simp [E]; omega)).1
  | false =>
    have hd : ((Brk.enc ⟨false, l⟩ ++ X).drop 2) = E l X := by
      simp [Brk.enc, E]
    rw [hd]
    have hh := head_enc (orig := E l X) (sub := sub) (X := X) (f := (E l X).length + 1) h (by simp [E]; omega)
    simp only [cclass]
    by_cases h7 : at' (E l X) 0 = 7
    · have h33 : at' (E l X) 1 ≠ 33 := by
        cases l with
        | nil => exact absurd h id
        | cons i l =>
          obtain ⟨h1, h2, h3, h4⟩ := h
          rw [E_cons] at h7 ⊢
          cases i with
          | cls n => simp [Item.enc]
          | one a =>
            obtain ⟨m, c⟩ := a
            cases m with
            | true => have := h3 rfl ⟨true, c⟩ (Or.inl rfl) rfl; simpa [Item.enc, BChar.enc] using this.1
            | false =>
              rcases h1 with h | h | h
              · simp [hyphen] at h
              · simp [rbrack] at h
              · simp [Item.Ok, BChar.Ok, Item.enc, BChar.enc] at h h7; exact absurd h7 h.2
          | range a b =>
            obtain ⟨m, c⟩ := a
            cases m with
            | true => have := h3 rfl ⟨true, c⟩ (Or.inr ⟨b, rfl⟩) rfl; simpa [Item.enc, BChar.enc] using this.1
            | false =>
              rcases h1 with h | h | h
              · simp [hyphen] at h
              · simp [rbrack] at h
              · simp [Item.Ok, BChar.Ok, Item.enc, BChar.enc] at h h7; exact absurd h7 h.1.2
      rw [if_pos h7, if_neg h33]
      exact hh.2 rfl h7
    · rw [if_neg h7]
      exact hh.1

theorem R_mem {b : Brk} {sub X} [Decidable (b.Mem sub)] :
    R b.neg sub X b.items false = if b.Mem sub then some X else none := by
  have : (b.items.all Item.validB && ((false || b.items.any (Item.memB sub)) != b.neg)) = true ↔ b.Mem sub := by
    simp only [Brk.Mem, Bool.and_eq_true, List.all_eq_true, Item.validB_iff, Bool.false_or]
    refine and_congr_right fun _ => ?_
    have hany : b.items.any (Item.memB sub) = true ↔ ∃ i ∈ b.items, i.Mem sub := by
      simp only [List.any_eq_true, Item.memB_iff]
    rw [← hany]
    cases b.neg <;> cases b.items.any (Item.memB sub) <;> simp
  unfold R
  split <;> rename_i h
  · rw [if_pos (this.1 h)]
  · rw [if_neg (fun hm => h (this.2 hm))]

end Ksh.Glob
