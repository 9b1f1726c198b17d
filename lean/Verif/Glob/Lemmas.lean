import Verif.Glob.Bracket
/-! # The matcher decides the denotation of a pattern -/

namespace Ksh.Glob

/-! ## `pat_scan` on the text of a pattern -/

/-- Text without parentheses or bars that count. -/
inductive Neutral : List B → Prop
  | nil : Neutral []
  | plain {c l} : c ≠ 7 → Neutral l → Neutral (c :: l)
  | mark {d l} : d ≠ 41 → d ≠ 124 → isExt d = false → Neutral l → Neutral (7 :: d :: l)

theorem Neutral.append {l m : List B} (hl : Neutral l) (hm : Neutral m) : Neutral (l ++ m) := by
  induction hl with
  | nil => exact hm
  | plain h _ ih => exact .plain h ih
  | mark h1 h2 h3 _ ih => exact .mark h1 h2 h3 ih

theorem neutral_marked {c : B} {l} (h : c = 91 ∨ c = 33 ∨ c = 42 ∨ c = 63 ∨ c = 7 ∨ c = 45 ∨ c = 93)
    (hl : Neutral l) : Neutral (7 :: c :: l) := by
  refine .mark (by omega) (by omega) ?_ hl
  have : ¬ 128 ≤ c := by omega
  simp [isExt, this]

theorem BChar.neutral {a : BChar} (h : a.Ok ∨ a = ⟨true, 45⟩ ∨ a = ⟨true, 93⟩) : Neutral a.enc := by
  rcases h with h | rfl | rfl
  · obtain ⟨m, c⟩ := a
    cases m
    · simp [BChar.Ok] at h; exact .plain h.2 .nil
    · simp [BChar.Ok] at h; exact neutral_marked (c := c) (by omega) .nil
  · exact neutral_marked (c := 45) (by omega) .nil
  · exact neutral_marked (c := 93) (by omega) .nil

theorem name_neutral : ∀ {n : List B}, NameOk n → Neutral n
  | [], _ => .nil
  | c :: n, h => .plain (h c (by simp)).2.1 (name_neutral fun d hd => h d (by simp [hd]))

theorem Item.neutral {i : Item} (h : i.Ok ∨ i = hyphen ∨ i = rbrack) : Neutral i.enc := by
  cases i with
  | one a =>
    refine BChar.neutral ?_
    rcases h with h | h | h
    · exact Or.inl h
    · simp [hyphen] at h; simp [h]
    · simp [rbrack] at h; simp [h]
  | range a b =>
    have h : a.Ok ∧ b.Ok := by
      rcases h with h | h | h
      · exact h
      · simp [hyphen] at h
      · simp [rbrack] at h
    exact ((BChar.neutral (Or.inl h.1)).append (neutral_marked (by omega) .nil)).append (BChar.neutral (Or.inl h.2))
  | cls n =>
    have h : NameOk n := by
      rcases h with h | h | h
      · exact h
      · simp [hyphen] at h
      · simp [rbrack] at h
    exact Neutral.append (Neutral.append (neutral_marked (by omega) (.plain (by omega) .nil)) (name_neutral h))
      (.plain (by omega) (neutral_marked (by omega) .nil))

theorem tail_neutral : ∀ {l}, TailOk l → Neutral (itemsEnc l)
  | [], _ => .nil
  | _ :: _, h => (Item.neutral h.head).append (tail_neutral h.2.2)

theorem Brk.neutral {b : Brk} (h : b.Ok) : Neutral b.enc := by
  obtain ⟨neg, l⟩ := b
  have hl : Neutral (itemsEnc l) := by
    cases l with
    | nil => exact absurd h id
    | cons i l =>
      obtain ⟨h1, _, _, h4⟩ := h
      refine (Item.neutral ?_).append (tail_neutral h4)
      rcases h1 with h | h | h <;> simp [h]
  have hn : Neutral (if neg then [7, 33] else []) := by
    cases neg
    · exact .nil
    · exact neutral_marked (by omega) .nil
  exact (((neutral_marked (by omega) .nil).append hn).append hl).append (neutral_marked (by omega) .nil)

theorem scan_plain {sep c Z} {k : Int} {nest off} (hc : c ≠ 7) (hk : 0 < k) :
    patScan sep (c :: Z) k nest off = patScan sep Z (k - 1) nest (off + 1) := by
  cases Z with
  | nil => simp [patScan]
  | cons d Z => rw [patScan]; simp [hc]; intro h; omega

theorem scan_mark {sep d Z} {k : Int} {nest off} (h41 : d ≠ 41) (h124 : d ≠ 124) (hk : 0 < k) :
    patScan sep (7 :: d :: Z) k nest off =
      patScan sep Z (k - 2) (if isExt d then nest + 1 else nest) (off + 2) := by
  rw [patScan]
  have : ¬ k ≤ 0 := by omega
  simp [h41, h124, this]

theorem scan_bar {sep Z} {k : Int} {nest off} (hn : sep = false ∨ nest ≠ 0) (hk : 0 < k) :
    patScan sep (7 :: 124 :: Z) k nest off = patScan sep Z (k - 2) nest (off + 2) := by
  rw [patScan]
  have h1 : ¬ k ≤ 0 := by omega
  have h2 : ¬ (sep = true ∧ nest = 0) := by
    rintro ⟨h3, h4⟩
    rcases hn with h | h
    · rw [h] at h3; cases h3
    · exact h h4
  have h3 : isExt 124 = false := by decide
  simp only [h1, if_false, ne_eq, not_true_eq_false, show ¬ ((124 : Nat) = 41) by omega, true_and, h2, h3,
    Bool.false_eq_true]

theorem scan_bar0 {Z} {k : Int} {off} (hk : 0 < k) :
    patScan true (7 :: 124 :: Z) k 0 off = some (off + 2) := by
  rw [patScan]
  have h1 : ¬ k ≤ 0 := by omega
  simp [h1]

theorem scan_close {sep Z} {k : Int} {nest off} (hk : 0 < k) :
    patScan sep (7 :: 41 :: Z) k nest off =
      if nest = 0 then some (off + 2) else patScan sep Z (k - 2) (nest - 1) (off + 2) := by
  rw [patScan]
  have h1 : ¬ k ≤ 0 := by omega
  simp [h1]

theorem scan_neutral {sep nest Y} {k : Int} (hk : 0 ≤ k) {l : List B} (h : Neutral l) :
    ∀ off, patScan sep (l ++ Y) (l.length + k) nest off = patScan sep Y k nest (off + l.length) := by
  induction h with
  | nil => intro off; simp
  | @plain c l h _ ih =>
    intro off
    simp only [List.cons_append, List.length_cons]
    rw [scan_plain h (by omega), show ((l.length + 1 : Nat) : Int) + k - 1 = l.length + k by omega, ih]
    congr 1; omega
  | @mark d l h1 h2 h3 _ ih =>
    intro off
    simp only [List.cons_append, List.length_cons]
    rw [scan_mark h1 h2 (by omega), h3]
    simp only [Bool.false_eq_true, if_false]
    rw [show ((l.length + 1 + 1 : Nat) : Int) + k - 2 = l.length + k by omega, ih]
    congr 1; omega

theorem Op.byte_ext (o : Op) : isExt o.byte = true := by cases o <;> decide
theorem Op.byte_ge (o : Op) : 128 ≤ o.byte := by cases o <;> decide

mutual
theorem scan_pat (sep : Bool) : ∀ (p : Pat), p.Ok → ∀ (Y : List B) (k : Int) (nest off : Nat), 0 ≤ k →
    patScan sep (p.enc ++ Y) (p.enc.length + k) nest off = patScan sep Y k nest (off + p.enc.length)
  | .eps, _, Y, k, nest, off, hk => by simp [Pat.enc]
  | .lit c r, h, Y, k, nest, off, hk => by
    have h' : c ≠ 0 ∧ c ≠ 7 ∧ r.Ok := h
    simp only [Pat.enc, List.cons_append, List.length_cons]
    rw [scan_plain h'.2.1 (by omega), show ((r.enc.length + 1 : Nat) : Int) + k - 1 = r.enc.length + k by omega,
      scan_pat sep r h'.2.2 Y k nest _ hk]
    congr 1; omega
  | .esc c r, h, Y, k, nest, off, hk => by
    have h' : (c = 33 ∨ c = 45 ∨ c = 93 ∨ c = 7 ∨ c = 123 ∨ c = 44 ∨ c = 125) ∧ r.Ok := h
    have he : isExt c = false := by
      have : ¬ 128 ≤ c := by omega
      simp [isExt, this]
    simp only [Pat.enc, List.cons_append, List.length_cons]
    rw [scan_mark (by omega) (by omega) (by omega), he]
    simp only [Bool.false_eq_true, if_false]
    rw [show ((r.enc.length + 1 + 1 : Nat) : Int) + k - 2 = r.enc.length + k by omega,
      scan_pat sep r h'.2 Y k nest _ hk]
    congr 1; omega
  | .any r, h, Y, k, nest, off, hk => by
    simp only [Pat.enc, List.cons_append, List.length_cons]
    rw [scan_mark (by omega) (by omega) (by omega), show isExt 63 = false by decide]
    simp only [Bool.false_eq_true, if_false]
    rw [show ((r.enc.length + 1 + 1 : Nat) : Int) + k - 2 = r.enc.length + k by omega,
      scan_pat sep r h Y k nest _ hk]
    congr 1; omega
  | .star r, h, Y, k, nest, off, hk => by
    simp only [Pat.enc, List.cons_append, List.length_cons]
    rw [scan_mark (by omega) (by omega) (by omega), show isExt 42 = false by decide]
    simp only [Bool.false_eq_true, if_false]
    rw [show ((r.enc.length + 1 + 1 : Nat) : Int) + k - 2 = r.enc.length + k by omega,
      scan_pat sep r h Y k nest _ hk]
    congr 1; omega
  | .brk b r, h, Y, k, nest, off, hk => by
    have h' : b.Ok ∧ r.Ok := h
    simp only [Pat.enc, List.append_assoc, List.length_append]
    rw [show ((b.enc.length + r.enc.length : Nat) : Int) + k = b.enc.length + (r.enc.length + k) by omega,
      scan_neutral (by omega) (Brk.neutral h'.1), scan_pat sep r h'.2 Y k nest _ hk]
    congr 1; omega
  | .ext o a r, h, Y, k, nest, off, hk => by
    have h' : a.Ok ∧ r.Ok := h
    have hb := o.byte_ge
    simp only [Pat.enc, List.cons_append, List.length_cons, List.append_assoc, List.length_append]
    rw [scan_mark (by omega) (by omega) (by omega), o.byte_ext]
    simp only [if_true]
    rw [show ((a.enc.length + r.enc.length + 1 + 1 : Nat) : Int) + k - 2 = a.enc.length + (r.enc.length + k) by omega,
      scan_alts sep a h'.1 _ _ _ _ (by omega) (Nat.succ_ne_zero _), Nat.succ_sub_one,
      scan_pat sep r h'.2 Y k nest _ hk]
    congr 1; omega
theorem scan_alts (sep : Bool) : ∀ (a : Alts), a.Ok → ∀ (Y : List B) (k : Int) (nest off : Nat), 0 ≤ k → nest ≠ 0 →
    patScan sep (a.enc ++ Y) (a.enc.length + k) nest off = patScan sep Y k (nest - 1) (off + a.enc.length)
  | .one p, h, Y, k, nest, off, hk, hn => by
    simp only [Alts.enc, List.append_assoc, List.length_append, List.cons_append, List.nil_append,
      List.length_cons, List.length_nil]
    rw [show ((p.enc.length + (0 + 1 + 1) : Nat) : Int) + k = p.enc.length + (2 + k) by omega,
      scan_pat sep p h _ _ _ _ (by omega), scan_close (by omega), if_neg hn,
      show (2 : Int) + k - 2 = k by omega]
    congr 1
  | .or p a, h, Y, k, nest, off, hk, hn => by
    have h' : p.Ok ∧ a.Ok := h
    simp only [Alts.enc, List.append_assoc, List.length_append, List.cons_append, List.length_cons]
    rw [show ((p.enc.length + (a.enc.length + 1 + 1) : Nat) : Int) + k = p.enc.length + (2 + (a.enc.length + k)) by omega,
      scan_pat sep p h'.1 _ _ _ _ (by omega), scan_bar (Or.inr hn) (by omega),
      show (2 : Int) + (a.enc.length + k) - 2 = a.enc.length + k by omega,
      scan_alts sep a h'.2 _ _ _ _ hk hn]
    congr 1; omega
end

/-- `pat_scan(p, pe, 0)` finds the end of the group. -/
theorem scan_group : ∀ (a : Alts), a.Ok → ∀ (Y : List B) (k : Int) (off : Nat), 0 ≤ k →
    patScan false (a.enc ++ Y) (a.enc.length + k) 0 off = some (off + a.enc.length)
  | .one p, h, Y, k, off, hk => by
    simp only [Alts.enc, List.append_assoc, List.length_append, List.cons_append, List.nil_append,
      List.length_cons, List.length_nil]
    rw [show ((p.enc.length + (0 + 1 + 1) : Nat) : Int) + k = p.enc.length + (2 + k) by omega,
      scan_pat false p h _ _ _ _ (by omega), scan_close (by omega), if_pos rfl]
    congr 1
  | .or p a, h, Y, k, off, hk => by
    have h' : p.Ok ∧ a.Ok := h
    simp only [Alts.enc, List.append_assoc, List.length_append, List.cons_append, List.length_cons]
    rw [show ((p.enc.length + (a.enc.length + 1 + 1) : Nat) : Int) + k = p.enc.length + (2 + (a.enc.length + k)) by omega,
      scan_pat false p h'.1 _ _ _ _ (by omega), scan_bar (Or.inl rfl) (by omega),
      show (2 : Int) + (a.enc.length + k) - 2 = a.enc.length + k by omega,
      scan_group a h'.2 _ _ _ hk]
    congr 1; omega

/-- the alternatives, each with the text behind it -/
def subsOf : Alts → List B → List (Pat × List B)
  | .one p, Y => [(p, 7 :: 41 :: Y)]
  | .or p a, Y => (p, 7 :: 124 :: (a.enc ++ Y)) :: subsOf a Y

def subText (x : Pat × List B) : List B × Int := (x.1.enc ++ x.2, (x.1.enc.length : Int))

theorem alts_len (a : Alts) : 2 ≤ a.enc.length := by
  cases a <;> simp [Alts.enc] <;> omega

theorem subPats_enc (P : List B) (K : Int) (Y : List B) : ∀ (a : Alts) (k : Int) (f off : Nat), a.Ok → 0 ≤ k →
    P.drop off = a.enc ++ Y → K - off = a.enc.length + k → a.enc.length ≤ f →
    subPats P K (off + a.enc.length) f off = some ((subsOf a Y).map subText)
  | .one p, k, f, off, h, hk, hd, hK, hf => by
    have := alts_len (.one p)
    cases f with
    | zero => omega
    | succ f =>
      have h' : p.Ok := h
      have hs : patScan true (P.drop off) (K - off) 0 off = some (off + (p.enc.length + 2)) := by
        rw [hd, hK]
        simp only [Alts.enc, List.append_assoc, List.length_append, List.cons_append, List.nil_append,
          List.length_cons, List.length_nil]
        rw [show ((p.enc.length + (0 + 1 + 1) : Nat) : Int) + k = p.enc.length + (2 + k) by omega,
          scan_pat true p h _ _ _ _ (by omega), scan_close (by omega), if_pos rfl]
        congr 1
      simp only [subPats, hs]
      have he : (Alts.one p).enc.length = p.enc.length + 2 := by simp [Alts.enc]
      rw [he, if_pos rfl, hd]
      simp only [subsOf, List.map_cons, List.map_nil, subText, Alts.enc, List.append_assoc, List.cons_append,
        List.nil_append]
      congr 4; omega
  | .or p a, k, f, off, h, hk, hd, hK, hf => by
    have h' : p.Ok ∧ a.Ok := h
    have ha := alts_len a
    have he : (Alts.or p a).enc.length = p.enc.length + 2 + a.enc.length := by simp [Alts.enc]; omega
    cases f with
    | zero => omega
    | succ f =>
      have hs : patScan true (P.drop off) (K - off) 0 off = some (off + (p.enc.length + 2)) := by
        rw [hd, hK, he]
        simp only [Alts.enc, List.append_assoc, List.cons_append]
        rw [show ((p.enc.length + 2 + a.enc.length : Nat) : Int) + k = p.enc.length + (2 + (a.enc.length + k)) by omega,
          scan_pat true p h'.1 _ _ _ _ (by omega), scan_bar0 (by omega)]
        congr 1
      have hd2 : P.drop (off + (p.enc.length + 2)) = a.enc ++ Y := by
        rw [← List.drop_drop, hd]
        simp only [Alts.enc, List.append_assoc]
        rw [← List.drop_drop, List.drop_left]
        rfl
      simp only [subPats, hs]
      rw [if_neg (by omega), he]
      have := subPats_enc P K Y a k f (off + (p.enc.length + 2)) h'.2 hk hd2 (by omega) (by omega)
      rw [show off + (p.enc.length + 2 + a.enc.length) = off + (p.enc.length + 2) + a.enc.length by omega, this, hd]
      simp only [subsOf, List.map_cons, Option.map_some, subText, Alts.enc, List.append_assoc, List.cons_append]
      congr 4; omega

theorem subs_den (Y) (u : List B) : ∀ (a : Alts), (∃ x ∈ subsOf a Y, x.1.Den u) ↔ a.Den u
  | .one p => by simp [subsOf, Alts.Den]
  | .or p a => by
    have := subs_den Y u a
    simp only [subsOf, List.mem_cons, Alts.Den, ← this]
    constructor
    · rintro ⟨x, rfl | hx, hd⟩
      · exact Or.inl hd
      · exact Or.inr ⟨x, hx, hd⟩
    · rintro (h | ⟨x, hx, hd⟩)
      · exact ⟨_, Or.inl rfl, h⟩
      · exact ⟨x, Or.inr hx, hd⟩

/-! ## "Eventually decides" -/

/-- With enough fuel `f` answers whether `P`. -/
def Ev (f : Nat → Option Bool) (P : Prop) : Prop :=
  ∃ N, ∀ n ≥ N, ∃ b, f n = some b ∧ (b = true ↔ P)

theorem Ev.congr {f P Q} (h : Ev f P) (hpq : P ↔ Q) : Ev f Q := by
  obtain ⟨N, h⟩ := h
  exact ⟨N, fun n hn => (h n hn).imp fun b hb => ⟨hb.1, hb.2.trans hpq⟩⟩

theorem Ev.succ {f g : Nat → Option Bool} {P} (h : Ev g P) (hfg : ∀ n, f (n + 1) = g n) : Ev f P := by
  obtain ⟨N, h⟩ := h
  refine ⟨N + 1, fun n hn => ?_⟩
  cases n with
  | zero => omega
  | succ n => rw [hfg]; exact h n (by omega)

theorem Ev.of_eq {f g : Nat → Option Bool} {P} (h : Ev g P) (hfg : ∀ n, f n = g n) : Ev f P := by
  obtain ⟨N, h⟩ := h
  exact ⟨N, fun n hn => by rw [hfg]; exact h n hn⟩

theorem Ev.const {b : Bool} {P : Prop} (h : b = true ↔ P) : Ev (fun _ => some b) P :=
  ⟨0, fun _ _ => ⟨b, rfl, h⟩⟩

theorem Ev.false {P : Prop} (h : ¬ P) : Ev (fun _ => some Bool.false) P :=
  Ev.const (by simp [h])

theorem Ev.true {P : Prop} (h : P) : Ev (fun _ => some Bool.true) P :=
  Ev.const (by simp [h])

theorem Ev.anyM {α : Type} {f : Nat → α → Option Bool} {P : α → Prop} :
    ∀ {l : List α}, (∀ a ∈ l, Ev (fun n => f n a) (P a)) →
      Ev (fun n => Glob.anyM (f n) l) (∃ a ∈ l, P a)
  | [], _ => Ev.false (by simp)
  | a :: l, h => by
    obtain ⟨N, h1⟩ := h a (by simp)
    obtain ⟨M, h2⟩ := Ev.anyM (l := l) fun b hb => h b (by simp [hb])
    refine ⟨max N M, fun n hn => ?_⟩
    obtain ⟨b, hb, hbp⟩ := h1 n (by omega)
    obtain ⟨c, hc, hcp⟩ := h2 n (by omega)
    cases b with
    | true =>
      refine ⟨Bool.true, ?_, ?_⟩
      · simp only [Glob.anyM, hb]
      · exact iff_of_true rfl ⟨a, by simp, hbp.1 rfl⟩
    | false =>
      refine ⟨c, ?_, ?_⟩
      · simp only [Glob.anyM, hb, hc]
      · rw [hcp]
        constructor
        · rintro ⟨x, hx, hp⟩; exact ⟨x, by simp [hx], hp⟩
        · rintro ⟨x, hx, hp⟩
          rcases List.mem_cons.1 hx with rfl | hx
          · exact absurd (hbp.2 hp) (by simp)
          · exact ⟨x, hx, hp⟩

theorem Ev.andM {f g : Nat → Option Bool} {P Q} (h1 : Ev f P) (h2 : Ev g Q) :
    Ev (fun n => Glob.andM (f n) fun _ => g n) (P ∧ Q) := by
  obtain ⟨N, h1⟩ := h1
  obtain ⟨M, h2⟩ := h2
  refine ⟨max N M, fun n hn => ?_⟩
  obtain ⟨b, hb, hbp⟩ := h1 n (by omega)
  obtain ⟨c, hc, hcp⟩ := h2 n (by omega)
  cases b with
  | true => exact ⟨c, by simp only [Glob.andM, hb, hc], by rw [hcp]; exact ⟨fun h => ⟨hbp.1 rfl, h⟩, fun h => h.2⟩⟩
  | false =>
    exact ⟨Bool.false, by simp only [Glob.andM, hb],
      iff_of_false (by simp) (fun h => absurd (hbp.2 h.1) (by simp))⟩

theorem Ev.orM {f g : Nat → Option Bool} {P Q} (h1 : Ev f P) (h2 : Ev g Q) :
    Ev (fun n => Glob.orM (f n) fun _ => g n) (P ∨ Q) := by
  obtain ⟨N, h1⟩ := h1
  obtain ⟨M, h2⟩ := h2
  refine ⟨max N M, fun n hn => ?_⟩
  obtain ⟨b, hb, hbp⟩ := h1 n (by omega)
  obtain ⟨c, hc, hcp⟩ := h2 n (by omega)
  cases b with
  | false =>
    refine ⟨c, by simp only [Glob.orM, hb, hc], ?_⟩
    rw [hcp]
    exact ⟨Or.inr, fun h => h.resolve_left fun hp => absurd (hbp.2 hp) (by simp)⟩
  | true =>
    exact ⟨Bool.true, by simp only [Glob.orM, hb], iff_of_true rfl (Or.inl (hbp.1 rfl))⟩

theorem Ev.notM {f : Nat → Option Bool} {P} (h : Ev f P) : Ev (fun n => Glob.notM (f n)) (¬ P) := by
  obtain ⟨N, h⟩ := h
  refine ⟨N, fun n hn => ?_⟩
  obtain ⟨b, hb, hbp⟩ := h n hn
  refine ⟨!b, by simp [Glob.notM, hb], ?_⟩
  rw [← hbp]; simp

theorem mem_splits {s u t : List B} : (u, t) ∈ splits s ↔ s = u ++ t := by
  simp only [splits, List.mem_map, List.mem_range]
  constructor
  · rintro ⟨i, _, h⟩
    cases h
    exact (List.take_append_drop i s).symm
  · rintro rfl
    exact ⟨u.length, by simp; omega, by simp⟩

/-! ## Collapsing stars -/

/-- The pattern without its leading stars. -/
def Pat.unstar : Pat → Pat
  | .star r => r.unstar
  | p => p

/-- The text does not begin with a star. -/
def NoStar (Y : List B) : Prop := ∀ c d Z, Y = c :: d :: Z → ¬ (c = 7 ∧ d = 42)

theorem collapse_stop {Y : List B} (h : NoStar Y) (k : Int) : collapse Y k = (Y, k) := by
  match Y, h with
  | [], _ => simp [collapse]
  | [c], _ => simp [collapse]
  | c :: d :: Z, h =>
    rw [collapse, if_neg (h c d Z rfl)]

theorem nostar_plain {c : B} {Z} (h : c ≠ 7) : NoStar (c :: Z) := by
  rintro c' d' Z' he ⟨rfl, _⟩
  cases he
  exact h rfl

theorem nostar_mark {d : B} {Z} (h : d ≠ 42) : NoStar (7 :: d :: Z) := by
  rintro c' d' Z' he ⟨_, rfl⟩
  cases he
  exact h rfl

theorem brk_head (b : Brk) (Z : List B) : ∃ W, b.enc ++ Z = 7 :: 91 :: W := by
  simp [Brk.enc]

theorem collapse_pat {Y : List B} (hY : NoStar Y) : ∀ (p : Pat), p.Ok →
    collapse (p.enc ++ Y) p.enc.length = (p.unstar.enc ++ Y, (p.unstar.enc.length : Int))
  | .eps, _ => by simp only [Pat.enc, Pat.unstar]; exact collapse_stop hY _
  | .lit c r, h => collapse_stop (nostar_plain h.2.1) _
  | .esc c r, h => by
    have h' : (c = 33 ∨ c = 45 ∨ c = 93 ∨ c = 7 ∨ c = 123 ∨ c = 44 ∨ c = 125) ∧ r.Ok := h
    exact collapse_stop (nostar_mark (by omega)) _
  | .any r, _ => collapse_stop (nostar_mark (by omega)) _
  | .star r, h => by
    have := collapse_pat hY r h
    simp only [Pat.enc, List.cons_append, List.length_cons, collapse, and_self, if_true, Pat.unstar]
    rw [← this]; congr 1; omega
  | .brk b r, _ => by
    simp only [Pat.unstar]
    refine collapse_stop ?_ _
    simp only [Pat.enc, List.append_assoc]
    obtain ⟨W, hW⟩ := brk_head b (r.enc ++ Y)
    rw [hW]; exact nostar_mark (by omega)
  | .ext o a r, _ => by
    have := o.byte_ge
    exact collapse_stop (nostar_mark (by omega)) _

theorem unstar_den : ∀ (p : Pat) (s : List B), (Pat.star p).Den s ↔ (Pat.star p.unstar).Den s
  | .star r, s => by
    rw [Pat.unstar, ← unstar_den r s]
    simp only [Pat.Den]
    constructor
    · rintro ⟨u, t, rfl, u', t', rfl, h⟩
      exact ⟨u ++ u', t', by simp, h⟩
    · rintro ⟨u, t, rfl, h⟩
      exact ⟨u, t, rfl, [], t, rfl, h⟩
  | .eps, s => Iff.rfl
  | .lit c r, s => Iff.rfl
  | .esc c r, s => Iff.rfl
  | .any r, s => Iff.rfl
  | .brk b r, s => Iff.rfl
  | .ext o a r, s => Iff.rfl

theorem enc_nil {p : Pat} (h : p.enc.length = 0) : p = .eps := by
  cases p with
  | eps => rfl
  | lit c r => simp [Pat.enc] at h
  | esc c r => simp [Pat.enc] at h
  | any r => simp [Pat.enc] at h
  | star r => simp [Pat.enc] at h
  | brk b r => simp [Pat.enc, Brk.enc] at h
  | ext o a r => simp [Pat.enc] at h

/-! ## The matcher -/

def Corr (p : Pat) : Prop :=
  ∀ s Y, CStr s → NoStar Y → Ev (fun n => gm n s (p.enc ++ Y) p.enc.length) (p.Den s)

theorem cstr_drop {s : List B} (h : CStr s) {u t} (hs : s = u ++ t) : CStr u ∧ CStr t :=
  ⟨fun c hc => h c (by simp [hs, hc]), fun c hc => h c (by simp [hs, hc])⟩

theorem gm_zero_k {n s p} : gm (n + 1) s p 0 = some (s == []) := by
  simp [gm]

theorem corr_eps : Corr .eps := by
  intro s Y _ _
  refine Ev.succ (g := fun _ => some (s == [])) (Ev.const ?_) (fun n => ?_)
  · simp [Pat.Den]
  · simp [Pat.enc, gm]

theorem gm_lit {n s c p} {k : Int} (hk : 0 ≤ k) (hc : c ≠ 7) :
    gm (n + 1) s (c :: p) (k + 1) = if at' s 0 ≠ c then some false else gm n (s.drop 1) p k := by
  have : ¬ k + 1 ≤ 0 := by omega
  rw [gm]; simp [this, hc]

theorem gm_mark {n s d p} {k : Int} (hk : 0 ≤ k) (h1 : d ≠ 91) (h2 : d ≠ 63) (h3 : d ≠ 42) (h4 : d < 128) :
    gm (n + 1) s (7 :: d :: p) (k + 2) =
      if at' s 0 ≠ d then some false else if s = [] then some false else gm n (s.drop 1) p k := by
  have : ¬ k + 2 ≤ 0 := by omega
  have h5 : ¬ (d = 128 + 43 ∨ d = 128 + 42) := by omega
  have h6 : ¬ (d = 128 + 63 ∨ d = 128 + 64 ∨ d = 128 + 32) := by omega
  have h7 : ¬ (d = 128 + 33) := by omega
  rw [gm]
  simp only [this, at'_zero, ne_eq, not_true_eq_false, if_false, List.drop_succ_cons, List.drop_zero, h1, h2, h3,
    h5, h6, h7, show k + 2 - 2 = k by omega]

theorem corr_lit {c r} (hc0 : c ≠ 0) (hc : c ≠ 7) (hr : Corr r) : Corr (.lit c r) := by
  intro s Y hs hY
  have hg : ∀ n, gm (n + 1) s ((Pat.lit c r).enc ++ Y) (Pat.lit c r).enc.length =
      if at' s 0 ≠ c then some false else gm n (s.drop 1) (r.enc ++ Y) r.enc.length := by
    intro n
    have := @gm_lit n s c (r.enc ++ Y) r.enc.length (by omega) hc
    simpa [Pat.enc, Int.add_assoc] using this
  cases s with
  | nil =>
    refine Ev.succ (g := fun _ => some false) (Ev.false (by simp [Pat.Den])) fun n => ?_
    rw [hg, if_pos (by simpa using fun h => hc0 h.symm)]
  | cons a s =>
    by_cases hac : a = c
    · subst hac
      refine Ev.succ (g := fun n => gm n s (r.enc ++ Y) r.enc.length)
        ((hr s Y (cstr_drop hs (u := [a]) rfl).2 hY).congr ?_) fun n => ?_
      · simp [Pat.Den]
      · rw [hg]; simp
    · refine Ev.succ (g := fun _ => some false) (Ev.false ?_) fun n => ?_
      · rintro ⟨t, ht, _⟩; cases ht; exact hac rfl
      · rw [hg, if_pos (by simpa using hac)]

theorem corr_esc {c r} (hc : c = 33 ∨ c = 45 ∨ c = 93 ∨ c = 7 ∨ c = 123 ∨ c = 44 ∨ c = 125) (hr : Corr r) :
    Corr (.esc c r) := by
  intro s Y hs hY
  have hg : ∀ n, gm (n + 1) s ((Pat.esc c r).enc ++ Y) (Pat.esc c r).enc.length =
      if at' s 0 ≠ c then some false else if s = [] then some false
      else gm n (s.drop 1) (r.enc ++ Y) r.enc.length := by
    intro n
    have := @gm_mark n s c (r.enc ++ Y) r.enc.length (by omega) (by omega) (by omega) (by omega) (by omega)
    simpa [Pat.enc, Int.add_assoc] using this
  cases s with
  | nil =>
    refine Ev.succ (g := fun _ => some false) (Ev.false (by simp [Pat.Den])) fun n => ?_
    rw [hg, if_pos (by simp; omega)]
  | cons a s =>
    by_cases hac : a = c
    · subst hac
      refine Ev.succ (g := fun n => gm n s (r.enc ++ Y) r.enc.length)
        ((hr s Y (cstr_drop hs (u := [a]) rfl).2 hY).congr ?_) fun n => ?_
      · simp [Pat.Den]
      · rw [hg]; simp
    · refine Ev.succ (g := fun _ => some false) (Ev.false ?_) fun n => ?_
      · rintro ⟨t, ht, _⟩; cases ht; exact hac rfl
      · rw [hg, if_pos (by simpa using hac)]

theorem gm_any {n s p} {k : Int} (hk : 0 ≤ k) :
    gm (n + 1) s (7 :: 63 :: p) (k + 2) =
      if at' s 0 = 0 then some false else gm n (s.drop 1) p k := by
  have : ¬ k + 2 ≤ 0 := by omega
  rw [gm]
  simp [this, show k + 2 - 2 = k by omega]

theorem corr_any {r} (hr : Corr r) : Corr (.any r) := by
  intro s Y hs hY
  have hg : ∀ n, gm (n + 1) s ((Pat.any r).enc ++ Y) (Pat.any r).enc.length =
      if at' s 0 = 0 then some false else gm n (s.drop 1) (r.enc ++ Y) r.enc.length := by
    intro n
    have := @gm_any n s (r.enc ++ Y) r.enc.length (by omega)
    simpa [Pat.enc, Int.add_assoc] using this
  cases s with
  | nil =>
    refine Ev.succ (g := fun _ => some false) (Ev.false (by simp [Pat.Den])) fun n => ?_
    rw [hg, at'_nil, if_pos rfl]
  | cons a s =>
    have ha : a ≠ 0 := hs a (by simp)
    refine Ev.succ (g := fun n => gm n s (r.enc ++ Y) r.enc.length)
      ((hr s Y (cstr_drop hs (u := [a]) rfl).2 hY).congr ?_) fun n => ?_
    · simp only [Pat.Den]
      exact ⟨fun h => ⟨a, s, rfl, h⟩, by rintro ⟨c, t, h, h'⟩; cases h; exact h'⟩
    · rw [hg]; simp [ha]

theorem gm_brk {n s p} {k : Int} (hk : 0 ≤ k) :
    gm (n + 1) s (7 :: 91 :: p) (k + 2) =
      if at' s 0 = 0 then some false
      else match cclass p (at' s 0) with
        | none => some false
        | some q => gm n (s.drop 1) q (k - (p.length - q.length)) := by
  have : ¬ k + 2 ≤ 0 := by omega
  rw [gm]
  simp only [this, at'_zero, ne_eq, not_true_eq_false, if_false, List.drop_succ_cons, List.drop_zero, at'_succ,
    if_true, show k + 2 - 2 = k by omega]
  rfl

open Classical in
theorem corr_brk {b : Brk} {r} (hb : b.Ok) (hr : Corr r) : Corr (.brk b r) := by
  intro s Y hs hY
  obtain ⟨W, hW⟩ := brk_head b (r.enc ++ Y)
  have hlen : b.enc.length + (r.enc.length + Y.length) = W.length + 2 := by
    have := congrArg List.length hW
    simpa using this
  have hb2 : 2 ≤ b.enc.length := by simp [Brk.enc]
  have hcc : ∀ sub, cclass W sub = if b.Mem sub then some (r.enc ++ Y) else none := by
    intro sub
    have := cclass_enc hb sub (r.enc ++ Y)
    rw [hW] at this
    simpa [R_mem] using this
  have hg : ∀ n, gm (n + 1) s ((Pat.brk b r).enc ++ Y) (Pat.brk b r).enc.length =
      if at' s 0 = 0 then some false else if b.Mem (at' s 0) then gm n (s.drop 1) (r.enc ++ Y) r.enc.length
      else some false := by
    intro n
    simp only [Pat.enc, List.append_assoc, List.length_append]
    rw [hW, show ((b.enc.length + r.enc.length : Nat) : Int) = (((b.enc.length - 2 + r.enc.length : Nat)) : Int) + 2 by omega,
      gm_brk (by omega), hcc]
    congr 1
    by_cases hm : b.Mem (at' s 0)
    · simp only [if_pos hm, List.length_append]
      congr 1; omega
    · simp only [if_neg hm]
  cases s with
  | nil =>
    refine Ev.succ (g := fun _ => some false) (Ev.false (by simp [Pat.Den])) fun n => ?_
    rw [hg, at'_nil, if_pos rfl]
  | cons a s =>
    have ha : a ≠ 0 := hs a (by simp)
    by_cases hm : b.Mem a
    · refine Ev.succ (g := fun n => gm n s (r.enc ++ Y) r.enc.length)
        ((hr s Y (cstr_drop hs (u := [a]) rfl).2 hY).congr ?_) fun n => ?_
      · simp only [Pat.Den]
        exact ⟨fun h => ⟨a, s, rfl, hm, h⟩, by rintro ⟨c, t, h, _, h'⟩; cases h; exact h'⟩
      · rw [hg]; simp [ha, hm]
    · refine Ev.succ (g := fun _ => some false) (Ev.false ?_) fun n => ?_
      · rintro ⟨c, t, ht, hc, _⟩; cases ht; exact hm hc
      · rw [hg]; simp [ha, hm]

theorem gm_star {n s p} {k : Int} (hk : 0 ≤ k) :
    gm (n + 1) s (7 :: 42 :: p) (k + 2) =
      if (collapse p k).2 = 0 then some true
      else anyM (fun t => gm n t.2 (collapse p k).1 (collapse p k).2) (splits s) := by
  have : ¬ k + 2 ≤ 0 := by omega
  rw [gm]
  simp only [this, at'_zero, ne_eq, not_true_eq_false, if_false, List.drop_succ_cons, List.drop_zero, at'_succ,
    if_true, show k + 2 - 2 = k by omega, show ¬ ((42 : Nat) = 91) by omega, show ¬ ((42 : Nat) = 63) by omega]

theorem corr_star {r : Pat} (hok : r.Ok) (hr : Corr r.unstar) : Corr (.star r) := by
  intro s Y hs hY
  have hg : ∀ n, gm (n + 1) s ((Pat.star r).enc ++ Y) (Pat.star r).enc.length =
      if (r.unstar.enc.length : Int) = 0 then some true
      else anyM (fun t => gm n t.2 (r.unstar.enc ++ Y) r.unstar.enc.length) (splits s) := by
    intro n
    have := @gm_star n s (r.enc ++ Y) r.enc.length (by omega)
    rw [collapse_pat hY r hok] at this
    simpa [Pat.enc, Int.add_assoc] using this
  by_cases h0 : r.unstar.enc.length = 0
  · refine Ev.succ (g := fun _ => some true) (Ev.true ?_) fun n => ?_
    · rw [unstar_den, enc_nil h0]
      exact ⟨s, [], by simp, rfl⟩
    · rw [hg, if_pos (by omega)]
  · refine Ev.succ (g := fun n => anyM (fun t => gm n t.2 (r.unstar.enc ++ Y) r.unstar.enc.length) (splits s)) ?_ fun n => ?_
    · refine (Ev.anyM (P := fun t => r.unstar.Den t.2) ?_).congr ?_
      · rintro ⟨u, t⟩ ht
        exact hr t Y (cstr_drop hs (mem_splits.1 ht)).2 hY
      · rw [unstar_den]
        constructor
        · rintro ⟨⟨u, t⟩, ht, h⟩
          exact ⟨u, t, mem_splits.1 ht, h⟩
        · rintro ⟨u, t, rfl, h⟩
          exact ⟨(u, t), mem_splits.2 rfl, h⟩
    · rw [hg, if_neg (by omega)]

/-- What the group cases know about their operands. -/
theorem group_facts {a : Alts} {r : Pat} (ha : a.Ok) (Y : List B) :
    patScan false (a.enc ++ (r.enc ++ Y)) (a.enc.length + r.enc.length) 0 0 = some a.enc.length ∧
    subPats (a.enc ++ (r.enc ++ Y)) (a.enc.length + r.enc.length) a.enc.length
      ((a.enc ++ (r.enc ++ Y)).length + 1) 0 = some ((subsOf a (r.enc ++ Y)).map subText) ∧
    (a.enc ++ (r.enc ++ Y)).drop a.enc.length = r.enc ++ Y ∧
    ((a.enc.length : Int) + r.enc.length) - a.enc.length = r.enc.length := by
  refine ⟨?_, ?_, List.drop_left, by omega⟩
  · have := scan_group a ha (r.enc ++ Y) r.enc.length 0 (by omega)
    simpa using this
  · have := subPats_enc (a.enc ++ (r.enc ++ Y)) (a.enc.length + r.enc.length) (r.enc ++ Y) a r.enc.length
      ((a.enc ++ (r.enc ++ Y)).length + 1) 0 ha (by omega) rfl (by omega) (by simp; omega)
    simpa using this

theorem anyM_map {α β : Type} (f : β → Option Bool) (g : α → β) : ∀ l : List α,
    anyM f (l.map g) = anyM (fun a => f (g a)) l
  | [] => rfl
  | a :: l => by simp only [List.map_cons, anyM, anyM_map f g l]

theorem nostar_subs : ∀ (a : Alts) (Y : List B), ∀ x ∈ subsOf a Y, NoStar x.2
  | .one p, Y, x, hx => by
    simp only [subsOf, List.mem_singleton] at hx
    subst hx
    exact nostar_mark (by omega)
  | .or p a, Y, x, hx => by
    simp only [subsOf, List.mem_cons] at hx
    rcases hx with rfl | hx
    · exact nostar_mark (by omega)
    · exact nostar_subs a Y x hx

/-- Every alternative is decided. -/
def CorrA (a : Alts) : Prop :=
  ∀ Y, ∀ x ∈ subsOf a Y, Corr x.1

theorem sub_ev {a : Alts} (ha : CorrA a) {Y x} (hx : x ∈ subsOf a Y) {u} (hu : CStr u) :
    Ev (fun n => gm n u (subText x).1 (subText x).2) (x.1.Den u) :=
  ha Y x hx u x.2 hu (nostar_subs a Y x hx)

theorem gm_rep {n s a r Y} {op : B} (hop : op = 128 + 43 ∨ op = 128 + 42) (ha : Alts.Ok a) :
    gm (n + 1) s (7 :: op :: (a.enc ++ (Pat.enc r ++ Y))) ((a.enc.length : Int) + r.enc.length + 2) =
      orM (if op = 128 + 42 then gm n s (r.enc ++ Y) r.enc.length else some false) fun _ =>
      anyM (fun x => anyM (fun ut =>
        andM (gm n ut.1 (subText x).1 (subText x).2) fun _ =>
        orM (gm n ut.2 (r.enc ++ Y) r.enc.length) fun _ =>
        if ut.1 = [] then some false
        else gm n ut.2 (7 :: op :: (a.enc ++ (Pat.enc r ++ Y))) ((a.enc.length : Int) + r.enc.length + 2))
        (splits s)) (subsOf a (r.enc ++ Y)) := by
  obtain ⟨f1, f2, f3, f4⟩ := group_facts (r := r) ha Y
  have : ¬ (a.enc.length : Int) + r.enc.length + 2 ≤ 0 := by omega
  rw [gm]
  simp only [this, at'_zero, ne_eq, not_true_eq_false, if_false, List.drop_succ_cons, List.drop_zero, if_true,
    show (a.enc.length : Int) + r.enc.length + 2 - 2 = a.enc.length + r.enc.length by omega,
    show op ≠ 91 by omega, show op ≠ 63 by omega, show op ≠ 42 by omega, hop, f1, f2, f3, f4, anyM_map]

theorem plus_split {A R : Lang} {w} (h : Plus A w) {t} (ht : R t) :
    ∃ u t', w ++ t = u ++ t' ∧ A u ∧ (R t' ∨ (u ≠ [] ∧ ∃ v t'', t' = v ++ t'' ∧ Plus A v ∧ R t'')) := by
  induction h with
  | one hu => exact ⟨_, t, rfl, hu, Or.inl ht⟩
  | @more u v hu hv ih =>
    by_cases h0 : u = []
    · subst h0
      simpa using ih
    · exact ⟨u, v ++ t, by simp, hu, Or.inr ⟨h0, v, t, rfl, hv, ht⟩⟩

theorem corr_rep {o : Op} {a : Alts} {r : Pat} (ho : o = .plus ∨ o = .many) (hok : a.Ok) (ha : CorrA a)
    (hr : Corr r) : Corr (.ext o a r) := by
  intro s
  generalize hl : s.length = m
  induction m using Nat.strongRecOn generalizing s with
  | ind m ih =>
    intro Y hs hY
    have hop : o.byte = 128 + 43 ∨ o.byte = 128 + 42 := by rcases ho with rfl | rfl <;> simp [Op.byte]
    have hlen : ((Pat.ext o a r).enc.length : Int) = (a.enc.length : Int) + r.enc.length + 2 := by
      simp [Pat.enc, Int.add_assoc]
    have henc : (Pat.ext o a r).enc ++ Y = 7 :: o.byte :: (a.enc ++ (r.enc ++ Y)) := by simp [Pat.enc]
    have key : Ev (fun n => anyM (fun x => anyM (fun ut =>
        andM (gm n ut.1 (subText x).1 (subText x).2) fun _ =>
        orM (gm n ut.2 (r.enc ++ Y) r.enc.length) fun _ =>
        if ut.1 = [] then some false
        else gm n ut.2 (7 :: o.byte :: (a.enc ++ (Pat.enc r ++ Y))) ((a.enc.length : Int) + r.enc.length + 2))
        (splits s)) (subsOf a (r.enc ++ Y)))
        (∃ x ∈ subsOf a (r.enc ++ Y), ∃ ut ∈ splits s, x.1.Den ut.1 ∧
          (r.Den ut.2 ∨ (ut.1 ≠ [] ∧ (Pat.ext o a r).Den ut.2))) := by
      refine Ev.anyM fun x hx => Ev.anyM ?_
      rintro ⟨u, t⟩ hut
      have hs' := mem_splits.1 hut
      obtain ⟨hu, ht⟩ := cstr_drop hs hs'
      refine (sub_ev ha hx hu).andM ((hr t Y ht hY).orM ?_)
      by_cases h0 : u = []
      · exact (Ev.false (P := u ≠ [] ∧ (Pat.ext o a r).Den t) (by simp [h0])).of_eq fun n => by simp [h0]
      · have hlt : t.length < m := by
          rw [← hl, hs', List.length_append]
          have := List.length_pos_iff.2 h0
          omega
        have := ih t.length hlt t rfl Y ht hY
        rw [hlen, henc] at this
        exact (this.congr (by simp [h0])).of_eq fun n => by simp [h0]
    have first : Ev (fun n => if o.byte = 128 + 42 then gm n s (r.enc ++ Y) r.enc.length else some false)
        (o = .many ∧ r.Den s) := by
      rcases ho with rfl | rfl
      · exact (Ev.false (by simp)).of_eq fun n => by simp [Op.byte]
      · exact ((hr s Y hs hY).congr (by simp)).of_eq fun n => by simp [Op.byte]
    refine Ev.succ ((first.orM key).congr ?_) (fun n => by rw [hlen, henc]; exact gm_rep hop hok)
    have hA := fun u => subs_den (r.enc ++ Y) u a
    constructor
    · rintro (⟨rfl, h⟩ | ⟨x, hx, ⟨u, t⟩, hut, hxu, h⟩)
      · exact ⟨[], s, rfl, Or.inl rfl, h⟩
      · have hAu : a.Den u := (hA u).1 ⟨x, hx, hxu⟩
        have hs' := mem_splits.1 hut
        rcases h with h | ⟨_, v, t', ht', hL, h⟩
        · refine ⟨u, t, hs', ?_, h⟩
          rcases ho with rfl | rfl
          · exact .one hAu
          · exact Or.inr (.one hAu)
        · simp only at ht'
          refine ⟨u ++ v, t', by rw [hs', ht', List.append_assoc], ?_, h⟩
          rcases ho with rfl | rfl
          · exact .more hAu hL
          · rcases hL with rfl | hL
            · rw [List.append_nil]; exact Or.inr (.one hAu)
            · exact Or.inr (.more hAu hL)
    · rintro ⟨w, t, rfl, hL, h⟩
      have hP : (o = .many ∧ w = []) ∨ Plus a.Den w := by
        rcases ho with rfl | rfl
        · exact Or.inr hL
        · rcases hL with rfl | hL
          · exact Or.inl ⟨rfl, rfl⟩
          · exact Or.inr hL
      rcases hP with ⟨rfl, rfl⟩ | hP
      · exact Or.inl ⟨rfl, h⟩
      · obtain ⟨u, t', he, hu, hh⟩ := plus_split (R := r.Den) hP h
        obtain ⟨x, hx, hxu⟩ := (hA u).2 hu
        refine Or.inr ⟨x, hx, (u, t'), mem_splits.2 he, hxu, ?_⟩
        rcases hh with hh | ⟨h0, v, t'', ht'', hv, hh⟩
        · exact Or.inl hh
        · refine Or.inr ⟨h0, v, t'', ht'', ?_, hh⟩
          rcases ho with rfl | rfl
          · exact hv
          · exact Or.inr hv

theorem gm_once {n s a r Y} {op : B} (hop : op = 128 + 63 ∨ op = 128 + 64 ∨ op = 128 + 32) (ha : Alts.Ok a) :
    gm (n + 1) s (7 :: op :: (a.enc ++ (Pat.enc r ++ Y))) ((a.enc.length : Int) + r.enc.length + 2) =
      orM (if op = 128 + 63 then gm n s (r.enc ++ Y) r.enc.length else some false) fun _ =>
      anyM (fun x => anyM (fun ut =>
        andM (gm n ut.1 (subText x).1 (subText x).2) fun _ => gm n ut.2 (r.enc ++ Y) r.enc.length)
        (if (a.enc.length : Int) + r.enc.length = a.enc.length then [(s, [])] else splits s))
        (subsOf a (r.enc ++ Y)) := by
  obtain ⟨f1, f2, f3, f4⟩ := group_facts (r := r) ha Y
  have : ¬ (a.enc.length : Int) + r.enc.length + 2 ≤ 0 := by omega
  rw [gm]
  simp only [this, at'_zero, ne_eq, not_true_eq_false, if_false, List.drop_succ_cons, List.drop_zero, if_true,
    show (a.enc.length : Int) + r.enc.length + 2 - 2 = a.enc.length + r.enc.length by omega,
    show op ≠ 91 by omega, show op ≠ 63 by omega, show op ≠ 42 by omega,
    show ¬ (op = 128 + 43 ∨ op = 128 + 42) by omega, hop, f1, f2, f3, f4, anyM_map]

theorem corr_once {o : Op} {a : Alts} {r : Pat} (ho : o = .opt ∨ o = .at ∨ o = .bare) (hok : a.Ok) (ha : CorrA a)
    (hr : Corr r) : Corr (.ext o a r) := by
  intro s Y hs hY
  have hop : o.byte = 128 + 63 ∨ o.byte = 128 + 64 ∨ o.byte = 128 + 32 := by
    rcases ho with rfl | rfl | rfl <;> simp [Op.byte]
  have hlen : ((Pat.ext o a r).enc.length : Int) = (a.enc.length : Int) + r.enc.length + 2 := by
    simp [Pat.enc, Int.add_assoc]
  have henc : (Pat.ext o a r).enc ++ Y = 7 :: o.byte :: (a.enc ++ (r.enc ++ Y)) := by simp [Pat.enc]
  have hmem : ∀ ut : List B × List B,
      ut ∈ (if (a.enc.length : Int) + r.enc.length = a.enc.length then [(s, [])] else splits s) → ut ∈ splits s := by
    rintro ⟨u, t⟩ h
    split at h
    · simp at h; obtain ⟨rfl, rfl⟩ := h; exact mem_splits.2 (by simp)
    · exact h
  have key : Ev (fun n => anyM (fun x => anyM (fun ut =>
        andM (gm n ut.1 (subText x).1 (subText x).2) fun _ => gm n ut.2 (r.enc ++ Y) r.enc.length)
        (if (a.enc.length : Int) + r.enc.length = a.enc.length then [(s, [])] else splits s))
        (subsOf a (r.enc ++ Y)))
      (∃ x ∈ subsOf a (r.enc ++ Y), ∃ ut ∈ (if (a.enc.length : Int) + r.enc.length = a.enc.length then [(s, [])] else splits s),
        x.1.Den ut.1 ∧ r.Den ut.2) := by
    refine Ev.anyM fun x hx => Ev.anyM ?_
    rintro ⟨u, t⟩ hut
    obtain ⟨hu, ht⟩ := cstr_drop hs (mem_splits.1 (hmem _ hut))
    exact (sub_ev ha hx hu).andM (hr t Y ht hY)
  have first : Ev (fun n => if o.byte = 128 + 63 then gm n s (r.enc ++ Y) r.enc.length else some false)
      (o = .opt ∧ r.Den s) := by
    rcases ho with rfl | rfl | rfl
    · exact ((hr s Y hs hY).congr (by simp)).of_eq fun n => by simp [Op.byte]
    · exact (Ev.false (by simp)).of_eq fun n => by simp [Op.byte]
    · exact (Ev.false (by simp)).of_eq fun n => by simp [Op.byte]
  refine Ev.succ ((first.orM key).congr ?_) (fun n => by rw [hlen, henc]; exact gm_once hop hok)
  have hA := fun u => subs_den (r.enc ++ Y) u a
  constructor
  · rintro (⟨rfl, h⟩ | ⟨x, hx, ⟨u, t⟩, hut, hxu, h⟩)
    · exact ⟨[], s, rfl, Or.inl rfl, h⟩
    · have hAu : a.Den u := (hA u).1 ⟨x, hx, hxu⟩
      refine ⟨u, t, mem_splits.1 (hmem _ hut), ?_, h⟩
      rcases ho with rfl | rfl | rfl
      · exact Or.inr hAu
      · exact hAu
      · exact hAu
  · rintro ⟨w, t, rfl, hL, h⟩
    have hP : (o = .opt ∧ w = []) ∨ a.Den w := by
      rcases ho with rfl | rfl | rfl
      · rcases hL with rfl | hL
        · exact Or.inl ⟨rfl, rfl⟩
        · exact Or.inr hL
      · exact Or.inr hL
      · exact Or.inr hL
    rcases hP with ⟨rfl, rfl⟩ | hP
    · exact Or.inl ⟨rfl, h⟩
    · obtain ⟨x, hx, hxu⟩ := (hA w).2 hP
      refine Or.inr ⟨x, hx, (w, t), ?_, hxu, h⟩
      split
      · rename_i h0
        have : r = .eps := enc_nil (by omega)
        subst this
        have ht : t = [] := h
        simp [ht]
      · exact mem_splits.2 rfl

theorem gm_not {n s a r Y} (ha : Alts.Ok a) :
    gm (n + 1) s (7 :: (128 + 33) :: (a.enc ++ (Pat.enc r ++ Y))) ((a.enc.length : Int) + r.enc.length + 2) =
      anyM (fun ut =>
        andM (notM (anyM (fun x => gm n ut.1 (subText x).1 (subText x).2) (subsOf a (r.enc ++ Y)))) fun _ =>
          gm n ut.2 (r.enc ++ Y) r.enc.length) (splits s) := by
  obtain ⟨f1, f2, f3, f4⟩ := group_facts (r := r) ha Y
  have : ¬ (a.enc.length : Int) + r.enc.length + 2 ≤ 0 := by omega
  rw [gm]
  simp only [this, at'_zero, ne_eq, not_true_eq_false, if_false, List.drop_succ_cons, List.drop_zero, if_true,
    show (a.enc.length : Int) + r.enc.length + 2 - 2 = a.enc.length + r.enc.length by omega,
    show ¬ (128 + 33 = 91) by omega, show ¬ (128 + 33 = 63) by omega, show ¬ (128 + 33 = 42) by omega,
    show ¬ (128 + 33 = 128 + 43 ∨ 128 + 33 = 128 + 42) by omega,
    show ¬ (128 + 33 = 128 + 63 ∨ 128 + 33 = 128 + 64 ∨ 128 + 33 = 128 + 32) by omega, f1, f2, f3, f4, anyM_map]

theorem corr_not {a : Alts} {r : Pat} (hok : a.Ok) (ha : CorrA a) (hr : Corr r) : Corr (.ext .not a r) := by
  intro s Y hs hY
  have hlen : ((Pat.ext .not a r).enc.length : Int) = (a.enc.length : Int) + r.enc.length + 2 := by
    simp [Pat.enc, Int.add_assoc]
  have henc : (Pat.ext .not a r).enc ++ Y = 7 :: (128 + 33) :: (a.enc ++ (r.enc ++ Y)) := by simp [Pat.enc, Op.byte]
  have key : Ev (fun n => anyM (fun ut =>
        andM (notM (anyM (fun x => gm n ut.1 (subText x).1 (subText x).2) (subsOf a (r.enc ++ Y)))) fun _ =>
          gm n ut.2 (r.enc ++ Y) r.enc.length) (splits s))
      (∃ ut ∈ splits s, ¬ (∃ x ∈ subsOf a (r.enc ++ Y), x.1.Den ut.1) ∧ r.Den ut.2) := by
    refine Ev.anyM ?_
    rintro ⟨u, t⟩ hut
    obtain ⟨hu, ht⟩ := cstr_drop hs (mem_splits.1 hut)
    exact (Ev.notM (Ev.anyM fun x hx => sub_ev ha hx hu)).andM (hr t Y ht hY)
  refine Ev.succ (key.congr ?_) (fun n => by rw [hlen, henc]; exact gm_not hok)
  simp only [subs_den]
  constructor
  · rintro ⟨⟨u, t⟩, hut, h1, h2⟩
    exact ⟨u, t, mem_splits.1 hut, h1, h2⟩
  · rintro ⟨u, t, h, h1, h2⟩
    exact ⟨(u, t), mem_splits.2 h, h1, h2⟩

mutual
/-- `do_gmatch` decides the denotation; the second part is the same behind the stars. -/
theorem corr_pat : ∀ (p : Pat), p.Ok → Corr p ∧ Corr p.unstar
  | .eps, _ => ⟨corr_eps, corr_eps⟩
  | .lit c r, h => have := corr_lit h.1 h.2.1 (corr_pat r h.2.2).1; ⟨this, this⟩
  | .esc c r, h => have := corr_esc h.1 (corr_pat r h.2).1; ⟨this, this⟩
  | .any r, h => have := corr_any (corr_pat r h).1; ⟨this, this⟩
  | .star r, h => ⟨corr_star h (corr_pat r h).2, (corr_pat r h).2⟩
  | .brk b r, h => have := corr_brk h.1 (corr_pat r h.2).1; ⟨this, this⟩
  | .ext o a r, h => by
    have h' : a.Ok ∧ r.Ok := h
    have ha := corr_alts a h'.1
    have hr := (corr_pat r h'.2).1
    have : Corr (.ext o a r) := by
      cases o with
      | opt => exact corr_once (by simp) h'.1 ha hr
      | «at» => exact corr_once (by simp) h'.1 ha hr
      | bare => exact corr_once (by simp) h'.1 ha hr
      | many => exact corr_rep (by simp) h'.1 ha hr
      | plus => exact corr_rep (by simp) h'.1 ha hr
      | not => exact corr_not h'.1 ha hr
    exact ⟨this, this⟩
theorem corr_alts : ∀ (a : Alts), a.Ok → CorrA a
  | .one p, h => by
    intro Y x hx
    simp only [subsOf, List.mem_singleton] at hx
    subst hx
    exact (corr_pat p h).1
  | .or p a, h => by
    intro Y x hx
    simp only [subsOf, List.mem_cons] at hx
    rcases hx with rfl | hx
    · exact (corr_pat p h.1).1
    · exact corr_alts a h.2 Y x hx
end

end Ksh.Glob
