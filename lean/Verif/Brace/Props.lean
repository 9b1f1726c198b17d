import Verif.Brace.Model
/-!
# Properties of brace expansion (C20)

Specification.  A word is a sequence of characters, each active or not.  Braces that match
form groups, so that every word is a tree (`W`, `A`) followed by a `tail`: nothing, or an
open brace without partner and all that follows it (`every_word_parses`).  The meaning of a
tree is the list of its combinations.
-/

namespace Ksh.Brace

/-- A character of the word: inactive or active. -/
inductive Tok
  | lit (c : Char)
  | mag (c : Char)
  deriving DecidableEq, Repr

/-- Its representation. -/
def Tok.enc : Tok → List Char
  | .lit c => if c = M then [M, M] else [c]
  | .mag c => [M, c]

def enc (l : List Tok) : List Char := l.flatMap Tok.enc

def ob : Tok := .mag '{'
def cb : Tok := .mag '}'
def cm : Tok := .mag ','

mutual
/-- A word. -/
inductive W
  | nil
  | tok (t : Tok) (rest : W)
  | brace (a : A) (rest : W)
/-- What stands between braces: words separated by commas. -/
inductive A
  | last (w : W)
  | more (w : W) (a : A)
end

mutual
/-- The characters of a word. -/
def W.render : W → List Tok
  | .nil => []
  | .tok t w => t :: w.render
  | .brace a w => ob :: (a.render ++ cb :: w.render)
def A.render : A → List Tok
  | .last w => w.render
  | .more w a => w.render ++ cm :: a.render
end

mutual
/-- Inside braces every active brace or comma belongs to the tree. -/
def W.Nested : W → Prop
  | .nil => True
  | .tok t w => (t ≠ ob ∧ t ≠ cb ∧ t ≠ cm) ∧ w.Nested
  | .brace a w => a.Nested ∧ w.Nested
def A.Nested : A → Prop
  | .last w => w.Nested
  | .more w a => w.Nested ∧ a.Nested
end

/-- Outside braces, commas and close braces are ordinary characters. -/
def W.Top : W → Prop
  | .nil => True
  | .tok t w => t ≠ ob ∧ w.Top
  | .brace a w => a.Nested ∧ w.Top

mutual
/-- Spec: the combinations denoted by a word, in order.  A group without comma is literal. -/
def W.sem : W → List (List Tok)
  | .nil => [[]]
  | .tok t w => w.sem.map (t :: ·)
  | .brace (.last b) w => w.sem.map fun y => ob :: b.render ++ cb :: y
  | .brace (.more b a) w => (b.sem ++ a.sem).flatMap fun x => w.sem.map fun y => x ++ y
def A.sem : A → List (List Tok)
  | .last w => w.sem
  | .more w a => w.sem ++ a.sem
end

/-- Spec: the text up to the close brace that matches the `n` open ones, and the rest. -/
def close : List Tok → Nat → Option (List Tok × List Tok)
  | [], _ => none
  | t :: r, n =>
    if t = cb ∧ n = 1 then some ([], r)
    else (close r (if t = ob then n + 1 else if t = cb then n - 1 else n)).map fun (b, a) => (t :: b, a)

/-- Nothing, or an open brace without partner and all that follows. -/
def Tail (l : List Tok) : Prop := l = [] ∨ ∃ r, l = ob :: r ∧ close r 1 = none

/-! ## Encoding -/

theorem enc_cons (t : Tok) (l : List Tok) : enc (t :: l) = t.enc ++ enc l := rfl
theorem enc_append (a b : List Tok) : enc (a ++ b) = enc a ++ enc b := by simp [enc]
theorem enc_ob (l) : enc (ob :: l) = M :: '{' :: enc l := rfl
theorem enc_cb (l) : enc (cb :: l) = M :: '}' :: enc l := rfl
theorem enc_cm (l) : enc (cm :: l) = M :: ',' :: enc l := rfl

/-- A character other than a brace or comma: either a plain byte or a pair. -/
theorem enc_shape (t : Tok) : (∃ c, c ≠ M ∧ t.enc = [c]) ∨ (∃ c, t.enc = [M, c] ∧ (c = '{' → t = ob) ∧ (c = '}' → t = cb) ∧ (c = ',' → t = cm)) := by
  cases t with
  | lit c =>
    by_cases h : c = M
    · exact Or.inr ⟨M, by simp [Tok.enc, h], fun h => absurd h (by decide), fun h => absurd h (by decide), fun h => absurd h (by decide)⟩
    · exact Or.inl ⟨c, h, by simp [Tok.enc, h]⟩
  | mag c => exact Or.inr ⟨c, rfl, by rintro rfl; rfl, by rintro rfl; rfl, by rintro rfl; rfl⟩

theorem findOpen_tok {t : Tok} (h : t ≠ ob) (s : List Char) :
    findOpen (t.enc ++ s) = (findOpen s).map fun (b, a) => (t.enc ++ b, a) := by
  rcases enc_shape t with ⟨c, hc, he⟩ | ⟨c, he, h1, _, _⟩
  · rw [he]
    cases s with
    | nil => simp [findOpen]
    | cons d s => simp [findOpen, hc]
  · rw [he]
    have : c ≠ '{' := fun hc => h (h1 hc)
    simp [findOpen, this]

theorem matchClose_tok {t : Tok} (h1 : t ≠ ob) (h2 : t ≠ cb) (s : List Char) (n : Nat) (m : Bool) :
    matchClose (t.enc ++ s) n m = (matchClose s n (m || (decide (t = cm) && decide (n = 1)))).map fun (b, a, m) => (t.enc ++ b, a, m) := by
  rcases enc_shape t with ⟨c, hc, he⟩ | ⟨c, he, g1, g2, g3⟩
  · have ht : t ≠ cm := by rintro rfl; simp [cm, Tok.enc] at he
    rw [he]
    cases s with
    | nil => simp [matchClose]
    | cons d s => simp [matchClose, hc, ht]
  · rw [he]
    have a1 : c ≠ '{' := fun hc => h1 (g1 hc)
    have a2 : c ≠ '}' := fun hc => h2 (g2 hc)
    have a3 : decide (c = ',') = decide (t = cm) := by
      by_cases hc : c = ','
      · simp [hc, g3 hc]
      · have : t ≠ cm := by rintro rfl; simp [cm, Tok.enc] at he; exact hc he.symm
        simp [hc, this]
    simp only [List.cons_append, List.nil_append, matchClose, if_true, if_neg a1, if_neg a2, a3]

theorem fields_tok {t : Tok} (h1 : t ≠ ob) (h2 : t ≠ cb) (h3 : t ≠ cm) (s : List Char) (n : Nat) (fld : List Char) :
    fields (t.enc ++ s) n fld = fields s n (fld ++ t.enc) := by
  rcases enc_shape t with ⟨c, hc, he⟩ | ⟨c, he, g1, g2, g3⟩
  · rw [he]
    cases s with
    | nil => simp [fields]
    | cons d s => simp [fields, hc]
  · rw [he]
    have a1 : c ≠ '{' := fun hc => h1 (g1 hc)
    have a2 : c ≠ '}' := fun hc => h2 (g2 hc)
    have a3 : c ≠ ',' := fun hc => h3 (g3 hc)
    simp [fields, a1, a2, a3]

/-! ## The scans on trees -/

/-- does it have a comma? -/
def A.isMore : A → Bool
  | .last _ => false
  | .more _ _ => true

theorem map_map3 {α : Type} (o : Option (List α × List α × Bool)) (x y : List α) :
    (o.map fun (b, a, m) => (x ++ b, a, m)).map (fun (b, a, m) => (y ++ b, a, m)) =
      o.map fun (b, a, m) => ((y ++ x) ++ b, a, m) := by
  cases o <;> simp

mutual
theorem W.matchClose_spec : ∀ (w : W) (s : List Char) (n : Nat) (m : Bool), w.Nested → n ≥ 1 →
    matchClose (enc w.render ++ s) n m = (matchClose s n m).map fun (b, a, m) => (enc w.render ++ b, a, m)
  | .nil, s, n, m, _, _ => by simp [W.render, enc]
  | .tok t w, s, n, m, ⟨ht, hw⟩, hn => by
    rw [W.render, enc_cons, List.append_assoc, matchClose_tok ht.1 ht.2.1, W.matchClose_spec w s n _ hw hn]
    simp only [ht.2.2, decide_false, Bool.false_and, Bool.or_false]
    rw [map_map3]
  | .brace a w, s, n, m, ⟨ha, hw⟩, hn => by
    rw [W.render, enc_ob, enc_append, enc_cb]
    have h2 : matchClose (M :: '}' :: (enc w.render ++ s)) (n + 1) m =
        (matchClose s n m).map fun (b, a, m) => ((M :: '}' :: enc w.render) ++ b, a, m) := by
      simp only [matchClose, if_true, show ('}' = '{') = False from by simp, if_false, show ¬ (n + 1 = 1) from by omega,
        Nat.add_sub_cancel, W.matchClose_spec w s n m hw hn, Option.map_map]
      rfl
    have h1 := A.matchClose_spec a (M :: '}' :: (enc w.render ++ s)) (n + 1) m ha (by omega)
    simp only [List.cons_append, List.append_assoc] at *
    simp only [matchClose, if_true]
    rw [h1, show (decide (n + 1 = 1)) = false from by simp; omega]
    simp only [Bool.false_and, Bool.or_false, h2, Option.map_map]
    congr 1
theorem A.matchClose_spec : ∀ (a : A) (s : List Char) (n : Nat) (m : Bool), a.Nested → n ≥ 1 →
    matchClose (enc a.render ++ s) n m =
      (matchClose s n (m || (decide (n = 1) && a.isMore))).map fun (b, x, m) => (enc a.render ++ b, x, m)
  | .last w, s, n, m, h, hn => by
    rw [A.render, W.matchClose_spec w s n m h hn]
    simp [A.isMore]
  | .more w a, s, n, m, ⟨hw, ha⟩, hn => by
    have h1 := W.matchClose_spec w (enc (cm :: a.render) ++ s) n m hw hn
    have h2 := matchClose_tok (t := cm) (by decide) (by decide) (enc a.render ++ s) n m
    have h3 := A.matchClose_spec a s n (m || decide (n = 1)) ha hn
    rw [A.render, enc_append, List.append_assoc, h1, enc_cons, List.append_assoc, h2]
    simp only [decide_true, Bool.true_and]
    rw [h3, Option.map_map, Option.map_map]
    have : (m || decide (n = 1) || (decide (n = 1) && a.isMore)) = (m || (decide (n = 1) && true)) := by
      cases m <;> cases decide (n = 1) <;> simp
    rw [this]
    congr 1
    funext ⟨b, a, m⟩
    simp
end

mutual
theorem W.fields_spec : ∀ (w : W) (s : List Char) (n : Nat) (fld : List Char), w.Nested → n ≥ 1 →
    fields (enc w.render ++ s) n fld = fields s n (fld ++ enc w.render)
  | .nil, s, n, fld, _, _ => by simp [W.render, enc]
  | .tok t w, s, n, fld, ⟨ht, hw⟩, hn => by
    rw [W.render, enc_cons, List.append_assoc, fields_tok ht.1 ht.2.1 ht.2.2, W.fields_spec w s n _ hw hn, List.append_assoc]
  | .brace a w, s, n, fld, ⟨ha, hw⟩, hn => by
    have h1 := A.fields_spec a (M :: '}' :: (enc w.render ++ s)) (n + 1) (fld ++ [M, '{']) ha (by omega)
    have h2 := fun f => W.fields_spec w s n f hw hn
    rw [W.render, enc_ob, enc_append, enc_cb]
    simp only [List.cons_append, List.append_assoc] at *
    simp only [fields, if_true]
    rw [h1]
    simp only [fields, if_true, show ('}' = '{') = False from by simp, if_false, Nat.add_sub_cancel]
    rw [h2]
    simp
theorem A.fields_spec : ∀ (a : A) (s : List Char) (n : Nat) (fld : List Char), a.Nested → n ≥ 2 →
    fields (enc a.render ++ s) n fld = fields s n (fld ++ enc a.render)
  | .last w, s, n, fld, h, hn => by rw [A.render, W.fields_spec w s n fld h (by omega)]
  | .more w a, s, n, fld, ⟨hw, ha⟩, hn => by
    rw [A.render, enc_append, List.append_assoc, W.fields_spec w _ n fld hw (by omega), enc_cm]
    have : ¬ (n = 1) := by omega
    simp only [List.cons_append, fields, if_true, show (',' = '{') = False from by simp, show (',' = '}') = False from by simp,
      if_false, this, decide_false, Bool.and_false, Bool.false_eq_true]
    rw [A.fields_spec a s n _ ha hn]
    simp
end

/-- the alternatives -/
def A.words : A → List W
  | .last w => [w]
  | .more w a => w :: a.words

theorem A.fields_words : ∀ (a : A), a.Nested → fields (enc a.render) 1 [] = a.words.map fun w => enc w.render
  | .last w, h => by
    have := W.fields_spec w [] 1 [] h (by omega)
    simp only [List.append_nil, List.nil_append] at this
    simp [A.render, A.words, this, fields]
  | .more w a, ⟨hw, ha⟩ => by
    rw [A.render, enc_append, W.fields_spec w _ 1 [] hw (by omega), enc_cm]
    simp only [List.nil_append, fields, if_true, show (',' = '{') = False from by simp, show (',' = '}') = False from by simp,
      if_false, decide_true, Bool.and_true]
    simp [A.words, A.fields_words a ha]

/-! ## The recursion -/

def W.append : W → W → W
  | .nil, v => v
  | .tok t w, v => .tok t (w.append v)
  | .brace a w, v => .brace a (w.append v)

theorem W.render_append : ∀ (w v : W), (w.append v).render = w.render ++ v.render
  | .nil, v => rfl
  | .tok t w, v => by simp [W.append, W.render, W.render_append w v]
  | .brace a w, v => by simp [W.append, W.render, W.render_append w v]

theorem W.top_append : ∀ {w v : W}, w.Nested → v.Top → (w.append v).Top
  | .nil, v, _, h => h
  | .tok t w, v, ⟨h1, h2⟩, h => ⟨h1.1, W.top_append h2 h⟩
  | .brace a w, v, ⟨h1, h2⟩, h => ⟨h1, W.top_append h2 h⟩

theorem W.sem_append : ∀ (w v : W), (w.append v).sem = w.sem.flatMap fun x => v.sem.map fun y => x ++ y
  | .nil, v => by simp [W.append, W.sem]
  | .tok t w, v => by
    simp only [W.append, W.sem, W.sem_append w v, List.map_flatMap, List.flatMap_map, List.map_map]
    rfl
  | .brace (.last b) w, v => by
    simp only [W.append, W.sem, W.sem_append w v, List.map_flatMap, List.flatMap_map, List.map_map]
    congr 1
    funext x
    simp
  | .brace (.more b a) w, v => by
    simp only [W.append, W.sem, W.sem_append w v, List.map_flatMap, List.flatMap_map, List.flatMap_assoc, List.map_map]
    congr 1
    funext x
    congr 1
    funext y
    congr 1
    funext z
    simp

theorem A.words_sem : ∀ (a : A), a.words.flatMap W.sem = a.sem
  | .last w => by simp [A.words, A.sem]
  | .more w a => by simp [A.words, A.sem, A.words_sem a]

theorem A.words_nested : ∀ {a : A}, a.Nested → ∀ w ∈ a.words, w.Nested
  | .last w, h, x, hx => by simp [A.words] at hx; subst hx; exact h
  | .more w a, h, x, hx => by
    rcases List.mem_cons.1 hx with rfl | hx
    · exact h.1
    · exact A.words_nested h.2 x hx

theorem A.words_len : ∀ {a : A}, ∀ w ∈ a.words, w.render.length ≤ a.render.length
  | .last w, x, hx => by simp [A.words] at hx; subst hx; simp [A.render]
  | .more w a, x, hx => by
    rcases List.mem_cons.1 hx with rfl | hx
    · simp [A.render]
    · have := A.words_len x hx; simp [A.render]; omega

theorem close_matchClose : ∀ (l : List Tok) (n : Nat) (m : Bool), close l n = none → n ≥ 1 → matchClose (enc l) n m = none
  | [], n, m, _, _ => by simp [enc, matchClose]
  | t :: r, n, m, h, hn => by
    rw [close] at h
    by_cases h1 : t = ob
    · subst h1
      rw [if_neg (by simp [ob, cb])] at h
      simp only [if_true, Option.map_eq_none_iff] at h
      simp [enc_ob, matchClose, close_matchClose r (n + 1) m h (by omega)]
    · by_cases h2 : t = cb
      · subst h2
        by_cases h3 : n = 1
        · simp [h3] at h
        · simp only [h3, and_false, if_false, h1, if_true, Option.map_eq_none_iff] at h
          simp [enc_cb, matchClose, h3, close_matchClose r (n - 1) m h (by omega)]
      · simp only [h1, h2, false_and, if_false, Option.map_eq_none_iff] at h
        rw [enc_cons, matchClose_tok h1 h2, close_matchClose r n _ h hn]
        rfl

theorem alt_none {α} (leaf : List Char → List α) {pre suf} (h : findOpen suf = none) : altExpand leaf pre suf = leaf (pre ++ suf) := by
  rw [altExpand.eq_def]
  split
  · rfl
  · rename_i h'; rw [h] at h'; cases h'

theorem alt_unmatched {α} (leaf : List Char → List α) {pre suf b r} (h : findOpen suf = some (b, r)) (h1 : matchClose r 1 false = none) :
    altExpand leaf pre suf = leaf (pre ++ suf) := by
  rw [altExpand.eq_def]
  split
  · rfl
  · rename_i h'; rw [h] at h'; cases h'
    split
    · rfl
    · rename_i h'; rw [h1] at h'; cases h'
    · rename_i h'; rw [h1] at h'; cases h'

theorem alt_literal {α} (leaf : List Char → List α) {pre suf b r body aft} (h : findOpen suf = some (b, r))
    (h1 : matchClose r 1 false = some (body, aft, false)) :
    altExpand leaf pre suf = altExpand leaf (pre ++ b ++ [M, '{'] ++ body ++ [M, '}']) aft := by
  rw [altExpand.eq_def]
  split
  · rename_i h'; rw [h] at h'; cases h'
  · rename_i h'; rw [h] at h'; cases h'
    split
    · rename_i h'; rw [h1] at h'; cases h'
    · rename_i h'; rw [h1] at h'; cases h'; rfl
    · rename_i h'; rw [h1] at h'; cases h'

theorem attach_flatMap {α β : Type} (L : List α) (f : α → List β) : (L.attach.flatMap fun ⟨x, _⟩ => f x) = L.flatMap f := by
  simp

theorem alt_fields {α} (leaf : List Char → List α) {pre suf b r body aft} (h : findOpen suf = some (b, r))
    (h1 : matchClose r 1 false = some (body, aft, true)) :
    altExpand leaf pre suf = (fields body 1 []).flatMap fun f => altExpand leaf (pre ++ b) (f ++ aft) := by
  rw [altExpand.eq_def]
  split
  · rename_i h'; rw [h] at h'; cases h'
  · rename_i h'; rw [h] at h'; cases h'
    split
    · rename_i h'; rw [h1] at h'; cases h'
    · rename_i h'; rw [h1] at h'; cases h'
    · rename_i h'; rw [h1] at h'; cases h'
      exact attach_flatMap (fields body 1 []) fun f => altExpand leaf (pre ++ b) (f ++ aft)

theorem altExpand_tok {α} (leaf : List Char → List α) (pre s : List Char) {t : Tok} (h : t ≠ ob) :
    altExpand leaf pre (t.enc ++ s) = altExpand leaf (pre ++ t.enc) s := by
  have hf := findOpen_tok h s
  cases ho : findOpen s with
  | none =>
    rw [ho] at hf
    rw [alt_none leaf hf, alt_none leaf ho, List.append_assoc]
  | some p =>
    obtain ⟨b, r⟩ := p
    rw [ho] at hf
    simp only [Option.map_some] at hf
    cases hm : matchClose r 1 false with
    | none => rw [alt_unmatched leaf hf hm, alt_unmatched leaf ho hm, List.append_assoc]
    | some q =>
      obtain ⟨body, aft, m⟩ := q
      cases m
      · rw [alt_literal leaf hf hm, alt_literal leaf ho hm]; simp
      · rw [alt_fields leaf hf hm, alt_fields leaf ho hm]; simp

/-- **C20**.  Expanding a word gives, in order, exactly the combinations of the tree it
stands for: each comma-separated alternative of each group, the first group varying
slowest; groups without comma, stray commas and close braces, and everything from an open
brace without partner on are literal.  `leaf` (file name generation, or removal of the
marks) sees each combination with its characters and their marks unchanged. -/
theorem brace_expansion {α : Type} (leaf : List Char → List α) (w : W) (tail : List Tok) (hw : w.Top) (ht : Tail tail) :
    altExpand leaf [] (enc (w.render ++ tail)) = w.sem.flatMap fun x => leaf (enc (x ++ tail)) := by
  suffices key : ∀ (k : Nat) (w : W), w.render.length ≤ k → w.Top → ∀ pre, altExpand leaf pre (enc (w.render ++ tail)) =
      w.sem.flatMap fun x => leaf (pre ++ enc (x ++ tail)) by
    simpa using key _ w (Nat.le_refl _) hw []
  intro k
  induction k with
  | zero =>
    intro w hl hw pre
    cases w with
    | nil =>
      rcases ht with rfl | ⟨r, rfl, hr⟩
      · rw [alt_none leaf (by simp [W.render, enc, findOpen])]
        simp [W.render, W.sem]
      · have h1 : findOpen (enc (W.nil.render ++ ob :: r)) = some ([], enc r) := by
          simp [W.render, enc_ob, findOpen]
        rw [alt_unmatched leaf h1 (close_matchClose r 1 false hr (by omega))]
        simp [W.render, W.sem]
    | tok t w => simp [W.render] at hl
    | brace a w => simp [W.render] at hl
  | succ k ih =>
    intro w hl hw pre
    cases w with
    | nil => exact ih .nil (by simp [W.render]) hw pre
    | tok t w =>
      rw [W.render, List.cons_append, enc_cons, altExpand_tok leaf pre _ hw.1, ih w (by simp [W.render] at hl; omega) hw.2]
      simp only [W.sem, List.flatMap_map, List.cons_append, enc_cons, List.append_assoc]
    | brace a w =>
      have h1 : findOpen (enc ((W.brace a w).render ++ tail)) = some ([], enc (a.render ++ cb :: (w.render ++ tail))) := by
        simp [W.render, enc_ob, findOpen]
      have h2 : matchClose (enc (a.render ++ cb :: (w.render ++ tail))) 1 false =
          some (enc a.render, enc (w.render ++ tail), a.isMore) := by
        rw [enc_append, A.matchClose_spec a _ 1 false hw.1 (by omega), enc_cb]
        simp [matchClose]
      simp only [W.render, List.length_cons, List.length_append] at hl
      cases a with
      | last b =>
        rw [alt_literal leaf h1 h2, ih w (by omega) hw.2]
        simp [W.sem, List.flatMap_map, enc_append, enc_ob, enc_cb, A.render]
      | more b a =>
        have hall : ∀ x ∈ (A.more b a).words, altExpand leaf (pre ++ []) (enc x.render ++ enc (w.render ++ tail)) =
            (x.append w).sem.flatMap fun y => leaf (pre ++ enc (y ++ tail)) := by
          intro x hx
          have hn := A.words_nested hw.1 x hx
          have hlen := A.words_len x hx
          rw [← enc_append, ← List.append_assoc, ← W.render_append, List.append_nil]
          exact ih _ (by rw [W.render_append]; simp; omega) (W.top_append hn hw.2) pre
        rw [alt_fields leaf h1 h2, A.fields_words _ hw.1, List.flatMap_map]
        have hsem : (W.brace (.more b a) w).sem = (A.more b a).words.flatMap fun x => (x.append w).sem := by
          simp only [W.sem, W.sem_append]
          rw [show b.sem ++ a.sem = (A.more b a).words.flatMap W.sem from by rw [A.words_sem]; rfl, List.flatMap_assoc]
        rw [hsem, List.flatMap_assoc]
        simp only [List.flatMap_def]
        congr 1
        exact List.map_congr_left hall

/-! ## Every word is such a tree -/

theorem close_split : ∀ (l : List Tok) (n m : Nat) (b a : List Tok), n ≥ 1 → m ≥ 1 → close l (n + m) = some (b, a) →
    ∃ b1 l' b2, close l m = some (b1, l') ∧ close l' n = some (b2, a) ∧ b = b1 ++ cb :: b2
  | [], n, m, b, a, _, _, h => by simp [close] at h
  | t :: r, n, m, b, a, hn, hm, h => by
    rw [close, if_neg (by intro hc; omega)] at h
    simp only [Option.map_eq_some_iff, Prod.mk.injEq, Prod.exists] at h
    obtain ⟨b', a', h, rfl, rfl⟩ := h
    by_cases h1 : t = ob
    · subst h1
      simp only [if_true] at h
      obtain ⟨b1, l', b2, e1, e2, rfl⟩ := close_split r n (m + 1) b' a' hn (by omega) h
      refine ⟨ob :: b1, l', b2, ?_, e2, by simp⟩
      rw [close, if_neg (by simp [ob, cb]), if_pos rfl, e1]
      rfl
    · by_cases h2 : t = cb
      · subst h2
        rw [if_neg h1, if_pos rfl] at h
        by_cases h3 : m = 1
        · subst h3
          exact ⟨[], r, b', by simp [close], h, rfl⟩
        · rw [show n + m - 1 = n + (m - 1) from by omega] at h
          obtain ⟨b1, l', b2, e1, e2, rfl⟩ := close_split r n (m - 1) b' a' hn (by omega) h
          refine ⟨cb :: b1, l', b2, ?_, e2, by simp⟩
          rw [close, if_neg (by simp [h3]), if_neg h1, if_pos rfl, e1]
          rfl
      · rw [if_neg h1, if_neg h2] at h
        obtain ⟨b1, l', b2, e1, e2, rfl⟩ := close_split r n m b' a' hn hm h
        refine ⟨t :: b1, l', b2, ?_, e2, by simp⟩
        rw [close, if_neg (by simp [h2]), if_neg h1, if_neg h2, e1]
        rfl

theorem close_eq : ∀ {l n b a}, close l n = some (b, a) → l = b ++ cb :: a
  | [], n, b, a, h => by simp [close] at h
  | t :: r, n, b, a, h => by
    rw [close] at h
    split at h
    · rename_i hc; cases h; simp [hc.1]
    · simp only [Option.map_eq_some_iff, Prod.mk.injEq, Prod.exists] at h
      obtain ⟨b', a', h, rfl, rfl⟩ := h
      simp [close_eq h]

/-- put a character, or a group, in front of the first alternative -/
def A.consTok (t : Tok) : A → A
  | .last w => .last (.tok t w)
  | .more w a => .more (.tok t w) a
def A.consBrace (b : A) : A → A
  | .last w => .last (.brace b w)
  | .more w a => .more (.brace b w) a

theorem body_parses : ∀ (k : Nat) (l b a : List Tok), l.length ≤ k → close l 1 = some (b, a) →
    ∃ t : A, t.Nested ∧ t.render = b := by
  intro k
  induction k with
  | zero =>
    intro l b a hl h
    cases l with
    | nil => simp [close] at h
    | cons t r => simp at hl
  | succ k ih =>
    intro l b a hl h
    cases l with
    | nil => simp [close] at h
    | cons t r =>
      simp only [List.length_cons] at hl
      rw [close] at h
      split at h
      · cases h; exact ⟨.last .nil, trivial, rfl⟩
      · rename_i hc
        simp only [Option.map_eq_some_iff, Prod.mk.injEq, Prod.exists] at h
        obtain ⟨b', a', h, rfl, rfl⟩ := h
        have hcb : t ≠ cb := fun h => hc ⟨h, rfl⟩
        by_cases h1 : t = ob
        · subst h1
          rw [if_pos rfl] at h
          obtain ⟨b1, l', b2, e1, e2, rfl⟩ := close_split r 1 1 b' a' (by omega) (by omega) h
          obtain ⟨t1, n1, r1⟩ := ih r b1 l' (by omega) e1
          have hlen := congrArg List.length (close_eq e1)
          simp at hlen
          obtain ⟨t2, n2, r2⟩ := ih l' b2 a' (by omega) e2
          refine ⟨A.consBrace t1 t2, ?_, ?_⟩
          · cases t2 with
            | last w => simp only [A.consBrace, A.Nested, W.Nested] at *; exact ⟨n1, n2⟩
            | more w a => simp only [A.consBrace, A.Nested, W.Nested] at *; exact ⟨⟨n1, n2.1⟩, n2.2⟩
          · subst r1 r2
            cases t2 <;> simp [A.consBrace, A.render, W.render]
        · rw [if_neg h1, if_neg hcb] at h
          obtain ⟨t2, n2, r2⟩ := ih r b' a' (by omega) h
          by_cases h3 : t = cm
          · subst h3
            exact ⟨.more .nil t2, ⟨trivial, n2⟩, by simp [A.render, W.render, r2]⟩
          · refine ⟨t2.consTok t, ?_, ?_⟩
            · cases t2 with
              | last w => simp only [A.consTok, A.Nested, W.Nested] at *; exact ⟨⟨h1, hcb, h3⟩, n2⟩
              | more w a => simp only [A.consTok, A.Nested, W.Nested] at *; exact ⟨⟨⟨h1, hcb, h3⟩, n2.1⟩, n2.2⟩
            · subst r2
              cases t2 <;> simp [A.consTok, A.render, W.render]

/-- Every word is a tree followed by a tail, so `brace_expansion` speaks about all words. -/
theorem every_word_parses (l : List Tok) : ∃ w tail, W.Top w ∧ Tail tail ∧ l = w.render ++ tail := by
  suffices h : ∀ (k : Nat) (l : List Tok), l.length ≤ k → ∃ w tail, W.Top w ∧ Tail tail ∧ l = w.render ++ tail from
    h _ l (Nat.le_refl _)
  intro k
  induction k with
  | zero =>
    intro l hl
    cases l with
    | nil => exact ⟨.nil, [], trivial, Or.inl rfl, rfl⟩
    | cons t r => simp at hl
  | succ k ih =>
    intro l hl
    cases l with
    | nil => exact ⟨.nil, [], trivial, Or.inl rfl, rfl⟩
    | cons t r =>
      simp only [List.length_cons] at hl
      by_cases h1 : t = ob
      · subst h1
        cases hc : close r 1 with
        | none => exact ⟨.nil, ob :: r, trivial, Or.inr ⟨r, rfl, hc⟩, rfl⟩
        | some p =>
          obtain ⟨b, a⟩ := p
          obtain ⟨t1, n1, r1⟩ := body_parses _ r b a (Nat.le_refl _) hc
          have he := close_eq hc
          have hlen := congrArg List.length he
          simp at hlen
          obtain ⟨w, tail, hw, ht, rfl⟩ := ih a (by omega)
          exact ⟨.brace t1 w, tail, ⟨n1, hw⟩, ht, by simp [W.render, r1, he]⟩
      · obtain ⟨w, tail, hw, ht, rfl⟩ := ih r (by omega)
        exact ⟨.tok t w, tail, ⟨h1, hw⟩, ht, rfl⟩

/-! ## Examples -/

/-- all of `{`, `,`, `}` active -/
def act (s : String) : List Char := enc (s.toList.map fun c => if c = '{' ∨ c = ',' ∨ c = '}' then .mag c else .lit c)
/-- `debunk` -/
def plain : List Char → List Char
  | [] => []
  | c :: r => if c = M then (match r with | [] => [] | d :: r' => d :: plain r') else c :: plain r

example : (W.brace (.more (.tok (.lit 'a') .nil) (.last (.brace (.more (.tok (.lit 'b') .nil) (.last .nil)) .nil))) (.tok (.lit 'x') .nil)).sem.map enc =
    ["ax".toList, "bx".toList, "x".toList] := by decide
example : findOpen (act "a{b") = some (['a'], ['b']) := by decide
example : matchClose (act "a,{b}}c") 1 false = some (act "a,{b}", ['c'], true) := by decide

/-- `a{b,{c}}{d` -/
example : altExpand (fun w => [plain w]) [] (act "a{b,{c}}{d") = ["ab{d".toList, "a{c}{d".toList] := by
  have h := brace_expansion (fun w => [plain w])
    (.tok (.lit 'a') (.brace (.more (.tok (.lit 'b') .nil) (.last (.brace (.last (.tok (.lit 'c') .nil)) .nil))) .nil)) [ob, .lit 'd']
    (by simp only [W.Top, W.Nested, A.Nested]; decide) (Or.inr ⟨[.lit 'd'], rfl, by decide⟩)
  exact h

end Ksh.Brace
