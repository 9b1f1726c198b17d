import Verif.History.Find
/-!
# Which commands `fc` lists, edits and runs (C105)

The body of `c_fc` (history.c:128-236) after its options; `hist_get` (history.c:376-415) with
`getn` as the parameter `num`.
-/
namespace Ksh.History

/-- the flags of c_fc and the operands `-5` that were taken as options, history.c:82-124 -/
structure FcOpt where
  g : Bool := false
  l : Bool := false
  n : Bool := false
  r : Bool := false
  s : Bool := false
  /-- `-e editor` was given -/
  e : Bool := false
  /-- `first` and `last` from `-num` options -/
  dash : List Bytes := []
  deriving DecidableEq

inductive Res
  | error
  /-- standard output of `fc -l` -/
  | list (out : Bytes)
  /-- the file the editor is given -/
  | edit (file : Bytes)
  /-- the entry and the text given to hist_execute -/
  | exec (i : Nat) (text : Bytes)
  deriving DecidableEq

/-- hist_get, history.c:376-415; the outer `none` is a wrong access. -/
def hget (num : Bytes → Option Int) (h : H) (w : Bytes) (approx cur : Bool) : Option Got :=
  match num w with
  | some k => some (getNum h k approx cur)
  | none => (getStr h w).map fun o => match o with | some i => .entry i | none => .fails

/-- The loops of c_fc over `hfirst` to `hlast` (history.c:220-229 and 242-244) from the pointer `p`;
`none` in the first case does not happen, the loop takes at most `hi - lo + 2` tests. -/
def walk (h : H) (lo hi : Nat) (r : Bool) (body : Nat → Bytes → Bytes) : Nat → Int → Option Bytes
  | 0, _ => none
  | k + 1, p =>
    if p ≥ lo ∧ p ≤ hi then
      (get h p.toNat).bind fun s => (walk h lo hi r body k (p + (if r then -1 else 1))).map (body p.toNat s ++ ·)
    else some []

/-- `%d` -/
def dec (k : Int) : Bytes :=
  (if k < 0 then [0x2d] else []) ++ (Nat.toDigits 10 k.natAbs).map fun c => c.toNat.toUInt8

/-- `strchr(s, '\n')`: the bytes through the newline and the rest -/
def atNl : Bytes → Option (Bytes × Bytes)
  | [] => none
  | c :: s => if c = 0x0a then some ([c], s) else (atNl s).map fun q => (c :: q.1, q.2)

/-- history.c:225-227; the loop goes on while there is a newline, at most as often as there are bytes -/
def multi : Nat → Bytes → Bytes
  | 0, s => s ++ [0x0a]
  | k + 1, s =>
    match atNl s with
    | some (a, b) => a ++ [0x09] ++ multi k b
    | none => s ++ [0x0a]

/-- one entry of `fc -l`, history.c:222-227 -/
def listed (h : H) (n : Bool) (i : Nat) (s : Bytes) : Bytes :=
  (if n then [] else dec (number h i)) ++ [0x09] ++ multi s.length s

/-- history.c:211-247 -/
def fcRange (h : H) (o : FcOpt) (f l : Nat) : Option Res :=
  let (f, l, r) := if f > l then (l, f, !o.r) else (f, l, o.r)
  let start : Int := if r then l else f
  if o.l then (walk h f l r (listed h o.n) (l - f + 2) start).map .list
  else (walk h f l r (fun _ s => s ++ [0x0a]) (l - f + 2) start).map .edit

def bindGot (g : Option Got) (k : Nat → Option Res) : Option Res :=
  match g with
  | none => none
  | some .fails => some .error
  | some (.entry i) => k i

/-- the argument, if not already set, is the next word, history.c:182-186 -/
def takeArg (a : Option Bytes) (ws : List Bytes) : Option Bytes × List Bytes :=
  match a with
  | some a => (some a, ws)
  | none => (ws.head?, ws.tail)

/-- history.c:134-170 -/
def fcSub (num : Bytes → Option Int) (h : H) (o : FcOpt) (ws : List Bytes) : Option Res :=
  if o.e || o.l || o.n || o.r then some .error
  else
    let sub := ws.head?.bind splitArg
    let ws := if sub.isSome then ws.tail else ws
    let (first, ws) := takeArg o.dash[0]? ws
    if o.dash[1]?.isSome || !ws.isEmpty then some .error
    else
      bindGot (match first with | some w => hget num h w false false | none => some (newest h false)) fun i =>
        (get h i).bind fun s =>
          match replace s sub o.g with
          | some t => some (.exec i t)
          | none => some .error

/-- c_fc, history.c:128-244; the options have been read and the editor has not been called -/
def fc (num : Bytes → Option Int) (h : H) (o : FcOpt) (ws : List Bytes) : Option Res :=
  if 2 < o.dash.length then some .error
  else if o.s then fcSub num h o ws
  else if o.e && (o.l || o.n) then some .error
  else
    let (first, ws) := takeArg o.dash[0]? ws
    let (last, ws) := takeArg o.dash[1]? ws
    if !ws.isEmpty then some .error
    else
      match first with
      | none =>
        bindGot (some (if o.l then getNum h (-16) true true else newest h false)) fun f =>
          bindGot (some (newest h false)) fun l => fcRange h o f l
      | some w =>
        bindGot (hget num h w (o.l || last.isSome) o.l) fun f =>
          bindGot (match last with
            | some v => hget num h v true o.l
            | none => if o.l then some (newest h false) else some (.entry f)) fun l => fcRange h o f l

/-! ## Specification -/

/-- Spec: the text of an entry with every newline followed by a tab -/
def indented (s : Bytes) : Bytes := s.flatMap fun c => if c = 0x0a then [0x0a, 0x09] else [c]

/-- Spec: one entry of the list: number, tab, text, newline -/
def row (h : H) (n : Bool) (i : Nat) (s : Bytes) : Bytes :=
  (if n then [] else dec (number h i)) ++ 0x09 :: (indented s ++ [0x0a])

/-- Spec: the positions from `a` to `b`, both included, in this order, up or down -/
def fromTo (a b : Nat) : List Nat :=
  if a ≤ b then List.range' a (b - a + 1) else (List.range' b (a - b + 1)).reverse

/-- Spec: which entry an operand names: the one with this number, the one that many before the
current, or the last one before the current that matches.  `lax` takes the first or last for numbers
out of range, and the current command counts only if `cur`. -/
inductive Denotes (num : Bytes → Option Int) (h : H) (items : List Bytes) (w : Bytes) (lax cur : Bool) : Nat → Prop
  | number {k i} : num w = some k → 0 ≤ k → number h i = k → i < h.n → (cur = true ∨ i + 1 < h.n) → Denotes num h items w lax cur i
  | back {k : Int} {i : Nat} : num w = some k → k < 0 → (i : Int) + 1 = h.n + k → Denotes num h items w lax cur i
  | low {k} : num w = some k → lax = true → 2 ≤ h.n → (0 ≤ k → k < number h 0) → (k < 0 → (h.n : Int) + k ≤ 0) → Denotes num h items w lax cur 0
  | high {k i} : num w = some k → lax = true → 0 ≤ k → k > number h (h.n - 1) → i + (if cur then 1 else 2) = h.n → Denotes num h items w lax cur i
  | text {i s} : num w = none → i + 1 < h.n → items[i]? = some s → Matches w s →
      (∀ j t, i < j → j + 1 < h.n → items[j]? = some t → ¬ Matches w t) → Denotes num h items w lax cur i

/-! ## Proofs -/

theorem atNl_some {s a b : Bytes} (h : atNl s = some (a, b)) : ∃ p, a = p ++ [0x0a] ∧ s = p ++ 0x0a :: b ∧ 0x0a ∉ p := by
  induction s generalizing a with
  | nil => cases h
  | cons c s ih =>
    simp only [atNl] at h
    split at h
    · rename_i hc
      cases h
      exact ⟨[], by simp [hc], by simp [hc], by simp⟩
    · rename_i hc
      cases hs : atNl s with
      | none => rw [hs] at h; cases h
      | some q =>
        rw [hs] at h
        cases h
        obtain ⟨p, h1, h2, h3⟩ := ih (a := q.1) hs
        exact ⟨c :: p, by simp [h1], by rw [h2]; rfl, by simp [h3, Ne.symm hc]⟩

theorem atNl_none {s : Bytes} (h : atNl s = none) : 0x0a ∉ s := by
  induction s with
  | nil => simp
  | cons c s ih =>
    simp only [atNl] at h
    split at h
    · cases h
    · rename_i hc
      simp only [Option.map_eq_none_iff] at h
      simp [ih h, Ne.symm hc]

theorem indented_plain {s : Bytes} (h : 0x0a ∉ s) : indented s = s := by
  induction s with
  | nil => rfl
  | cons c s ih =>
    simp only [List.mem_cons, not_or] at h
    simp only [indented, List.flatMap_cons, if_neg (Ne.symm h.1)]
    have := ih h.2
    simp only [indented] at this
    rw [this]; rfl

theorem multi_spec (k : Nat) (s : Bytes) (hk : s.length ≤ k) : multi k s = indented s ++ [0x0a] := by
  induction k generalizing s with
  | zero =>
    have : s = [] := List.eq_nil_of_length_eq_zero (by omega)
    subst this; rfl
  | succ k ih =>
    simp only [multi]
    cases hs : atNl s with
    | none => simp only [indented_plain (atNl_none hs)]
    | some q =>
      obtain ⟨a, b⟩ := q
      obtain ⟨p, h1, h2, h3⟩ := atNl_some hs
      have hb : b.length ≤ k := by
        have := congrArg List.length h2
        simp at this
        omega
      have e : indented s = p ++ [0x0a, 0x09] ++ indented b := by
        rw [h2]
        have := indented_plain h3
        simp only [indented] at this
        simp only [indented, List.flatMap_append, List.flatMap_cons, this, if_true, List.append_assoc]
      simp only [h1, ih b hb, e, List.append_assoc]
      rfl

theorem listed_row (h : H) (n : Bool) (i : Nat) (s : Bytes) : listed h n i s = row h n i s := by
  simp only [listed, row, multi_spec s.length s (Nat.le_refl _), List.append_assoc]
  rfl

def rows (items : List Bytes) (body : Nat → Bytes → Bytes) (is : List Nat) : Bytes :=
  (is.map fun i => body i (items[i]?.getD [])).flatten

theorem walk_up {h : H} {items : List Bytes} (w : Holds h items) (body : Nat → Bytes → Bytes) (lo hi : Nat) (hh : hi < h.n) (k a : Nat)
    (ha : lo ≤ a) (hk : hi + 2 ≤ a + k) (ha2 : a ≤ hi + 1) :
    walk h lo hi false body k a = some (rows items body (List.range' a (hi + 1 - a))) := by
  induction k generalizing a with
  | zero => omega
  | succ k ih =>
    simp only [walk]
    by_cases hp : a ≤ hi
    · rw [if_pos (by omega)]
      obtain ⟨s, h1, h2⟩ := w.get (i := a) (by omega)
      have e : ((a : Int) + (if (false : Bool) = true then -1 else 1)) = ((a + 1 : Nat) : Int) := by simp
      rw [e]
      simp only [Int.toNat_natCast, h2, Option.bind_some]
      rw [ih (a + 1) (by omega) (by omega) (by omega)]
      have e2 : hi + 1 - a = (hi + 1 - (a + 1)) + 1 := by omega
      rw [e2, List.range'_succ]
      simp [rows, h1]
    · rw [if_neg (by omega)]
      have : hi + 1 - a = 0 := by omega
      rw [this]; rfl

theorem walk_down {h : H} {items : List Bytes} (w : Holds h items) (body : Nat → Bytes → Bytes) (lo hi : Nat) (hh : hi < h.n) (k m : Nat)
    (hk : m + 1 ≤ k) (hm : lo + m ≤ hi + 1) :
    walk h lo hi true body k ((lo : Int) + m - 1) = some (rows items body (List.range' lo m).reverse) := by
  induction k generalizing m with
  | zero => omega
  | succ k ih =>
    simp only [walk]
    cases m with
    | zero => rw [if_neg (by omega)]; rfl
    | succ m =>
      rw [if_pos (by omega)]
      have e1 : ((lo : Int) + ((m + 1 : Nat) : Int) - 1).toNat = lo + m := by omega
      rw [e1]
      obtain ⟨s, h1, h2⟩ := w.get (i := lo + m) (by omega)
      simp only [h2, Option.bind_some, if_true]
      have e2 : ((lo : Int) + ((m + 1 : Nat) : Int) - 1 + -1) = (lo : Int) + (m : Int) - 1 := by omega
      rw [e2, ih m (by omega) (by omega)]
      have e3 : List.range' lo (m + 1) = List.range' lo m ++ [lo + m] := by
        rw [List.range'_concat]; simp
      rw [e3]
      simp [rows, h1]

/-- the order: from `f` to `l`, the other way with `-r` -/
def order (r : Bool) (f l : Nat) : List Nat := if r then fromTo l f else fromTo f l

theorem fromTo_reverse (f l : Nat) : fromTo l f = (fromTo f l).reverse := by
  simp only [fromTo]
  by_cases h : f = l
  · subst h; simp
  · by_cases h2 : f < l
    · rw [if_neg (by omega), if_pos (by omega)]
    · rw [if_pos (by omega), if_neg (by omega)]
      simp

theorem walk_range {h : H} {items : List Bytes} (w : Holds h items) (body : Nat → Bytes → Bytes) (lo hi : Nat) (hh : hi < h.n) (hl : lo ≤ hi) (r : Bool) :
    walk h lo hi r body (hi - lo + 2) (if r then (hi : Int) else (lo : Int)) = some (rows items body (order r lo hi)) := by
  cases r with
  | false =>
    have := walk_up w body lo hi hh (hi - lo + 2) lo (by omega) (by omega) (by omega)
    simp only [Bool.false_eq_true, if_false, order, fromTo, if_pos hl]
    rw [this]
    congr 3
    omega
  | true =>
    have := walk_down w body lo hi hh (hi - lo + 2) (hi - lo + 1) (by omega) (by omega)
    simp only [if_true, order, fromTo_reverse lo hi]
    have e : (hi : Int) = (lo : Int) + ((hi - lo + 1 : Nat) : Int) - 1 := by omega
    rw [← e] at this
    rw [this]
    simp only [fromTo, if_pos hl]

theorem fcRange_spec {h : H} {items : List Bytes} (w : Holds h items) (o : FcOpt) (f l : Nat) (hf : f < h.n) (hl : l < h.n) :
    fcRange h o f l = some (if o.l then .list (rows items (row h o.n) (order o.r f l))
      else .edit (rows items (fun _ s => s ++ [0x0a]) (order o.r f l))) := by
  have hb : listed h o.n = row h o.n := by funext i s; exact listed_row h o.n i s
  simp only [fcRange, hb]
  by_cases hg : f > l
  · simp only [if_pos hg]
    have e : order (!o.r) l f = order o.r f l := by cases o.r <;> rfl
    simp only [walk_range w _ l f hf (by omega), e, Option.map_some]
    split <;> rfl
  · simp only [if_neg hg]
    simp only [walk_range w _ f l hl (by omega), Option.map_some]
    split <;> rfl

theorem newest_spec (h : H) (cur : Bool) :
    (∃ i, newest h cur = .entry i ∧ i + (if cur then 1 else 2) = h.n) ∨ (newest h cur = .fails ∧ h.n < (if cur then 1 else 2)) := by
  simp only [newest]
  cases cur <;> simp <;> by_cases h0 : h.n = 0 <;> simp [h0]
  · by_cases h1 : h.n = 1 <;> simp [h1]
    omega
  · omega

/-- `hist_get` finds the entry an operand names, and fails exactly if it names none; with fewer than
two entries a string is not looked at. -/
theorem hget_spec (num : Bytes → Option Int) {h : H} {items : List Bytes} (w : Holds h items) (s : Bytes) (lax cur : Bool)
    (hn : num s = none → 2 ≤ h.n) :
    (∃ i, hget num h s lax cur = some (.entry i) ∧ i < h.n ∧ (cur = true ∨ i + 1 < h.n) ∧ Denotes num h items s lax cur i) ∨
    (hget num h s lax cur = some .fails ∧ ∀ i, i < h.n → (cur = true ∨ i + 1 < h.n) → ¬ Denotes num h items s lax cur i) := by
  simp only [hget]
  cases hk : num s with
  | none =>
    rcases find_recent_partial w (hn hk) s with ⟨k, t, h1, h2, h3, h4, h5⟩ | ⟨h1, h2⟩
    · exact Or.inl ⟨k, by rw [h1]; rfl, by omega, Or.inr h2, .text hk h2 h3 h4 h5⟩
    · refine Or.inr ⟨by rw [h1]; rfl, ?_⟩
      intro i _ _ hd
      cases hd with
      | number a => rw [hk] at a; cases a
      | back a => rw [hk] at a; cases a
      | low a => rw [hk] at a; cases a
      | high a => rw [hk] at a; cases a
      | text _ b c d _ => exact h2 _ _ b c d
  | some k =>
    -- whatever the operand names, it is the entry this computes
    have inj : ∀ i, Denotes num h items s lax cur i → (0 ≤ k ∧ number h i = k ∧ i < h.n) ∨ (k < 0 ∧ (i : Int) + 1 = h.n + k) ∨
        (lax = true ∧ 2 ≤ h.n ∧ (0 ≤ k → k < number h 0) ∧ (k < 0 → (h.n : Int) + k ≤ 0) ∧ i = 0) ∨
        (lax = true ∧ 0 ≤ k ∧ k > number h (h.n - 1) ∧ i + (if cur then 1 else 2) = h.n) := by
      intro i hd
      cases hd with
      | number a b c d e => rw [hk] at a; cases a; exact Or.inl ⟨b, c, d⟩
      | back a b c => rw [hk] at a; cases a; exact Or.inr (Or.inl ⟨b, c⟩)
      | low a b c d e => rw [hk] at a; cases a; exact Or.inr (Or.inr (Or.inl ⟨b, c, d, e, rfl⟩))
      | high a b c d e => rw [hk] at a; cases a; exact Or.inr (Or.inr (Or.inr ⟨b, c, d, e⟩))
      | text a => rw [hk] at a; cases a
    simp only [getNum, number] at inj ⊢
    generalize hp : (h.n : Int) - 1 + (if k < 0 then k else k - h.line) = p
    have hp1 : k < 0 → p = (h.n : Int) - 1 + k := fun q => by rw [← hp, if_pos q]
    have hp2 : 0 ≤ k → p = (h.n : Int) - 1 + (k - h.line) := fun q => by rw [← hp, if_neg (by omega)]
    by_cases c1 : p < 0
    · rw [if_pos c1]
      cases lax with
      | true =>
        simp only [if_true]
        by_cases hn1 : h.n ≤ 1
        · refine Or.inr ⟨by rw [if_pos hn1], ?_⟩
          intro i hi hc hd
          rcases inj i hd with q | q | q | q
          · have := hp2 q.1; omega
          · have := hp1 q.1; omega
          · omega
          · have := hp2 q.2.1; omega
        · refine Or.inl ⟨0, by rw [if_neg hn1], by omega, Or.inr (by omega), .low hk rfl (by omega) ?_ ?_⟩
          · intro q; have := hp2 q; simp only [number]; omega
          · intro q; have := hp1 q; omega
      | false =>
        refine Or.inr ⟨by simp, ?_⟩
        intro i hi hc hd
        rcases inj i hd with q | q | q | q
        · have := hp2 q.1; omega
        · have := hp1 q.1; omega
        · cases q.1
        · cases q.1
    · rw [if_neg c1]
      by_cases c2 : p > (h.n : Int) - 1
      · rw [if_pos c2]
        have hk0 : 0 ≤ k := by
          by_cases q : k < 0
          · have := hp1 q; omega
          · omega
        have hpk := hp2 hk0
        cases lax with
        | true =>
          simp only [if_true]
          rcases newest_spec h cur with ⟨i, e1, e2⟩ | ⟨e1, e2⟩
          · refine Or.inl ⟨i, by rw [e1], ?_, ?_, .high hk rfl hk0 ?_ e2⟩
            · revert e2; cases cur <;> simp <;> omega
            · revert e2; cases cur <;> simp <;> omega
            · simp only [number]
              have : 0 < h.n := by revert e2; cases cur <;> simp <;> omega
              omega
          · refine Or.inr ⟨by rw [e1], ?_⟩
            intro i hi hc hd
            revert e2
            cases cur with
            | true => simp; omega
            | false => simp at hc ⊢; omega
        | false =>
          refine Or.inr ⟨by simp, ?_⟩
          intro i hi hc hd
          rcases inj i hd with q | q | q | q
          · omega
          · omega
          · cases q.1
          · cases q.1
      · rw [if_neg c2]
        by_cases c3 : cur = false ∧ p = (h.n : Int) - 1
        · refine Or.inr ⟨by simp [c3.1, c3.2], ?_⟩
          intro i hi hc hd
          have hc : i + 1 < h.n := by
            rcases hc with q | q
            · rw [c3.1] at q; cases q
            · exact q
          have c4 := c3.2
          rcases inj i hd with q | q | q | q
          · have := hp2 q.1; omega
          · have := hp1 q.1; omega
          · by_cases z : k < 0
            · have := hp1 z; have := q.2.2.2.1 z; omega
            · have := hp2 (by omega); have := q.2.2.1 (by omega); omega
          · have := hp2 q.2.1; omega
        · have cf : (!cur && p == (h.n : Int) - 1) = false := by
            cases hcur : cur <;> simp
            intro q
            exact c3 ⟨hcur, q⟩
          rw [cf]
          have hcc : cur = true ∨ p.toNat + 1 < h.n := by
            cases hcur : cur
            · right
              have : p ≠ (h.n : Int) - 1 := fun q => c3 ⟨hcur, q⟩
              omega
            · exact Or.inl rfl
          refine Or.inl ⟨p.toNat, by simp, by omega, hcc, ?_⟩
          by_cases z : k < 0
          · have := hp1 z
            exact .back hk z (by omega)
          · have := hp2 (by omega)
            exact .number hk (by omega) (by simp only [number]; omega) (by omega) hcc

/-! ### The theorems -/

/-- **C105** `fc -l first last` lists the entries from the one `first` names to the one `last` names, in
this order or with `-r` the other, each with its number (not with `-n`) and its text; without `-l` they
are written to the file that is edited, one after the other.

Partial: there must be a command before the current one, see `fc_itself`. -/
theorem fc_two_partial (num : Bytes → Option Int) {h : H} {items : List Bytes} (w : Holds h items) (hn : 2 ≤ h.n) (o : FcOpt) (a b : Bytes)
    (hs : o.s = false) (he : o.e = true → o.l = false ∧ o.n = false) (hd : o.dash = []) :
    (∃ f l, Denotes num h items a true o.l f ∧ Denotes num h items b true o.l l ∧ f < h.n ∧ l < h.n ∧
      fc num h o [a, b] = some (if o.l then .list (rows items (row h o.n) (order o.r f l))
        else .edit (rows items (fun _ s => s ++ [0x0a]) (order o.r f l)))) ∨
    (fc num h o [a, b] = some .error ∧
      ((∀ i, i < h.n → (o.l = true ∨ i + 1 < h.n) → ¬ Denotes num h items a true o.l i) ∨
       (∀ i, i < h.n → (o.l = true ∨ i + 1 < h.n) → ¬ Denotes num h items b true o.l i))) := by
  have hel : (o.e && (o.l || o.n)) = false := by
    cases h1 : o.e
    · rfl
    · simp [he h1]
  simp only [fc, hs, hd, hel, takeArg, List.length_nil, List.getElem?_nil, List.head?_cons, List.tail_cons, List.isEmpty_nil, Bool.not_true,
    Bool.false_eq_true, if_false, show ¬ (2 < 0) by omega, Option.isSome_some, Bool.or_true]
  rcases hget_spec num w a true o.l (fun _ => hn) with ⟨f, e1, e2, e3, e4⟩ | ⟨e1, e2⟩
  · rcases hget_spec num w b true o.l (fun _ => hn) with ⟨l, g1, g2, g3, g4⟩ | ⟨g1, g2⟩
    · left
      exact ⟨f, l, e4, g4, e2, g2, by simp only [e1, g1, bindGot]; exact fcRange_spec w o f l e2 g2⟩
    · right
      exact ⟨by simp only [e1, g1, bindGot], Or.inr g2⟩
  · right
    exact ⟨by simp only [e1, bindGot], Or.inl e2⟩

/-- **C105** `fc -l` lists the last sixteen commands before this one. -/
theorem fc_default {h : H} {items : List Bytes} (num : Bytes → Option Int) (w : Holds h items) (o : FcOpt) (hn : 2 ≤ h.n)
    (hl : o.l = true) (hs : o.s = false) (he : o.e = false) (hd : o.dash = []) :
    fc num h o [] = some (.list (rows items (row h o.n) (order o.r (h.n - 1 - 16) (h.n - 2)))) := by
  simp only [fc, hs, hd, hl, he, takeArg, List.length_nil, List.getElem?_nil, List.head?_nil, List.tail_nil, List.isEmpty_nil, Bool.not_true,
    Bool.false_eq_true, if_false, show ¬ (2 < 0) by omega, Bool.false_and, if_true]
  have hnew : newest h false = .entry (h.n - 2) := by
    rcases newest_spec h false with ⟨i, e1, e2⟩ | ⟨e1, e2⟩
    · simp only [Bool.false_eq_true, if_false] at e2; rw [e1]; congr 1; omega
    · simp only [Bool.false_eq_true, if_false] at e2; omega
  have hg : getNum h (-16) true true = .entry (h.n - 1 - 16) := by
    simp only [getNum, show ((-16 : Int) < 0) from by decide, if_true, Bool.not_true, Bool.false_and, Bool.false_eq_true, if_false]
    by_cases c : (h.n : Int) - 1 + -16 < 0
    · rw [if_pos c, if_neg (by omega)]; congr 1; omega
    · rw [if_neg c, if_neg (by omega)]; congr 1; omega
  rw [hnew, hg]
  simp only [bindGot]
  rw [fcRange_spec w o _ _ (by omega) (by omega), if_pos hl]

/-- **C105** `fc -s old=new cmd` runs the entry `cmd` names with the substitution made; `fc -s` the
command before this one. -/
theorem fc_s (num : Bytes → Option Int) {h : H} {items : List Bytes} (w : Holds h items) (hn : 2 ≤ h.n) (o : FcOpt)
    (hs : o.s = true) (hx : o.e = false ∧ o.l = false ∧ o.n = false ∧ o.r = false) (hd : o.dash = []) (ws : List Bytes) {i : Nat} {t : Bytes}
    (hr : fc num h o ws = some (.exec i t)) :
    ∃ sub rest s, ((∃ x y z, splitArg x = some (y, z) ∧ sub = some (y, z) ∧ ws = x :: rest) ∨
        (sub = none ∧ ws = rest ∧ ∀ x, ws.head? = some x → splitArg x = none)) ∧
      ((rest = [] ∧ i + 2 = h.n) ∨ ∃ v, rest = [v] ∧ Denotes num h items v false false i ∧ i + 1 < h.n) ∧
      items[i]? = some s ∧ replace s sub o.g = some t := by
  have fin : ∀ (sub : Option (Bytes × Bytes)) (g : Option Got), bindGot g (fun i => (get h i).bind fun s =>
      match replace s sub o.g with | some t => some (.exec i t) | none => some .error) = some (.exec i t) →
      g = some (.entry i) ∧ ∃ s, get h i = some s ∧ replace s sub o.g = some t := by
    intro sub g hb
    match g, hb with
    | some (.entry j), hb =>
      simp only [bindGot] at hb
      cases hgj : get h j with
      | none => rw [hgj] at hb; cases hb
      | some s =>
        rw [hgj] at hb
        simp only [Option.bind_some] at hb
        split at hb
        · rename_i t' ht
          cases hb
          exact ⟨rfl, s, hgj, ht⟩
        · cases hb
  have sel : ∀ (sub : Option (Bytes × Bytes)) (rest : List Bytes),
      (if ((takeArg none rest).2.isEmpty) = false then some Res.error
        else bindGot (match (takeArg none rest).1 with | some w => hget num h w false false | none => some (newest h false)) fun i =>
        (get h i).bind fun s => match replace s sub o.g with | some t => some (.exec i t) | none => some .error) = some (.exec i t) →
      ((rest = [] ∧ i + 2 = h.n) ∨ ∃ v, rest = [v] ∧ Denotes num h items v false false i ∧ i + 1 < h.n) ∧
      ∃ s, items[i]? = some s ∧ replace s sub o.g = some t := by
    intro sub rest hb
    match rest, hb with
    | [], hb =>
      simp only [takeArg, List.head?_nil, List.tail_nil, List.isEmpty_nil, Bool.true_eq_false, if_false] at hb
      obtain ⟨h1, s, h2, h3⟩ := fin _ _ hb
      rcases newest_spec h false with ⟨j, e1, e2⟩ | ⟨e1, _⟩
      · rw [e1] at h1
        cases h1
        simp only [Bool.false_eq_true, if_false] at e2
        obtain ⟨s', g1, g2⟩ := w.get (i := i) (by omega)
        rw [h2] at g2; cases g2
        exact ⟨Or.inl ⟨rfl, e2⟩, s, g1, h3⟩
      · rw [e1] at h1; cases h1
    | [v], hb =>
      simp only [takeArg, List.head?_cons, List.tail_cons, List.isEmpty_nil, Bool.true_eq_false, if_false] at hb
      obtain ⟨h1, s, h2, h3⟩ := fin _ _ hb
      rcases hget_spec num w v false false (fun _ => hn) with ⟨j, e1, e2, e3, e4⟩ | ⟨e1, _⟩
      · rw [e1] at h1
        cases h1
        obtain ⟨s', g1, g2⟩ := w.get (i := i) e2
        rw [h2] at g2; cases g2
        refine ⟨Or.inr ⟨v, rfl, e4, ?_⟩, s, g1, h3⟩
        rcases e3 with e3 | e3
        · cases e3
        · exact e3
      · rw [e1] at h1; cases h1
    | v :: u :: rest, hb => simp [takeArg] at hb
  simp only [fc, hs, hd, List.length_nil, show ¬ (2 < 0) by omega, if_false, if_true, fcSub, hx.1, hx.2.1, hx.2.2.1, hx.2.2.2, Bool.or_self,
    Bool.false_eq_true, List.getElem?_nil, Option.isSome_none, Bool.false_or, Bool.not_eq_true'] at hr
  cases hsub : ws.head?.bind splitArg with
  | none =>
    rw [hsub] at hr
    simp only [Option.isSome_none, Bool.false_eq_true, if_false] at hr
    obtain ⟨a, s, b, c⟩ := sel none ws hr
    refine ⟨none, ws, s, Or.inr ⟨rfl, rfl, ?_⟩, a, b, c⟩
    intro x hx
    rw [hx] at hsub
    exact hsub
  | some q =>
    obtain ⟨y, z⟩ := q
    rw [hsub] at hr
    simp only [Option.isSome_some, if_true] at hr
    cases ws with
    | nil => cases hsub
    | cons x ws =>
      obtain ⟨a, s, b, c⟩ := sel (some (y, z)) ws hr
      exact ⟨some (y, z), ws, s, Or.inl ⟨x, y, z, hsub, rfl, rfl⟩, a, b, c⟩

/-- **C105** With one operand: `fc -l first` lists from there to the command before this one, `fc first`
edits this one entry. -/
theorem fc_one_partial (num : Bytes → Option Int) {h : H} {items : List Bytes} (w : Holds h items) (hn : 2 ≤ h.n) (o : FcOpt) (a : Bytes)
    (hs : o.s = false) (he : o.e = true → o.l = false ∧ o.n = false) (hd : o.dash = []) :
    (∃ f, Denotes num h items a o.l o.l f ∧ f < h.n ∧
      fc num h o [a] = some (if o.l then .list (rows items (row h o.n) (order o.r f (h.n - 2)))
        else .edit (items[f]?.getD [] ++ [0x0a]))) ∨
    (fc num h o [a] = some .error ∧ ∀ i, i < h.n → (o.l = true ∨ i + 1 < h.n) → ¬ Denotes num h items a o.l o.l i) := by
  have hel : (o.e && (o.l || o.n)) = false := by
    cases h1 : o.e
    · rfl
    · simp [he h1]
  have hnew : newest h false = .entry (h.n - 2) := by
    rcases newest_spec h false with ⟨i, e1, e2⟩ | ⟨e1, e2⟩
    · simp only [Bool.false_eq_true, if_false] at e2; rw [e1]; congr 1; omega
    · simp only [Bool.false_eq_true, if_false] at e2; omega
  simp only [fc, hs, hd, hel, takeArg, List.length_nil, List.getElem?_nil, List.head?_cons, List.head?_nil, List.tail_nil, List.tail_cons, List.isEmpty_nil, Bool.not_true,
    Bool.false_eq_true, if_false, show ¬ (2 < 0) by omega, Option.isSome_none, Bool.or_false]
  rcases hget_spec num w a o.l o.l (fun _ => hn) with ⟨f, e1, e2, e3, e4⟩ | ⟨e1, e2⟩
  · left
    refine ⟨f, e4, e2, ?_⟩
    simp only [e1, bindGot]
    cases hol : o.l with
    | true =>
      simp only [if_true, hnew]
      rw [fcRange_spec w o _ _ e2 (by omega), if_pos hol]
    | false =>
      simp only [Bool.false_eq_true, if_false]
      rw [fcRange_spec w o _ _ e2 e2, hol]
      cases o.r <;> simp [order, fromTo, rows]
  · right
    exact ⟨by simp only [e1, bindGot], e2⟩

/-- **C105** When the `fc` command is the only entry it selects itself. -/
theorem fc_itself : ∃ h, run (init 9 (fun _ => false)) [.cmd [0x66, 0x63, 0x20, 0x66]] = some h ∧
    fc (fun _ => none) h {} [[0x66]] = some (.edit [0x66, 0x63, 0x20, 0x66, 0x0a]) := by
  refine ⟨_, rfl, ?_⟩
  decide +kernel

/-- Three commands, one of two lines; the fourth is `fc`. -/
def demoH : Option H := run (init 9 (fun _ => false)) [.cmd [0x61, 0x62], .cmd [0x61, 0x0a, 0x63, 0x0a], .cmd [0x62, 0x61], .cmd [0x66, 0x63]]

def demoNum : Bytes → Option Int := fun w =>
  if w = [0x31] then some 1 else if w = [0x32] then some 2 else if w = [0x2d, 0x31] then some (-1) else if w = [0x39] then some 9 else none

/-- `fc -l 1 2` is `1<tab>ab`, `2<tab>a`, `<tab>c` -/
example : demoH.bind (fun h => fc demoNum h { l := true } [[0x31], [0x32]]) =
    some (.list [0x31, 9, 0x61, 0x62, 10, 0x32, 9, 0x61, 10, 9, 0x63, 10]) := by decide +kernel
example : demoH.bind (fun h => fc demoNum h { l := true, n := true } [[0x2d, 0x31], [0x61]]) =
    some (.list [9, 0x62, 0x61, 10, 9, 0x61, 10, 9, 0x63, 10]) := by decide +kernel
example : demoH.bind (fun h => fc demoNum h {} [[0x39]]) = some .error := by decide +kernel
example : demoH.bind (fun h => fc demoNum h { s := true } [[0x62, 0x3d, 0x78]]) = some (.exec 2 [0x78, 0x61]) := by decide +kernel

/-- A number beyond the last lists the current command and the one before it, in this order. -/
example : demoH.bind (fun h => fc demoNum h { l := true } [[0x39]]) = some (.list [0x34, 9, 0x66, 0x63, 10, 0x33, 9, 0x62, 0x61, 10]) := by decide +kernel

end Ksh.History
