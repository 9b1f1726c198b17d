import Verif.Test.Grammar
/-!
# `test`, `[` and `[[ ]]` (C23, C24)
-/

namespace Ksh.Test

abbrev Orc := List (Ev W) → Op → W → Option W → Bool × Bool

/-! ## POSIX, for up to four arguments -/

/-- A unary primary applied to `x`; the outer `none`: not a unary operator, the inner
`none`: the primary complains. -/
def unary (K : Orc) (u x : W) : Option (Option Bool) :=
  if u = ['-', 'n'] then some (some (x ≠ [])) else if u = ['-', 'z'] then some (some (x = []))
  else if u ∈ uOps then some (let r := K [] (.un u) x none; if r.2 then none else some r.1) else none

def binary (K : Orc) (a o b : W) : Option (Option Bool) :=
  if o = ['='] ∨ o = ['=', '='] then some (some (a = b)) else if o = ['!', '='] then some (some (a ≠ b))
  else if o = ['<'] then some (some (slt a b)) else if o = ['>'] then some (some (slt b a))
  else if o ∈ bOps then some (let r := K [] (.bin o) a (some b); if r.2 then none else some r.1) else none

def negate (r : Option (Option Bool)) : Option (Option Bool) := r.map (·.map (!·))

def posix1 (a : W) : Option (Option Bool) := some (some (a ≠ []))
def posix2 (K : Orc) (a b : W) : Option (Option Bool) :=
  if a = ['!'] then negate (posix1 b) else unary K a b
def posix3 (K : Orc) (a b c : W) : Option (Option Bool) :=
  if b ∈ bOps then binary K a b c
  else if a = ['!'] then negate (posix2 K b c)
  else if a = ['('] ∧ c = [')'] then posix1 b else none
def posix4 (K : Orc) (a b c d : W) : Option (Option Bool) :=
  if a = ['!'] then negate (posix3 K b c d)
  else if a = ['('] ∧ d = [')'] then posix2 K b c else none

/-- What POSIX says about `test args`; `none`: unspecified. -/
def posix (K : Orc) : List W → Option (Option Bool)
  | [] => some (some false)
  | [a] => posix1 a
  | [a, b] => posix2 K a b
  | [a, b, c] => posix3 K a b c
  | [a, b, c, d] => posix4 K a b c d
  | _ => none

def status : Option Bool → Nat
  | none => 2
  | some true => 0
  | some false => 1

/-! ## Where the shell does otherwise -/

/-- The operand in parentheses would be taken for an operator. -/
def Bare (x : W) : Prop := x ∉ uOps ∧ x ≠ ['!'] ∧ x ≠ ['(']

instance (x : W) : Decidable (Bare x) := by unfold Bare; infer_instance

def clear2 (a b : W) : Bool := a = ['!'] || b ∉ bOps
def clear3 (a b c : W) : Bool :=
  b ∈ bOps || (if a = ['!'] then clear2 b c else decide (Bare b))
def clear4 (a b c : W) (d : W) : Bool :=
  if a = ['!'] then clear3 b c d else if b = ['!'] then decide (Bare c) else clear2 b c

/-- The arguments are read as POSIX says.  Not clear: a unary operator followed by the text
of a binary operator; an operand in parentheses that looks like a unary operator, `!` or
`(`. -/
def clear : List W → Bool
  | [a, b] => clear2 a b
  | [a, b, c] => clear3 a b c
  | [a, b, c, d] => clear4 a b c d
  | _ => true

/-! ## Lemmas -/

theorem unop_none {t : W} (h : t ∉ uOps) : unopW t = none := by
  have h1 : t ≠ ['-', 'n'] := fun e => h (by subst e; decide)
  have h2 : t ≠ ['-', 'z'] := fun e => h (by subst e; decide)
  simp [unopW, h, h1, h2]

theorem unop_some {t : W} (h : t ∈ uOps) : ∃ op, unopW t = some op := by
  unfold unopW
  split
  · exact ⟨_, rfl⟩
  · split
    · exact ⟨_, rfl⟩
    · exact ⟨_, by simp [h]; rfl⟩

theorem binop_none {t : W} (h : t ∉ bOps) : binopW t = none := by
  have h1 : t ≠ ['='] := fun e => h (by subst e; decide)
  have h2 : t ≠ ['=', '='] := fun e => h (by subst e; decide)
  have h3 : t ≠ ['!', '='] := fun e => h (by subst e; decide)
  have h4 : t ≠ ['<'] := fun e => h (by subst e; decide)
  have h5 : t ≠ ['>'] := fun e => h (by subst e; decide)
  simp [binopW, h, h1, h2, h3, h4, h5]

theorem binop_some {t : W} (h : t ∈ bOps) : ∃ op, binopW t = some op := by
  unfold binopW
  split
  · exact ⟨_, rfl⟩
  · split
    · exact ⟨_, rfl⟩
    · split
      · exact ⟨_, rfl⟩
      · split
        · exact ⟨_, rfl⟩
        · exact ⟨_, by simp [h]; rfl⟩

/-- the unary operator evaluated is the one POSIX names -/
theorem unary_eval {K : Orc} {u x : W} {v : Option Bool} (h : unary K u x = some v) :
    ∃ op b e, unopW u = some op ∧ evalW K [] op x none = (b, e) ∧ v = if e then none else some b := by
  rw [unary] at h
  by_cases h1 : u = ['-', 'n']
  · rw [if_pos h1, Option.some.injEq] at h
    subst h
    exact ⟨.nze, _, false, by rw [h1]; decide, rfl, by cases x <;> simp⟩
  · rw [if_neg h1] at h
    by_cases h2 : u = ['-', 'z']
    · rw [if_pos h2, Option.some.injEq] at h
      subst h
      exact ⟨.zer, _, false, by rw [h2]; decide, rfl, by cases x <;> simp⟩
    · rw [if_neg h2] at h
      by_cases h3 : u ∈ uOps
      · rw [if_pos h3, Option.some.injEq] at h
        refine ⟨.un u, (K [] (.un u) x none).1, (K [] (.un u) x none).2, ?_, rfl, h.symm⟩
        rw [unopW, if_neg h1, if_neg h2]; simp [h3]
      · rw [if_neg h3] at h; simp at h

theorem binary_eval {K : Orc} {a o b : W} {v : Option Bool} (h : binary K a o b = some v) :
    ∃ op r e, binopW o = some op ∧ evalW K [] op a (some b) = (r, e) ∧ v = if e then none else some r := by
  rw [binary] at h
  by_cases h1 : o = ['='] ∨ o = ['=', '=']
  · rw [if_pos h1, Option.some.injEq] at h
    subst h
    refine ⟨.eq, _, false, ?_, rfl, by simp⟩
    rcases h1 with rfl | rfl <;> decide
  rw [if_neg h1] at h
  by_cases h2 : o = ['!', '=']
  · rw [if_pos h2, Option.some.injEq] at h
    subst h
    exact ⟨.ne, _, false, by rw [h2]; decide, rfl, by simp⟩
  rw [if_neg h2] at h
  by_cases h3 : o = ['<']
  · rw [if_pos h3, Option.some.injEq] at h
    subst h
    exact ⟨.lt, _, false, by rw [h3]; decide, rfl, by simp⟩
  rw [if_neg h3] at h
  by_cases h4 : o = ['>']
  · rw [if_pos h4, Option.some.injEq] at h
    subst h
    exact ⟨.gt, _, false, by rw [h4]; decide, rfl, by simp⟩
  rw [if_neg h4] at h
  by_cases h5 : o ∈ bOps
  · rw [if_pos h5, Option.some.injEq] at h
    refine ⟨.bin o, (K [] (.bin o) a (some b)).1, (K [] (.bin o) a (some b)).2, ?_, rfl, h.symm⟩
    rw [binopW, if_neg h1, if_neg h2, if_neg h3, if_neg h4]; simp [h5]
  · rw [if_neg h5] at h; simp at h

theorem unop_excl {u : W} {op : Op} (h : unopW u = some op) : u ≠ ['('] ∧ u ≠ ['!'] ∧ u ∈ uOps := by
  refine ⟨?_, ?_, ?_⟩
  · rintro rfl; exact absurd h (by decide +revert)
  · rintro rfl; exact absurd h (by decide +revert)
  · exact Decidable.byContradiction fun hn => by rw [unop_none hn] at h; simp at h

/-- `test u x` by the parser -/
theorem tree_un {K : Orc} {u x : W} {v : Option Bool} (h : unary K u x = some v) (hx : x ∉ bOps) (next : List W) :
    (P.un u x).Ok (plain K) next ∧ ((P.un u x).sem (plain K) []).status = status v ∧ (∀ y ∈ (P.un u x).toks.head?, (plain K).isNot y = false)
    ∧ (((P.un u x).sem (plain K) []).err = false → v = some ((P.un u x).sem (plain K) []).val) := by
  obtain ⟨op, b, e, h1, h2, rfl⟩ := unary_eval h
  obtain ⟨e1, e2, _⟩ := unop_excl h1
  refine ⟨⟨?_, ?_, Or.inr (binop_none hx)⟩, ?_, ?_, ?_⟩
  · simpa [plain] using e1
  · simp [plain, h1]
  · simp only [P.sem, evalTest, plain, h1, Option.getD_some, Bool.false_eq_true, if_false, V.status]
    simp only [h2]
    cases e <;> cases b <;> rfl
  · simpa [plain, P.toks] using e2
  · simp only [P.sem, evalTest, plain, h1, Option.getD_some, Bool.false_eq_true, if_false]
    simp only [h2]
    cases e <;> simp

theorem run_tree {K : Orc} (t : O W) (h : t.Ok (plain K) []) {args : List W} (ha : t.toks = args) :
    (testParse (plain K) args).1 = (t.sem (plain K) []).status := by
  rw [← ha, testParse_tree _ t h]

/-- wrap a primary, negated some times -/
def nots : Nat → N W → N W
  | 0, n => n
  | k + 1, n => .not ['!'] (nots k n)

theorem nots_ok {K : Orc} {n : N W} {next} (h : n.Ok (plain K) next) : ∀ k, (nots k n).Ok (plain K) next
  | 0 => h
  | k + 1 => ⟨by simp [plain], nots_ok h k⟩

theorem nots_toks {n : N W} : ∀ k, (nots k n).toks = List.replicate k ['!'] ++ n.toks
  | 0 => by simp [nots]
  | k + 1 => by simp [nots, N.toks, nots_toks k, List.replicate_succ]

theorem nots_sem {K : Orc} {n : N W} {h : List (Ev W)} : ∀ k, ((nots k n).sem (plain K) h).err = (n.sem (plain K) h).err ∧
    ((nots k n).sem (plain K) h).val = ((n.sem (plain K) h).val != decide (k % 2 = 1))
  | 0 => by simp [nots]
  | k + 1 => by
    obtain ⟨h1, h2⟩ := nots_sem (K := K) (n := n) (h := h) k
    refine ⟨h1, ?_⟩
    simp only [nots, N.sem, h2]
    rcases Nat.mod_two_eq_zero_or_one k with hk | hk
    · have : (k + 1) % 2 = 1 := by omega
      simp [hk, this]
    · have : (k + 1) % 2 = 0 := by omega
      simp [hk, this]

def flip (k : Nat) (v : Option Bool) : Option Bool := v.map (· != decide (k % 2 = 1))

theorem run_nots {K : Orc} {p : P W} {v : Option Bool} (k : Nat) (hok : p.Ok (plain K) [])
    (hn : ∀ y ∈ p.toks.head?, (plain K).isNot y = false) (hs : (p.sem (plain K) []).status = status v)
    (hv : (p.sem (plain K) []).err = false → v = some (p.sem (plain K) []).val) :
    (testParse (plain K) (List.replicate k ['!'] ++ p.toks)).1 = status (flip k v) := by
  have hpk : (N.prim p).Ok (plain K) [] := ⟨hok, hn⟩
  rw [run_tree (.one (.one (nots k (.prim p)))) ⟨⟨nots_ok hpk k, by simp⟩, by simp⟩ (by simp [O.toks, A.toks, nots_toks, N.toks])]
  obtain ⟨e1, e2⟩ := nots_sem (K := K) (n := .prim p) (h := []) k
  rw [show (N.prim p).sem (plain K) [] = p.sem (plain K) [] from by rw [N.sem]] at e1 e2
  rw [O.sem, A.sem, V.status, e1, e2]
  by_cases hp : (p.sem (plain K) []).err = true
  · rw [V.status, if_pos hp] at hs
    rw [if_pos hp]
    cases v with
    | none => rfl
    | some b => cases b <;> simp [status] at hs
  · rw [if_neg hp, hv (by simpa using hp)]
    simp only [flip, Option.map_some]
    cases ((p.sem (plain K) []).val != decide (k % 2 = 1)) <;> rfl

/-- `( x )` with a bare operand -/
theorem tree_paren1 {K : Orc} {x : W} (hx : Bare x) :
    (P.paren ['('] (.one (.one (.prim (.str x)))) [')']).Ok (plain K) [] := by
  refine ⟨by simp [plain], ⟨⟨⟨⟨rfl, ?_, Or.inl (unop_none hx.1), ?_⟩, ?_⟩, ?_⟩, ?_⟩, by simp [plain]⟩
  · simpa [plain] using hx.2.2
  · simp [plain]; decide
  · simpa [plain, P.toks] using hx.2.1
  · simp [plain]
  · simp [plain]

theorem tree_parenNot {K : Orc} {x : W} (hx : Bare x) :
    (P.paren ['('] (.one (.one (.not ['!'] (.prim (.str x))))) [')']).Ok (plain K) [] := by
  refine ⟨by simp [plain], ⟨⟨⟨by simp [plain], ⟨⟨rfl, ?_, Or.inl (unop_none hx.1), ?_⟩, ?_⟩⟩, ?_⟩, ?_⟩, by simp [plain]⟩
  · simpa [plain] using hx.2.2
  · simp [plain]; decide
  · simpa [plain, P.toks] using hx.2.1
  · simp [plain]
  · simp [plain]

theorem tree_parenUn {K : Orc} {u x : W} {v : Option Bool} (h : unary K u x = some v) (hx : x ∉ bOps) :
    (P.paren ['('] (.one (.one (.prim (.un u x)))) [')']).Ok (plain K) [] := by
  obtain ⟨h1, _, h3, _⟩ := tree_un h hx [[')']]
  exact ⟨by simp [plain], ⟨⟨⟨h1, h3⟩, by simp [plain]⟩, by simp [plain]⟩, by simp [plain]⟩

/-- the loop over few arguments and the parser behind it, for three arguments or less after
`k` negations -/
def behind (K : Orc) (k : Nat) (l : List W) : Nat :=
  match few (plain K) l (decide (k % 2 = 1)) with
  | some st => st
  | none => (testParse (plain K) (List.replicate k ['!'] ++ l)).1

theorem behind1 {K : Orc} (k : Nat) (a : W) : behind K k [a] = status (flip k (some (a ≠ []))) := by
  simp only [behind, few, plain, evalW]
  simp only [flip, Option.map_some, ne_eq, decide_not]
  cases a with
  | nil => cases (decide (k % 2 = 1)) <;> rfl
  | cons x l => cases (decide (k % 2 = 1)) <;> rfl

theorem rep_assoc (k : Nat) (x : W) (l : List W) : List.replicate (k + 1) x ++ l = List.replicate k x ++ x :: l := by
  rw [List.replicate_succ']; simp

theorem flip_decide (k : Nat) : (!decide (k % 2 = 1)) = decide ((k + 1) % 2 = 1) := by
  rcases Nat.mod_two_eq_zero_or_one k with h | h
  · have : (k + 1) % 2 = 1 := by omega
    simp [h, this]
  · have : (k + 1) % 2 = 0 := by omega
    simp [h, this]

theorem behind_not {K : Orc} (k : Nat) (b : W) (r : List W) (hr : ∀ c, r = [c] → b ∉ bOps) :
    behind K k (['!'] :: b :: r) = behind K (k + 1) (b :: r) := by
  have hn : few (plain K) (['!'] :: b :: r) (decide (k % 2 = 1)) = few (plain K) (b :: r) (decide ((k + 1) % 2 = 1)) := by
    match r, hr with
    | [], _ => simp [few, plain, flip_decide]
    | [c], hr => simp [few, plain, flip_decide, binop_none (hr c rfl)]
    | c :: d :: r, _ => rw [few]; · simp [plain, flip_decide]
                        · simp
  simp only [behind, hn, rep_assoc]

theorem flip_negate {k : Nat} {r : Option (Option Bool)} {v} (h : negate r = some v) :
    ∃ w, r = some w ∧ flip k v = flip (k + 1) w := by
  unfold negate at h
  cases r with
  | none => simp at h
  | some w =>
    refine ⟨w, rfl, ?_⟩
    simp at h
    subst h
    cases w with
    | none => rfl
    | some b =>
      simp only [flip, Option.map_some, ← flip_decide]
      cases b <;> cases (decide (k % 2 = 1)) <;> rfl

theorem behind2 {K : Orc} (k : Nat) (a b : W) (v : Option Bool) (h : posix2 K a b = some v) (hc : clear2 a b = true) :
    behind K k [a, b] = status (flip k v) := by
  unfold posix2 at h
  by_cases ha : a = ['!']
  · subst ha
    rw [if_pos rfl] at h
    obtain ⟨w, hw, hf⟩ := flip_negate (k := k) h
    rw [behind_not k b [] (by simp), behind1, hf]
    simp only [posix1, Option.some.injEq] at hw
    rw [hw]
  · rw [if_neg ha] at h
    have hb : b ∉ bOps := by simpa [clear2, show a ≠ ['!'] from ha] using hc
    have hf : few (plain K) [a, b] (decide (k % 2 = 1)) = none := by simp [few, plain, show a ≠ ['!'] from ha]
    obtain ⟨h1, h2, h3, h4⟩ := tree_un h hb []
    simp only [behind, hf]
    exact run_nots (p := .un a b) k h1 h3 h2 h4

theorem nze_sem {K : Orc} {x : W} {h : List (Ev W)} : ((P.str x).sem (plain K) h) = ⟨decide (x ≠ []), false, h ++ [.test .nze x none]⟩ := by
  cases x <;> simp [P.sem, evalTest, plain, evalW]

theorem behind3 {K : Orc} (k : Nat) (a b c : W) (v : Option Bool) (h : posix3 K a b c = some v) (hc : clear3 a b c = true) :
    behind K k [a, b, c] = status (flip k v) := by
  unfold posix3 at h
  by_cases hb : b ∈ bOps
  · rw [if_pos hb] at h
    obtain ⟨op, r, e, h1, h2, hv⟩ := binary_eval h
    subst hv
    have : few (plain K) [a, b, c] (decide (k % 2 = 1)) = some (status (flip k (if e = true then none else some r))) := by
      simp only [few, plain, h1, h2]
      cases e
      · simp only [flip, Option.map_some, Bool.false_eq_true, if_false]; cases (r != decide (k % 2 = 1)) <;> rfl
      · rfl
    simp only [behind, this]
  · rw [if_neg hb] at h
    by_cases ha : a = ['!']
    · subst ha
      rw [if_pos rfl] at h
      obtain ⟨w, hw, hf⟩ := flip_negate (k := k) h
      rw [behind_not k b [c] (by simp [hb]), hf]
      refine behind2 _ _ _ _ hw ?_
      simpa [clear3, hb] using hc
    · rw [if_neg ha] at h
      split at h
      · rename_i hp
        obtain ⟨rfl, rfl⟩ := hp
        have hbare : Bare b := by simpa [clear3, hb] using hc
        have hf : few (plain K) [['('], b, [')']] (decide (k % 2 = 1)) = none := by
          have := binop_none hb
          simp [few, plain, this]
        simp only [behind, hf]
        simp only [posix1, Option.some.injEq] at h
        subst h
        refine run_nots (p := .paren ['('] (.one (.one (.prim (.str b)))) [')']) k (tree_paren1 hbare) ?_ ?_ ?_
        · simp [P.toks, plain]
        · simp only [P.sem, O.sem, A.sem, N.sem]
          have := nze_sem (K := K) (x := b) (h := [])
          simp only [P.sem] at this
          rw [this, V.status]
          cases b <;> simp [status]
        · simp only [P.sem, O.sem, A.sem, N.sem]
          have := nze_sem (K := K) (x := b) (h := [])
          simp only [P.sem] at this
          rw [this]
          simp
      · simp at h

theorem flip_zero (v : Option Bool) : flip 0 v = v := by cases v <;> simp [flip]

theorem behind_zero {K : Orc} {l : List W} (h : l.length ≤ 4) : cTest K false l = behind K 0 l := by
  simp only [cTest, behind, h, if_true]
  simp only [Bool.false_eq_true, if_false]
  rfl

/-! ## C23 -/

/-- **C23** (partial: the unclear vectors, where the shell complains instead, are left out;
see `unclear_is_refused`): with at most four arguments `test` gives the result POSIX
prescribes, for whatever the file and number operators say. -/
theorem few_arguments_partial (K : Orc) (args : List W) (v : Option Bool) (h : posix K args = some v)
    (hc : clear args = true) : cTest K false args = status v := by
  match args, h, hc with
  | [], h, _ =>
    simp only [posix, Option.some.injEq] at h
    subst h
    simp [cTest, few, status]
  | [a], h, _ =>
    rw [behind_zero (by simp), behind1, flip_zero]
    simp only [posix, posix1, Option.some.injEq] at h
    rw [h]
  | [a, b], h, hc =>
    rw [behind_zero (by simp), behind2 0 a b v h hc, flip_zero]
  | [a, b, c], h, hc =>
    rw [behind_zero (by simp), behind3 0 a b c v h hc, flip_zero]
  | [a, b, c, d], h, hc =>
    rw [behind_zero (by simp)]
    simp only [posix, posix4] at h
    by_cases ha : a = ['!']
    · subst ha
      rw [if_pos rfl] at h
      obtain ⟨w, hw, hf⟩ := flip_negate (k := 0) h
      rw [behind_not 0 b [c, d] (by simp), ← flip_zero v, hf]
      refine behind3 _ _ _ _ _ hw ?_
      simpa [clear, clear4] using hc
    · rw [if_neg ha] at h
      split at h
      · rename_i hp
        obtain ⟨rfl, rfl⟩ := hp
        have hf : few (plain K) [['('], b, c, [')']] (decide (0 % 2 = 1)) = none := by
          simp [few, plain]
        simp only [behind, hf]
        simp only [clear, clear4] at hc
        rw [if_neg ha] at hc
        unfold posix2 at h
        by_cases hb : b = ['!']
        · subst hb
          rw [if_pos rfl] at h hc
          simp only [negate, posix1, Option.map_some, Option.some.injEq] at h
          subst h
          have hbare : Bare c := by simpa using hc
          have hsem : ((P.paren ['('] (.one (.one (.not ['!'] (.prim (.str c))))) [')']).sem (plain K) []) =
              ⟨!decide (c ≠ []), false, [.test .nze c none]⟩ := by
            have := nze_sem (K := K) (x := c) (h := [])
            simp only [P.sem] at this
            simp only [P.sem, O.sem, A.sem, N.sem, this, List.nil_append]
          have := run_nots (p := .paren ['('] (.one (.one (.not ['!'] (.prim (.str c))))) [')'])
            (v := some (!decide (c ≠ []))) 0 (tree_parenNot hbare) (by simp [P.toks, plain])
            (by rw [hsem, V.status]; cases c <;> simp [status]) (by rw [hsem]; simp)
          rw [flip_zero] at this
          simpa [P.toks, O.toks, A.toks, N.toks] using this
        · rw [if_neg hb] at h hc
          have hcb : c ∉ bOps := by simpa [clear2, show b ≠ ['!'] from hb] using hc
          obtain ⟨_, h2, _, h4⟩ := tree_un h hcb []
          have := run_nots (p := .paren ['('] (.one (.one (.prim (.un b c)))) [')']) (v := v) 0
            (tree_parenUn h hcb) (by simp [P.toks, plain])
            (by simpa only [P.sem, O.sem, A.sem, N.sem] using h2) (by simpa only [P.sem, O.sem, A.sem, N.sem] using h4)
          rw [flip_zero] at this
          simpa [P.toks, O.toks, A.toks, N.toks] using this
      · simp at h
  | a :: b :: c :: d :: e :: r, h, _ => simp [posix] at h

/-- **C23**: `[` is `test` with a closing bracket, and complains without one. -/
theorem bracket (K : Orc) (args : List W) :
    cTest K true (args ++ [[']']]) = cTest K false args ∧
    (args.getLast? ≠ some [']'] → cTest K true args = 2) := by
  constructor
  · simp [cTest]
  · intro h
    simp [cTest, h]

/-- **C23**: with more than four arguments, an expression of the grammar has its value … -/
theorem many_arguments (K : Orc) (t : Test.O W) (h : t.Ok (plain K) []) (hl : 4 < t.toks.length) :
    cTest K false t.toks = (t.sem (plain K) []).status := by
  have : ¬ t.toks.length ≤ 4 := by omega
  simp [cTest, this, testParse_tree _ t h]

/-- … and anything else is refused. -/
theorem many_malformed (K : Orc) (args : List W) (hl : 4 < args.length) (h : ∀ t : Test.O W, t.Ok (plain K) [] → t.toks ≠ args) :
    cTest K false args = 2 := by
  have : ¬ args.length ≤ 4 := by omega
  simp [cTest, this, testParse_malformed _ args h]

/-! The value is the boolean value -/

mutual
/-- Boolean value of a tree under an assignment of the primaries. -/
def P.truth {T : Type} (val : P T → Bool) : P T → Bool
  | .paren _ o _ => o.truth val
  | .un u x => val (.un u x)
  | .bin a o b => val (.bin a o b)
  | .str a => val (.str a)
def N.truth {T : Type} (val : P T → Bool) : N T → Bool
  | .prim p => p.truth val
  | .not _ n => !n.truth val
def A.truth {T : Type} (val : P T → Bool) : A T → Bool
  | .one n => n.truth val
  | .and n _ a => n.truth val && a.truth val
def O.truth {T : Type} (val : P T → Bool) : O T → Bool
  | .one a => a.truth val
  | .or a _ o => a.truth val || o.truth val
end

section
variable {T : Type} {E : Env T} {val : P T → Bool}
  (hv : ∀ p h, (∀ l o r, p ≠ .paren l o r) → (p.sem E h).val = val p ∧ (p.sem E h).err = false)
include hv

mutual
theorem P.sem_truth : ∀ (p : P T) (h : List (Ev T)), (p.sem E h).val = p.truth val ∧ (p.sem E h).err = false
  | .paren l o r, h => by
    have := O.sem_truth o h
    simpa [P.sem, P.truth] using this
  | .un u x, h => by simpa [P.truth] using hv (.un u x) h (by simp)
  | .bin a o b, h => by simpa [P.truth] using hv (.bin a o b) h (by simp)
  | .str a, h => by simpa [P.truth] using hv (.str a) h (by simp)
theorem N.sem_truth : ∀ (p : N T) (h : List (Ev T)), (p.sem E h).val = p.truth val ∧ (p.sem E h).err = false
  | .prim p, h => by simpa [N.sem, N.truth] using P.sem_truth p h
  | .not t n, h => by
    have := N.sem_truth n h
    simpa [N.sem, N.truth, this.1] using this.2
theorem A.sem_truth : ∀ (p : A T) (h : List (Ev T)), (p.sem E h).val = p.truth val ∧ (p.sem E h).err = false
  | .one p, h => by simpa [A.sem, A.truth] using N.sem_truth p h
  | .and n t a, h => by
    obtain ⟨h1, h2⟩ := N.sem_truth n h
    have h3 := A.sem_truth a (n.sem E h).log
    simp only [A.sem, A.truth, h1, h2, Bool.false_eq_true, false_or]
    cases hn : n.truth val with
    | false => simp [h1, h2, hn]
    | true => simp [h3]
theorem O.sem_truth : ∀ (p : O T) (h : List (Ev T)), (p.sem E h).val = p.truth val ∧ (p.sem E h).err = false
  | .one p, h => by simpa [O.sem, O.truth] using A.sem_truth p h
  | .or n t a, h => by
    obtain ⟨h1, h2⟩ := A.sem_truth n h
    have h3 := O.sem_truth a (n.sem E h).log
    simp only [O.sem, O.truth, h1, h2, Bool.false_eq_true, false_or]
    cases hn : n.truth val with
    | true => simp [h1, h2, hn]
    | false => simp [h3]
end
end

/-- **C23/C24**: if the primaries have values (none complains or depends on what was
evaluated before), the exit status is 0 or 1 by the boolean value of the whole expression. -/
theorem status_is_boolean {T : Type} (E : Env T) (val : P T → Bool)
    (hv : ∀ p h, (∀ l o r, p ≠ .paren l o r) → (p.sem E h).val = val p ∧ (p.sem E h).err = false)
    (t : Test.O T) (h : t.Ok E []) : (testParse E t.toks).1 = if t.truth val then 0 else 1 := by
  obtain ⟨h1, h2⟩ := O.sem_truth hv t []
  rw [testParse_tree E t h, V.status, h1, h2]
  simp

/-! ## The unclear vectors -/

theorem stuck_un {K : Orc} (k n : Nat) (d : Bool) {u x : W} (hu : u ∈ uOps) (hx : x ∈ bOps) (h : List (Ev W)) :
    ∃ op, simple (plain K) d ⟨[u, x], false, h⟩ = (false, ⟨[], true, h⟩) ∧ binopW x = some op := by
  obtain ⟨op, ho⟩ := binop_some hx
  refine ⟨op, ?_, ho⟩
  simp [simple, unaryAllowed, plain, ho, getopnd, isop, fail]

/-- An error below negations is an error. -/
theorem err_nots {K : Orc} {l : List W} (hn : ∀ x ∈ l.head?, (plain K).isNot x = false)
    (hp : ∀ n r s, primary (plain K) n true ⟨l, false, []⟩ = some (r, s) → s.err = true) (k : Nat) :
    (testParse (plain K) (List.replicate k ['!'] ++ l)).1 = 2 := by
  have hN : ∀ k n r s, nexpr (plain K) n true ⟨List.replicate k ['!'] ++ l, false, []⟩ = some (r, s) → s.err = true := by
    intro k
    induction k with
    | zero =>
      intro n r s h
      cases n with
      | zero => simp [nexpr] at h
      | succ n =>
        have := isa_head (p := (plain K).isNot) (l := l) (e := false) (h := []) hn
        simp only [List.replicate_zero, List.nil_append, nexpr, Bool.false_eq_true, if_false, this] at h
        exact hp n r s h
    | succ k ih =>
      intro n r s h
      cases n with
      | zero => simp [nexpr] at h
      | succ n =>
        have : isa (plain K).isNot ⟨List.replicate (k + 1) ['!'] ++ l, false, []⟩ =
            (true, ⟨List.replicate k ['!'] ++ l, false, []⟩) := by
          simp [isa, plain, List.replicate_succ]
        simp only [nexpr, Bool.false_eq_true, if_false, this, Option.map_eq_some_iff, Prod.mk.injEq, Prod.exists] at h
        obtain ⟨r', s', h, _, rfl⟩ := h
        exact ih n r' s' h
  generalize hL : List.replicate k ['!'] ++ l = L at *
  obtain ⟨r, s, h1, _⟩ := (total (E := plain K) (4 * L.length + 4) true ⟨L, false, []⟩).1 (Nat.le_refl _)
  have he : s.err = true := by
    have h2 := h1
    rw [oexpr] at h2
    cases ha : aexpr (plain K) (4 * L.length + 3) true ⟨L, false, []⟩ with
    | none => rw [ha] at h2; simp at h2
    | some p =>
      obtain ⟨r1, s1⟩ := p
      have h3 := ha
      rw [aexpr] at h3
      cases hb : nexpr (plain K) (4 * L.length + 2) true ⟨L, false, []⟩ with
      | none => rw [hb] at h3; simp at h3
      | some p =>
        obtain ⟨r2, s2⟩ := p
        have : s2.err = true := hN k _ r2 s2 (by rw [hL]; exact hb)
        rw [hb] at h3
        simp only [this, if_true, Option.some.injEq, Prod.mk.injEq] at h3
        obtain ⟨_, rfl⟩ := h3
        rw [ha] at h2
        simp only [this, if_true, Option.some.injEq, Prod.mk.injEq] at h2
        obtain ⟨_, rfl⟩ := h2
        exact this
  simp [testParse, h1, he]

theorem prim_un_bin {K : Orc} {u x : W} (hu : u ∈ uOps) (hx : x ∈ bOps) (n : Nat) (r : Bool) (s : S W)
    (h : primary (plain K) n true ⟨[u, x], false, []⟩ = some (r, s)) : s.err = true := by
  cases n with
  | zero => simp [primary] at h
  | succ n =>
    obtain ⟨op, ho⟩ := unop_some hu
    have e := (unop_excl ho).1
    have := isa_head (p := (plain K).isOpar) (l := [u, x]) (e := false) (h := []) (by simpa [plain] using e)
    obtain ⟨_, h2, _⟩ := stuck_un (K := K) 0 0 true hu hx []
    simp only [primary, Bool.false_eq_true, if_false, this, h2, Option.some.injEq, Prod.mk.injEq] at h
    rw [← h.2]

/-- an opening parenthesis whose inside reads up to the end, or fails -/
theorem prim_open {K : Orc} {l : List W}
    (hp : ∀ n r s, nexpr (plain K) n true ⟨l, false, []⟩ = some (r, s) → s.err = true ∨ s.toks = [])
    (n : Nat) (r : Bool) (s : S W) (h : primary (plain K) n true ⟨['('] :: l, false, []⟩ = some (r, s)) : s.err = true := by
  match n with
  | 0 => simp [primary] at h
  | 1 => simp [primary, isa, plain, oexpr] at h
  | 2 => simp [primary, isa, plain, oexpr, aexpr] at h
  | n + 3 =>
    have hi : isa (plain K).isOpar ⟨['('] :: l, false, []⟩ = (true, ⟨l, false, []⟩) := by simp [isa, plain]
    simp only [primary, Bool.false_eq_true, if_false, hi, oexpr, aexpr] at h
    cases hb : nexpr (plain K) n true ⟨l, false, []⟩ with
    | none => rw [hb] at h; simp at h
    | some p =>
      obtain ⟨r2, s2⟩ := p
      rw [hb] at h
      by_cases he : s2.err = true
      · simp [he] at h
        rw [← h.2]; exact he
      · have ht : s2.toks = [] := by
          rcases hp n r2 s2 hb with h1 | h1
          · exact absurd h1 he
          · exact h1
        simp [he, isa, ht, fail] at h
        rw [← h.2]

theorem nexpr_un_close {K : Orc} {b : W} (hb : b ∈ uOps) (n : Nat) (r : Bool) (s : S W) {h : List (Ev W)}
    (he : nexpr (plain K) n true ⟨[b, [')']], false, h⟩ = some (r, s)) : s.err = true ∨ s.toks = [] := by
  obtain ⟨op, ho⟩ := unop_some hb
  obtain ⟨e1, e2, _⟩ := unop_excl ho
  match n with
  | 0 => simp [nexpr] at he
  | 1 => simp [nexpr, isa, plain, show b ≠ ['!'] from e2, primary] at he
  | n + 2 =>
    right
    have h2 : binopW [')'] = none := by decide
    simp [nexpr, isa, plain, show b ≠ ['!'] from e2, show b ≠ ['('] from e1, primary, simple, unaryAllowed, h2, isop, ho, getopnd, evalOp] at he
    rw [← he.2]

theorem nexpr_not_close {K : Orc} (n : Nat) (r : Bool) (s : S W) {h : List (Ev W)}
    (he : nexpr (plain K) n true ⟨[['!'], [')']], false, h⟩ = some (r, s)) : s.err = true ∨ s.toks = [] := by
  have h2 : unopW [')'] = none := by decide
  match n with
  | 0 => simp [nexpr] at he
  | 1 => simp [nexpr, isa, plain] at he
  | 2 => simp [nexpr, isa, plain, primary] at he
  | n + 3 =>
    right
    simp [nexpr, isa, plain, primary, simple, unaryAllowed, isop, getopnd, evalOp] at he
    rw [← he.2]

theorem nexpr_open_close {K : Orc} (n : Nat) (r : Bool) (s : S W)
    (he : nexpr (plain K) n true ⟨[['('], [')']], false, []⟩ = some (r, s)) : s.err = true ∨ s.toks = [] := by
  match n with
  | 0 => simp [nexpr] at he
  | n + 1 =>
    left
    have hi := isa_head (p := (plain K).isNot) (l := [['('], [')']]) (e := false) (h := []) (by simp [plain])
    simp only [nexpr, Bool.false_eq_true, if_false, hi] at he
    refine prim_open (K := K) (l := [[')']]) ?_ n r s he
    intro n r s he
    have h2 : unopW [')'] = none := by decide
    match n with
    | 0 => simp [nexpr] at he
    | 1 => simp [nexpr, isa, plain, primary] at he
    | n + 2 =>
      right
      simp [nexpr, isa, plain, primary, simple, unaryAllowed, isop, getopnd, evalOp] at he
      rw [← he.2]

theorem nexpr_bang {K : Orc} {l : List W} (n : Nat) (r : Bool) (s : S W)
    (hp : ∀ n r s, nexpr (plain K) n true ⟨l, false, []⟩ = some (r, s) → s.err = true ∨ s.toks = [])
    (he : nexpr (plain K) n true ⟨['!'] :: l, false, []⟩ = some (r, s)) : s.err = true ∨ s.toks = [] := by
  match n with
  | 0 => simp [nexpr] at he
  | n + 1 =>
    have hi : isa (plain K).isNot ⟨['!'] :: l, false, []⟩ = (true, ⟨l, false, []⟩) := by simp [isa, plain]
    simp only [nexpr, Bool.false_eq_true, if_false, hi, Option.map_eq_some_iff, Prod.mk.injEq, Prod.exists] at he
    obtain ⟨r', s', h, _, rfl⟩ := he
    exact hp n r' s' h

theorem notBare_close {K : Orc} {b : W} (hb : ¬ Bare b) (n : Nat) (r : Bool) (s : S W)
    (he : nexpr (plain K) n true ⟨[b, [')']], false, []⟩ = some (r, s)) : s.err = true ∨ s.toks = [] := by
  by_cases h1 : b ∈ uOps
  · exact nexpr_un_close h1 n r s he
  · by_cases h2 : b = ['!']
    · subst h2; exact nexpr_not_close n r s he
    · by_cases h3 : b = ['(']
      · subst h3; exact nexpr_open_close n r s he
      · exact absurd ⟨h1, h2, h3⟩ hb

theorem unary_mem {K : Orc} {u x : W} {v} (h : unary K u x = some v) : u ∈ uOps := by
  obtain ⟨op, _, _, h1, _⟩ := unary_eval h
  exact (unop_excl h1).2.2

theorem refused2 {K : Orc} (k : Nat) {a b : W} {v} (h : posix2 K a b = some v) (hc : clear2 a b = false) :
    behind K k [a, b] = 2 := by
  simp only [clear2, Bool.or_eq_false_iff, decide_eq_false_iff_not, Decidable.not_not] at hc
  obtain ⟨ha, hb⟩ := hc
  rw [posix2, if_neg ha] at h
  have hf : few (plain K) [a, b] (decide (k % 2 = 1)) = none := by simp [few, plain, show a ≠ ['!'] from ha]
  simp only [behind, hf]
  exact err_nots (by simpa [plain] using ha) (fun n r s h' => prim_un_bin (unary_mem h) hb n r s h') k

theorem refused3 {K : Orc} (k : Nat) {a b c : W} {v} (h : posix3 K a b c = some v) (hc : clear3 a b c = false) :
    behind K k [a, b, c] = 2 := by
  simp only [clear3, Bool.or_eq_false_iff, decide_eq_false_iff_not] at hc
  obtain ⟨hb, hc⟩ := hc
  rw [posix3, if_neg hb] at h
  by_cases ha : a = ['!']
  · subst ha
    rw [if_pos rfl] at h hc
    obtain ⟨w, hw, _⟩ := flip_negate (k := k) h
    rw [behind_not k b [c] (by simp [hb])]
    exact refused2 _ hw hc
  · rw [if_neg ha] at h hc
    split at h
    · rename_i hp
      obtain ⟨rfl, rfl⟩ := hp
      have hf : few (plain K) [['('], b, [')']] (decide (k % 2 = 1)) = none := by
        have := binop_none hb
        simp [few, plain, this]
      simp only [behind, hf]
      refine err_nots (by simp [plain]) (fun n r s h' => prim_open ?_ n r s h') k
      exact fun n r s h => notBare_close (by simpa using hc) n r s h
    · simp at h

/-- The vectors left out of `few_arguments_partial` are all refused with status 2, whatever
POSIX says. -/
theorem unclear_is_refused (K : Orc) (args : List W) (v : Option Bool) (h : posix K args = some v)
    (hc : clear args = false) : cTest K false args = 2 := by
  match args, h, hc with
  | [], _, hc => simp [clear] at hc
  | [a], _, hc => simp [clear] at hc
  | [a, b], h, hc => rw [behind_zero (by simp)]; exact refused2 0 h hc
  | [a, b, c], h, hc => rw [behind_zero (by simp)]; exact refused3 0 h hc
  | [a, b, c, d], h, hc =>
    rw [behind_zero (by simp)]
    simp only [posix, posix4] at h
    simp only [clear, clear4] at hc
    by_cases ha : a = ['!']
    · subst ha
      rw [if_pos rfl] at h hc
      obtain ⟨w, hw, hf⟩ := flip_negate (k := 0) h
      rw [behind_not 0 b [c, d] (by simp)]
      exact refused3 _ hw hc
    · rw [if_neg ha] at h hc
      split at h
      · rename_i hp
        obtain ⟨rfl, rfl⟩ := hp
        have hf : few (plain K) [['('], b, c, [')']] (decide (0 % 2 = 1)) = none := by
          simp [few, plain]
        simp only [behind, hf]
        refine err_nots (by simp [plain]) (fun n r s h' => prim_open ?_ n r s h') 0
        by_cases hb : b = ['!']
        · subst hb
          rw [if_pos rfl] at hc
          exact fun n r s h => nexpr_bang n r s (fun n r s h => notBare_close (by simpa using hc) n r s h) h
        · rw [if_neg hb] at hc
          rw [posix2, if_neg hb] at h
          have hc : c ∈ bOps := by simpa [clear2, show b ≠ ['!'] from hb] using hc
          obtain ⟨op, ho⟩ := binop_some hc
          have e := (unop_excl (unop_some (unary_mem h)).choose_spec).1
          intro n r s he
          match n with
          | 0 => simp [nexpr] at he
          | 1 => simp [nexpr, isa, plain, show b ≠ ['!'] from hb, primary] at he
          | n + 2 =>
            right
            simp [nexpr, isa, plain, show b ≠ ['!'] from hb, show b ≠ ['('] from e, primary, simple, unaryAllowed, ho, isop, getopnd, evalOp] at he
            rw [← he.2]
      · simp at h
  | a :: b :: c :: d :: e :: r, h, _ => simp [posix] at h

/-- `test -n =` should be true and is refused: POSIX's two argument rule fails. -/
theorem unary_before_operator : ∃ (K : Orc) (args : List W), posix K args = some (some true) ∧ cTest K false args = 2 :=
  ⟨fun _ _ _ _ => (false, false), [['-', 'n'], ['=']], by decide, by decide +kernel⟩

/-- and so is `test \( -f \)`, which only asks whether `-f` is not empty. -/
theorem operator_in_parentheses : ∃ (K : Orc) (args : List W), posix K args = some (some true) ∧ cTest K false args = 2 :=
  ⟨fun _ _ _ _ => (false, false), [['('], ['-', 'f'], [')']], by decide, by decide +kernel⟩

/-! ## C24 -/

/-- **C24**: `[[ ]]` gives the status of its expression, and the words expanded and the
tests made are exactly those needed, in order. -/
theorem needed_only (J : List (Ev DW) → Op → DW → Option DW → Bool × Bool) (t : Test.O DW) (h : t.Ok (dbracket J) []) :
    testParse (dbracket J) t.toks = ((t.sem (dbracket J) []).status, (t.sem (dbracket J) []).log) :=
  testParse_tree _ t h

/-- words expanded according to a history -/
def expanded {T : Type} (l : List (Ev T)) : List T := l.filterMap fun | .opnd t _ => some t | .test .. => none

/-- **C24**: the right side of `&&` is not expanded when the left is false … -/
theorem and_skips (J : List (Ev DW) → Op → DW → Option DW → Bool × Bool) (n : N DW) (a : A DW)
    (h : (Test.O.one (.and n .andand a)).Ok (dbracket J) []) (hn : (n.sem (dbracket J) []).val = false)
    (he : (n.sem (dbracket J) []).err = false) :
    (testParse (dbracket J) (n.toks ++ .andand :: a.toks)).1 = 1 ∧
    expanded (testParse (dbracket J) (n.toks ++ .andand :: a.toks)).2 = expanded (n.sem (dbracket J) []).log := by
  have := needed_only J (.one (.and n .andand a)) h
  simp only [O.toks, A.toks] at this
  rw [this]
  simp [O.sem, A.sem, hn, V.status, he]

/-- … and that of `||` not when the left is true. -/
theorem or_skips (J : List (Ev DW) → Op → DW → Option DW → Bool × Bool) (n : A DW) (a : Test.O DW)
    (h : (Test.O.or n .oror a).Ok (dbracket J) []) (hn : (n.sem (dbracket J) []).val = true)
    (he : (n.sem (dbracket J) []).err = false) :
    (testParse (dbracket J) (n.toks ++ .oror :: a.toks)).1 = 0 ∧
    expanded (testParse (dbracket J) (n.toks ++ .oror :: a.toks)).2 = expanded (n.sem (dbracket J) []).log := by
  have := needed_only J (.or n .oror a) h
  simp only [O.toks] at this
  rw [this]
  simp [O.sem, hn, V.status, he]

/-! ## Examples -/

private def noO : Orc := fun _ _ _ _ => (false, true)

-- ! a = b
example : cTest noO false ["!".toList, "a".toList, "=".toList, "b".toList] = 0 := by decide +kernel
example : posix noO ["!".toList, "a".toList, "=".toList, "b".toList] = some (some true) := by decide
-- "(" = ")" compares
example : cTest noO false ["(".toList, "=".toList, ")".toList] = 1 := by decide +kernel
-- a = b -o c = c -a d = d
example : cTest noO false (["a", "=", "b", "-o", "c", "=", "c", "-a", "d", "=", "d"].map String.toList) = 0 := by decide +kernel
-- a = a -o b = b -a c = d  is true: -a binds tighter
example : cTest noO false (["a", "=", "a", "-o", "b", "=", "b", "-a", "c", "=", "d"].map String.toList) = 0 := by decide +kernel
example : cTest noO false (["(", "a", "=", "a", "-o", "b", "=", "b", ")", "-a", "c", "=", "d"].map String.toList) = 1 := by decide +kernel
example : cTest noO true (["a", "=", "a"].map String.toList) = 2 := by decide +kernel

private def w (s : String) (n : Nat) : DW := .word (some s.toList) n
private def dbO : List (Ev DW) → Op → DW → Option DW → Bool × Bool := fun _ op a _ => (op == .zer && a == w "x" 1, false)

-- [[ -n a && ( -z x || -n b ) || -z x ]]: a is expanded and false, so only the last x is
private def tree : Test.O DW :=
  .or (.and (.prim (.un (w "-n" 0) (w "a" 0))) .andand
      (.one (.prim (.paren .opar (.or (.one (.prim (.un (w "-z" 0) (w "x" 1)))) .oror
        (.one (.one (.prim (.un (w "-n" 0) (w "b" 0)))))) .cpar)))) .oror
    (.one (.one (.prim (.un (w "-z" 0) (w "x" 1)))))

example : tree.Ok (dbracket dbO) [] := by
  simp [tree, O.Ok, A.Ok, N.Ok, P.Ok, P.toks, O.toks, A.toks, N.toks, dbracket, w]
  decide
example : (testParse (dbracket dbO) tree.toks).1 = 0 ∧ expanded (testParse (dbracket dbO) tree.toks).2 = [w "a" 0, w "x" 1] := by
  decide +kernel

end Ksh.Test
