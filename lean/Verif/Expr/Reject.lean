import Verif.Expr.Props

/-!
# C09: texts that are rejected

Every accepted text parses in a grammar that differs from C's only where the code
is more liberal: what may follow a prefix `++`/`--`, and what may stand to the left
of an assignment or a postfix operator.
-/

namespace Ksh.Expr
open Ksh.Num

variable {m : Mach}

/-- Token classes. -/
inductive K
  | op (o : Op)
  | name
  | num
  deriving DecidableEq, Repr

def T.kind : T → K
  | .op o => .op o
  | .name _ => .name
  | .num _ => .num

/-- Token classes of a text: as `Lexes`, but a word that starts with a digit is a
number whatever it is made of (which ones convert is property C56). -/
inductive LexesL : List Char → List K → Prop
  | nil {ws : List Char} : (∀ c ∈ ws, isSpace c = true) → LexesL ws []
  | op {ws rest : List Char} {ts : List K} (o : Op) : (∀ c ∈ ws, isSpace c = true) →
      (∀ o', (spell o).length < (spell o').length → ¬ spell o' <+: spell o ++ rest) →
      LexesL rest ts → LexesL (ws ++ (spell o ++ rest)) (.op o :: ts)
  | name {ws rest : List Char} {ts : List K} (c : Char) (x : List Char) :
      (∀ c ∈ ws, isSpace c = true) → isLetter c = true → (∀ c ∈ x, letnum c = true) →
      (∀ c, rest.head? = some c → contName c = false) →
      LexesL rest ts → LexesL (ws ++ ((c :: x) ++ rest)) (.name :: ts)
  | num {ws rest : List Char} {ts : List K} (c : Char) (x : List Char) :
      (∀ c ∈ ws, isSpace c = true) → isDigit c = true → (∀ c ∈ x, contNum c = true) →
      (∀ c, rest.head? = some c → contNum c = false ∨ c = '_') →
      LexesL rest ts → LexesL (ws ++ ((c :: x) ++ rest)) (.num :: ts)

/-- `L lv k toks`: the liberal grammar; `lv` says that the expression may be an
lvalue (a variable, or a conditional one of whose branches is). -/
inductive L : Bool → Nat → List K → Prop
  | num : L false 0 [.num]
  | name : L true 0 [.name]
  | paren {b t} : L b 13 t → L b 0 (.op .oparen :: (t ++ [.op .cparen]))
  | un {t} (o : Op) : isUnary o = true → L false 0 t → L false 0 (.op o :: t)
  | pre (o : Op) (t : K) : isIncDec o = true → L false 0 [.op o, t]
  | post {t} (o : Op) : isIncDec o = true → L true 0 t → L false 0 (t ++ [.op o])
  | bin {k ta tb} (o : Op) : level o = some (k + 1) → L false (k + 1) ta → L false k tb →
      L false (k + 1) (ta ++ (.op o :: tb))
  | tern {b1 b2 tc ta tb} : L false 11 tc → L b1 13 ta → L b2 11 tb →
      L (b1 || b2) 11 (tc ++ (.op .tern :: (ta ++ (.op .ctern :: tb))))
  | asn {t te} (o : Op) : isAsnOp o = true → L true 12 t → L false 12 te →
      L false 12 (t ++ (.op o :: te))
  | up {b k t} : k < 13 → L b k t → L b (k + 1) t
  | weaken {k t} : L true k t → L false k t

theorem L.toFalse {b : Bool} {k : Nat} {t : List K} (h : L b k t) : L false k t := by
  cases b
  · exact h
  · exact h.weaken

/-- The remaining tokens of an evaluator state. -/
def Pos (st : St) : List K → Prop
  | [] => st.tok = .fin
  | .op o :: ts => st.tok = .op o ∧ LexesL st.rest ts
  | .name :: ts => st.tok = .var ∧ LexesL st.rest ts
  | .num :: ts => st.tok = .lit ∧ LexesL st.rest ts

theorem mem_takeWhile {α : Type} {p : α → Bool} {l : List α} {a : α} (h : a ∈ l.takeWhile p) : p a = true := by
  induction l with
  | nil => simp at h
  | cons b l ih =>
    rw [List.takeWhile_cons] at h
    split at h
    · rcases List.mem_cons.mp h with rfl | h
      · assumption
      · exact ih h
    · simp at h

theorem head_dropWhile {α : Type} {p : α → Bool} {l : List α} {a : α} (h : (l.dropWhile p).head? = some a) :
    p a = false := by
  induction l with
  | nil => simp at h
  | cons b l ih =>
    rw [List.dropWhile_cons] at h
    split at h
    · exact ih h
    · next hb => simp at h; subst h; simpa using hb

theorem spell_le : ∀ o : Op, (spell o).length ≤ 3 := by intro o; cases o <;> decide

/-- `token` takes the longest operator. -/
theorem findOp_munch {s : List Char} {i : Op × List Char × Nat} (h : findOp s = some i) :
    spell i.1 = i.2.1 ∧ i.2.1 <+: s ∧ ∀ o', i.2.1.length < (spell o').length → ¬ spell o' <+: s := by
  have hmem : i ∈ opinfo := List.mem_of_find?_eq_some h
  have htab : ∀ i ∈ opinfo, spell i.1 = i.2.1 := by decide
  have hsp := htab i hmem
  have hpre : i.2.1 <+: s := by
    have := List.find?_some h
    simpa using this
  refine ⟨hsp, hpre, ?_⟩
  have ext : ∀ n (o' : Op), 3 - (spell o').length = n → spell o' <+: s →
      ∃ o'' p, (spell o').length ≤ (spell o'').length ∧ findOp s = some (o'', spell o'', p) := by
    intro n
    induction n using Nat.strongRecOn with
    | _ n ih =>
      intro o' hn hp
      by_cases hm : ∃ o'', (spell o').length < (spell o'').length ∧ spell o'' <+: s
      · obtain ⟨o'', h1, h2⟩ := hm
        have := spell_le o''
        obtain ⟨o3, p, h3, h4⟩ := ih _ (by omega) o'' rfl h2
        exact ⟨o3, p, by omega, h4⟩
      · obtain ⟨rest, rfl⟩ := hp
        obtain ⟨p, hf⟩ := findOp_spell o' rest (fun o'' h1 h2 => hm ⟨o'', h1, h2⟩)
        exact ⟨o', p, Nat.le_refl _, hf⟩
  intro o' hl hp
  obtain ⟨o'', p, h1, h2⟩ := ext _ o' rfl hp
  rw [h] at h2
  simp only [Option.some.injEq] at h2
  have : i.2.1 = spell o'' := by rw [h2]
  rw [this] at hl
  omega

theorem token_back {st st' : St} (h : token true st = .ok st') {ts : List K} (hp : Pos st' ts) :
    LexesL st.rest ts := by
  have hsplit : st.rest = st.rest.takeWhile isSpace ++ st.rest.dropWhile isSpace :=
    (List.takeWhile_append_dropWhile).symm
  have hws : ∀ c ∈ st.rest.takeWhile isSpace, isSpace c = true := fun c hc => mem_takeWhile hc
  simp only [token] at h
  revert h
  generalize hs : st.rest.dropWhile isSpace = s at hsplit
  rw [hsplit]
  generalize st.rest.takeWhile isSpace = ws at hws
  intro h
  cases s with
  | nil =>
    simp only [Res.ok.injEq] at h
    subst h
    cases ts with
    | nil => rw [List.append_nil]; exact .nil hws
    | cons t ts => cases t <;> simp [Pos] at hp
  | cons c s =>
    simp only at h
    split at h
    · next hc =>
      split at h
      · simp at h
      · next hb =>
        simp only [Res.ok.injEq] at h
        subst h
        cases ts with
        | nil => simp [Pos] at hp
        | cons t ts =>
          cases t with
          | op o => simp [Pos] at hp
          | num => simp [Pos] at hp
          | name =>
            obtain ⟨_, hp⟩ := hp
            simp only at hp
            have hln : letnum c = true := by
              simp only [isLetter] at hc; simp only [letnum]; simp only [Bool.or_eq_true] at hc ⊢; exact Or.inl hc
            have e1 : (c :: s).dropWhile letnum = s.dropWhile letnum := by rw [List.dropWhile_cons, if_pos hln]
            rw [e1] at hp hb
            have : c :: s = (c :: s.takeWhile letnum) ++ s.dropWhile letnum := by
              rw [List.cons_append, List.takeWhile_append_dropWhile]
            rw [this]
            refine .name c _ hws hc (fun _ h => mem_takeWhile h) ?_ hp
            intro c' hc'
            have h1 := head_dropWhile hc'
            simp only [contName, h1, Bool.false_or, beq_eq_false_iff_ne, ne_eq]
            rintro rfl
            exact hb hc'
    · split at h
      · next hd =>
        split at h
        · simp at h
        · next g hg =>
          simp only [Res.ok.injEq] at h
          subst h
          cases ts with
          | nil => simp [Pos] at hp
          | cons t ts =>
            cases t with
            | op o => simp [Pos] at hp
            | name => simp [Pos] at hp
            | num =>
              obtain ⟨_, hp⟩ := hp
              simp only at hp
              have hln : (c != '_' && (letnum c || c == '#')) = true := by
                have h1 : c ≠ '_' := by rintro rfl; revert hd; decide
                simp [letnum, hd, h1]
              rw [List.dropWhile_cons, if_pos hln] at hp
              have : c :: s = (c :: s.takeWhile fun c => c != '_' && (letnum c || c == '#')) ++
                  s.dropWhile fun c => c != '_' && (letnum c || c == '#') := by
                rw [List.cons_append, List.takeWhile_append_dropWhile]
              rw [this]
              refine .num c _ hws hd ?_ ?_ hp
              · intro c' h'
                have := mem_takeWhile h'
                simp only [Bool.and_eq_true] at this
                exact this.2
              · intro c' h'
                have := head_dropWhile h'
                simp only [Bool.and_eq_false_iff, bne_eq_false_iff_eq] at this
                rcases this with h | h
                · exact Or.inr h
                · exact Or.inl h
      · next hd =>
        cases hf : findOp (c :: s) with
        | none =>
          rw [hf] at h
          simp only [Res.ok.injEq] at h
          subst h
          cases ts with
          | nil => simp [Pos] at hp
          | cons t ts => cases t <;> simp [Pos] at hp
        | some i =>
          rw [hf] at h
          simp only [Res.ok.injEq] at h
          subst h
          cases ts with
          | nil => simp [Pos] at hp
          | cons t ts =>
            cases t with
            | name => simp [Pos] at hp
            | num => simp [Pos] at hp
            | op o =>
              obtain ⟨ho, hp⟩ := hp
              simp only [Tok.op.injEq] at ho hp
              subst ho
              obtain ⟨h1, ⟨rest, h2⟩, h3⟩ := findOp_munch hf
              rw [← h2] at hp h3 ⊢
              rw [List.drop_left] at hp
              rw [← h1] at h3 ⊢
              exact .op i.1 hws h3 hp

/-! ### Backwards through the evaluator -/

def isLv : Ref → Bool
  | .var _ => true
  | .tmp _ lv => lv

theorem Pos.congr {st st' : St} {ts : List K} (h : Pos st ts) (h1 : st'.tok = st.tok) (h2 : st'.rest = st.rest) :
    Pos st' ts := by
  cases ts with
  | nil => simpa [Pos, h1] using h
  | cons t ts => cases t <;> simpa [Pos, h1, h2] using h

theorem intvar_pos {ar : Bool} {n : Nat} {r : Ref} {st st' : St} {v : Int}
    (h : intvar m ar n r st = .ok (v, st')) : st'.tok = st.tok ∧ st'.rest = st.rest ∧ st'.val = st.val := by
  cases n with
  | zero => simp [intvar] at h
  | succ n =>
    simp only [intvar] at h
    split at h
    · simp only [Res.ok.injEq, Prod.mk.injEq] at h; rw [← h.2]; simp
    · split at h
      · simp only [Res.ok.injEq, Prod.mk.injEq] at h; rw [← h.2]; simp
      · split at h
        · simp at h
        · split at h
          · simp only [Res.ok.injEq, Prod.mk.injEq] at h; rw [← h.2]; simp
          · simp at h
          · simp at h

theorem assignRef_pos (st : St) (r : Ref) (v : Int) :
    (assignRef st r v).tok = st.tok ∧ (assignRef st r v).rest = st.rest := by
  cases r <;> simp [assignRef]

theorem assignCheck_lv {r : Option Ref} {st : St} (h : assignCheck r st = .ok ()) :
    st.tok ≠ .fin ∧ ∃ r', r = some r' ∧ isLv r' = true := by
  unfold assignCheck at h
  split at h
  · simp at h
  · next hf =>
    refine ⟨hf, ?_⟩
    split at h
    · simp at h
    · next lv =>
      split at h
      · next hl => exact ⟨_, rfl, hl⟩
      · simp at h
    · exact ⟨_, rfl, rfl⟩

theorem bind_ok {α β : Type} {x : Res α} {k : α → Res β} {b : β} (h : x.bind k = .ok b) :
    ∃ a, x = .ok a ∧ k a = .ok b := by
  cases x with
  | ok a => exact ⟨a, rfl, h⟩
  | err => simp at h
  | stuck => simp at h

theorem ppmm_back {n : Nat} {o : Op} {r : Option Ref} {pre : Bool} {st : St} {q : Ref × St}
    (h : ppmm m true n o r pre st = .ok q) :
    q.2.tok = st.tok ∧ q.2.rest = st.rest ∧ isLv q.1 = false ∧ st.tok ≠ .fin ∧ ∃ r', r = some r' ∧ isLv r' = true := by
  cases n with
  | zero => simp [ppmm] at h
  | succ n =>
    simp only [ppmm] at h
    obtain ⟨u, h1, h⟩ := bind_ok h
    obtain ⟨hf, r', rfl, hlv⟩ := assignCheck_lv h1
    simp only at h
    obtain ⟨⟨v, st1⟩, h2, h⟩ := bind_ok h
    have := intvar_pos h2
    simp only [Res.ok.injEq] at h
    subst h
    simp only
    rw [(assignRef_pos _ _ _).1, (assignRef_pos _ _ _).2]
    exact ⟨this.1, this.2.1, rfl, hf, _, rfl, hlv⟩

/-- The state's own token, given what follows it. -/
theorem pos_op {st st' : St} {o : Op} {ts : List K} (ht : st.tok = .op o) (h : token true st = .ok st')
    (hp : Pos st' ts) : Pos st (.op o :: ts) := ⟨ht, token_back h hp⟩

/-- any token that is not the end and not an unknown character -/
theorem pos_any {st st' : St} {ts : List K} (hf : st.tok ≠ .fin) (hb : st.tok ≠ .bad) (h : token true st = .ok st')
    (hp : Pos st' ts) : ∃ t, Pos st (t :: ts) := by
  cases ht : st.tok with
  | op o => exact ⟨.op o, ht, token_back h hp⟩
  | var => exact ⟨.name, ht, token_back h hp⟩
  | lit => exact ⟨.num, ht, token_back h hp⟩
  | fin => exact absurd ht hf
  | bad => exact absurd ht hb

theorem evPost_back {n : Nat} {r : Ref} {st : St} {q : Ref × St} (h : evPost m true n r st = .ok q) {ts : List K}
    (hp : Pos q.2 ts) : ∃ tp, Pos st (tp ++ ts) ∧ ∀ tl, L (isLv r) 0 tl → L (isLv q.1) 0 (tl ++ tp) := by
  cases n with
  | zero => simp [evPost] at h
  | succ n =>
    have key : ∀ o, isIncDec o = true → st.tok = .op o → ((ppmm m true n o (some r) false st).bind fun (r, st) =>
      (token true st).bind fun st => .ok (r, st)) = .ok q →
      ∃ tp, Pos st (tp ++ ts) ∧ ∀ tl, L (isLv r) 0 tl → L (isLv q.1) 0 (tl ++ tp) := by
      intro o ho hto h
      obtain ⟨q1, h1, h⟩ := bind_ok h
      obtain ⟨st2, h2, h⟩ := bind_ok h
      obtain ⟨k1, k2, k3, k4, r', k5, k6⟩ := ppmm_back h1
      simp only [Res.ok.injEq] at h
      subst h
      simp only [Option.some.injEq] at k5
      subst k5
      refine ⟨[.op o], ?_, ?_⟩
      · exact (pos_op (by rw [k1]; exact hto) h2 hp).congr k1.symm k2.symm
      · intro tl hl
        rw [k6] at hl
        simp only [k3]
        exact .post o ho hl
    rw [evPost] at h
    split at h
    · next ht => exact key _ rfl ht h
    · split at h
      · next ht => exact key _ rfl ht h
      · simp only [Res.ok.injEq] at h
        subst h
        exact ⟨[], hp, fun tl hl => by rw [List.append_nil]; exact hl⟩

/-- a number token carries its value -/
def LitOK (st : St) : Prop := st.tok = .lit → ∃ v, st.val = some (.tmp v false)

theorem token_lit {st st' : St} (h : token true st = .ok st') : LitOK st' := by
  simp only [token] at h
  split at h
  · simp only [Res.ok.injEq] at h; subst h; simp [LitOK]
  · split at h
    · split at h
      · simp at h
      · simp only [Res.ok.injEq] at h; subst h; simp [LitOK]
    · split at h
      · split at h
        · simp at h
        · simp only [Res.ok.injEq] at h; subst h; simp [LitOK]
      · split at h
        · simp only [Res.ok.injEq] at h; subst h; simp [LitOK]
        · simp only [Res.ok.injEq] at h; subst h; simp [LitOK]

/-- an unknown character stays -/
theorem bad_sticky {a b c d : St} (h1 : token true a = .ok b) (hb : b.tok = .bad) (hc : c.rest = b.rest)
    (h2 : token true c = .ok d) : d.tok = .bad := by
  simp only [token] at h1
  generalize hs : a.rest.dropWhile isSpace = s at h1
  cases s with
  | nil => simp only [Res.ok.injEq] at h1; subst h1; simp at hb
  | cons x s =>
    simp only at h1
    split at h1
    · split at h1
      · simp at h1
      · simp only [Res.ok.injEq] at h1; subst h1; simp at hb
    · next hx1 =>
      split at h1
      · split at h1
        · simp at h1
        · simp only [Res.ok.injEq] at h1; subst h1; simp at hb
      · next hx2 =>
        cases hf : findOp (x :: s) with
        | some i => rw [hf] at h1; simp only [Res.ok.injEq] at h1; subst h1; simp at hb
        | none =>
          rw [hf] at h1
          simp only [Res.ok.injEq] at h1
          subst h1
          simp only at hc
          have hsp : isSpace x = false := by
            have : (a.rest.dropWhile isSpace).head? = some x := by rw [hs]; rfl
            exact head_dropWhile this
          simp only [token, hc, List.dropWhile_cons, hsp, Bool.false_eq_true, if_false, hx1, hx2, hf,
            Res.ok.injEq] at h2
          subst h2
          rfl

theorem pos_not_bad {st : St} {ts : List K} (h : Pos st ts) : st.tok ≠ .bad := by
  cases ts with
  | nil => simp only [Pos] at h; simp [h]
  | cons t ts => cases t <;> · simp only [Pos] at h; simp [h.1]

theorem isBinop_cases {o : Op} {p : Nat} (h : (isBinop o && o.prec == p) = true) :
    (isAsnOp o = true ∧ isAssign o = true ∧ p = 12) ∨
    (isAsnOp o = false ∧ isAssign o = false ∧ o = .tern ∧ p = 11) ∨
    (isAsnOp o = false ∧ isAssign o = false ∧ o ≠ .tern ∧ level o = some p ∧ p ≠ 0) := by
  simp only [Bool.and_eq_true, beq_iff_eq] at h
  obtain ⟨h1, h2⟩ := h
  subst h2
  revert h1
  cases o <;> decide

theorem back (n : Nat) :
    (∀ p st q ts, ev m true n p st = .ok q → LitOK st → p ≤ 13 → Pos q.2 ts → ∃ te, Pos st (te ++ ts) ∧ L (isLv q.1) p te) ∧
    (∀ p r st q ts, evLoop m true n p r st = .ok q → p ≤ 13 → Pos q.2 ts → ∃ te, Pos st (te ++ ts) ∧
      ∀ tl, L (isLv r) p tl → L (isLv q.1) p (tl ++ te)) := by
  induction n with
  | zero => exact ⟨fun p st q ts h => by simp [ev] at h, fun p r st q ts h => by simp [evLoop] at h⟩
  | succ n ih =>
    obtain ⟨ihE, ihL⟩ := ih
    constructor
    · intro p st q ts h hlit hp13 hp
      cases p with
      | succ p =>
        rw [ev] at h
        obtain ⟨q1, h1, h⟩ := bind_ok h
        obtain ⟨te, k1, k2⟩ := ihL _ _ _ _ _ h hp13 hp
        obtain ⟨t1, l1, l2⟩ := ihE _ _ _ _ h1 hlit (by omega) k1
        exact ⟨t1 ++ te, by rw [List.append_assoc]; exact l1, k2 _ (.up (by omega) l2)⟩
      | zero =>
        rw [ev] at h
        split at h
        · next o ho =>
          split at h
          · next hu =>
            obtain ⟨st1, h1, h⟩ := bind_ok h
            obtain ⟨q2, h2, h⟩ := bind_ok h
            obtain ⟨q3, h3, h⟩ := bind_ok h
            obtain ⟨tp, k1, k2⟩ := evPost_back h hp
            have i3 := intvar_pos (st' := q3.2) (v := q3.1) h3
            obtain ⟨t1, l1, l2⟩ := ihE _ _ _ _ h2 (token_lit h1) (by omega) (k1.congr i3.1.symm i3.2.1.symm)
            have hu' : isUnary o = true := by rcases hu with rfl | rfl | rfl | rfl <;> rfl
            refine ⟨.op o :: (t1 ++ tp), ?_, ?_⟩
            · rw [List.cons_append, List.append_assoc]; exact pos_op ho h1 l1
            · exact k2 (.op o :: t1) (.un o hu' l2.toFalse)
          · split at h
            · next hpar =>
              subst hpar
              obtain ⟨st1, h1, h⟩ := bind_ok h
              obtain ⟨q2, h2, h⟩ := bind_ok h
              simp only at h
              split at h
              · simp at h
              · next hc =>
                obtain ⟨st3, h3, h⟩ := bind_ok h
                obtain ⟨tp, k1, k2⟩ := evPost_back h hp
                obtain ⟨t1, l1, l2⟩ := ihE _ _ _ _ h2 (token_lit h1) (by decide) (pos_op (Classical.not_not.mp hc) h3 k1)
                refine ⟨.op .oparen :: (t1 ++ [.op .cparen]) ++ tp, ?_, k2 _ (.paren l2)⟩
                simp only [List.cons_append, List.append_assoc, List.nil_append]
                exact pos_op ho h1 l1
            · split at h
              · next hpp =>
                obtain ⟨st1, h1, h⟩ := bind_ok h
                obtain ⟨q2, h2, h⟩ := bind_ok h
                obtain ⟨st3, h3, h⟩ := bind_ok h
                obtain ⟨tp, k1, k2⟩ := evPost_back h hp
                obtain ⟨j1, j2, j3, j4, _⟩ := ppmm_back h2
                have hpp' : isIncDec o = true := by rcases hpp with rfl | rfl <;> rfl
                have hbad : q2.2.tok ≠ .bad := fun hb => pos_not_bad k1 (bad_sticky h1 (by rw [← j1]; exact hb) j2 h3)
                obtain ⟨t, l1⟩ := pos_any (by rw [j1]; exact j4) hbad h3 k1
                refine ⟨.op o :: t :: tp, ?_, k2 [.op o, t] ?_⟩
                · exact pos_op ho h1 (l1.congr j1.symm j2.symm)
                · rw [j3]; exact .pre o t hpp'
              · simp at h
        · next ht =>
          split at h
          · simp at h
          · next r hr =>
            obtain ⟨st1, h1, h⟩ := bind_ok h
            obtain ⟨tp, k1, k2⟩ := evPost_back h hp
            refine ⟨.name :: tp, ⟨ht, token_back h1 k1⟩, k2 [.name] ?_⟩
            cases isLv r
            · exact L.name.weaken
            · exact L.name
        · next ht =>
          split at h
          · simp at h
          · next r hr =>
            obtain ⟨st1, h1, h⟩ := bind_ok h
            obtain ⟨tp, k1, k2⟩ := evPost_back h hp
            refine ⟨.num :: tp, ⟨ht, token_back h1 k1⟩, k2 [.num] ?_⟩
            have : isLv r = false := by
              obtain ⟨v, hv⟩ := hlit ht
              rw [hr] at hv; simp only [Option.some.injEq] at hv; subst hv; rfl
            rw [this]
            exact L.num
        · simp at h
        · simp at h
    · intro p r st q ts h hp13 hp
      rw [evLoop] at h
      have stop : Res.ok (r, st) = .ok q → ∃ te, Pos st (te ++ ts) ∧
          ∀ tl, L (isLv r) p tl → L (isLv q.1) p (tl ++ te) := by
        intro h
        simp only [Res.ok.injEq] at h
        subst h
        exact ⟨[], hp, fun tl hl => by rw [List.append_nil]; exact hl⟩
      split at h
      case h_2 => exact stop h
      next o ho =>
      split at h
      case isFalse => exact stop h
      next hbin =>
      obtain ⟨st1, h1, h0⟩ := bind_ok h
      clear h
      have h := h0
      clear h0
      have hlit1 := token_lit h1
      -- one operand, then the loop again
      have operand : ∀ (d : Nat) (p' : Nat) (st2 : St) (lv : Bool), p' ≤ 13 → st2.tok = st1.tok → st2.rest = st1.rest →
          st2.val = st1.val → ∀ {q2 : Ref × St} {q3 : Int × St} {v : Int} {st4 : St},
          ev m true n p' st2 = .ok q2 → intvar m true n q2.1 q2.2 = .ok q3 →
          st4.tok = q3.2.tok → st4.rest = q3.2.rest →
          evLoop m true n p (.tmp v false) st4 = .ok q →
          (∀ tl te, L lv p tl → L false p' te → L false p (tl ++ .op o :: te)) →
          ∃ te, Pos st (te ++ ts) ∧ ∀ tl, L lv p tl → L (isLv q.1) p (tl ++ te) := by
        intro d p' st2 lv hp' e1 e2 e3 q2 q3 v st4 k1 k2 e4 e5 k3 build
        obtain ⟨t2, l1, l2⟩ := ihL _ _ _ _ _ k3 hp13 hp
        have i2 := intvar_pos (st' := q3.2) (v := q3.1) k2
        obtain ⟨t1, j1, j2⟩ := ihE _ _ _ _ k1 (by intro h; rw [e3]; exact hlit1 (by rw [← e1]; exact h)) hp'
          (l1.congr (by rw [e4, i2.1]) (by rw [e5, i2.2.1]))
        refine ⟨.op o :: (t1 ++ t2), ?_, ?_⟩
        · rw [List.cons_append, List.append_assoc]
          exact pos_op ho h1 (j1.congr e1.symm e2.symm)
        · intro tl hl
          have := l2 (tl ++ .op o :: t1) (build tl t1 hl j2.toFalse)
          simpa using this
      have mkBin : ∀ lv, isAsnOp o = false → o ≠ .tern → level o = some p → p ≠ 0 → ∀ tl te, L lv p tl → L false (p - 1) te →
          L false p (tl ++ .op o :: te) := by
        intro lv _ _ hlev hp0 tl te h1 h2
        obtain ⟨p', rfl⟩ : ∃ p', p = p' + 1 := ⟨p - 1, by omega⟩
        exact .bin o hlev h1.toFalse h2
      split at h
      · next hasn =>
        subst hasn
        rcases isBinop_cases hbin with ⟨b1, b2, rfl⟩ | ⟨b1, _⟩ | ⟨b1, _⟩
        · obtain ⟨u, h2, h⟩ := bind_ok h
          obtain ⟨q2, h3, h⟩ := bind_ok h
          obtain ⟨q3, h4, h⟩ := bind_ok h
          obtain ⟨_, r', hr', hlv⟩ := assignCheck_lv h2
          simp only [Option.some.injEq] at hr'
          subst hr'
          rw [hlv]
          have ap := assignRef_pos q3.2 r q3.1
          exact operand 0 _ st1 true (by decide) rfl rfl rfl h3 h4 ap.1 ap.2 h (fun tl te h1 h2 => .asn .asn rfl h1 h2)
        · simp [isAsnOp] at b1
        · simp [isAsnOp] at b1
      · next hnasn =>
        obtain ⟨q1, h2, h0⟩ := bind_ok h
        clear h
        have h := h0
        clear h0
        have i1 := intvar_pos (st' := q1.2) (v := q1.1) h2
        simp only at h
        -- the arithmetic tail
        have arith : ∀ (g : St → Int → St) {st2 : St} {l : Int} (hg : ∀ s v, (g s v).tok = s.tok ∧ (g s v).rest = s.rest)
            {p' : Nat} {lv : Bool} (hp' : p' ≤ 13) (e1 : st2.tok = st1.tok) (e2 : st2.rest = st1.rest) (e3 : st2.val = st1.val)
            (build : ∀ tl te, L lv p tl → L false p' te → L false p (tl ++ .op o :: te)),
            ((ev m true n p' st2).bind fun (r, st) =>
              (intvar m true n r st).bind fun (vr, st) =>
              if isDivOp o = true ∧ vr = 0 ∧ st.na = 0 then .err .zerodiv st.vars
              else
                match binArith m o l (if isDivOp o = true ∧ vr = 0 then 1 else vr) with
                | none => .stuck .trap
                | some res => evLoop m true n p (.tmp res false) (g st res)) = .ok q →
            ∃ te, Pos st (te ++ ts) ∧ ∀ tl, L lv p tl → L (isLv q.1) p (tl ++ te) := by
          intro g st2 l hg p' lv hp' e1 e2 e3 build h
          obtain ⟨q2, h3, h⟩ := bind_ok h
          obtain ⟨q3, h4, h⟩ := bind_ok h
          simp only at h
          split at h
          · simp at h
          · split at h
            · simp at h
            · next res _ =>
              have ap := hg q3.2 res
              exact operand 0 _ st2 lv hp' e1 e2 e3 h3 h4 ap.1 ap.2 h build
        split at h
        · next has =>
          rcases isBinop_cases hbin with ⟨b1, b2, rfl⟩ | ⟨b1, b2, _⟩ | ⟨b1, b2, _⟩
          · obtain ⟨u, h3, h⟩ := bind_ok h
            obtain ⟨_, r', hr', hlv⟩ := assignCheck_lv h3
            simp only [Option.some.injEq] at hr'
            subst hr'
            rw [hlv]
            exact arith (fun s v => assignRef s r v) (fun s v => assignRef_pos s r v) (by decide) i1.1 i1.2.1 i1.2.2
              (fun tl te h1 h2 => .asn o b1 h1 h2) h
          · rw [b2] at has; simp at has
          · rw [b2] at has; simp at has
        · next has =>
          have hnotasn : isAsnOp o = false := by
            rw [(level_facts o).2.1]; simpa using has
          split at h
          · next hland =>
            subst hland
            rcases isBinop_cases hbin with ⟨b1, _⟩ | ⟨_, _, b3, _⟩ | ⟨b1, b2, b3, b4, b5⟩
            · simp [isAsnOp] at b1
            · simp at b3
            · obtain ⟨q2, h3, h⟩ := bind_ok h
              obtain ⟨q3, h4, h⟩ := bind_ok h
              refine operand 0 (p - 1) _ (isLv r) (by omega) ?_ ?_ ?_ h3 h4 ?_ ?_ h (mkBin _ b1 b3 b4 b5)
              · split <;> exact i1.1
              · split <;> exact i1.2.1
              · split <;> exact i1.2.2
              · split <;> rfl
              · split <;> rfl
          · split at h
            · next hlor =>
              subst hlor
              rcases isBinop_cases hbin with ⟨b1, _⟩ | ⟨_, _, b3, _⟩ | ⟨b1, b2, b3, b4, b5⟩
              · simp [isAsnOp] at b1
              · simp at b3
              · obtain ⟨q2, h3, h⟩ := bind_ok h
                obtain ⟨q3, h4, h⟩ := bind_ok h
                refine operand 0 (p - 1) _ (isLv r) (by omega) ?_ ?_ ?_ h3 h4 ?_ ?_ h (mkBin _ b1 b3 b4 b5)
                · split <;> exact i1.1
                · split <;> exact i1.2.1
                · split <;> exact i1.2.2
                · split <;> rfl
                · split <;> rfl
            · split at h
              · next htern =>
                subst htern
                rcases isBinop_cases hbin with ⟨b1, _⟩ | ⟨_, _, b3, rfl⟩ | ⟨b1, b2, b3, b4, b5⟩
                · simp [isAsnOp] at b1
                · obtain ⟨q2, h3, h⟩ := bind_ok h
                  skip
                  obtain ⟨st3, hst3, t3, r3⟩ : ∃ st3, (if q1.1 = 0 then { q2.2 with na := q2.2.na - 1 } else q2.2) = st3 ∧
                      st3.tok = q2.2.tok ∧ st3.rest = q2.2.rest := ⟨_, rfl, by split <;> rfl, by split <;> rfl⟩
                  rw [hst3] at h
                  split at h
                  · simp at h
                  · next hct =>
                    obtain ⟨st4, h4, h⟩ := bind_ok h
                    obtain ⟨q5, h5, h⟩ := bind_ok h
                    obtain ⟨t2, l1, l2⟩ := ihL _ _ _ _ _ h hp13 hp
                    have hlit4 := token_lit h4
                    obtain ⟨t5, j1, j2⟩ := ihE _ _ _ _ h5 (by split <;> exact hlit4) (by decide)
                      (l1.congr (by split <;> rfl) (by split <;> rfl))
                    have j1' : Pos st4 (t5 ++ (t2 ++ ts)) := j1.congr (by split <;> rfl) (by split <;> rfl)
                    have hp3 := pos_op (Classical.not_not.mp hct) h4 j1'
                    have hlitq1 : LitOK q1.2 := by
                      intro hh; rw [i1.2.2]; exact hlit1 (by rw [← i1.1]; exact hh)
                    obtain ⟨t3', j3, j4⟩ := ihE _ _ _ _ h3 (by split <;> exact hlitq1) (by decide)
                      (hp3.congr t3.symm r3.symm)
                    have j3' : Pos st1 (t3' ++ (.op .ctern :: (t5 ++ (t2 ++ ts)))) := j3.congr
                      (by rw [← i1.1]; split <;> rfl) (by rw [← i1.2.1]; split <;> rfl)
                    refine ⟨.op .tern :: (t3' ++ .op .ctern :: t5) ++ t2, ?_, ?_⟩
                    · simp only [List.cons_append, List.append_assoc]
                      exact pos_op ho h1 j3'
                    · intro tl hl
                      have := l2 (tl ++ .op .tern :: (t3' ++ .op .ctern :: t5)) (by
                        have ht := L.tern hl.toFalse j4 j2
                        by_cases hz : q1.1 ≠ 0
                        · rw [if_pos hz]
                          cases hq : isLv q2.1
                          · rw [hq] at ht; exact ht.toFalse
                          · rw [hq] at ht; exact ht
                        · rw [if_neg hz]
                          cases hq : isLv q5.1
                          · exact ht.toFalse
                          · rw [hq, Bool.or_true] at ht; exact ht)
                      simpa using this
                · simp at b3
              · next hnt =>
                rcases isBinop_cases hbin with ⟨b1, _⟩ | ⟨_, _, b3, _⟩ | ⟨b1, b2, b3, b4, b5⟩
                · rw [b1] at hnotasn; simp at hnotasn
                · exact absurd b3 hnt
                · exact arith (fun s _ => s) (fun s v => ⟨rfl, rfl⟩) (by omega) i1.1 i1.2.1 i1.2.2 (mkBin _ b1 b3 b4 b5) h

/-- C09 (partial): an accepted text consists of tokens that parse in the liberal
grammar, or is blank; every other text is an error (or an array reference, which
is not modelled).  Missing: `L` is larger than C's grammar (`ungrammatical_accepted`). -/
theorem accepted_parses_partial {n : Nat} {text : List Char} {σ σ' : Store} {v : Int}
    (h : vEval m true n text σ = .ok (v, σ')) :
    ∃ toks, LexesL text toks ∧ (toks = [] ∨ L false 13 toks) := by
  cases n with
  | zero => simp [vEval] at h
  | succ n =>
    rw [vEval] at h
    obtain ⟨st1, h1, h⟩ := bind_ok h
    obtain ⟨q2, h2, h⟩ := bind_ok h
    obtain ⟨q3, h3, h⟩ := bind_ok h
    simp only at h
    split at h
    · simp at h
    · next hfin =>
      have hf3 : q3.2.tok = .fin := Classical.not_not.mp hfin
      have i3 := intvar_pos (st' := q3.2) (v := q3.1) h3
      by_cases hf1 : st1.tok = .fin
      · exact ⟨[], token_back (st := { rest := text, tok := .bad, val := none, na := 0, vars := σ }) h1 hf1, Or.inl rfl⟩
      · rw [if_neg hf1] at h2
        have hp : Pos q2.2 [] := by show q2.2.tok = .fin; rw [← i3.1]; exact hf3
        obtain ⟨te, k1, k2⟩ := (back (m := m) n).1 _ _ _ _ h2 (token_lit h1) (by decide) hp
        rw [List.append_nil] at k1
        exact ⟨te, token_back (st := { rest := text, tok := .bad, val := none, na := 0, vars := σ }) h1 k1, Or.inr k2.toFalse⟩

/-- Every C expression is in the liberal grammar. -/
theorem G.liberal {s : Bool} {k : Nat} {t : List T} {e : E} (h : G s k t e) : L false k (t.map T.kind) := by
  have lv : ∀ {t x}, LV t x → L true 0 (t.map T.kind) := by
    intro t x h
    induction h with
    | name => exact .name
    | @paren t x h ih =>
      simp only [List.map_cons, List.map_append, List.map_nil, T.kind]
      refine .paren ?_
      have : ∀ j, j ≤ 13 → L true j (t.map T.kind) := by
        intro j
        induction j with
        | zero => intro _; exact ih
        | succ j ih => intro hj; exact .up (by omega) (ih (by omega))
      exact this 13 (by omega)
  induction h with
  | num => exact .num
  | name => exact L.name.weaken
  | paren h ih => simpa [T.kind] using L.paren ih
  | un o ho h ih => simpa [T.kind] using L.un o ho ih
  | pre o x ho => exact .pre o .name ho
  | post o ho hlv => simpa [T.kind] using L.post o ho (lv hlv)
  | bin o hl ha hb hs iha ihb => simpa [T.kind] using L.bin o hl iha ihb
  | tern hc ha hb hs ihc iha ihb => simpa [T.kind] using L.tern (.up (by omega) ihc) iha ihb
  | @asn t x te e o ho hlv he ihe =>
    have : ∀ j, j ≤ 13 → L true j (t.map T.kind) := by
      intro j
      induction j with
      | zero => intro _; exact lv hlv
      | succ j ih => intro hj; exact .up (by omega) (ih (by omega))
    simpa [T.kind] using L.asn o ho (this 12 (by omega)) ihe
  | up hk h ih => exact .up hk ih

/-- Parentheses balance in accepted texts. -/
theorem L.balanced {b : Bool} {k : Nat} {t : List K} (h : L b k t)
    (hp : ∀ o o' , isIncDec o = true → [K.op o, .op o'] <:+: t → o' ≠ .oparen ∧ o' ≠ .cparen) :
    t.count (.op .oparen) = t.count (.op .cparen) := by
  induction h with
  | num | name => rfl
  | @paren b t h ih =>
    have := ih (fun o o' h1 h2 => hp o o' h1 (h2.trans ⟨[.op .oparen], [.op .cparen], by simp⟩))
    simp [List.count_cons, List.count_append, this]
  | @un t o ho h ih =>
    have := ih (fun o1 o' h1 h2 => hp o1 o' h1 (h2.trans ⟨[.op o], [], by simp⟩))
    have h1 : o ≠ .oparen ∧ o ≠ .cparen := by clear hp; cases o <;> simp [isUnary] at ho <;> simp
    simp [List.count_cons, this, h1]
  | pre o t ho =>
    have h1 : o ≠ .oparen ∧ o ≠ .cparen := by clear hp; cases o <;> simp [isIncDec] at ho <;> simp
    cases t with
    | op o' =>
      have := hp o o' ho (List.infix_refl _)
      simp [List.count_cons, this, h1]
    | name => simp [List.count_cons, h1]
    | num => simp [List.count_cons, h1]
  | @post t o ho h ih =>
    have h1 : o ≠ .oparen ∧ o ≠ .cparen := by clear hp; cases o <;> simp [isIncDec] at ho <;> simp
    have := ih (fun o1 o' h1 h2 => hp o1 o' h1 (h2.trans ⟨[], [.op o], by simp⟩))
    simp [List.count_append, List.count_cons, this, h1]
  | @bin k ta tb o hl ha hb iha ihb =>
    have h1 : o ≠ .oparen ∧ o ≠ .cparen := by clear hp; cases o <;> simp [level] at hl <;> simp
    have e1 := iha (fun o1 o' h1 h2 => hp o1 o' h1 (h2.trans ⟨[], .op o :: tb, by simp⟩))
    have e2 := ihb (fun o1 o' h1 h2 => hp o1 o' h1 (h2.trans ⟨ta ++ [.op o], [], by simp⟩))
    simp [List.count_append, List.count_cons, e1, e2, h1]
  | @tern b1 b2 tc ta tb hc ha hb ihc iha ihb =>
    have e1 := ihc (fun o1 o' h1 h2 => hp o1 o' h1 (h2.trans ⟨[], _, rfl⟩))
    have e2 := iha (fun o1 o' h1 h2 => hp o1 o' h1 (h2.trans ⟨tc ++ [.op .tern], .op .ctern :: tb, by simp⟩))
    have e3 := ihb (fun o1 o' h1 h2 => hp o1 o' h1 (h2.trans ⟨tc ++ .op .tern :: (ta ++ [.op .ctern]), [], by simp⟩))
    simp [List.count_append, List.count_cons, e1, e2, e3]
  | @asn t te o ho h1 h2 ih1 ih2 =>
    have hh : o ≠ .oparen ∧ o ≠ .cparen := by clear hp; cases o <;> simp [isAsnOp] at ho <;> simp
    have e1 := ih1 (fun o1 o' h1 h2 => hp o1 o' h1 (h2.trans ⟨[], _, rfl⟩))
    have e2 := ih2 (fun o1 o' h1 h2 => hp o1 o' h1 (h2.trans ⟨t ++ [.op o], [], by simp⟩))
    simp [List.count_append, List.count_cons, e1, e2, hh]
  | up hk h ih => exact ih hp
  | weaken h ih => exact ih hp

example : (vEval m0 true 60 "1 2".toList st0 matches .err .unexpected _) = true := by decide +kernel
example : (vEval m0 true 60 "(1 + 2".toList st0 matches .err .missingParen _) = true := by decide +kernel
example : (vEval m0 true 60 "1 = 2".toList st0 matches .err .lvalue _) = true := by decide +kernel

end Ksh.Expr
