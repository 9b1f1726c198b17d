import Verif.Test.Model
/-!
# The grammar of test expressions and the parser

Specification: trees of the grammar at c_test.c:24-43, their tokens (`toks`), when the
tokens are unambiguous (`Ok next`, where `next` is what follows), and their meaning
(`sem`), which evaluates only what is needed, from left to right.
-/

namespace Ksh.Test
variable {T : Type}

mutual
/-- primary -/
inductive P (T : Type)
  | paren (l : T) (o : O T) (r : T)
  | un (u : T) (x : T)
  | bin (a : T) (o : T) (b : T)
  | str (a : T)
/-- nexpr -/
inductive N (T : Type)
  | prim (p : P T)
  | not (t : T) (n : N T)
/-- aexpr -/
inductive A (T : Type)
  | one (n : N T)
  | and (n : N T) (t : T) (a : A T)
/-- oexpr -/
inductive O (T : Type)
  | one (a : A T)
  | or (a : A T) (t : T) (o : O T)
end

mutual
def P.toks : P T → List T
  | .paren l o r => l :: (o.toks ++ [r])
  | .un u x => [u, x]
  | .bin a o b => [a, o, b]
  | .str a => [a]
def N.toks : N T → List T
  | .prim p => p.toks
  | .not t n => t :: n.toks
def A.toks : A T → List T
  | .one n => n.toks
  | .and n t a => n.toks ++ t :: a.toks
def O.toks : O T → List T
  | .one a => a.toks
  | .or a t o => a.toks ++ t :: o.toks
end

mutual
/-- The tokens are what they have to be, and are not to be read differently: an operand of
`test` that looks like a unary operator must be followed by nothing or a binary operator, a
unary operator of `test` not by a binary one. -/
def P.Ok (E : Env T) (next : List T) : P T → Prop
  | .paren l o r => E.isOpar l = true ∧ o.Ok E (r :: next) ∧ E.isCpar r = true
  | .un u x => E.isOpar u = false ∧ (E.unop u).isSome ∧ (E.db = true ∨ E.binop x = none)
  | .bin a o _ => E.isOpar a = false ∧ (E.binop o).isSome ∧ (E.db = true → E.unop a = none)
  | .str a => E.db = false ∧ E.isOpar a = false ∧ (E.unop a = none ∨ next = []) ∧ ∀ x ∈ next.head?, E.binop x = none
def N.Ok (E : Env T) (next : List T) : N T → Prop
  | .prim p => p.Ok E next ∧ ∀ x ∈ p.toks.head?, E.isNot x = false
  | .not t n => E.isNot t = true ∧ n.Ok E next
def A.Ok (E : Env T) (next : List T) : A T → Prop
  | .one n => n.Ok E next ∧ ∀ x ∈ next.head?, E.isAnd x = false
  | .and n t a => n.Ok E (t :: a.toks ++ next) ∧ E.isAnd t = true ∧ a.Ok E next
def O.Ok (E : Env T) (next : List T) : O T → Prop
  | .one a => a.Ok E next ∧ ∀ x ∈ next.head?, E.isOr x = false
  | .or a t o => a.Ok E (t :: o.toks ++ next) ∧ E.isOr t = true ∧ o.Ok E next
end

/-- Meaning: value, whether evaluation failed, and the history. -/
structure V (T : Type) where
  val : Bool
  err : Bool
  log : List (Ev T)

/-- Evaluate one operator, expanding the operands first in `[[`. -/
def evalTest (E : Env T) (h : List (Ev T)) (opnds : List (Ev T)) (op : Op) (a : T) (b : Option T) : V T :=
  let h := if E.db then h ++ opnds else h
  let r := E.eval h op a b
  ⟨r.1, r.2, h ++ [.test op a b]⟩

def isPat (op : Op) : Bool := op = .eq || op = .ne

mutual
def P.sem (E : Env T) (h : List (Ev T)) : P T → V T
  | .paren _ o _ => o.sem E h
  | .un u x => evalTest E h [.opnd x (isPat ((E.unop u).getD .nze))] ((E.unop u).getD .nze) x none
  | .bin a o b => evalTest E h [.opnd a false, .opnd b (isPat ((E.binop o).getD .nze))] ((E.binop o).getD .nze) a (some b)
  | .str a => evalTest E h [] .nze a none
def N.sem (E : Env T) (h : List (Ev T)) : N T → V T
  | .prim p => p.sem E h
  | .not _ n => let v := n.sem E h; ⟨!v.val, v.err, v.log⟩
def A.sem (E : Env T) (h : List (Ev T)) : A T → V T
  | .one n => n.sem E h
  | .and n _ a =>
    let v := n.sem E h
    if v.err ∨ v.val = false then v else a.sem E v.log
def O.sem (E : Env T) (h : List (Ev T)) : O T → V T
  | .one a => a.sem E h
  | .or a _ o =>
    let v := a.sem E h
    if v.err ∨ v.val = true then v else o.sem E v.log
end

/-! ## Parser follows trees -/

theorem isa_head {p : T → Bool} {l : List T} {e : Bool} {h : List (Ev T)} (hn : ∀ x ∈ l.head?, p x = false) :
    isa p ⟨l, e, h⟩ = (false, ⟨l, e, h⟩) := by
  cases l with
  | nil => rfl
  | cons x l => simp [isa, hn x (by simp)]

/-- The outcome of reading `toks ++ next`: with evaluation the value and history of `v`
(and all tokens read unless there was an error), without it nothing happens. -/
def Fits (d : Bool) (h : List (Ev T)) (next : List T) (v : V T) (r : Bool) (s : S T) : Prop :=
  if d then s.log = v.log ∧ s.err = v.err ∧ (v.err = false → r = v.val ∧ s.toks = next)
  else s = ⟨next, false, h⟩

theorem evalOp_fits {E : Env T} {d : Bool} {h opnds op a b next} {h' : List (Ev T)}
    (hh : h' = if E.db && d then h ++ opnds else h) :
    Fits d h next (evalTest E h opnds op a b) (evalOp E op a b d ⟨next, false, h'⟩).1 (evalOp E op a b d ⟨next, false, h'⟩).2 := by
  subst hh
  cases d
  · simp [Fits, evalOp]
  · simp [Fits, evalOp, evalTest]

theorem simple_un {E : Env T} {d h u x next} (h2 : (E.unop u).isSome) (h3 : E.db = true ∨ E.binop x = none) :
    Fits d h next ((P.un u x).sem E h) (simple E d ⟨u :: x :: next, false, h⟩).1 (simple E d ⟨u :: x :: next, false, h⟩).2 := by
  obtain ⟨op, hop⟩ := Option.isSome_iff_exists.1 h2
  have hu : unaryAllowed E ⟨u :: x :: next, false, h⟩ = true := by
    rcases h3 with h3 | h3 <;> simp [unaryAllowed, h3]
  have hi : isop E.unop (⟨u :: x :: next, false, h⟩ : S T) = (some op, ⟨x :: next, false, h⟩) := by simp [isop, hop]
  simp only [simple, hu, if_true, hi, getopnd, P.sem, hop, Option.getD_some]
  refine evalOp_fits ?_
  cases E.db <;> cases d <;> simp [isPat]

theorem simple_bin {E : Env T} {d h a o b next} (h2 : (E.binop o).isSome) (h3 : E.db = true → E.unop a = none) :
    Fits d h next ((P.bin a o b).sem E h) (simple E d ⟨a :: o :: b :: next, false, h⟩).1 (simple E d ⟨a :: o :: b :: next, false, h⟩).2 := by
  obtain ⟨op, hop⟩ := Option.isSome_iff_exists.1 h2
  unfold simple
  have hrest : ∀ (l : List (Ev T)), l = (if E.db && d then h ++ [.opnd a false] else h) →
      Fits d h next ((P.bin a o b).sem E h)
        (evalOp E op a (some b) d ⟨next, false, if E.db && d then l ++ [.opnd b (some op = some .eq || some op = some .ne)] else l⟩).1
        (evalOp E op a (some b) d ⟨next, false, if E.db && d then l ++ [.opnd b (some op = some .eq || some op = some .ne)] else l⟩).2 := by
    intro l hl
    simp only [P.sem, hop, Option.getD_some]
    refine evalOp_fits ?_
    subst hl
    cases E.db <;> cases d <;> simp [isPat]
  have hi : ∀ l, isop E.binop (⟨o :: b :: next, false, l⟩ : S T) = (some op, ⟨b :: next, false, l⟩) := fun l => by simp [isop, hop]
  by_cases hdb : E.db = true
  · have hu : unaryAllowed E ⟨a :: o :: b :: next, false, h⟩ = true := by simp [unaryAllowed, hdb]
    have hj : isop E.unop (⟨a :: o :: b :: next, false, h⟩ : S T) = (none, ⟨a :: o :: b :: next, false, h⟩) := by simp [isop, h3 hdb]
    simp only [hu, if_true, hj, getopnd, hi]
    exact hrest _ (by simp)
  · have hu : unaryAllowed E ⟨a :: o :: b :: next, false, h⟩ = false := by simp [unaryAllowed, hdb, hop]
    simp only [hu, Bool.false_eq_true, if_false, getopnd, hi]
    exact hrest _ (by simp)

theorem simple_str {E : Env T} {d h a next} (h1 : E.db = false) (h3 : E.unop a = none ∨ next = [])
    (h4 : ∀ x ∈ next.head?, E.binop x = none) :
    Fits d h next ((P.str a).sem E h) (simple E d ⟨a :: next, false, h⟩).1 (simple E d ⟨a :: next, false, h⟩).2 := by
  have hb : isop E.binop (⟨next, false, h⟩ : S T) = (none, ⟨next, false, h⟩) := by
    cases next with
    | nil => rfl
    | cons x l => simp [isop, h4 x (by simp)]
  have hev := evalOp_fits (E := E) (d := d) (h := h) (opnds := []) (op := .nze) (a := a) (b := none) (next := next) (h' := h) (by simp [h1])
  rcases h3 with h3 | rfl
  · have hj : isop E.unop (⟨a :: next, false, h⟩ : S T) = (none, ⟨a :: next, false, h⟩) := by simp [isop, h3]
    simp only [simple, hj, getopnd, h1, Bool.false_and, Bool.false_eq_true, if_false, hb, P.sem]
    split <;> exact hev
  · have hu : unaryAllowed E ⟨[a], false, h⟩ = false := by simp [unaryAllowed, h1]
    simp only [simple, hu, getopnd, h1, Bool.false_and, Bool.false_eq_true, if_false, hb, P.sem]
    exact hev

mutual
theorem P.follows {E : Env T} : ∀ (p : P T) (next : List T) (d : Bool) (h : List (Ev T)) (n : Nat) (r : Bool) (s : S T),
    p.Ok E next → primary E n d ⟨p.toks ++ next, false, h⟩ = some (r, s) → Fits d h next (p.sem E h) r s
  | .paren l o c, next, d, h, n, r, s, ⟨h1, h2, h3⟩, he => by
    cases n with
    | zero => simp [primary] at he
    | succ n =>
      simp only [primary, P.toks, List.cons_append, List.append_assoc, List.nil_append, Bool.false_eq_true, if_false, isa, h1, if_true] at he
      cases ho : oexpr E n d ⟨o.toks ++ c :: next, false, h⟩ with
      | none => rw [ho] at he; simp at he
      | some p =>
        obtain ⟨res, s1⟩ := p
        rw [ho] at he
        have := O.follows o (c :: next) d h n res s1 h2 ho
        simp only at he
        simp only [P.sem]
        cases d with
        | false =>
          simp only [Fits, Bool.false_eq_true, if_false] at this ⊢
          subst this
          simp [h3] at he
          exact he.2.symm
        | true =>
          simp only [Fits, if_true] at this ⊢
          obtain ⟨e1, e2, e3⟩ := this
          cases hv : (o.sem E h).err with
          | true =>
            rw [hv] at e2
            rw [if_pos e2] at he
            simp only [Option.some.injEq, Prod.mk.injEq] at he
            obtain ⟨rfl, rfl⟩ := he
            simp [e1, e2]
          | false =>
            rw [hv] at e2
            rw [if_neg (by simp [e2])] at he
            obtain ⟨e4, e5⟩ := e3 hv
            simp only [e5, h3, if_true, Option.some.injEq, Prod.mk.injEq] at he
            obtain ⟨rfl, rfl⟩ := he
            simp [e1, e2, e4]
  | .un u x, next, d, h, n, r, s, ⟨h1, h2, h3⟩, he => by
    cases n with
    | zero => simp [primary] at he
    | succ n =>
      have ho := isa_head (p := E.isOpar) (l := (P.un u x).toks ++ next) (e := false) (h := h) (by simp [P.toks, h1])
      simp only [primary, ho, Bool.false_eq_true, if_false, Option.some.injEq] at he
      have := simple_un (E := E) (d := d) (h := h) (next := next) h2 h3
      simp only [P.toks, List.cons_append, List.nil_append] at he
      rw [he] at this
      exact this
  | .bin a o b, next, d, h, n, r, s, ⟨h1, h2, h3⟩, he => by
    cases n with
    | zero => simp [primary] at he
    | succ n =>
      have ho := isa_head (p := E.isOpar) (l := (P.bin a o b).toks ++ next) (e := false) (h := h) (by simp [P.toks, h1])
      simp only [primary, ho, Bool.false_eq_true, if_false, Option.some.injEq] at he
      have := simple_bin (E := E) (d := d) (h := h) (b := b) (next := next) h2 h3
      simp only [P.toks, List.cons_append, List.nil_append] at he
      rw [he] at this
      exact this
  | .str a, next, d, h, n, r, s, ⟨h1, h2, h3, h4⟩, he => by
    cases n with
    | zero => simp [primary] at he
    | succ n =>
      have ho := isa_head (p := E.isOpar) (l := (P.str a).toks ++ next) (e := false) (h := h) (by simp [P.toks, h2])
      simp only [primary, ho, Bool.false_eq_true, if_false, Option.some.injEq] at he
      have := simple_str (E := E) (d := d) (h := h) h1 h3 h4
      simp only [P.toks, List.cons_append, List.nil_append] at he
      rw [he] at this
      exact this
theorem N.follows {E : Env T} : ∀ (x : N T) (next : List T) (d : Bool) (h : List (Ev T)) (n : Nat) (r : Bool) (s : S T),
    x.Ok E next → nexpr E n d ⟨x.toks ++ next, false, h⟩ = some (r, s) → Fits d h next (x.sem E h) r s
  | .prim p, next, d, h, n, r, s, ⟨h1, h2⟩, he => by
    cases n with
    | zero => simp [nexpr] at he
    | succ n =>
      have hne : p.toks ≠ [] := by cases p <;> simp [P.toks]
      have ho := isa_head (p := E.isNot) (l := p.toks ++ next) (e := false) (h := h) (by
        intro x hx
        cases hp : p.toks with
        | nil => exact absurd hp hne
        | cons y l =>
          rw [hp] at hx
          simp at hx
          exact h2 x (by simp [hp, hx]))
      simp only [nexpr, N.toks, ho, Bool.false_eq_true, if_false] at he
      exact P.follows p next d h n r s h1 he
  | .not t x, next, d, h, n, r, s, ⟨h1, h2⟩, he => by
    cases n with
    | zero => simp [nexpr] at he
    | succ n =>
      simp only [nexpr, N.toks, List.cons_append, isa, h1, if_true, Bool.false_eq_true, if_false, Option.map_eq_some_iff,
        Prod.mk.injEq, Prod.exists] at he
      obtain ⟨r', s', he, rfl, rfl⟩ := he
      have := N.follows x next d h n r' s' h2 he
      cases d
      · exact this
      · simp only [Fits, if_true, N.sem] at this ⊢
        obtain ⟨e1, e2, e3⟩ := this
        exact ⟨e1, e2, fun hv => ⟨by rw [(e3 hv).1], (e3 hv).2⟩⟩
theorem A.follows {E : Env T} : ∀ (x : A T) (next : List T) (d : Bool) (h : List (Ev T)) (n : Nat) (r : Bool) (s : S T),
    x.Ok E next → aexpr E n d ⟨x.toks ++ next, false, h⟩ = some (r, s) → Fits d h next (x.sem E h) r s
  | .one x, next, d, h, n, r, s, ⟨h1, h2⟩, he => by
    cases n with
    | zero => simp [aexpr] at he
    | succ n =>
      simp only [aexpr, A.toks] at he
      cases hx : nexpr E n d ⟨x.toks ++ next, false, h⟩ with
      | none => rw [hx] at he; simp at he
      | some p =>
        obtain ⟨r1, s1⟩ := p
        have hf := N.follows x next d h n r1 s1 h1 hx
        rw [hx] at he
        simp only at he
        by_cases hs : s1.err = true
        · rw [if_pos hs] at he
          simp only [Option.some.injEq, Prod.mk.injEq] at he
          obtain ⟨rfl, rfl⟩ := he
          exact hf
        · rw [if_neg hs] at he
          have htk : s1.toks = next := by
            cases d
            · simp only [Fits, Bool.false_eq_true, if_false] at hf; rw [hf]
            · simp only [Fits, if_true] at hf; exact (hf.2.2 (by rw [← hf.2.1]; simpa using hs)).2
          have : isa E.isAnd s1 = (false, s1) := isa_head (by rw [htk]; exact h2)
          rw [this] at he
          simp only [Option.some.injEq, Prod.mk.injEq] at he
          obtain ⟨rfl, rfl⟩ := he
          exact hf
  | .and x t a, next, d, h, n, r, s, ⟨h1, h2, h3⟩, he => by
    cases n with
    | zero => simp [aexpr] at he
    | succ n =>
      simp only [aexpr, A.toks, List.append_assoc] at he
      cases hx : nexpr E n d ⟨x.toks ++ (t :: a.toks ++ next), false, h⟩ with
      | none => rw [hx] at he; simp at he
      | some p =>
        obtain ⟨r1, s1⟩ := p
        have hf := N.follows x (t :: a.toks ++ next) d h n r1 s1 h1 hx
        rw [hx] at he
        simp only at he
        cases d with
        | false =>
          simp only [Fits, Bool.false_eq_true, if_false] at hf ⊢
          subst hf
          simp only [Bool.false_eq_true, if_false, List.cons_append, isa, h2, if_true, ite_self, Option.map_eq_some_iff,
            Prod.mk.injEq, Prod.exists] at he
          obtain ⟨r2, s2, he, _, rfl⟩ := he
          have := A.follows a next false h n r2 s2 h3 he
          simpa [Fits] using this
        | true =>
          simp only [Fits, if_true] at hf
          obtain ⟨e1, e2, e3⟩ := hf
          simp only [A.sem]
          cases hv : (x.sem E h).err with
          | true =>
            rw [hv] at e2
            rw [if_pos e2] at he
            simp only [Option.some.injEq, Prod.mk.injEq] at he
            obtain ⟨rfl, rfl⟩ := he
            simp [Fits, hv, e1, e2]
          | false =>
            rw [hv] at e2
            rw [if_neg (by simp [e2])] at he
            obtain ⟨e4, e5⟩ := e3 hv
            obtain ⟨stk, ser, slg⟩ := s1
            simp only at e1 e2 e5
            subst e1 e2 e5
            simp only [List.cons_append, isa, h2, if_true, Option.map_eq_some_iff, Prod.mk.injEq, Prod.exists] at he
            obtain ⟨r2, s2, he, rfl, rfl⟩ := he
            cases r1 with
            | false =>
              simp only [Bool.not_false, if_true] at he
              have := A.follows a next false _ n r2 s2 h3 he
              simp only [Fits, Bool.false_eq_true, if_false] at this
              simp [Fits, ← e4, this, hv]
            | true =>
              simp only [Bool.not_true, Bool.false_eq_true, if_false] at he
              have := A.follows a next true _ n r2 s2 h3 he
              simpa [Fits, ← e4] using this
theorem O.follows {E : Env T} : ∀ (x : O T) (next : List T) (d : Bool) (h : List (Ev T)) (n : Nat) (r : Bool) (s : S T),
    x.Ok E next → oexpr E n d ⟨x.toks ++ next, false, h⟩ = some (r, s) → Fits d h next (x.sem E h) r s
  | .one x, next, d, h, n, r, s, ⟨h1, h2⟩, he => by
    cases n with
    | zero => simp [oexpr] at he
    | succ n =>
      simp only [oexpr, O.toks] at he
      cases hx : aexpr E n d ⟨x.toks ++ next, false, h⟩ with
      | none => rw [hx] at he; simp at he
      | some p =>
        obtain ⟨r1, s1⟩ := p
        have hf := A.follows x next d h n r1 s1 h1 hx
        rw [hx] at he
        simp only at he
        by_cases hs : s1.err = true
        · rw [if_pos hs] at he
          simp only [Option.some.injEq, Prod.mk.injEq] at he
          obtain ⟨rfl, rfl⟩ := he
          exact hf
        · rw [if_neg hs] at he
          have htk : s1.toks = next := by
            cases d
            · simp only [Fits, Bool.false_eq_true, if_false] at hf; rw [hf]
            · simp only [Fits, if_true] at hf; exact (hf.2.2 (by rw [← hf.2.1]; simpa using hs)).2
          have : isa E.isOr s1 = (false, s1) := isa_head (by rw [htk]; exact h2)
          rw [this] at he
          simp only [Option.some.injEq, Prod.mk.injEq] at he
          obtain ⟨rfl, rfl⟩ := he
          exact hf
  | .or x t a, next, d, h, n, r, s, ⟨h1, h2, h3⟩, he => by
    cases n with
    | zero => simp [oexpr] at he
    | succ n =>
      simp only [oexpr, O.toks, List.append_assoc] at he
      cases hx : aexpr E n d ⟨x.toks ++ (t :: a.toks ++ next), false, h⟩ with
      | none => rw [hx] at he; simp at he
      | some p =>
        obtain ⟨r1, s1⟩ := p
        have hf := A.follows x (t :: a.toks ++ next) d h n r1 s1 h1 hx
        rw [hx] at he
        simp only at he
        cases d with
        | false =>
          simp only [Fits, Bool.false_eq_true, if_false] at hf ⊢
          subst hf
          simp only [Bool.false_eq_true, if_false, List.cons_append, isa, h2, if_true, ite_self, Option.map_eq_some_iff,
            Prod.mk.injEq, Prod.exists] at he
          obtain ⟨r2, s2, he, _, rfl⟩ := he
          have := O.follows a next false h n r2 s2 h3 he
          simpa [Fits] using this
        | true =>
          simp only [Fits, if_true] at hf
          obtain ⟨e1, e2, e3⟩ := hf
          simp only [O.sem]
          cases hv : (x.sem E h).err with
          | true =>
            rw [hv] at e2
            rw [if_pos e2] at he
            simp only [Option.some.injEq, Prod.mk.injEq] at he
            obtain ⟨rfl, rfl⟩ := he
            simp [Fits, hv, e1, e2]
          | false =>
            rw [hv] at e2
            rw [if_neg (by simp [e2])] at he
            obtain ⟨e4, e5⟩ := e3 hv
            obtain ⟨stk, ser, slg⟩ := s1
            simp only at e1 e2 e5
            subst e1 e2 e5
            simp only [List.cons_append, isa, h2, if_true, Option.map_eq_some_iff, Prod.mk.injEq, Prod.exists] at he
            obtain ⟨r2, s2, he, rfl, rfl⟩ := he
            cases r1 with
            | true =>
              simp only [if_true] at he
              have := O.follows a next false _ n r2 s2 h3 he
              simp only [Fits, Bool.false_eq_true, if_false] at this
              simp [Fits, ← e4, this, hv]
            | false =>
              simp only [Bool.false_eq_true, if_false] at he
              have := O.follows a next true _ n r2 s2 h3 he
              simpa [Fits, ← e4] using this
end

/-! ## What the parser accepts is a tree -/

theorem simple_accepts {E : Env T} {d : Bool} {s s' : S T} {r : Bool} (h : simple E d s = (r, s')) (he : s.err = false)
    (ho : ∀ x ∈ s.toks.head?, E.isOpar x = false) (hs : s'.err = false) :
    ∃ p : P T, p.Ok E s'.toks ∧ s.toks = p.toks ++ s'.toks := by
  obtain ⟨tk, er, lg⟩ := s
  simp only at he ho
  subst he
  have hev : ∀ op a b (s1 : S T), evalOp E op a b d s1 = (r, s') → s'.toks = s1.toks := by
    intro op a b s1 h
    unfold evalOp at h
    split at h <;> simp at h <;> rw [← h.2]
  have hfail : ∀ s1 : S T, fail s1 ≠ (r, s') := by
    intro s1 h
    simp [fail] at h
    rw [← h.2] at hs
    simp at hs
  cases tk with
  | nil =>
    exfalso
    unfold simple at h
    simp only [isop, getopnd] at h
    split at h <;> exact hfail _ h
  | cons a l =>
    have ho' := ho a (by simp)
    -- reading `a` as an operand
    have hrest : (unaryAllowed E ⟨a :: l, false, lg⟩ = true → E.unop a = none) →
        (match getopnd E none d ⟨a :: l, false, lg⟩ with
          | (none, s) => fail s
          | (some a, s) =>
            match isop E.binop s with
            | (some op, s) =>
              match getopnd E (some op) d s with
              | (none, s) => fail s
              | (some b, s) => evalOp E op a (some b) d s
            | (none, s) => if E.db then fail s else evalOp E .nze a none d s) = (r, s') →
        ∃ p : P T, p.Ok E s'.toks ∧ a :: l = p.toks ++ s'.toks := by
      intro hun h
      simp only [getopnd] at h
      cases l with
      | nil =>
        simp only [isop] at h
        by_cases hdb : E.db = true
        · rw [if_pos hdb] at h; exact absurd h (hfail _)
        · rw [if_neg hdb] at h
          have := hev _ _ _ _ h
          simp only at this
          exact ⟨.str a, ⟨by simpa using hdb, ho', Or.inr this, by simp [this]⟩, by simp [P.toks, this]⟩
      | cons o l =>
        simp only [isop] at h
        cases hb : E.binop o with
        | none =>
          simp only [hb] at h
          by_cases hdb : E.db = true
          · rw [if_pos hdb] at h; exact absurd h (hfail _)
          · rw [if_neg hdb] at h
            have := hev _ _ _ _ h
            simp only at this
            refine ⟨.str a, ⟨by simpa using hdb, ho', Or.inl (hun ?_), ?_⟩, by simp [P.toks, this]⟩
            · simp [unaryAllowed, hb]
            · rw [this]; simp [hb]
        | some op =>
          simp only [hb] at h
          cases l with
          | nil => exact absurd h (hfail _)
          | cons b l =>
            simp only at h
            have := hev _ _ _ _ h
            simp only at this
            refine ⟨.bin a o b, ⟨ho', by simp [hb], fun hdb => hun (by simp [unaryAllowed, hdb])⟩, by simp [P.toks, this]⟩
    unfold simple at h
    by_cases hu : unaryAllowed E ⟨a :: l, false, lg⟩ = true
    · simp only [hu, if_true] at h
      cases hun : E.unop a with
      | some op =>
        simp only [isop, hun, getopnd] at h
        cases l with
        | nil => exact absurd h (hfail _)
        | cons x l =>
          simp only at h
          have := hev _ _ _ _ h
          simp only at this
          refine ⟨.un a x, ⟨ho', by simp [hun], ?_⟩, by simp [P.toks, this]⟩
          simpa [unaryAllowed] using hu
      | none =>
        simp only [isop, hun] at h
        exact hrest (fun _ => hun) h
    · simp only [hu, Bool.false_eq_true, if_false] at h
      exact hrest (fun h => absurd h hu) h

theorem isa_true {p : T → Bool} {s s' : S T} (h : isa p s = (true, s')) :
    ∃ t, p t = true ∧ s.toks = t :: s'.toks ∧ s'.err = s.err ∧ s'.log = s.log := by
  unfold isa at h
  split at h
  · simp at h
  · rename_i t r ht
    split at h
    · rename_i hp
      simp only [Prod.mk.injEq, true_and] at h
      subst h
      exact ⟨t, hp, ht, rfl, rfl⟩
    · simp at h

theorem isa_false {p : T → Bool} {s s' : S T} (h : isa p s = (false, s')) : s' = s ∧ ∀ x ∈ s.toks.head?, p x = false := by
  unfold isa at h
  split at h
  · rename_i ht
    simp only [Prod.mk.injEq, true_and] at h
    exact ⟨h.symm, by simp [ht]⟩
  · rename_i t r ht
    split at h
    · simp at h
    · rename_i hp
      simp only [Prod.mk.injEq, true_and] at h
      refine ⟨h.symm, ?_⟩
      rw [ht]
      simpa using hp

theorem accepts {E : Env T} : ∀ (n : Nat) (d : Bool) (s s' : S T) (r : Bool), s.err = false → s'.err = false →
    (oexpr E n d s = some (r, s') → ∃ t : O T, t.Ok E s'.toks ∧ s.toks = t.toks ++ s'.toks) ∧
    (aexpr E n d s = some (r, s') → ∃ t : A T, t.Ok E s'.toks ∧ s.toks = t.toks ++ s'.toks) ∧
    (nexpr E n d s = some (r, s') → ∃ t : N T, t.Ok E s'.toks ∧ s.toks = t.toks ++ s'.toks) ∧
    (primary E n d s = some (r, s') → ∃ t : P T, t.Ok E s'.toks ∧ s.toks = t.toks ++ s'.toks) := by
  intro n
  induction n with
  | zero =>
    intro d s s' r _ _
    refine ⟨?_, ?_, ?_, ?_⟩ <;> intro h <;> simp [oexpr, aexpr, nexpr, primary] at h
  | succ n ih =>
    intro d s s' r hs hs'
    refine ⟨?_, ?_, ?_, ?_⟩
    · intro h
      rw [oexpr] at h
      cases ha : aexpr E n d s with
      | none => rw [ha] at h; simp at h
      | some p =>
        obtain ⟨r1, s1⟩ := p
        rw [ha] at h
        simp only at h
        by_cases he : s1.err = true
        · rw [if_pos he] at h
          simp only [Option.some.injEq, Prod.mk.injEq] at h
          rw [h.2, hs'] at he
          simp at he
        · rw [if_neg he] at h
          have he : s1.err = false := by simpa using he
          obtain ⟨ta, ok, eq⟩ := (ih d s s1 r1 hs he).2.1 ha
          cases hi : isa E.isOr s1 with
          | mk b s2 =>
            rw [hi] at h
            cases b with
            | false =>
              obtain ⟨rfl, hno⟩ := isa_false hi
              simp only [Option.some.injEq, Prod.mk.injEq] at h
              obtain ⟨_, rfl⟩ := h
              exact ⟨.one ta, ⟨ok, hno⟩, eq⟩
            | true =>
              obtain ⟨t, ht, e1, e2, _⟩ := isa_true hi
              simp only [Option.map_eq_some_iff, Prod.mk.injEq, Prod.exists] at h
              obtain ⟨r2, s3, h, _, rfl⟩ := h
              obtain ⟨to, ok2, eq2⟩ := (ih _ s2 s3 r2 (by rw [e2, he]) hs').1 h
              refine ⟨.or ta t to, ⟨?_, ht, ok2⟩, ?_⟩
              · rw [e1, eq2] at ok; exact ok
              · rw [eq, e1, eq2]; simp [O.toks]
    · intro h
      rw [aexpr] at h
      cases ha : nexpr E n d s with
      | none => rw [ha] at h; simp at h
      | some p =>
        obtain ⟨r1, s1⟩ := p
        rw [ha] at h
        simp only at h
        by_cases he : s1.err = true
        · rw [if_pos he] at h
          simp only [Option.some.injEq, Prod.mk.injEq] at h
          rw [h.2, hs'] at he
          simp at he
        · rw [if_neg he] at h
          have he : s1.err = false := by simpa using he
          obtain ⟨ta, ok, eq⟩ := (ih d s s1 r1 hs he).2.2.1 ha
          cases hi : isa E.isAnd s1 with
          | mk b s2 =>
            rw [hi] at h
            cases b with
            | false =>
              obtain ⟨rfl, hno⟩ := isa_false hi
              simp only [Option.some.injEq, Prod.mk.injEq] at h
              obtain ⟨_, rfl⟩ := h
              exact ⟨.one ta, ⟨ok, hno⟩, eq⟩
            | true =>
              obtain ⟨t, ht, e1, e2, _⟩ := isa_true hi
              simp only [Option.map_eq_some_iff, Prod.mk.injEq, Prod.exists] at h
              obtain ⟨r2, s3, h, _, rfl⟩ := h
              obtain ⟨to, ok2, eq2⟩ := (ih _ s2 s3 r2 (by rw [e2, he]) hs').2.1 h
              refine ⟨.and ta t to, ⟨?_, ht, ok2⟩, ?_⟩
              · rw [e1, eq2] at ok; exact ok
              · rw [eq, e1, eq2]; simp [A.toks]
    · intro h
      rw [nexpr, if_neg (by simp [hs])] at h
      cases hi : isa E.isNot s with
      | mk b s1 =>
        rw [hi] at h
        cases b with
        | true =>
          obtain ⟨t, ht, e1, e2, _⟩ := isa_true hi
          simp only [Option.map_eq_some_iff, Prod.mk.injEq, Prod.exists] at h
          obtain ⟨r2, s3, h, _, rfl⟩ := h
          obtain ⟨x, ok, eq⟩ := (ih d s1 s3 r2 (by rw [e2, hs]) hs').2.2.1 h
          exact ⟨.not t x, ⟨ht, ok⟩, by rw [e1, eq]; simp [N.toks]⟩
        | false =>
          obtain ⟨rfl, hno⟩ := isa_false hi
          simp only at h
          obtain ⟨p, ok, eq⟩ := (ih d s1 s' r hs hs').2.2.2 h
          refine ⟨.prim p, ⟨ok, ?_⟩, eq⟩
          intro x hx
          refine hno x ?_
          rw [eq]
          cases hp : p.toks with
          | nil => rw [hp] at hx; simp at hx
          | cons y l => rw [hp] at hx; simpa using hx
    · intro h
      rw [primary, if_neg (by simp [hs])] at h
      cases hi : isa E.isOpar s with
      | mk b s1 =>
        rw [hi] at h
        cases b with
        | false =>
          obtain ⟨rfl, hno⟩ := isa_false hi
          simp only [Option.some.injEq] at h
          exact simple_accepts h hs hno hs'
        | true =>
          obtain ⟨t, ht, e1, e2, _⟩ := isa_true hi
          simp only at h
          cases ho : oexpr E n d s1 with
          | none => rw [ho] at h; simp at h
          | some p =>
            obtain ⟨r2, s2⟩ := p
            rw [ho] at h
            simp only at h
            by_cases he : s2.err = true
            · rw [if_pos he] at h
              simp only [Option.some.injEq, Prod.mk.injEq] at h
              rw [h.2, hs'] at he
              simp at he
            · rw [if_neg he] at h
              have he : s2.err = false := by simpa using he
              obtain ⟨x, ok, eq⟩ := (ih d s1 s2 r2 (by rw [e2, hs]) he).1 ho
              cases hc : isa E.isCpar s2 with
              | mk b s3 =>
                rw [hc] at h
                cases b with
                | false =>
                  simp only [fail, Option.some.injEq, Prod.mk.injEq] at h
                  rw [← h.2] at hs'
                  simp at hs'
                | true =>
                  obtain ⟨t2, ht2, f1, f2, _⟩ := isa_true hc
                  simp only [Option.some.injEq, Prod.mk.injEq] at h
                  obtain ⟨_, rfl⟩ := h
                  rw [f1] at ok eq
                  exact ⟨.paren t x t2, ⟨ht, ok, ht2⟩, by rw [e1, eq]; simp [P.toks]⟩

/-! ## The fuel is enough -/

theorem simple_len {E : Env T} {d : Bool} {s : S T} : (simple E d s).2.toks.length ≤ s.toks.length := by
  obtain ⟨tk, er, lg⟩ := s
  have hev : ∀ op a b (s1 : S T), (evalOp E op a b d s1).2.toks = s1.toks := by
    intro op a b s1; unfold evalOp; split <;> rfl
  have hop : ∀ (p : T → Option Op) (s : S T), (isop p s).2.toks.length ≤ s.toks.length := by
    intro p s; unfold isop; split
    · exact Nat.le_refl _
    · rename_i h; split <;> simp [h]
  have hg : ∀ op (s : S T), (getopnd E op d s).2.toks.length ≤ s.toks.length := by
    intro p s; unfold getopnd; split
    · exact Nat.le_refl _
    · rename_i h; simp [h]
  unfold simple
  simp only
  have h1 := hop E.unop ⟨tk, er, lg⟩
  have h2 := hg none ⟨tk, er, lg⟩
  split
  · split
    · rename_i op s1 hs1
      rw [hs1] at h1
      have h3 := hg (some op) s1
      split
      · rename_i s2 hs2; rw [hs2] at h3; simp [fail] at *; omega
      · rename_i s2 hs2; rw [hs2] at h3; rw [hev]; simp at *; omega
    · split
      · rename_i s2 hs2; rw [hs2] at h2; simpa [fail] using h2
      · rename_i a s2 hs2
        rw [hs2] at h2
        have h4 := hop E.binop s2
        split
        · rename_i op s3 hs3
          rw [hs3] at h4
          have h3 := hg (some op) s3
          split
          · rename_i s4 hs4; rw [hs4] at h3; simp [fail] at *; omega
          · rename_i s4 hs4; rw [hs4] at h3; rw [hev]; simp at *; omega
        · rename_i s3 hs3
          rw [hs3] at h4
          split
          · simp [fail] at *; omega
          · rw [hev]; simp at *; omega
  · split
    · rename_i s2 hs2; rw [hs2] at h2; simpa [fail] using h2
    · rename_i a s2 hs2
      rw [hs2] at h2
      have h4 := hop E.binop s2
      split
      · rename_i op s3 hs3
        rw [hs3] at h4
        have h3 := hg (some op) s3
        split
        · rename_i s4 hs4; rw [hs4] at h3; simp [fail] at *; omega
        · rename_i s4 hs4; rw [hs4] at h3; rw [hev]; simp at *; omega
      · rename_i s3 hs3
        rw [hs3] at h4
        split
        · simp [fail] at *; omega
        · rw [hev]; simp at *; omega

theorem isa_len {p : T → Bool} {s s' : S T} {b : Bool} (h : isa p s = (b, s')) :
    (b = true → s'.toks.length + 1 = s.toks.length) ∧ (b = false → s' = s) := by
  cases b with
  | true => obtain ⟨t, _, h, _⟩ := isa_true h; simp [h]
  | false => simp [(isa_false h).1]

theorem total {E : Env T} : ∀ (n : Nat) (d : Bool) (s : S T),
    (4 * s.toks.length + 4 ≤ n → ∃ r s', oexpr E n d s = some (r, s') ∧ s'.toks.length ≤ s.toks.length) ∧
    (4 * s.toks.length + 3 ≤ n → ∃ r s', aexpr E n d s = some (r, s') ∧ s'.toks.length ≤ s.toks.length) ∧
    (4 * s.toks.length + 2 ≤ n → ∃ r s', nexpr E n d s = some (r, s') ∧ s'.toks.length ≤ s.toks.length) ∧
    (4 * s.toks.length + 1 ≤ n → ∃ r s', primary E n d s = some (r, s') ∧ s'.toks.length ≤ s.toks.length) := by
  intro n
  induction n with
  | zero => intro d s; refine ⟨?_, ?_, ?_, ?_⟩ <;> intro h <;> omega
  | succ n ih =>
    intro d s
    refine ⟨?_, ?_, ?_, ?_⟩
    · intro h
      obtain ⟨r1, s1, h1, l1⟩ := (ih d s).2.1 (by omega)
      rw [oexpr, h1]
      simp only
      by_cases he : s1.err = true
      · rw [if_pos he]; exact ⟨_, _, rfl, l1⟩
      · rw [if_neg he]
        cases hi : isa E.isOr s1 with
        | mk b s2 =>
          obtain ⟨e1, e2⟩ := isa_len hi
          cases b with
          | false => rw [e2 rfl]; exact ⟨_, _, rfl, l1⟩
          | true =>
            have e1 := e1 rfl
            obtain ⟨r3, s3, h3, l3⟩ := (ih (if r1 = true then false else d) s2).1 (by omega)
            simp only [h3, Option.map_some]
            exact ⟨_, _, rfl, by omega⟩
    · intro h
      obtain ⟨r1, s1, h1, l1⟩ := (ih d s).2.2.1 (by omega)
      rw [aexpr, h1]
      simp only
      by_cases he : s1.err = true
      · rw [if_pos he]; exact ⟨_, _, rfl, l1⟩
      · rw [if_neg he]
        cases hi : isa E.isAnd s1 with
        | mk b s2 =>
          obtain ⟨e1, e2⟩ := isa_len hi
          cases b with
          | false => rw [e2 rfl]; exact ⟨_, _, rfl, l1⟩
          | true =>
            have e1 := e1 rfl
            obtain ⟨r3, s3, h3, l3⟩ := (ih (if (!r1) = true then false else d) s2).2.1 (by omega)
            simp only [h3, Option.map_some]
            exact ⟨_, _, rfl, by omega⟩
    · intro h
      rw [nexpr]
      by_cases he : s.err = true
      · rw [if_pos he]; exact (ih d s).2.2.2 (by omega)
      · rw [if_neg he]
        cases hi : isa E.isNot s with
        | mk b s2 =>
          obtain ⟨e1, e2⟩ := isa_len hi
          cases b with
          | false => rw [e2 rfl]; exact (ih d s).2.2.2 (by omega)
          | true =>
            have e1 := e1 rfl
            obtain ⟨r3, s3, h3, l3⟩ := (ih d s2).2.2.1 (by omega)
            simp only [h3, Option.map_some]
            exact ⟨_, _, rfl, by omega⟩
    · intro h
      rw [primary]
      by_cases he : s.err = true
      · rw [if_pos he]; exact ⟨_, _, rfl, Nat.le_refl _⟩
      · rw [if_neg he]
        cases hi : isa E.isOpar s with
        | mk b s2 =>
          obtain ⟨e1, e2⟩ := isa_len hi
          cases b with
          | false => rw [e2 rfl]; exact ⟨_, _, rfl, simple_len⟩
          | true =>
            have e1 := e1 rfl
            obtain ⟨r3, s3, h3, l3⟩ := (ih d s2).1 (by omega)
            simp only [h3]
            by_cases he : s3.err = true
            · rw [if_pos he]; exact ⟨_, _, rfl, by omega⟩
            · rw [if_neg he]
              cases hj : isa E.isCpar s3 with
              | mk b s4 =>
                obtain ⟨f1, f2⟩ := isa_len hj
                cases b with
                | false => exact ⟨_, _, rfl, by rw [f2 rfl]; simp [fail]; omega⟩
                | true => exact ⟨_, _, rfl, by have := f1 rfl; omega⟩

/-- the exit status of an evaluated expression -/
def V.status (v : V T) : Nat := if v.err then 2 else if v.val then 0 else 1

/-- An expression of the grammar has its value as exit status and only what is needed is
evaluated. -/
theorem testParse_tree (E : Env T) (t : O T) (h : t.Ok E []) :
    testParse E t.toks = ((t.sem E []).status, (t.sem E []).log) := by
  obtain ⟨r, s, h1, _⟩ := (total (E := E) (4 * t.toks.length + 4) true ⟨t.toks, false, []⟩).1 (Nat.le_refl _)
  have hf := O.follows t [] true [] _ r s h (by simpa using h1)
  simp only [Fits, if_true] at hf
  obtain ⟨e1, e2, e3⟩ := hf
  simp only [testParse, h1, V.status, e1]
  cases hv : (t.sem E []).err with
  | true => simp [e2, hv]
  | false =>
    obtain ⟨e4, e5⟩ := e3 hv
    simp [e2, hv, e4, e5]

/-- Anything else has exit status 2. -/
theorem testParse_malformed (E : Env T) (l : List T) (h : ∀ t : O T, t.Ok E [] → t.toks ≠ l) : (testParse E l).1 = 2 := by
  obtain ⟨r, s, h1, _⟩ := (total (E := E) (4 * l.length + 4) true ⟨l, false, []⟩).1 (Nat.le_refl _)
  simp only [testParse, h1]
  cases hs : s.err with
  | true => simp
  | false =>
    cases ht : s.toks with
    | cons a b => simp
    | nil =>
      exfalso
      obtain ⟨t, ok, eq⟩ := (accepts (E := E) _ true ⟨l, false, []⟩ s r rfl hs).1 h1
      rw [ht] at ok eq
      exact h t ok (by simpa using eq.symm)

end Ksh.Test
