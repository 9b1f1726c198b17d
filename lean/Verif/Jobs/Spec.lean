import Verif.Jobs.Model

/-
What a user is told about pipelines and jobs, stated on the trace of system
calls (`Ev`) and on lists of outcomes, without the functions of the model.
-/
namespace Ksh.Jobs.Spec
open Ksh.Jobs

/-- What the system calls so far (newest first) say about a process: the last
thing that was reported of it, unless it was made to continue (or created)
after that. -/
def fate : List Ev → Nat → PS
  | [], _ => .running
  | .born p :: l, q => if p = q then .running else fate l q
  | .report p w :: l, q => if p = q then .did w else fate l q
  | .cont p :: l, q => if p = q then .running else fate l q

/-- The number that stands for the end of a process. -/
inductive Value : PS → Nat → Prop
  | exited n : Value (.did (.exited n)) n
  | signalled n : Value (.did (.signalled n)) (128 + n)
  | stopped n : Value (.did (.stopped n)) 0

/-- The status of a pipeline with these outcomes. -/
inductive Status : Bool → List PS → Nat → Prop
  | last (a x v) : Value x v → Status false (a ++ [x]) v
  | failed (a x b v) : Value x v → v ≠ 0 → (∀ y ∈ b, Value y 0) → Status true (a ++ x :: b) v
  | allZero (l) : (∀ y ∈ l, Value y 0) → Status true l 0

theorem Value.unique {x v w} (h : Value x v) (k : Value x w) : v = w := by
  cases h <;> cases k <;> rfl

/-- There is only one status. -/
theorem Status.unique {pf l v w} (h : Status pf l v) (k : Status pf l w) : v = w := by
  cases h with
  | last a x v hv =>
    generalize hl : a ++ [x] = l at k
    cases k with
    | last b y w hw =>
      have := List.append_inj' hl rfl
      have h2 : x = y := by simpa using this.2
      subst h2
      exact hv.unique hw
  | failed a x b v hv h0 hb =>
    generalize hl : a ++ x :: b = l at k
    cases k with
    | allZero l hz => exact hv.unique (hz x (by rw [← hl]; simp))
    | failed c y d w hw h0' hd =>
      rw [List.append_eq_append_iff] at hl
      rcases hl with ⟨e, e1, e2⟩ | ⟨e, e1, e2⟩
      · cases e with
        | nil =>
          simp only [List.nil_append, List.cons.injEq] at e2
          rw [e2.1] at hv
          exact hv.unique hw
        | cons z e =>
          simp only [List.cons_append, List.cons.injEq] at e2
          exact absurd ((hb y (by rw [e2.2]; simp)).unique hw).symm h0'
      · cases e with
        | nil =>
          simp only [List.nil_append, List.cons.injEq] at e2
          rw [← e2.1] at hv
          exact hv.unique hw
        | cons z e =>
          simp only [List.cons_append, List.cons.injEq] at e2
          exact absurd ((hd x (by rw [e2.2]; simp)).unique hv).symm h0
  | allZero l hz =>
    cases k with
    | allZero _ _ => rfl
    | failed c y d w hw h0' hd => exact (hz y (by simp)).unique hw

end Ksh.Jobs.Spec
