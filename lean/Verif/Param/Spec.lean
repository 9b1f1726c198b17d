import Verif.Param.Model

/-!
# The positional parameters: what they should be

Parameters are a list; nothing is shared.
-/
namespace Ksh.Param

/-- `$0`, `"$@"` and what was printed. -/
structure P where
  zero : Str
  ps : List Str
  out : List Event := []
  deriving DecidableEq

/-- A loop over the parameters as they are when it begins. -/
def specEach (body : P → R P) : List Str → P → R P
  | [], p => .ok p false
  | x :: l, p => (body { p with out := p.out ++ [.item x] }).then (specEach body l)

def spec : Nat → Cmd → P → R P
  | 0, _, _ => .fuel
  | n + 1, c, p =>
    match c with
    | .shift1 => if p.ps.isEmpty then .ok p true else .ok { p with ps := p.ps.drop 1 } false
    | .shift e =>
      let v := e p.zero p.ps
      if 0 ≤ v ∧ v ≤ p.ps.length then .ok { p with ps := p.ps.drop v.toNat } false else .ok p true
    | .set f => .ok { p with ps := f p.zero p.ps } false
    | .seq a b => (spec n a p).then (spec n b)
    | .ite q a b => if q p.zero p.ps then spec n a p else spec n b p
    | .while q b => whileLoop (fun p => some (q p.zero p.ps)) (spec n b) n p
    | .call zero f b =>
      (spec n b { p with zero := zero p.zero, ps := f p.zero p.ps }).map fun p' _ =>
        ({ p with out := p'.out }, false)
    | .dot f b =>
      if (f p.zero p.ps).isEmpty then (spec n b p).map fun p' _ => (p', false)
      else (spec n b { p with ps := f p.zero p.ps }).map fun p' _ => ({ p with out := p'.out }, false)
    | .each b => specEach (spec n b) p.ps p
    | .command b => spec n b p
    | .abort => .ok p true
    | .note => .ok { p with out := p.out ++ [.params p.ps.length p.zero p.ps] } false

/-- Whether the command changes the parameters of the block it runs in. -/
def quiet : Cmd → Bool
  | .shift1 | .shift _ | .set _ => false
  | .seq a b | .ite _ a b => quiet a && quiet b
  | .while _ b | .each b | .command b => quiet b
  | .call _ _ _ => true
  | .dot _ b => quiet b
  | .abort | .note => true

/-- How often the command does a plain `shift` at most: 0, 1 or more. -/
def shifts : Cmd → Nat
  | .shift1 => 1
  | .shift _ => 2
  | .set _ => 0
  | .seq a b => shifts a + shifts b
  | .ite _ a b => max (shifts a) (shifts b)
  | .while _ b | .each b => if shifts b = 0 then 0 else 2
  | .call _ _ _ => 0
  | .dot _ b | .command b => shifts b
  | .abort | .note => 0

/-- The programs that behave: no loop over the parameters shifts more than once per turn, `command`
is not used to change the parameters, and the arguments of `shift` are numbers of 32 bits. -/
def Fine : Cmd → Prop
  | .shift e => ∀ z ps, -2147483648 ≤ e z ps ∧ e z ps < 2147483648
  | .seq a b | .ite _ a b => Fine a ∧ Fine b
  | .while _ b | .call _ _ b | .dot _ b => Fine b
  | .each b => Fine b ∧ shifts b ≤ 1
  | .command b => Fine b ∧ quiet b = true
  | _ => True

end Ksh.Param
