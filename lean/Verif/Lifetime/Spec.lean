import Verif.Lifetime.Model

/-!
# How long assignments and declarations last: what the manual says

One table of values.  A function remembers what its local variables were outside; what is remembered is put
back at its end.  Assignments in front of a command are put back when it ends, unless the
command is a special built-in or a Bourne-style function.
-/
namespace Ksh.Lifetime

/-- What to put back; `none` outside of functions. -/
abbrev Frame := Option (Name → Option (Option Str))

structure Sp where
  cur : Name → Option Str
  loc : Frame
  out : List (Name × Option Str) := []

def Sp.put (x : Name) (v : Option Str) (p : Sp) : Sp := { p with cur := fun y => if y = x then v else p.cur y }

def Sp.puts : List (Name × Expr) → Sp → Sp
  | [], p => p
  | a :: l, p => Sp.puts l (p.put a.1 (some (a.2 p.cur)))

/-- Putting back. -/
def back (f : Name → Option (Option Str)) (cur : Name → Option Str) (x : Name) : Option Str :=
  match f x with
  | some v => v
  | none => cur x

/-- What the assignments hide. -/
def hidden (as : List (Name × Expr)) (cur : Name → Option Str) (x : Name) : Option (Option Str) :=
  if as.any (fun a => a.1 = x) then some (cur x) else none

/-- A declaration: in a function the value outside is remembered, once. -/
def Sp.declare (x : Name) (v : Option Str) (p : Sp) : Sp :=
  let p1 : Sp := match p.loc with
    | none => p
    | some l =>
      match l x with
      | some _ => p
      | none => { p with loc := some (fun y => if y = x then some (p.cur x) else l y),
                         cur := fun y => if y = x then none else p.cur y }
  match v with
  | none => p1
  | some t => p1.put x (some t)

def spec : Cmd → Sp → Sp
  | .nop, p => p
  | .note x, p => { p with out := p.out ++ [(x, p.cur x)] }
  | .seq a b, p => spec b (spec a p)
  | .set as, p => p.puts as
  | .typeset as via x v, p =>
    let t := v.map (fun e => e p.cur)
    let q := (p.puts as).declare x t
    if via then { q with cur := back (hidden (as.filter (fun a => a.1 ≠ x)) p.cur) q.cur } else q
  | .call as k body, p =>
    match k with
    | .special false => spec body (p.puts as)
    | .special true | .regular =>
      let q := spec body (p.puts as)
      { q with cur := back (hidden as p.cur) q.cur }
    | .ksh =>
      let q := spec body { p.puts as with loc := some (hidden as p.cur) }
      { q with loc := p.loc, cur := back (q.loc.getD fun _ => none) q.cur }
    | .posix =>
      let q := spec body { p.puts as with loc := some (fun _ => none) }
      { q with loc := p.loc, cur := back (q.loc.getD fun _ => none) q.cur }

end Ksh.Lifetime
