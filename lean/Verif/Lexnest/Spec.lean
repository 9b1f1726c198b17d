import Verif.Lexnest.Model

/-!
# The stack of states of the lexer: what it is for

A list, the innermost first.
-/
namespace Ksh.Lexnest

variable {S : Type}

inductive Op (S : Type) where
  | push (s : S)
  | pop
  | modify (f : S → S)

/-- The last state is never given up (the lexer pops only what it has pushed). -/
def Op.run : Op S → List S → Option (List S)
  | .push s, xs => some (s :: xs)
  | .pop, _ :: x :: xs => some (x :: xs)
  | .modify f, x :: xs => some (f x :: xs)
  | _, _ => none

def runs : List (Op S) → List S → Option (List S)
  | [], xs => some xs
  | o :: os, xs => (o.run xs).bind (runs os)

/-- The same by the code.  What `alloc` returns: a block not in use, chosen in any way, with any contents. -/
inductive Step : L S → Op S → L S → Prop where
  | push {l l' s new junk} : l.heap new = none → push s new junk l = some l' → Step l (.push s) l'
  | pop {l l'} : pop l = some l' → Step l .pop l'
  | modify {l l' f} : modify f l = some l' → Step l (.modify f) l'

inductive Steps : L S → List (Op S) → L S → Prop where
  | nil {l} : Steps l [] l
  | cons {l l' l'' o os} : Step l o l' → Steps l' os l'' → Steps l (o :: os) l''

end Ksh.Lexnest
