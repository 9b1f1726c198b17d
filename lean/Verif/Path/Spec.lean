import Verif.Path.Model

/-!
Specification vocabulary for paths, independent of the code's loops.
-/
namespace Ksh.Path

/-- path components: the maximal slash-free pieces (possibly empty) -/
def comps : List Char → List (List Char)
  | [] => [[]]
  | c :: r =>
    if c = '/' then [] :: comps r
    else match comps r with
      | [] => [[c]]
      | h :: t => (c :: h) :: t

abbrev dot : List Char := ['.']
abbrev dotdot : List Char := ['.', '.']

/-- an ordinary component -/
def Plain (c : List Char) : Prop := c ≠ [] ∧ c ≠ dot ∧ c ≠ dotdot ∧ '/' ∉ c

/-- Location in a directory tree without symbolic links: the names from the root. -/
abbrev Loc := List (List Char)

/-- Following one component: empty and `.` stay, `..` goes to the parent (the
root is its own parent), a name goes down. -/
def go (l : Loc) (c : List Char) : Loc :=
  if c = [] ∨ c = dot then l else if c = dotdot then l.dropLast else l ++ [c]

/-- The place a path denotes, starting from working directory `l`. -/
def place (l : Loc) (p : List Char) : Loc :=
  (comps p).foldl go (if p.head? = some '/' then [] else l)

/-- The normal forms: `.`; `/`; or a slash-separated nonempty list of ordinary
names, preceded by `/` or (when relative) by any number of `..`. -/
def Normal (s : List Char) : Prop :=
  s = ['.'] ∨ s = ['/'] ∨
  ∃ (ups : Nat) (names : List (List Char)), (∀ n ∈ names, Plain n) ∧
    List.replicate ups dotdot ++ names ≠ [] ∧
    ((s.head? = some '/' ∧ ups = 0 ∧ comps s = [] :: names) ∨
     (s.head? ≠ some '/' ∧ comps s = List.replicate ups dotdot ++ names))

end Ksh.Path
