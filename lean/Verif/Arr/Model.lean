/-!
# Arrays as the lists they are

`global` with a subscript (var.c:236-262), `arraysearch` (var.c:1152-1192), `unset`
(var.c:758-784), `c_unset` (c_sh.c:649-680), `set_array` (var.c:1229-1256), the loop of `typeset`
over the elements (var.c:668-727), `${a[*]}` and `${#a[*]}` (eval.c:757-771, 838-861).

One variable, in the block where `global` finds it.  An element is a `struct tbl`; element 0 is
the entry of the table itself, the others hang off it in a list ordered by index.  Attributes are
an abstract type; what `setstr` makes of a string under attributes is a parameter (`conv`, `none`
when it refuses).  Subscripts are the numbers `array_index_calc` lets through (0 to INT_MAX); no
arithmetic is done on them.  Not modelled: storage of values (`ALLOC`), export, `local`.
-/
namespace Ksh.Arr

/-- What is assumed of attributes. -/
structure Attrs (A V : Type) where
  /-- no attributes -/
  plain : A
  /-- RDONLY -/
  ro : A → Bool
  /-- `setstr` (var.c:373-413) -/
  conv : A → V → Option V

/-- `struct tbl` (table.h:14-40): index, attributes, SPECIAL, value (when ISSET). -/
structure Cell (A V : Type) where
  idx : Nat
  attr : A
  spec : Bool
  val : Option V
  deriving DecidableEq

/-- A variable: DEFINED and ARRAY of the entry, the entry, the list from `u.array`, and the
elements for which `setspec` was called. -/
structure Arr (A V : Type) where
  defd : Bool
  isArr : Bool
  base : Cell A V
  rest : List (Cell A V)
  log : List Nat
  deriving DecidableEq

def Arr.init {A V : Type} (T : Attrs A V) : Arr A V := ⟨false, false, ⟨0, T.plain, false, none⟩, [], []⟩

/-- A new element (var.c:1182-1187). -/
def fresh {A V : Type} (b : Cell A V) (i : Nat) : Cell A V := ⟨i, b.attr, false, none⟩

/-- The walk through the list (var.c:1169-1191). -/
def place {A V : Type} (b : Cell A V) (i : Nat) : List (Cell A V) → List (Cell A V)
  | [] => [fresh b i]
  | c :: l =>
    if c.idx < i then c :: place b i l
    else if c.idx = i then
      (if c.val.isSome then c :: l else fresh b i :: l)
    else fresh b i :: c :: l

/-- `arraysearch` (var.c:1157-1192). -/
def search {A V : Type} (a : Arr A V) (i : Nat) : Arr A V :=
  let a := { a with defd := true, isArr := true, base := { a.base with idx := 0 } }
  if i = 0 then a else { a with rest := place a.base i a.rest }

/-- Change the element `arraysearch` returned. -/
def updList {A V : Type} (i : Nat) (f : Cell A V → Cell A V) : List (Cell A V) → List (Cell A V)
  | [] => []
  | c :: l => if c.idx = i then f c :: l else c :: updList i f l

def upd {A V : Type} (i : Nat) (f : Cell A V → Cell A V) (a : Arr A V) : Arr A V :=
  if i = 0 then { a with base := f a.base } else { a with rest := updList i f a.rest }

def cellList {A V : Type} (i : Nat) : List (Cell A V) → Option (Cell A V)
  | [] => none
  | c :: l => if c.idx = i then some c else cellList i l

/-- The element `arraysearch` returned. -/
def cell {A V : Type} (a : Arr A V) (i : Nat) : Cell A V :=
  if i = 0 then a.base else (cellList i a.rest).getD a.base

/-- `global` (var.c:236-262), without a subscript or with one; `sp` says that the name is in
`specials`. -/
def glob {A V : Type} (sp : Bool) (a : Arr A V) (i : Option Nat) : Arr A V :=
  match a.defd, i with
  | true, none => a
  | true, some i => search a i
  | false, none => { a with defd := true, base := { a.base with spec := a.base.spec || sp } }
  | false, some i =>
    let a := search a i
    upd i (fun c => { c with spec := c.spec || sp }) a

/-- A value is stored. -/
def setVal {A V : Type} (v : V) (c : Cell A V) : Cell A V := { c with val := some v }

/-- `setstr` on an element, with `setspec` (var.c:373-413). -/
def store {A V : Type} (T : Attrs A V) (a : Arr A V) (i : Nat) (x : V) : Arr A V :=
  match T.conv (cell a i).attr x with
  | none => a
  | some v =>
    let a' := upd i (setVal v) a
    if (cell a i).spec then { a' with log := a'.log ++ [i] } else a'

/-- What `unset` does to the flags and the value (var.c:781). -/
def wipe {A V : Type} (T : Attrs A V) (c : Cell A V) : Cell A V := { c with attr := T.plain, val := none }

/-- `unset(vp, 0)` (var.c:760-784): the elements are freed when ARRAY says there are any. -/
def unsetAll {A V : Type} (T : Attrs A V) (a : Arr A V) : Arr A V :=
  { a with defd := false, isArr := false, base := wipe T a.base, rest := if a.isArr then [] else a.rest }

/-- The loop of `set_array` (var.c:1250-1255). -/
def fill {A V : Type} (T : Attrs A V) : Nat → List V → Arr A V → Arr A V
  | _, [], a => a
  | i, x :: xs, a => fill T (i + 1) xs (store T (search a i) i x)

/-- What is done to the variable. -/
inductive Op (A V : Type)
  /-- `${a}` or `${a[i]}` -/
  | read (i : Option Nat)
  /-- `a=x` or `a[i]=x` -/
  | assign (i : Option Nat) (x : V)
  /-- `unset a` or `unset a[i]` -/
  | unset (i : Option Nat)
  /-- `set -A a xs` or `set +A a xs` -/
  | setA (reset : Bool) (xs : List V)
  /-- `typeset` with attributes; what happens to an element is up to its attributes and value -/
  | typeset (f : A → Option V → A × Option V)

/-- One element in the loop of `typeset` (var.c:668-727). -/
def retype {A V : Type} (f : A → Option V → A × Option V) (c : Cell A V) : Cell A V :=
  { c with attr := (f c.attr c.val).1, val := (f c.attr c.val).2 }

def step {A V : Type} (T : Attrs A V) (sp : Bool) (a : Arr A V) : Op A V → Arr A V
  | .read i => glob sp a i
  | .assign i x => store T (glob sp a i) (i.getD 0) x
  | .unset none =>
    let a := glob sp a none
    if T.ro a.base.attr then a else unsetAll T a
  | .unset (some i) =>
    let a := glob sp a (some i)
    if T.ro (cell a i).attr then a else upd i (wipe T) a
  | .setA reset xs =>
    let a := glob sp a none
    if T.ro a.base.attr then a
    else if reset then fill T 0 xs (unsetAll T a) else fill T 0 xs a
  | .typeset f =>
    let a := glob sp a none
    { a with base := retype f a.base, rest := a.rest.map (retype f) }

def run {A V : Type} (T : Attrs A V) (sp : Bool) (a : Arr A V) (l : List (Op A V)) : Arr A V :=
  l.foldl (step T sp) a

/-- `${a[*]}` (eval.c:840-846): the words. -/
def words {A V : Type} (a : Arr A V) : List V := (a.base :: a.rest).filterMap (·.val)

/-- `${#a[*]}` (eval.c:766-769). -/
def count {A V : Type} (a : Arr A V) : Nat := ((a.base :: a.rest).filter (·.val.isSome)).length

end Ksh.Arr
