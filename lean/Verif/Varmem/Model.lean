/-!
# The memory of the value of a variable

`setstr`, `setint`, `str_val`, `export`, `typeset`, `unset`, `makenv` (var.c:303-432, 578-784,
868-905) for one variable that is no array: the union `val` of a pointer and an integer, the offset
(or base) `type`, the flags ISSET, INTEGER, ALLOC, EXPORT, RDONLY, and the blocks of the heap.

Parameters are what `formatstr` makes of a text (`fmt`), the digits of a number (`digits`) and,
for every evaluation of a text as a number, its outcome: a number and its base, or failure; so an
evaluation may give any value, in particular one computed from this variable.  All attributes that
make `formatstr` do something are one flag.  Special variables are left out (`Ksh.Special`,
`Ksh.Dynvar`), as are arrays (`Ksh.Arr`) and the restricted shell.
-/
namespace Ksh.Varmem

abbrev Str := List Char

/-- `union { char *s; int64_t i; } val` -/
inductive Val
  | ptr (a : Nat)
  | int (n : Int)
  deriving DecidableEq

/-- `struct tbl` -/
structure V where
  name : Str
  isset : Bool := false
  integer : Bool := false
  alloc : Bool := false
  exp : Bool := false
  ro : Bool := false
  fm : Bool := false
  type : Nat := 0
  val : Val := .int 0
  deriving DecidableEq

/-- The heap: blocks with their contents. -/
structure H where
  live : List (Nat × Str)
  next : Nat
  deriving DecidableEq

structure S where
  v : V
  h : H
  deriving DecidableEq

structure Env where
  fmt : Str → Str
  digits : Int → Nat → Str

def H.get (h : H) (a : Nat) : Option Str := (h.live.find? fun p => p.1 = a).map (·.2)

/-- `afree`; none: the block was freed before. -/
def H.free (h : H) (a : Nat) : Option H :=
  if (h.get a).isSome then some { h with live := h.live.filter fun p => p.1 ≠ a } else none

/-- `alloc` and the contents -/
def H.new (h : H) (c : Str) : H := ⟨(h.next, c) :: h.live, h.next + 1⟩

/-- `if (vq->flag & ALLOC) afree(vq->val.s, vq->areap)`; none: a bad pointer -/
def dropVal (s : S) : Option S :=
  if s.v.alloc then
    match s.v.val with
    | .int _ => none
    | .ptr a => (s.h.free a).map fun h => { s with h := h }
  else some s

/-- The text of the variable as it is stored; none: a bad pointer. -/
def stored (s : S) : Option Str :=
  match s.v.val with
  | .int _ => none
  | .ptr a => s.h.get a

/-- `export(vq, s)`, without freeing the old value, or `str_save` (var.c:395-400, 581-596) -/
def store (t : Str) (s : S) : S :=
  if s.v.exp then
    { v := { s.v with alloc := true, type := s.v.name.length + 1, val := .ptr s.h.next }
      h := s.h.new (s.v.name ++ '=' :: t) }
  else { v := { s.v with alloc := true, type := 0, val := .ptr s.h.next }, h := s.h.new t }

/-- The outcome of a call: whether it succeeded; none: memory was misused. -/
abbrev Out := Option (S × Bool)

/-- `setstr` (var.c:372-412); `ign` is KSH_IGNORE_RDONLY, `e` the value of the text as a number. -/
def setstr (E : Env) (t : Str) (ign : Bool) (e : Option (Int × Nat)) (s : S) : Out :=
  if s.v.ro && !ign then some (s, false)
  else if !s.v.integer then
    match dropVal s with
    | none => none
    | some s =>
      let s := store (if s.v.fm then E.fmt t else t)
        { s with v := { s.v with isset := false, alloc := false, type := 0 } }
      some ({ s with v := { s.v with isset := true } }, true)
  else
    match e with
    | none => some (s, false)
    | some (n, b) =>
      some ({ s with v := { s.v with isset := true, val := .int n,
                                     type := if s.v.type = 0 then b else s.v.type } }, true)

/-- `setint` (var.c:415-432) -/
def setint (E : Env) (n : Int) (s : S) : Out :=
  if !s.v.integer then
    match setstr E (E.digits n 10) false none s with
    | none => none
    | some (s, b) => some ({ s with v := { s.v with isset := true } }, b)
  else some ({ s with v := { s.v with isset := true, val := .int n } }, true)

/-- `str_val` (var.c:303-354): an integer is read from the union whatever is there. -/
def strVal (E : Env) (s : S) : Option Str :=
  if !s.v.isset then some []
  else if !s.v.integer then (stored s).map fun c => c.drop s.v.type
  else match s.v.val with
    | .int n => some (E.digits n s.v.type)
    | .ptr a => some (E.digits a s.v.type)

/-- Attributes to set or to clear. -/
structure Att where
  integer : Bool := false
  exp : Bool := false
  ro : Bool := false
  fm : Bool := false
  deriving DecidableEq

def Att.any (a : Att) : Bool := a.integer || a.exp || a.ro || a.fm

/-- How the evaluation of the old value ends: as `setstr` expects, or with an error that leaves
`typeset` (an error in an expression a variable holds, expr.c:190-199, 595). -/
inductive Conv
  | value (n : Int) (b : Nat)
  | fails
  | unwinds
  deriving DecidableEq

def Conv.res : Conv → Option (Int × Nat)
  | .value n b => some (n, b)
  | _ => none

/-- Whether `typeset` assigns the old value anew (var.c:687-707). -/
def fakeAssign (set clr : Att) (given : Bool) (v : V) : Bool :=
  v.isset && !given && (set.fm || (v.integer && clr.integer) || (!v.integer && set.integer))

/-- The attributes (var.c:700-719); `fake` tells whether the old value is assigned anew. -/
def attrs (set clr : Att) (base : Nat) (given fake : Bool) (v : V) : V :=
  let conv := !v.integer && set.integer
  { v with
    alloc := v.alloc && !fake && !conv
    type := if set.integer && base > 0 && !given then base else if conv then 0 else v.type
    integer := (v.integer || set.integer) && !clr.integer
    exp := (v.exp || set.exp) && !clr.exp
    ro := (v.ro || set.ro) && !clr.ro
    fm := (v.fm || set.fm) && !clr.fm }

/-- The old storage, to be freed at the end (var.c:693-698). -/
def oldStorage (fake : Bool) (v : V) : Option Nat :=
  if fake && !v.integer && v.alloc then
    match v.val with
    | .ptr a => some a
    | .int _ => none
  else none

/-- The old value could not be assigned (var.c:722-732). -/
def giveUp (s : S) : Option S :=
  if s.v.integer then some { s with v := { s.v with isset := false } }
  else (dropVal s).map fun s => { s with v := { s.v with isset := false, alloc := false, type := 0 } }

/-- `afree(free_me, ...)` (var.c:733-734) -/
def freeOld (old : Option Nat) (s : S) : Option S :=
  match old with
  | none => some s
  | some a => (s.h.free a).map fun h => { s with h := h }

/-- var.c:684-735: the attributes, and the old value assigned anew. -/
def retype (E : Env) (set clr : Att) (base : Nat) (given : Bool) (c : Conv) (s : S) : Out :=
  let fake := fakeAssign set clr given s.v
  let s1 : S := { s with v := attrs set clr base given fake s.v }
  if !fake then some (s1, true)
  else
    match strVal E s with
    | none => none
    | some t =>
      if s1.v.integer && c = .unwinds then some (s1, false)
      else
        match setstr E t (!s.v.ro && set.ro) c.res s1 with
        | none => none
        | some (s2, ok) =>
          ((if ok then some s2 else giveUp s2).bind (freeOld (oldStorage fake s.v))).map fun s => (s, ok)

/-- var.c:751-755: the text becomes `name=value`. -/
def exportEnd (s : S) : Option S :=
  if s.v.exp && !s.v.integer && s.v.type = 0 then
    match (if s.v.isset then stored s else some []) with
    | none => none
    | some c =>
      let s' := store c s
      if s.v.alloc then
        match s.v.val with
        | .int _ => none
        | .ptr a => (s'.h.free a).map fun h => { s' with h := h }
      else some s'
  else some s

/-- `typeset` (var.c:604-758) -/
def typeset (E : Env) (set clr : Att) (base : Nat) (val : Option Str) (c : Conv)
    (e : Option (Int × Nat)) (s : S) : Out :=
  if s.v.ro && (val.isSome || clr.any || set.integer || set.ro || set.fm) then some (s, false)
  else
    match (if set.any || clr.any then retype E set clr base val.isSome c s else some (s, true)) with
    | none => none
    | some (s, false) => some (s, false)
    | some (s, true) =>
      match val with
      | none => (exportEnd s).map fun s => (s, true)
      | some t =>
        match setstr E t true e s with
        | none => none
        | some (s, false) => some (s, false)
        | some (s, true) =>
          let s := if s.v.integer && base > 0 then { s with v := { s.v with type := base } } else s
          (exportEnd s).map fun s => (s, true)

/-- `unset` (var.c:763-784): pointer and offset stay. -/
def unset (s : S) : Option S :=
  (dropVal s).map fun s => { s with v := { name := s.v.name, type := s.v.type, val := s.v.val } }

/-- `makenv` (var.c:868-905) for this variable: an integer is made a text.  The result is the entry
of the environment. -/
def makenv (E : Env) (s : S) : Option (S × Option Str) :=
  if s.v.isset && s.v.exp then
    match (if s.v.integer then
        (match strVal E s with
          | none => none
          | some t => (setstr E t false none
              { s with v := { s.v with integer := false, ro := false } }).map (·.1))
        else some s) with
    | none => none
    | some s => (stored s).map fun c => (s, some c)
  else some (s, none)

/-- What happens to the variable: it is assigned, it is assigned in an arithmetic expression (which
refuses a variable that is read-only, expr.c:553-561), it gets the size of the window
(edit.c:82-85), and so on. -/
inductive Op
  | assign (t : Str) (e : Option (Int × Nat))
  | arith (n : Int)
  | window (n : Int)
  | typeset (set clr : Att) (base : Nat) (val : Option Str) (c : Conv) (e : Option (Int × Nat))
  | unset
  | env
  deriving DecidableEq

def step (E : Env) (s : S) : Op → Option S
  | .assign t e => (setstr E t false e s).map (·.1)
  | .arith n => if s.v.ro then some s else (setint E n s).map (·.1)
  | .window n => (setint E n s).map (·.1)
  | .typeset set clr base val c e => (Varmem.typeset E set clr base val c e s).map (·.1)
  | .unset => Varmem.unset s
  | .env => (makenv E s).map (·.1)

def run (E : Env) (s : S) : List Op → Option S
  | [] => some s
  | o :: l => (step E s o).bind fun s => run E s l

/-- A new variable; `local` may give it attributes (var.c:279-293). -/
def fresh (name : Str) (a : Att) (type : Nat) : S :=
  ⟨{ name := name, integer := a.integer, exp := a.exp, ro := a.ro, fm := a.fm, type := type }, ⟨[], 0⟩⟩

end Ksh.Varmem
