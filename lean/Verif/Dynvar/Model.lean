/-!
# SECONDS, RANDOM and LINENO

Modelled: `getspec` (var.c:933-973), `setspec` (var.c:975-1096) and `unsetspec`
(var.c:1099-1148) for these three variables, `special` and `unspecial` (var.c:910-928), and what
calls them: reading (`str_val`, var.c:307-318), assignment (`setstr`, var.c:373-416, `setint`,
var.c:419-432), `unset` (var.c:755-783), `global` (var.c:241-257), `local` (var.c:264-304),
`popblock` (var.c:83-101), and `readonly`.

One variable is followed at a time.  Its entries are a list with one place for each block, the
innermost first and the global one last.  Values are integers (the texts assigned are
numbers).  The clock counts nanoseconds.  `rand` is a function of a state, given as a parameter.
-/
namespace Ksh.Dynvar

inductive Kind
  | seconds | random | lineno
  deriving DecidableEq

/-- `struct tbl`: the flags DEFINED, SPECIAL, INTEGER, RDONLY, ISSET, and the value.  `val` is none as
long as nothing was stored: `ktenter` (table.c:136-144) does not set it. -/
structure Cell where
  defd : Bool
  spec : Bool
  int : Bool
  rdonly : Bool
  isset : Bool
  val : Option Int
  deriving DecidableEq

structure S where
  /-- CLOCK_MONOTONIC -/
  now : Nat
  /-- `seconds` in nanoseconds -/
  base : Int
  /-- `current_lineno` -/
  line : Int
  /-- `user_lineno` -/
  user : Int
  /-- the state of `rand` -/
  rng : Nat
  /-- the entry in `specials` is there -/
  special : Bool
  /-- the variable in each block -/
  stack : List (Option Cell)
  deriving DecidableEq

/-- `rand` and `srand`: the next state with the number returned, and the state for a seed. -/
structure Gen where
  next : Nat → Nat × Nat
  seed : Nat → Nat

/-- Conversion of an unsigned int to int. -/
def toInt32 (n : Int) : Int :=
  let m := n % 4294967296
  if m < 2147483648 then m else m - 4294967296

def giga : Int := 1000000000

/-- `setint` with SPECIAL off (var.c:419-428): `setstr` refuses a read-only string. -/
def setint (c : Cell) (n : Int) : Cell :=
  if !c.int && c.rdonly then { c with isset := true } else { c with isset := true, val := some n }

/-- `getspec` (var.c:933-973). -/
def getspec (g : Gen) (k : Kind) (s : S) (c : Cell) : S × Cell :=
  if s.special then
    match k with
    | .seconds => if c.isset then (s, setint c ((s.now - s.base) / giga)) else (s, c)
    | .random => ({ s with rng := (g.next s.rng).1 }, setint c ((g.next s.rng).2 % 32768 : Nat))
    | .lineno => (s, setint c (s.line + s.user))
  else (s, c)

/-- `setspec` (var.c:1061-1083), the value being `v`. -/
def setspec (g : Gen) (k : Kind) (s : S) (v : Int) : S :=
  if s.special then
    match k with
    | .seconds => { s with base := s.now - v * giga }
    | .random => { s with rng := g.seed (v % 4294967296).toNat }
    | .lineno => { s with user := toInt32 (v - s.line - 1) }
  else s

/-- An entry `ktsearch` finds (table.c:100-104). -/
def there : Option Cell → Bool
  | some c => c.defd
  | none => false

/-- The entry found by `global` (var.c:241-257): the first there is; when there is none one is
made in the last block, where an entry that was unset is used again with the flag it kept. -/
def find (sp : Bool) : List (Option Cell) → Cell
  | [] => ⟨true, sp, false, false, false, none⟩
  | [some c] => if c.defd then c else { c with defd := true, spec := c.spec || sp }
  | [none] => ⟨true, sp, false, false, false, none⟩
  | o :: l => if there o then o.getD ⟨true, sp, false, false, false, none⟩ else find sp l

/-- Change that entry. -/
def put (c : Cell) : List (Option Cell) → List (Option Cell)
  | [] => []
  | [_] => [some c]
  | o :: l => if there o then some c :: l else o :: put c l

/-- What a reader gets. -/
inductive Got
  | unset
  | value (n : Int)
  /-- the text at an address that was never set -/
  | wild
  deriving DecidableEq

/-- `str_val` (var.c:312-316). -/
def got (c : Cell) : Got :=
  if c.isset then
    match c.val with
    | some n => .value n
    | none => .wild
  else .unset

/-- `$NAME` -/
def read (g : Gen) (k : Kind) (s : S) : S × Got :=
  let c := find s.special s.stack
  let r := if c.spec then getspec g k s c else (s, c)
  ({ r.1 with stack := put r.2 r.1.stack }, got r.2)

/-- What can happen. -/
inductive Ev
  /-- time passes -/
  | tick (ns : Nat)
  /-- a command of that line is executed (exec.c:85-86) -/
  | line (n : Int)
  | read
  | assign (v : Int)
  | unset
  | readonly
  /-- a function is called -/
  | enter
  /-- `typeset NAME` in a function -/
  | localv
  /-- the function returns -/
  | leave
  deriving DecidableEq

/-- `popblock` (var.c:89-96). -/
def pop (g : Gen) (k : Kind) (s : S) (c : Option Cell) (l : List (Option Cell)) : S :=
  let s := { s with stack := l }
  match c with
  | none => s
  | some c =>
    if c.spec then
      let vq := find s.special l
      let s := { s with stack := put vq l }
      if vq.isset then
        -- intval of what is stored; when nothing is (`Got.wild`) this is undefined, and ignored here
        (match vq.val with
         | some v => setspec g k { s with stack := put { vq with spec := vq.spec || s.special } l } v
         | none => s)
      else { s with special := false }
    else s

def step (g : Gen) (k : Kind) (s : S) : Ev → S
  | .tick n => { s with now := s.now + n }
  | .line n => { s with line := n }
  | .read => (read g k s).1
  | .assign v =>
    let c := find s.special s.stack
    if c.rdonly then s
    else
      let s := { s with stack := put { c with isset := true, val := some v } s.stack }
      if c.spec then setspec g k s v else s
  | .unset =>
    let c := find s.special s.stack
    if c.rdonly then s
    else
      let s := { s with stack := put { c with defd := false, isset := false, int := false } s.stack }
      if c.spec then { s with special := false } else s
  | .readonly =>
    let c := find s.special s.stack
    { s with stack := put { c with rdonly := true } s.stack }
  | .enter => { s with stack := none :: s.stack }
  | .localv =>
    match s.stack with
    | none :: x :: l => { s with stack := some ⟨true, s.special, false, false, false, none⟩ :: x :: l }
    | some c :: x :: l =>
      { s with stack := some { c with defd := true, spec := c.spec || s.special } :: x :: l }
    | _ => s
  | .leave =>
    match s.stack with
    | c :: x :: l => pop g k s c (x :: l)
    | _ => s

def run (g : Gen) (k : Kind) : S → List Ev → S
  | s, [] => s
  | s, e :: l => run g k (step g k s e) l

/-- After start-up (main.c:93-97): RANDOM and SECONDS have an integer entry, SECONDS is 0,
LINENO has no entry. -/
def start (k : Kind) (now : Nat) : S :=
  match k with
  | .seconds => ⟨now, now, 1, 0, 1, true, [some ⟨true, true, true, false, true, some 0⟩]⟩
  | .random => ⟨now, 0, 1, 0, 1, true, [some ⟨true, true, true, false, false, none⟩]⟩
  | .lineno => ⟨now, 0, 1, 0, 1, true, [none]⟩

end Ksh.Dynvar
