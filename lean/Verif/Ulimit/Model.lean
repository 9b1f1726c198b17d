import Verif.Getopt.Model
/-!
# Model of the `ulimit` builtin (c_ulimit.c)

`rlim_t` is an unsigned number of 64 bits; `RLIM_INFINITY` is the parameter `inf` (2^64-1
with glibc, 2^63-1 on OpenBSD).  The kernel
keeps a soft and a hard limit per resource; whether `setrlimit` accepts a pair is the
parameter `perm`.  `evaluate` is the parameter `ev` (text to a number in the range of
`int64_t`, or an error).  Messages are left out, output is a list of lines.
-/

namespace Ksh.Ulimit

open Ksh.Getopt (Arg G Ev)

/-- `struct limits`, c_ulimit.c:34-39; the resource is named by its option letter. -/
structure Lim where
  factor : Nat
  option : Char
  deriving DecidableEq, Repr

/-- The table, c_ulimit.c:49-59 -/
def limits : List Lim :=
  [⟨1, 't'⟩, ⟨512, 'f'⟩, ⟨512, 'c'⟩, ⟨1024, 'd'⟩, ⟨1024, 's'⟩, ⟨1024, 'l'⟩, ⟨1024, 'm'⟩, ⟨1, 'n'⟩, ⟨1, 'p'⟩]

/-- c_ulimit.c:60 -/
def options : List Char := "HSat#f#c#d#s#l#m#n#p#".toList

def two64 : Nat := 2 ^ 64

/-- `how`: the bits `SOFT` and `HARD`. -/
structure How where
  soft : Bool
  hard : Bool
  deriving DecidableEq, Repr

/-- The kernel's limits: resource to soft and hard limit. -/
abbrev K := Char → Nat × Nat

/-- A printed line: the resource's name (with `-a`) and the value. -/
inductive Val
  | unlimited
  | num (v : Int)
  deriving DecidableEq, Repr

structure Line where
  label : Option Char
  val : Val
  deriving DecidableEq, Repr

structure Env where
  inf : Nat
  ev : Arg → Option Int
  perm : Char → Nat × Nat → Bool

/-- Conversion of an `int64_t` to `rlim_t`. -/
def toU (v : Int) : Nat := (v % (two64 : Int)).toNat

/-- Conversion of an `rlim_t` to `int64_t`. -/
def toI (v : Nat) : Int := if v < 2 ^ 63 then (v : Int) else (v : Int) - (two64 : Int)

/-- c_ulimit.c:134-153: the value asked for. -/
def value (e : Env) (l : Lim) (v : Arg) : Option Nat :=
  if v = "unlimited".toList then some e.inf
  else
    match e.ev v with
    | none => none
    | some r =>
      if r = 0 ∧ ¬ (match v with | [] => false | c :: _ => Getopt.digit c) = true then none
      else some ((toU r * l.factor) % two64)

/-- c_ulimit.c:156-159: the pair handed to `setrlimit`. -/
def newPair (how : How) (val : Nat) (p : Nat × Nat) : Nat × Nat :=
  (if how.soft then val else p.1, if how.hard then val else p.2)

def upd (k : K) (c : Char) (p : Nat × Nat) : K := fun x => if x = c then p else k x

/-- `set_ulimit`, c_ulimit.c:128-170: `none` for failure. -/
def setUlimit (e : Env) (l : Lim) (v : Arg) (how : How) (k : K) : Option K :=
  match value e l v with
  | none => none
  | some val =>
    if e.perm l.option (newPair how val (k l.option)) then
      some (upd k l.option (newPair how val (k l.option)))
    else none

/-- `print_ulimit`, c_ulimit.c:172-191 -/
def printUlimit (inf : Nat) (l : Lim) (how : How) (k : K) : Val :=
  let val := if how.soft then (k l.option).1 else if how.hard then (k l.option).2 else 0
  if val = inf then .unlimited else .num (toI (val / l.factor))

/-- The first pass, c_ulimit.c:66-82: `none` for an option error. -/
def pass1 : List Ev → How → Bool → Option (How × Bool)
  | [], how, all => some (how, all)
  | e :: es, how, all =>
    if e.ret = 'H' then pass1 es ⟨false, true⟩ all
    else if e.ret = 'S' then pass1 es ⟨true, false⟩ all
    else if e.ret = 'a' then pass1 es how true
    else if e.ret = '?' then none
    else pass1 es how all

/-- The second pass, c_ulimit.c:91-114: status, limits and output so far. -/
def pass2 (env : Env) (how : How) : List Ev → K → List Line → Bool × K × List Line
  | [], k, out => (true, k, out)
  | e :: es, k, out =>
    if e.ret = 'a' ∨ e.ret = 'H' ∨ e.ret = 'S' then pass2 env how es k out
    else if e.ret = '?' then (false, k, out)
    else
      match limits.find? (fun l => l.option = e.ret) with
      | none => (false, k, out)
      | some l =>
        match e.optarg with
        | some v =>
          match setUlimit env l v how k with
          | none => (false, k, out)
          | some k' => pass2 env how es k' out
        | none => pass2 env how es k (out ++ [⟨none, printUlimit env.inf l how k⟩])

/-- The last part, c_ulimit.c:116-131; the assignment in it is dead code, as operands have
been rejected before. -/
def last (inf : Nat) (how : How) (all : Bool) (optind : Nat) (k : K) : List Line :=
  if all then limits.map (fun l => ⟨some l.option, printUlimit inf l how k⟩)
  else if optind = 1 then [⟨none, printUlimit inf ⟨512, 'f'⟩ how k⟩]
  else []

/-- `c_ulimit`, c_ulimit.c:45-132; `n` bounds the number of options looked at.  Answer:
success, limits, output. -/
def ulimit (n : Nat) (env : Env) (argv : List Arg) (k : K) : Option (Bool × K × List Line) :=
  match Getopt.run n false options argv Getopt.reset with
  | none => none
  | some (es, g) =>
    match pass1 es ⟨true, true⟩ false with
    | none => some (false, k, [])
    | some (how, all) =>
      if argv.drop g.optind ≠ [] then some (false, k, [])
      else
        match pass2 env how es k [] with
        | (false, k', out) => some (false, k', out)
        | (true, k', out) => some (true, k', out ++ last env.inf how all g.optind k')

end Ksh.Ulimit
