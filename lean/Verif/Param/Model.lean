/-!
# The positional parameters

`argv` and `argc` of the blocks (var.c:57-75): `shift` and `set --` (c_sh.c:34-65, 614-648), the calls
of functions (exec.c:590-600), `.` with and without arguments (c_sh.c:192-231, main.c:476-540), the loop
`for i; do ...; done` without words (exec.c:278-304) and commands that run in a copy of the block
(`command shift`, `command eval ...`; exec.c:459-502, 504-508).  Arrays are memory that several pointers
can point to.

What is computed from the parameters (the argument of `shift`, the words after `set --`, the arguments of
a function, conditions) is any function of them.  An error or `return` leaves the innermost function or
sourced file.  The bodies of functions are written where they are called.  `break` and `continue`,
`getopts`, `set -s`, `set -A` and the release of arrays are left out; no array that is still pointed to
is released (the areas of the blocks and environments are nested).
-/
namespace Ksh.Param

abbrev Str := List Char

inductive Cmd
  /-- `shift` -/
  | shift1
  /-- `shift n`, the value of the expression as a number of 64 bits -/
  | shift (e : Str → List Str → Int)
  /-- `set -- ...` -/
  | set (f : Str → List Str → List Str)
  | seq (a b : Cmd)
  | ite (p : Str → List Str → Bool) (a b : Cmd)
  | while (p : Str → List Str → Bool) (b : Cmd)
  /-- a function; `zero` is what it has as `$0` -/
  | call (zero : Str → Str) (f : Str → List Str → List Str) (b : Cmd)
  /-- `. file`; with arguments if there are any -/
  | dot (f : Str → List Str → List Str) (b : Cmd)
  /-- `for i; do ...; done` -/
  | each (b : Cmd)
  /-- a command that runs in a copy of the block -/
  | command (b : Cmd)
  /-- an error, or `return` -/
  | abort
  /-- `print $# "$0" "$@"` -/
  | note

inductive Event
  | item (x : Str)
  | params (n : Nat) (zero : Str) (ps : List Str)
  deriving DecidableEq

/-- `struct block`: `argv` points to element `off` of array `arr`. -/
structure Blk where
  arr : Nat
  off : Nat
  argc : Nat
  deriving DecidableEq

/-- Memory: the arrays, without the `NULL` at their ends; and the current block. -/
structure S where
  mem : List (List Str)
  cur : Blk
  out : List Event := []
  deriving DecidableEq

/-- How a command ends: `bad` if memory outside of an array is read or written; `ab` tells whether it
was left by an error. -/
inductive R (σ : Type)
  | fuel
  | bad
  | ok (s : σ) (ab : Bool)
  deriving DecidableEq

def R.then {σ : Type} (r : R σ) (f : σ → R σ) : R σ :=
  match r with
  | .ok s false => f s
  | r => r

def R.map {σ : Type} (r : R σ) (f : σ → Bool → σ × Bool) : R σ :=
  match r with
  | .ok s ab => .ok (f s ab).1 (f s ab).2
  | r => r

/-- `$0` and `"$@"`: the array up to its end. -/
def view (s : S) : Option (Str × List Str) :=
  match s.mem[s.cur.arr]? with
  | none => none
  | some a =>
    match a.drop s.cur.off with
    | [] => none
    | z :: ps => some (z, ps)

/-- `int n = val` -/
def toInt (v : Int) : Int := Int.bmod v (2 ^ 32)

/-- `l->argv[n] = l->argv[0]; l->argv += n; l->argc -= n` (c_sh.c:44-63); `bi_errorf` in a special
builtin is an error (io.c:79-87). -/
def doShift (n : Int) (s : S) : R S :=
  if n < 0 then .ok s true
  else if s.cur.argc < n.toNat then .ok s true
  else
    match s.mem[s.cur.arr]? with
    | none => .bad
    | some a =>
      match a[s.cur.off]?, a[s.cur.off + n.toNat]? with
      | some z, some _ =>
        .ok { s with
          mem := s.mem.set s.cur.arr (a.set (s.cur.off + n.toNat) z)
          cur := { s.cur with off := s.cur.off + n.toNat, argc := s.cur.argc - n.toNat } } false
      | _, _ => .bad

/-- A new array becomes `argv`. -/
def fresh (zero : Str) (args : List Str) (s : S) : S :=
  { s with mem := s.mem ++ [zero :: args], cur := ⟨s.mem.length, 0, args.length⟩ }

/-- `while (*ap != NULL) { ... *ap++ ...; execute(...) }` (exec.c:297-304); `ap` points to element `i`
of array `A`. -/
def eachLoop (body : S → R S) (A : Nat) : Nat → Nat → S → R S
  | 0, _, _ => .fuel
  | k + 1, i, s =>
    match s.mem[A]? with
    | none => .bad
    | some a =>
      if i = a.length then .ok s false
      else
        match a[i]? with
        | none => .bad
        | some x => (body { s with out := s.out ++ [.item x] }).then (eachLoop body A k (i + 1))

def whileLoop {σ : Type} (cond : σ → Option Bool) (body : σ → R σ) : Nat → σ → R σ
  | 0, _ => .fuel
  | k + 1, s =>
    match cond s with
    | none => .bad
    | some false => .ok s false
    | some true => (body s).then (whileLoop cond body k)

def exec : Nat → Cmd → S → R S
  | 0, _, _ => .fuel
  | n + 1, c, s =>
    match view s with
    | none => .bad
    | some (z, ps) =>
      match c with
      | .shift1 => doShift 1 s
      | .shift e => doShift (toInt (e z ps)) s
      | .set f => .ok (fresh z (f z ps) s) false
      | .seq a b => (exec n a s).then (exec n b)
      | .ite p a b => if p z ps then exec n a s else exec n b s
      | .while p b => whileLoop (fun s => (view s).map fun v => p v.1 v.2) (exec n b) n s
      | .call zero f b =>
        -- exec.c:504-508, 590-600; LRETURN and LERROR end here
        (exec n b (fresh (zero z) (f z ps) s)).map fun s' _ => ({ s' with cur := s.cur }, false)
      | .dot f b =>
        if (f z ps).isEmpty then (exec n b s).map fun s' _ => (s', false)
        else (exec n b (fresh z (f z ps) s)).map fun s' _ => ({ s' with cur := s.cur }, false)
      | .each b =>
        match s.mem[s.cur.arr]? with
        | none => .bad
        | some a => eachLoop (exec n b) s.cur.arr (a.length + 1) (s.cur.off + 1) s
      | .command b => (exec n b s).map fun s' ab => ({ s' with cur := s.cur }, ab)
      | .abort => .ok s true
      | .note => .ok { s with out := s.out ++ [.params s.cur.argc z ps] } false

/-- The shell was started with these arguments (main.c:397-398). -/
def start (zero : Str) (args : List Str) : S := ⟨[zero :: args], ⟨0, 0, args.length⟩, []⟩

end Ksh.Param
