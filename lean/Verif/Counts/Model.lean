/-!
# Counts typed in emacs mode

`x_set_arg` (emacs.c:1948-1966) with the `int` it uses, and the commands that compute positions
from it: `x_del_back`, `x_del_char`, `x_delete` (emacs.c:468-525), `x_mv_back`, `x_mv_forw`
(emacs.c:709-742), `x_kill` (emacs.c:1156-1178), and the bounds of `x_load_hist`
(emacs.c:808-833).  `Ksh.Emacs` has the same commands with natural numbers for counts; here the
count is an `int`, and a read outside of the `cap` bytes of `xbuf` is the outcome `none`.
The screen is left out.
-/
namespace Ksh.Counts

/-- INT_MAX -/
abbrev imax : Int := 2147483647

/-- One digit (emacs.c:1954); signed overflow has no meaning. -/
def digit (n : Int) (d : Nat) : Option Int :=
  if n * 10 > imax then none
  else if n * 10 + d > imax then none
  else some (n * 10 + d)

/-- The loop of `x_set_arg`. -/
def setArg (ds : List Nat) : Option Int := ds.foldl (fun n d => n.bind (digit · d)) (some 0)

/-- An `int` has 32 bits. -/
def word : Nat := 2 ^ 32

/-- What the processor does. -/
def wrapArg (ds : List Nat) : Int := ds.foldl (fun (n : Int) (d : Nat) => Int.bmod (n * 10 + d) word) 0

/-- The line: its memory, the cursor and the end as offsets from `xbuf`. -/
structure B where
  cap : Nat
  mem : Nat → UInt8
  cur : Int
  len : Int

/-- Reading `xbuf[i]`. -/
def rd (b : B) (i : Int) : Option UInt8 := if 0 ≤ i ∧ i < b.cap then some (b.mem i.toNat) else none

/-- `isu8cont` (sh.h) -/
def isCont (c : UInt8) : Bool := c &&& 0xc0 == 0x80

/-- `while (x_arg < hi && isu8cont(xbuf[at(x_arg)])) x_arg++`; `k` bounds the turns. -/
def skip (b : B) (pos : Int → Int) (hi : Int) : Nat → Int → Option Int
  | 0, a => some a
  | k + 1, a =>
    if a < hi then
      match rd b (pos a) with
      | none => none
      | some c => if isCont c then skip b pos hi k (a + 1) else some a
    else some a

/-- `x_mv_back` (emacs.c:709-725) -/
def mvBack (a : Int) (b : B) : Option B :=
  if b.cur = 0 then some b
  else
    let a := if a > b.cur then b.cur else a
    (skip b (fun x => b.cur - x) b.cur (b.cur - a).toNat a).map fun a => { b with cur := b.cur - a }

/-- `x_mv_forw` (emacs.c:727-742) -/
def mvForw (a : Int) (b : B) : Option B :=
  let nleft := b.len - b.cur
  if nleft = 0 then some b
  else
    let a := if a > nleft then nleft else a
    (skip b (fun x => b.cur + x) nleft (nleft - a).toNat a).map fun a => { b with cur := b.cur + a }

/-- The bytes the loop of `x_delete` reads (emacs.c:529-533): `i = nc; while (i--)`, which for a
negative `nc` goes on until the `int` has gone round. -/
def reads (nc : Int) : Int := if nc < 0 then 4294967296 + nc else nc

/-- `memmove(xcp, xcp + nc, n)` -/
def shiftLeft (b : B) (nc n : Nat) : Nat → UInt8 := fun i =>
  if b.cur.toNat ≤ i ∧ i < b.cur.toNat + n then b.mem (i + nc) else b.mem i

/-- `x_delete` (emacs.c:506-560) -/
def delete (nc : Int) (b : B) : Option B :=
  if nc = 0 then some b
  else if b.cur + reads nc > b.cap then none
  else some { b with len := b.len - nc, mem := shiftLeft b nc.toNat (b.len - nc - b.cur + 1).toNat }

/-- `x_del_back` (emacs.c:468-485) -/
def delBack (a : Int) (b : B) : Option B :=
  if b.cur = 0 then some b
  else
    let a := if a > b.cur then b.cur else a
    (skip b (fun x => b.cur - x) b.cur (b.cur - a).toNat a).bind fun a =>
      delete a { b with cur := b.cur - a }

/-- `x_del_char` (emacs.c:487-502) -/
def delChar (a : Int) (b : B) : Option B :=
  let nleft := b.len - b.cur
  if nleft = 0 then some b
  else
    let a := if a > nleft then nleft else a
    (skip b (fun x => b.cur + x) nleft (nleft - a).toNat a).bind fun a => delete a b

/-- `x_kill` (emacs.c:1156-1178); `none` when no count was typed. -/
def kill (a : Option Int) (b : B) : Option B :=
  let a := match a with
    | none => b.len
    | some a => if a > b.len then b.len else a
  (skip b id b.len (b.len - a).toNat a).bind fun a =>
    let ndel := a - b.cur
    if ndel < 0 then delete (-ndel) { b with cur := a } else delete ndel b

/-- `x_load_hist` (emacs.c:824-833): the entry loaded, if any, of `n + 1` entries; the oldest is 0. -/
def load (n : Nat) (p : Int) : Option Nat := if p < 0 ∨ p > n then none else some p.toNat

end Ksh.Counts
