import Verif.Counts.Model

/-!
# Counts typed in vi mode

The counts `vi_hook` collects (vi.c:291-294, 323-357) with the `int`s it uses, and the commands that
compute positions in the line from them: `|`, `h`, `l` (vi.c:1223-1242, 1262-1270), `x`, `s`, `X`,
`r` (vi.c:921-946, 952-962, 984-1005).  `Ksh.Vi` has the same commands with natural numbers for
counts; here a count is an `int`, and a read outside of the `cap` bytes of `cbuf`, or an overflow, is
the outcome `none`.  The line (`Ksh.Counts.B`) and `isu8cont` are shared with `Ksh.Counts`.
-/
namespace Ksh.Vicount

open Ksh.Counts (B rd isCont setArg wrapArg imax word)

/-- INT_MIN -/
abbrev imin : Int := -2147483648

/-- `argc1` and `argc2` together (vi.c:353-356); `argc2` is 0 if no second count was typed. -/
def combine (a c : Int) (two : Bool) : Int :=
  if !two then a else if a = 0 then c else a * c

/-- The counts typed before and after an operator such as `d`; signed overflow has no meaning. -/
def enter (ds es : List Nat) : Option Int :=
  match setArg ds, setArg es with
  | some a, some c =>
    let r := combine a c (!es.isEmpty)
    if r > imax then none else some r
  | _, _ => none

/-- What the processor does. -/
def wrapEnter (ds es : List Nat) : Int :=
  Int.bmod (combine (wrapArg ds) (wrapArg es) (!es.isEmpty)) word

/-- vi.c:700-701; `zero` is `is_zerocount`. -/
def effective (zero : Bool) (a : Int) : Int := if a = 0 && !zero then 1 else a

/-- `argcnt--` -/
def dec (a : Int) : Option Int := if a = imin then none else some (a - 1)

/-- `for (; cur < linelen; cur++) if (…) if (argcnt-- == 0) break` (vi.c:957-960, 988-991,
1237-1241); `first` tells which bytes count although they continue a character, `k` is
`linelen - cur`. -/
def fwd (b : B) (first : Int → Bool) : Nat → Int → Int → Option Int
  | 0, c, _ => some c
  | k + 1, c, a =>
    match rd b c with
    | none => none
    | some ch =>
      if first c || !isCont ch then
        match dec a with
        | none => none
        | some a' => if a = 0 then some c else fwd b first k (c + 1) a'
      else fwd b first k (c + 1) a

/-- `for (; cur > 0; cur--) if (!isu8cont(cbuf[cur])) if (argcnt-- == 0) break` (vi.c:1000-1003,
1227-1230); the first argument is `cur`. -/
def bck (b : B) : Nat → Int → Option Int
  | 0, _ => some 0
  | k + 1, a =>
    match rd b (k + 1 : Nat) with
    | none => none
    | some ch =>
      if !isCont ch then
        match dec a with
        | none => none
        | some a' => if a = 0 then some (k + 1 : Nat) else bck b k a'
      else bck b k a

/-- The end of what `x` and `s` delete (vi.c:957-960, 988-991). -/
def xEnd (b : B) (a : Int) : Option Int := fwd b (fun _ => false) (b.len - b.cur).toNat b.cur a

/-- Where `l` goes (vi.c:1237-1241). -/
def lPos (b : B) (a : Int) : Option Int := fwd b (fun c => c == b.cur) (b.len - b.cur).toNat b.cur a

/-- Where `h` goes, and the start of what `X` deletes (vi.c:1000-1003, 1227-1230). -/
def hPos (b : B) (a : Int) : Option Int := bck b b.cur.toNat a

/-- `while (isu8cont(cbuf[ncursor])) ncursor--` (vi.c:1268-1269); `k` bounds the turns, and there
are no more bytes than that below. -/
def back (b : B) : Nat → Int → Option Int
  | 0, _ => none
  | k + 1, n =>
    match rd b n with
    | none => none
    | some ch => if isCont ch then back b k (n - 1) else some n

/-- Where `|` goes (vi.c:1262-1270). -/
def barPos (b : B) (a : Int) : Option Int :=
  let n := if a > b.len then b.len else a
  match (if n = 0 then some n else dec n) with
  | none => none
  | some n => back b (b.cap + 1) n

/-- The loop of `r` (vi.c:927-934): `cur` and `c1`. -/
def rScan (b : B) (a : Int) : Nat → Int → Int → Option (Int × Int)
  | 0, c, c1 => some (c, c1)
  | k + 1, c, c1 =>
    match rd b c with
    | none => none
    | some ch =>
      let c1 := if isCont ch then c1 else c1 + 1
      if c1 > a then some (c, c1) else rScan b a k (c + 1) c1

/-- The end of what `r` replaces, `some none` if there are not enough characters (vi.c:927-936). -/
def rEnd (b : B) (a : Int) : Option (Option Int) :=
  (rScan b a (b.len - b.cur).toNat b.cur 0).map fun p => if a > p.2 then none else some p.1

end Ksh.Vicount
