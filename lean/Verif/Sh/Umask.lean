/-!
# `umask` (`c_umask`, c_sh.c:65-182): model

Masks have nine bits: every operation of the code on modes is bitwise or uses bits 0 to 8
only, and `umask(2)` ignores the others.  Reading the operand behind its NUL is the outcome
`oob`.
-/

namespace Ksh.Umask

abbrev Mode := BitVec 9

inductive R
  | set (m : Mode)
  | error
  | oob
  deriving DecidableEq, Repr

/-- c_sh.c:86-99: `umask -S` -/
def symText (mask : Mode) : List Char :=
  let m := ~~~mask
  let cls (c : Char) (i : Nat) : List Char :=
    [c, '='] ++ (if m.getLsbD (8 - (3 * i + 0)) then ['r'] else []) ++ (if m.getLsbD (8 - (3 * i + 1)) then ['w'] else [])
      ++ (if m.getLsbD (8 - (3 * i + 2)) then ['x'] else [])
  cls 'u' 0 ++ ',' :: (cls 'g' 1 ++ ',' :: cls 'o' 2)

def octDigit (n : Nat) : Char := Char.ofNat (48 + n % 8)

/-- c_sh.c:101: `%#3.3o`; for a value of nine bits three digits, with a zero in front of a
first digit that is not zero. -/
def octText (mask : Mode) : List Char :=
  let n := mask.toNat
  let ds := [octDigit (n / 64), octDigit (n / 8), octDigit n]
  if n / 64 = 0 then ds else '0' :: ds

/-- c_sh.c:106-111 -/
def octal : List Char → Mode → R
  | [], m => .set m
  | c :: r, m => if '0' ≤ c ∧ c ≤ '7' then octal r (m * 8 + BitVec.ofNat 9 (c.toNat - 48)) else .error

/-- c_sh.c:123-137: the classes -/
def who : List Char → Mode → Mode × List Char
  | [], p => (p, [])
  | c :: r, p =>
    if c = 'a' then who r (p ||| 0o111#9)
    else if c = 'u' then who r (p ||| 0o100#9)
    else if c = 'g' then who r (p ||| 0o010#9)
    else if c = 'o' then who r (p ||| 0o001#9)
    else (p, c :: r)

/-- c_sh.c:144-160: the permissions -/
def perms (old : Mode) : List Char → Mode → Mode × List Char
  | [], v => (v, [])
  | c :: r, v =>
    if c = 'r' then perms old r (v ||| 4#9)
    else if c = 'w' then perms old r (v ||| 2#9)
    else if c = 'x' then perms old r (v ||| 1#9)
    else if c = 'u' then perms old r (v ||| (old >>> 6))
    else if c = 'g' then perms old r (v ||| (old >>> 3))
    else if c = 'o' then perms old r (v ||| old)
    else if c = 'X' then perms old r (if old &&& 0o111#9 ≠ 0 then v ||| 1#9 else v)
    else if c = 's' then perms old r v
    else (v, c :: r)

/-- c_sh.c:161-173 -/
def apply (op : Char) (positions val new : Mode) : Mode :=
  let v := (val &&& 7#9) * positions
  if op = '-' then new &&& ~~~v
  else if op = '=' then v ||| (new &&& ~~~(positions * 7#9))
  else if op = '+' then new ||| v
  else new

/-- The loop c_sh.c:122-179 with `cp` at `s`; `fuel` bounds the turns. -/
def loop (old : Mode) : Nat → List Char → Mode → Mode → R
  | 0, _, _, _ => .oob
  | fuel + 1, s, positions, new =>
    match s with
    | [] => .set (~~~new)
    | c :: s =>
      let (p, s) := who (c :: s) positions
      let p := if p = 0 then 0o111#9 else p
      match s with
      -- `strchr` finds the NUL, and `cp++` goes behind it
      | [] => .oob
      | op :: s =>
        if op ≠ '=' ∧ op ≠ '+' ∧ op ≠ '-' then .error
        else
          let (v, s) := perms old s 0
          let new := apply op p v new
          match s with
          | [] => .set (~~~new)
          | d :: s =>
            if d = ',' then loop old fuel s 0 new
            else if d = '=' ∨ d = '+' ∨ d = '-' then loop old fuel (d :: s) p new
            else .error

/-- `c_umask` with an operand, c_sh.c:103-181, under the current mask. -/
def umask (mask : Mode) (s : List Char) : R :=
  match s with
  | [] => loop (~~~mask) 1 [] 0 (~~~mask)
  | c :: r =>
    if '0' ≤ c ∧ c ≤ '9' then octal (c :: r) 0
    else loop (~~~mask) (s.length + 1) (c :: r) 0 (~~~mask)

end Ksh.Umask
