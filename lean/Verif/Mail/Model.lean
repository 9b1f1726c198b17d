/-!
# Model of the parsing of MAILPATH (mail.c:120-174)

The copy made by `str_save` is one allocation, the list `buf` of its characters with the
terminating NUL; pointers into it are offsets.  Reading past its end is the outcome `none`,
as is running out of fuel (`mpset_spec` proves that neither happens).  The time of last
modification (`stat`) is left out.
-/

namespace Ksh.Mail

abbrev Buf := List Char

/-- `strchr(p, c)` for `c` not NUL: `none` if the search leaves the allocation, `some none` for
`NULL`. -/
def strchr (c : Char) : Buf → Nat → Option (Option Nat)
  | [], _ => none
  | x :: r, p =>
    if x = c then some (some p)
    else if x = '\x00' then some none
    else strchr c r (p + 1)

/-- `strlen` -/
def strlen : Buf → Option Nat
  | [] => none
  | x :: r => if x = '\x00' then some 0 else (strlen r).map (· + 1)

/-- `memmove(m - 1, m, n)` -/
def shiftLeft (buf : Buf) (m n : Nat) : Buf :=
  buf.take (m - 1) ++ (buf.drop m).take n ++ buf.drop (m - 1 + n)

/-- mail.c:136-145: the loop over `%`. -/
def percent (mpath : Nat) : Nat → Buf → Nat → Option (Buf × Option Nat)
  | 0, _, _ => none
  | fuel + 1, buf, p =>
    match strchr '%' (buf.drop p) p with
    | none => none
    | some none => some (buf, none)
    | some (some mmsg) =>
      if mmsg > mpath ∧ buf[mmsg - 1]? = some '\\' then
        match strlen (buf.drop mmsg) with
        | none => none
        | some n => percent mpath fuel (shiftLeft buf mmsg (n + 1)) mmsg
      else some (buf, some mmsg)

/-- mail.c:146-148 -/
def question (posix : Bool) (mpath : Nat) (buf : Buf) : Option Nat → Option (Option Nat)
  | some m => some (some m)
  | none => if posix then some none else strchr '?' (buf.drop mpath) mpath

/-- mail.c:149-154 -/
def message (buf : Buf) : Option Nat → Buf × Option Nat
  | none => (buf, none)
  | some m =>
    (buf.set m '\x00', if (buf.set m '\x00')[m + 1]? = some '\x00' then none else some (m + 1))

/-- `mbox_t` -/
structure Box where
  path : Nat
  msg : Option Nat
  deriving DecidableEq, Repr

/-- mail.c:155-159: the mailbox is put in front of the list. -/
def enter (buf : Buf) (mpath : Nat) (mmsg : Option Nat) (l : List Box) : List Box :=
  if buf[mpath]? = some '\x00' then l else ⟨mpath, mmsg⟩ :: l

/-- One round of the loop, mail.c:129-159, after the segment has been terminated. -/
def segment (posix : Bool) (fuel : Nat) (buf : Buf) (mpath : Nat) (l : List Box) : Option (Buf × List Box) :=
  match percent mpath fuel buf mpath with
  | none => none
  | some (buf, mmsg) =>
    match question posix mpath buf mmsg with
    | none => none
    | some mmsg =>
      let (buf, mmsg) := message buf mmsg
      some (buf, enter buf mpath mmsg l)

/-- The loop, mail.c:129-160. -/
def loop (posix : Bool) : Nat → Buf → Nat → List Box → Option (Buf × List Box)
  | 0, _, _, _ => none
  | fuel + 1, buf, mpath, l =>
    match strchr ':' (buf.drop mpath) mpath with
    | none => none
    | some none => segment posix (fuel + 1) buf mpath l
    | some (some mval) =>
      match segment posix (fuel + 1) (buf.set mval '\x00') mpath l with
      | none => none
      | some (buf, l) => loop posix fuel buf (mval + 1) l

/-- `mpset`, mail.c:120-160, without the release of the old list: the allocation and the list. -/
def mpset (posix : Bool) (s : List Char) : Option (Buf × List Box) :=
  loop posix (s.length + 1) (s ++ ['\x00']) 0 []

/-- What `munset` hands to `afree` besides the nodes themselves, mail.c:162-174: the path of
the last node of the list. -/
def munset : List Box → Option Nat
  | [] => none
  | [b] => some b.path
  | _ :: l => munset l

/-- The string at an offset. -/
def cstr (buf : Buf) (p : Nat) : List Char := (buf.drop p).takeWhile (· ≠ '\x00')

end Ksh.Mail
