/-!
# Model of the check for new mail (mail.c:20-122, 176-216)

Files are known by what `stat` tells of them; a file system is a function from names to
`Option Stat`.  The clock is a parameter of each prompt.  The parsing of the value of MAILPATH
is modelled in `Verif/Mail`; here it has already been cut into paths and messages.  What the
expansion of a message prints is left out; whether it assigns MAILPATH (as
`$((MAILPATH=1))` does, in the shell itself) is the parameter `assigns`, since the assignment
frees the list which `mcheck` is walking.  Other assignments made by a message are left out, as
is the value of `_`.
-/

namespace Ksh.Newmail

abbrev Path := List Char
abbrev Msg := List Char

/-- The fields of `struct stat` which are looked at. -/
structure Stat where
  reg : Bool
  size : Nat
  mtime : Int
  atime : Int
  deriving DecidableEq, Repr

abbrev Fs := Path → Option Stat

/-- `struct timespec` -/
structure Ts where
  sec : Int
  nsec : Int
  deriving DecidableEq, Repr

/-- `mbox_t` (mail.c:30-35), without `mb_next`: a list of them is a `List Box`. -/
structure Box where
  path : Option Path
  msg : Option Msg
  mtime : Int
  deriving DecidableEq, Repr

/-- mail.c:43-46, the value of `global("MAIL")->flag & ISSET` (mail.c:64) and the static `first`
(mail.c:59). -/
structure St where
  mplist : List Box
  mbox : Box
  mailSet : Bool
  first : Bool
  last : Ts
  interval : Int
  deriving DecidableEq, Repr

/-- Static variables start as zero; `first` as 1. -/
def init : St := ⟨[], ⟨none, none, 0⟩, false, true, ⟨0, 0⟩, 0⟩

/-- mail.c:20-28 -/
def timespecsub (t u : Ts) : Ts :=
  if t.nsec - u.nsec < 0 then ⟨t.sec - u.sec - 1, t.nsec - u.nsec + 1000000000⟩
  else ⟨t.sec - u.sec, t.nsec - u.nsec⟩

/-- mail.c:115-118 and mail.c:184-187: the time with which a box starts. -/
def startTime (fs : Fs) : Option Path → Int
  | none => 0
  | some p =>
    match fs p with
    | none => 0
    | some s => if s.reg then s.mtime else 0

/-- `mballoc`, mail.c:176-189 -/
def mballoc (fs : Fs) (p : Path) (m : Option Msg) : Box :=
  ⟨some p, m, startTime fs (some p)⟩

/-- `mpset`, mail.c:124-160: each box is put before those already there. -/
def mpset (fs : Fs) (l : List (Path × Option Msg)) (st : St) : St :=
  { st with mplist := l.foldl (fun acc b => mballoc fs b.1 b.2 :: acc) [] }

/-- `mbset`, mail.c:106-119, called by `setspec` (var.c:1047) and `unsetspec` (var.c:1119). -/
def mbset (fs : Fs) (p : Option Path) (st : St) : St :=
  { st with mbox := ⟨p, none, startTime fs p⟩, mailSet := p.isSome }

/-- `mcset`, mail.c:100-104 -/
def mcset (n : Int) (st : St) : St := { st with interval := n }

/-- mail.c:81-85: is `mprintit` called for this box? -/
def isNew (b : Box) (s : Stat) : Bool :=
  s.size != 0 && b.mtime != s.mtime && decide (s.atime ≤ s.mtime)

/-- mail.c:79-95 for one box: is it announced, and its new time. -/
def visit (fs : Fs) (b : Box) : Bool × Int :=
  match b.path with
  | none => (false, 0)
  | some p =>
    match fs p with
    | none => (false, 0)
    | some s => if s.reg then (isNew b s, s.mtime) else (false, 0)

/-- Does announcing the box free it?  `mprintit` (mail.c:191-216) expands the message, or the
default `MBMESSAGE`, which assigns nothing. -/
def frees (assigns : Msg → Bool) (b : Box) : Bool :=
  match b.msg with
  | none => false
  | some m => assigns m

/-- mail.c:78-97: the loop.  `none` if `mbp->mb_mtime` is stored into a box which has been
freed. -/
def walk (assigns : Msg → Bool) (fs : Fs) : List Box → Option (List Box × List (Option Path))
  | [] => some ([], [])
  | b :: r =>
    if (visit fs b).1 && frees assigns b then none
    else
      match walk assigns fs r with
      | none => none
      | some (r', out) =>
        some ({ b with mtime := (visit fs b).2 } :: r',
          if (visit fs b).1 then b.path :: out else out)

/-- mail.c:69-76: the clock. -/
def clock (now : Ts) (st : St) : St :=
  if st.first then { st with last := now, first := false } else st

/-- mail.c:76 -/
def due (now : Ts) (st : St) : Bool :=
  decide ((timespecsub now st.last).sec ≥ st.interval)

/-- mail.c:76-98 for the list of MAILPATH -/
def checkList (assigns : Msg → Bool) (fs : Fs) (now : Ts) (st : St) :
    Option (St × List (Option Path)) :=
  if due now st then
    match walk assigns fs st.mplist with
    | none => none
    | some (l, out) => some ({ st with last := now, mplist := l }, out)
  else some (st, [])

/-- mail.c:76-98 for the single box of MAIL, whose `mb_next` is NULL -/
def checkOne (fs : Fs) (now : Ts) (st : St) : St × List (Option Path) :=
  if due now st then
    ({ st with last := now, mbox := { st.mbox with mtime := (visit fs st.mbox).2 } },
      if (visit fs st.mbox).1 then [st.mbox.path] else [])
  else (st, [])

/-- `mcheck`, mail.c:52-98, called before each prompt (main.c:629).  The list of the files
announced, or `none` for the use of freed memory. -/
def mcheck (assigns : Msg → Bool) (fs : Fs) (now : Ts) (st : St) :
    Option (St × List (Option Path)) :=
  if st.mplist ≠ [] then checkList assigns fs now (clock now st)
  else if st.mailSet then some (checkOne fs now (clock now st))
  else some (st, [])

/-- The prompts `0 … n-1`, each with its clock and its file system: what each announced. -/
def run (assigns : Msg → Bool) (now : Nat → Ts) (fs : Nat → Fs) (st : St) :
    Nat → Option (St × List (List (Option Path)))
  | 0 => some (st, [])
  | n + 1 =>
    match run assigns now fs st n with
    | none => none
    | some (st', out) =>
      match mcheck assigns (fs n) (now n) st' with
      | none => none
      | some (st'', o) => some (st'', out ++ [o])

end Ksh.Newmail
