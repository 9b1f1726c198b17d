/-!
# The settings in HISTCONTROL

`sethistcontrol` (history.c:534-554), called when HISTCONTROL is set (var.c:1013-1014) or unset
(var.c:1125-1126), with `strtok_r` as in the C library; and the lines `histsave` leaves out
(history.c:667-681).  Left out: the files and the storage of the history, which are in `History`.
-/
namespace Ksh.Histctl

structure Flags where
  dups : Bool
  space : Bool
  deriving DecidableEq, Repr

/-- The pieces that the calls of `strtok_r(…, ":", …)` return one after the other: skip colons, take what comes
up to the next colon, overwrite that one. -/
def toks (s : List Char) : List (List Char) :=
  match _h : s.dropWhile (· == ':') with
  | [] => []
  | c :: r => (c :: r).takeWhile (· != ':') :: toks (((c :: r).dropWhile (· != ':')).drop 1)
termination_by s.length
decreasing_by
  have h1 : (s.dropWhile (· == ':')).length ≤ s.length := (List.dropWhile_suffix _).length_le
  have hc : c ≠ ':' := by
    intro e
    have := List.head?_dropWhile_not (· == ':') s
    rw [_h] at this
    simp [e] at this
  rw [_h] at h1
  have h2 : (r.dropWhile (· != ':')).length ≤ r.length := (List.dropWhile_suffix _).length_le
  rw [List.dropWhile_cons_of_pos (by simpa using hc), List.length_drop]
  simp only [List.length_cons] at h1
  omega

def dupsName : List Char := "ignoredups".toList
def spaceName : List Char := "ignorespace".toList

/-- One round of the loop, history.c:548-551 -/
def round (f : Flags) (t : List Char) : Flags :=
  if t = dupsName then { f with dups := true }
  else if t = spaceName then { f with space := true }
  else f

/-- `sethistcontrol`; `none` is a null pointer. The flags before the call are the first argument. -/
def sethistcontrol (f : Flags) : Option (List Char) → Flags
  | none => { f with space := false, dups := false }
  | some s => (toks s).foldl round { f with space := false, dups := false }

/-- What `strrchr(c, '\n')` and the 0 written there leave of a command, history.c:670-672 -/
def cut (cmd : List Char) : List Char :=
  if '\n' ∈ cmd then ((cmd.reverse.dropWhile (· != '\n')).drop 1).reverse else cmd

/-- The line `histsave` stores, `none` if it returns before, history.c:667-681. `last` is `*histptr`. -/
def stored (f : Flags) (last : Option (List Char)) (cmd : List Char) : Option (List Char) :=
  if f.space && cmd.head? == some ' ' then none
  else if f.dups && last == some (cut cmd) then none
  else some (cut cmd)

end Ksh.Histctl
