import Verif.Path.Props
/-!
# Model of `cd` and of the current directory (c_ksh.c:15-160, path.c:178-266, main.c:289-312)

The shell knows its directory by name, the system by its place.  The system calls are parameters.
-/

namespace Ksh.Cd

open Ksh.Path (Loc simplify makePath MP)

/-- `readlink(2)`: the contents of a symbolic link, `EINVAL` (not a link), another error. -/
inductive Rl where
  | link (t : List Char)
  | notLink
  | err
  deriving DecidableEq, Repr

/-- What the system does: `chdir` at a place with a path gives the new place or fails; `readlink` of a
path from the root. -/
structure Sys where
  chdir : Loc → List Char → Option Loc
  readlink : List Char → Rl

/-- path.c:234-239: `..` removes the last component; the buffer is kept in reverse. -/
def pop (rbuf : List Char) : List Char := (rbuf.dropWhile (· ≠ '/')).drop 1

/-- `do_phys_path`, path.c:216-266: `rbuf` is the buffer in reverse, `none` for `NULL`.  `fuel` bounds
the depth of the loop and the recursion (a loop of links would recurse for ever); the outer `none` is
an exhausted `fuel`. -/
def doPhys (readlink : List Char → Rl) : Nat → List Char → List Char → Option (Option (List Char))
  | 0, _, _ => none
  | fuel + 1, rbuf, path =>
    let p := path.dropWhile (· = '/')
    let c := p.takeWhile (· ≠ '/')
    let q := p.dropWhile (· ≠ '/')
    if p = [] then some (some rbuf)
    else if c = ['.'] then doPhys readlink fuel rbuf q
    else if c = ['.', '.'] then doPhys readlink fuel (pop rbuf) q
    else
      match readlink ((c.reverse ++ '/' :: rbuf).reverse) with
      | .notLink => doPhys readlink fuel (c.reverse ++ '/' :: rbuf) q
      | .err => some none
      | .link t =>
        match doPhys readlink fuel (if t.head? = some '/' then [] else rbuf) t with
        | none => none
        | some none => some none
        | some (some rbuf') => doPhys readlink fuel rbuf' q

/-- `get_phys_path`, path.c:197-214. -/
def physPath (readlink : List Char → Rl) (fuel : Nat) (path : List Char) : Option (Option (List Char)) :=
  (doPhys readlink fuel [] path).map (Option.map fun r => if r = [] then ['/'] else r.reverse)

/-- The shell: its place, `current_wd` and the variables `PWD` and `OLDPWD`.  The variables are not
read-only or integers. -/
structure St where
  at_ : Loc
  wd : List Char
  pwd : List Char
  oldpwd : List Char

/-- Result of `cd`: an error with its reason left out, or the new state and whether the name is printed.
`stuck` is an exhausted `fuel`. -/
inductive Res where
  | ok (s : St) (printed : Bool)
  | fail
  | stuck

def simp (p : List Char) : List Char :=
  match simplify p with
  | .ok s => s
  | _ => []

/-- c_ksh.c:106-117: the loop over `CDPATH`.  Answer: the path in `xs`, `cdnode`, and the new place. -/
def tryAll (sys : Sys) (physical : Bool) (loc : Loc) (wd dir : List Char) : Nat → Option (List Char) → Option (List Char × Bool × Loc)
  | 0, _ => none
  | fuel + 1, cdpath =>
    let m := makePath wd dir cdpath
    let xs := if physical then m.text else simp m.text
    match sys.chdir loc (if physical then xs.drop m.phys else xs) with
    | some l => some (xs, m.rval, l)
    | none =>
      match m.cdpath with
      | none => none
      | some r => tryAll sys physical loc wd dir fuel (some r)

/-- `strstr`: the text before the first place where `a` occurs. -/
def strstr (a : List Char) : List Char → Option (List Char)
  | [] => if a = [] then some [] else none
  | c :: r => if a <+: c :: r then some [] else (strstr a r).map (c :: ·)

/-- c_ksh.c:50-99: the directory meant by the operands, and `printpath`; `none` is an error. -/
def operand (home oldpwd wd : List Char) : List (List Char) → Option (List Char × Bool)
  | [] => if home = [] then none else some (home, false)
  | [d] => if d = ['-'] then (if oldpwd = [] then none else some (oldpwd, true)) else some (d, false)
  | [a, b] =>
    if wd = [] then none
    else (strstr a wd).map fun pre => (pre ++ b ++ wd.drop (pre.length + a.length), true)
  | _ => none

/-- `c_cd`, c_ksh.c:15-160, after the options, in an unrestricted shell.  `n` bounds the loops. -/
def cd (sys : Sys) (n : Nat) (physical : Bool) (home : List Char) (cdpath : Option (List Char)) (args : List (List Char)) (s : St) : Res :=
  match operand home s.oldpwd s.wd args with
  | none => .fail
  | some (dir, print) =>
    match tryAll sys physical s.at_ s.wd dir (((cdpath.getD []).length) + 2) cdpath with
    | none => .fail
    | some (xs, cdnode, l) =>
      let old := if s.wd = [] then s.oldpwd else s.wd
      if xs.head? = some '/' then
        if physical then
          match physPath sys.readlink n xs with
          | none => .stuck
          | some r => .ok ⟨l, r.getD xs, r.getD xs, old⟩ (print || cdnode)
        else .ok ⟨l, xs, xs, old⟩ (print || cdnode)
      else .ok ⟨l, [], s.pwd, old⟩ (print || cdnode)

/-- main.c:289-312: the shell starts at `l` with `PWD` and `OLDPWD` from the environment.  `same p` is the comparison of
`p` and `.` by `stat(2)`, `getwd` is `getcwd(3)`. -/
def start (same : List Char → Bool) (getwd : Option (List Char)) (l : Loc) (pwd oldpwd : List Char) : St :=
  let w := if pwd.head? = some '/' ∧ same pwd = true then pwd else getwd.getD []
  let w := if w = [] then [] else simp w
  ⟨l, w, if w ≠ [] ∨ pwd ≠ [] then w else pwd, oldpwd⟩

/-- `c_pwd`, c_ksh.c:163-201, without operands.  `readable` is `access(2)`, `getwd` is `getcwd(3)`.  The
outer `none` is an exhausted bound, the inner one a failure. -/
def pwd (sys : Sys) (n : Nat) (readable : List Char → Bool) (getwd : Option (List Char)) (physical : Bool) (s : St) : Option (Option (List Char)) :=
  let p := if s.wd = [] then some none else if physical then physPath sys.readlink n s.wd else some (some s.wd)
  p.map fun p => match p with
    | some t => if readable t then some t else getwd
    | none => getwd

end Ksh.Cd
