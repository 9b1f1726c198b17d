/-
Model of `path.c`: `simplify_path` and `make_path`.

A C string is a `List Char`; the terminating NUL is the end of the list.
-/
namespace Ksh.Path

/-- Outcome of a function that edits a buffer in place. -/
inductive Res (α : Type) where
  | ok (a : α)
  /-- a store hit input that has not been read yet (the in-place edit would
  corrupt its own input) -/
  | clobber
  /-- the loop did not end -/
  | spin
  deriving DecidableEq, Repr

/-- `while (--cur > start && *cur != '/') ;` (path.c:162-163).  The text before
`cur` is kept reversed, so the list head is `cur[-1]`. -/
def popTo (start : Nat) : List Char → List Char
  | [] => []
  | c :: r => if r.length > start ∧ c ≠ '/' then popTo start r else r

/-- `!x || x == '/'` for the character at the head of the rest of the string -/
def atEnd : List Char → Bool
  | [] => true
  | c :: _ => c == '/'

/-- The `for` loop of `simplify_path` (path.c:137-175).  `rout` is the text
before `cur`, reversed; `t` is the text from `t` on; `pos` is the index of `t` in
the buffer, needed only to detect a store over unread input.  `fuel` bounds the
iterations. -/
def loop (isrooted : Bool) (veryStart : Nat) :
    Nat → List Char → Nat → Nat → List Char → Res (List Char)
  | 0, _, _, _, _ => .spin
  | fuel + 1, rout, start, pos, t =>
    -- path.c:139-140
    let t1 := t.dropWhile (· == '/')
    let pos1 := pos + (t.length - t1.length)
    match t1 with
    | [] =>
      -- path.c:142-148
      if rout.length > pos1 then .clobber
      else if rout.length = 0 then .ok ['.'] else .ok rout.reverse
    | c :: r =>
      if c = '.' ∧ atEnd r then
        -- path.c:151-153
        loop isrooted veryStart fuel rout start (pos1 + 1) r
      else if c = '.' ∧ r.head? = some '.' ∧ atEnd r.tail then
        -- path.c:154-165
        if !isrooted ∧ rout.length = start then
          let rout' := '.' :: '.' :: (if rout.length ≠ veryStart then '/' :: rout else rout)
          if rout'.length > pos1 + 2 then .clobber
          else loop isrooted veryStart fuel rout' rout'.length (pos1 + 2) r.tail
        else if rout.length ≠ start then
          loop isrooted veryStart fuel (popTo start rout) start (pos1 + 2) r.tail
        else loop isrooted veryStart fuel rout start (pos1 + 2) r.tail
      else
        -- path.c:169-174
        let rout' := if rout.length ≠ veryStart then '/' :: rout else rout
        if rout'.length > pos1 then .clobber
        else
          let comp := (c :: r).takeWhile (· ≠ '/')
          let rest := (c :: r).dropWhile (· ≠ '/')
          loop isrooted veryStart fuel (comp.reverse ++ rout') start (pos1 + comp.length) rest

/-- `simplify_path` (path.c:112-176): the text left in the buffer. -/
def simplify (path : List Char) : Res (List Char) :=
  match path with
  | [] => .ok []
  | '/' :: r => loop true 1 (r.length + 1) ['/'] 1 1 r
  | r => loop false 0 (r.length + 1) [] 0 0 r

/-- Result of `make_path`: the candidate text, the offset `*phys_pathp`, the new
`*cdpathp` and the return value. -/
structure MP where
  text : List Char
  phys : Nat
  cdpath : Option (List Char)
  rval : Bool
  deriving DecidableEq, Repr

/-- `if (s[len - 1] != '/') Xput('/')` for a nonempty `s` (path.c:84-85, 92-93) -/
def withSlash (s : List Char) : List Char :=
  if s.getLast? = some '/' then s else s ++ ['/']

/-- path.c:57-64: the operand starts with `.` or `..` followed by `/` or the end -/
def dotted : List Char → Bool
  | '.' :: '.' :: r => atEnd r
  | '.' :: r => atEnd r
  | _ => false

/-- `make_path` (path.c:37-106).  `cdpath = none` is a NULL list pointer;
`cwd` NULL or empty is `[]`. -/
def makePath (cwd file : List Char) (cdpath : Option (List Char)) : MP :=
  if file.head? = some '/' then
    { text := file, phys := 0, cdpath := none, rval := false }
  else
    let useCd := !dotted file && cdpath.isSome
    let plist := cdpath.getD []
    let elem := if useCd then plist.takeWhile (· ≠ ':') else []
    let next := if useCd then
        (match plist.dropWhile (· ≠ ':') with
         | [] => none
         | _ :: r => some r)
      else none
    let pre := if (!useCd || elem.isEmpty || elem.head? ≠ some '/') && !cwd.isEmpty
      then withSlash cwd else []
    if useCd && !elem.isEmpty then
      { text := pre ++ withSlash elem ++ file, phys := pre.length, cdpath := next, rval := true }
    else
      { text := pre ++ file, phys := pre.length, cdpath := next, rval := false }

/-- The candidates of the `do … while (rval == -1 && cdpath != NULL)` loop of
`c_cd` (c_ksh.c:109-117) when every `chdir` fails; a run of `cd` tries a prefix
of this list.  `fuel` bounds the iterations. -/
def candidates (cwd dir : List Char) : Nat → Option (List Char) → List MP
  | 0, _ => []
  | fuel + 1, cdpath =>
    let m := makePath cwd dir cdpath
    m :: (match m.cdpath with
      | none => []
      | some l => candidates cwd dir fuel (some l))

/-- The logical-mode (`cd -L`) loop of `c_cd` (c_ksh.c:108-117) with the outcome
of `chdir` as an oracle: the path that was entered, or `none`. The last element
is the last path tried. -/
def cdLoop (chdir : List Char → Bool) (cwd dir : List Char) :
    Nat → Option (List Char) → Option MP
  | 0, _ => none
  | fuel + 1, cdpath =>
    let m := makePath cwd dir cdpath
    let tried := match simplify m.text with | .ok s => s | _ => []
    if chdir tried then some { m with text := tried }
    else match m.cdpath with
      | none => none
      | some l => cdLoop chdir cwd dir fuel (some l)

end Ksh.Path
