import Verif.Glob.Model
/-!
# Model of file name generation: `glob`, `glob_str` and `globit` (eval.c:982-1145)

`gmatch` with `isfile` and `has_globbing` are parameters (their models are in `Glob`).  The file system does
not change while `globit` runs.  Left out: interrupts, the buffer's sizes.
-/

namespace Ksh.Fname

open Ksh.Glob (debunk)

/-- bytes -/
abbrev B := Nat

/-- What `lstat` and `stat` say a path is. -/
inductive Kind where
  | dir | link | other
  deriving DecidableEq

structure Sys where
  /-- `opendir` and `readdir` -/
  ls : List B → Option (List (List B))
  lstat : List B → Option Kind
  stat : List B → Option Kind
  /-- `has_globbing` -/
  hg : List B → Bool
  /-- `gmatch(name, pattern, true)` -/
  mt : List B → List B → Bool

/-- A directory, or a symbolic link to one. -/
def Sys.isDir (S : Sys) (p : List B) : Bool := S.lstat p == some .dir || (S.lstat p == some .link && S.stat p == some .dir)

/-- eval.c:1038-1076: the end of the pattern; `ex` is `GF_EXCHECK`, `gl` `GF_GLOBBED`, `md` `GF_MARKDIR`. -/
def finish (S : Sys) (md : Bool) (xs : List B) (ex gl : Bool) : List (List B) :=
  if ex || (md && gl) then
    if S.lstat xs = none then []
    else if ex && decide (xs.getLast? = some 47) && !S.isDir xs then []
    else if md && gl && decide (xs ≠ [] ∧ xs.getLast? ≠ some 47) && S.isDir xs then [xs ++ [47]]
    else [xs]
  else [xs]

/-- eval.c:1113-1120: is this name taken for this component? -/
def taken (S : Sys) (sp : List B) (name : List B) : Bool :=
  !(name == [46] || name == [46, 46]) && !(name.head? == some 46 && !(sp.head? == some 46)) && S.mt name sp

/-- The string after a `/` (`np`), if there is one. -/
def after (l : List B) : Option (List B) :=
  match l with
  | [] => none
  | _ :: r => some r

theorem after_length {sp r : List B} (h : after ((sp.dropWhile (· == 47)).dropWhile (· != 47)) = some r) : r.length < sp.length := by
  have h1 : ((sp.dropWhile (· == 47)).dropWhile (· != 47)).length ≤ sp.length :=
    Nat.le_trans (List.dropWhile_sublist _).length_le (List.dropWhile_sublist _).length_le
  revert h h1
  cases (sp.dropWhile (· == 47)).dropWhile (· != 47) with
  | nil => intro h; cases h
  | cons c l =>
    intro h h1
    simp only [after, Option.some.injEq] at h
    subst h
    simp only [List.length_cons] at h1
    omega

/-- `globit`, eval.c:1022-1145: what it puts on the list. -/
def globit (S : Sys) (md : Bool) (xs : List B) (sp : Option (List B)) (ex gl : Bool) : List (List B) :=
  match sp with
  | none => finish S md xs ex gl
  | some sp =>
    let xs := (if xs ≠ [] then xs ++ [47] else xs) ++ sp.takeWhile (· == 47)
    let comp := (sp.dropWhile (· == 47)).takeWhile (· != 47)
    match _h : after ((sp.dropWhile (· == 47)).dropWhile (· != 47)) with
    | none =>
      if S.hg comp then ((S.ls (if xs = [] then [46] else xs)).getD []).flatMap fun n => if taken S comp n then finish S md (xs ++ n) false true else []
      else finish S md (xs ++ debunk comp) ex gl
    | some r =>
      if S.hg comp then ((S.ls (if xs = [] then [46] else xs)).getD []).flatMap fun n => if taken S comp n then globit S md (xs ++ n) (some r) true true else []
      else globit S md (xs ++ debunk comp) (some r) ex gl
termination_by sp.elim 0 (fun l => l.length + 1)
decreasing_by all_goals (have := after_length _h; simp_wf; omega)

/-- `glob`, eval.c:986-998; `sort` is `qsortp` with `xstrcmp`. -/
def glob (S : Sys) (sort : List (List B) → List (List B)) (md : Bool) (cp : List B) : List (List B) :=
  let r := globit S md [] (some cp) false false
  if r = [] then [debunk cp] else sort r

end Ksh.Fname
