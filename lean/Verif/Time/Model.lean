import Verif.Tree.Props
import Verif.Getopt.Props
/-!
# Model of `time` (syn.c:366-379, c_sh.c:725-825)

The parser gives the tree of the timed pipeline a string, whose first byte holds flags for a simple
command; running the command sets them.
-/

namespace Ksh.Time

open Ksh.Tree (Heap Obj alloc store strSave)

/-- syn.c:369-376: `str` of the tree at `p` is replaced. -/
def timeStr (h : Heap) (p : Nat) : Option Heap :=
  match h.mem p with
  | some (.op o) =>
    if o.str ≠ 0 then (strSave h o.str).map fun (h, q) => store h p (.op { o with str := q })
    else
      let (h, q) := alloc h (.bytes [0, 0])
      some (store h p (.op { o with str := q }))
  | _ => none

/-- `TF_*`, c_sh.c:727-729, as far as they are set by `timex_hook`. -/
structure Flags where
  noargs : Bool
  posix : Bool
  deriving DecidableEq, Repr

def Flags.none : Flags := ⟨false, false⟩

def Flags.or (a b : Flags) : Flags := ⟨a.noargs || b.noargs, a.posix || b.posix⟩

/-- `timex_hook`, c_sh.c:794-825: the flags kept in the tree and the words of the command.  Answer:
the flags and the words left, `none` for an error.  `n` bounds the calls of `ksh_getopt`; `optind`
starts at 0. -/
def timexHook (n : Nat) (f : Flags) (wp : List Getopt.Arg) : Option (Flags × List Getopt.Arg) :=
  match Getopt.run n false [':', 'p'] wp { Getopt.reset with optind := 0 } with
  | none => .none
  | some (es, g) =>
    if es.all (fun e => e.ret = 'p') then
      some (⟨f.noargs || (wp.drop g.optind).isEmpty, f.posix || !es.isEmpty⟩, wp.drop g.optind)
    else .none

/-- `timex` for a simple command that is run again and again, with these words each time: the format
of each report (`tf`, c_sh.c:759), up to the first error. -/
def reports (n : Nat) : Flags → List (List Getopt.Arg) → List Flags
  | _, [] => []
  | f, wp :: r =>
    match timexHook n f wp with
    | some (f', _) => f' :: reports n f' r
    | none => []

end Ksh.Time
