import Verif.Getopt.Model

/-!
# Model of the shell options (misc.c:122-465, edit.c:214-234, c_sh.c:614-647)

The flags are a function from their names to their values (`shell_flags`).  Not modelled: what
turning off `privileged` does to the user ids, `j_change` (which does not touch the flags), the
verbose listing of `set -o`, and `typeset -` for `set` without arguments.
-/

namespace Ksh.Options

open Ksh.Getopt

/-- `enum sh_flag` (sh.h:136-181) -/
inductive F
  | exportAll | brace | bgnice | command | cshHist | emacs | errexit | gmacs | ignoreeof | talking
  | keyword | login | markdirs | monitor | noclobber | noexec | noglob | nohup | nolog | notify
  | nounset | physical | pipefail | posix | privileged | restricted | sh | stdin | trackall | verbose
  | vi | viraw | vishow8 | vitab | viesc | xtrace | talkingI
  deriving DecidableEq, Repr

abbrev Flags := F → Nat

def OF_CMDLINE : Nat := 1
def OF_SET : Nat := 2
def OF_SPECIAL : Nat := 4
def OF_INTERNAL : Nat := 8
def OF_ANY : Nat := 15

/-- An entry of `sh_options` with its index -/
structure Entry where
  f : F
  name : Option (List Char)
  c : Option Char
  flags : Nat
  deriving DecidableEq, Repr

def e (f : F) (n : String) (c : Option Char) (flags : Nat := OF_ANY) : Entry := ⟨f, some n.toList, c, flags⟩

/-- `sh_options` (misc.c:122-176), with `EMACS` and `VI` -/
def table : List Entry :=
  [ e .exportAll "allexport" (some 'a'), e .brace "braceexpand" none, e .bgnice "bgnice" none,
    ⟨.command, none, some 'c', OF_CMDLINE⟩, e .cshHist "csh-history" none, e .emacs "emacs" none,
    e .errexit "errexit" (some 'e'), e .gmacs "gmacs" none, e .ignoreeof "ignoreeof" none,
    e .talking "interactive" (some 'i') OF_CMDLINE, e .keyword "keyword" (some 'k'),
    e .login "login" (some 'l') OF_CMDLINE, e .markdirs "markdirs" (some 'X'),
    e .monitor "monitor" (some 'm'), e .noclobber "noclobber" (some 'C'), e .noexec "noexec" (some 'n'),
    e .noglob "noglob" (some 'f'), e .nohup "nohup" none, e .nolog "nolog" none,
    e .notify "notify" (some 'b'), e .nounset "nounset" (some 'u'), e .physical "physical" none,
    e .pipefail "pipefail" none, e .posix "posix" none, e .privileged "privileged" (some 'p'),
    e .restricted "restricted" (some 'r') OF_CMDLINE, e .sh "sh" none,
    e .stdin "stdin" (some 's') OF_CMDLINE, e .trackall "trackall" (some 'h'),
    e .verbose "verbose" (some 'v'), e .vi "vi" none, e .viraw "viraw" none, e .vishow8 "vi-show8" none,
    e .vitab "vi-tabcomplete" none, e .viesc "vi-esccomplete" none, e .xtrace "xtrace" (some 'x'),
    ⟨.talkingI, none, none, OF_INTERNAL⟩ ]

/-- option (misc.c:181-191) -/
def option (n : List Char) : Option Entry := table.find? fun x => x.name == some n

/-- getoptions (misc.c:249-261): the value of `$-` -/
def getoptions (fl : Flags) : List Char :=
  table.filterMap fun x => if fl x.f ≠ 0 then x.c else none

/-- `Flag(f) = v` -/
def upd (fl : Flags) (f : F) (v : Nat) : Flags := fun g => if g = f then v else fl g

/-- change_flag (misc.c:264-324); `me` is `procpid == kshpid` -/
def changeFlag (me : Bool) (f : F) (what v : Nat) (fl : Flags) : Flags :=
  let fl1 := upd fl f v
  let fl2 :=
    if f = .monitor then fl1
    else if f = .vi ∨ f = .emacs ∨ f = .gmacs then
      if v ≠ 0 then upd (upd (upd (upd fl1 .vi 0) .emacs 0) .gmacs 0) f v else fl1
    else if f = .posix ∧ v ≠ 0 then upd fl1 .brace 0
    else fl1
  if f = .talking ∧ (what = OF_CMDLINE ∨ what = OF_SET) ∧ me then upd fl2 .talkingI v else fl2

/-- The option strings (misc.c:343-362) -/
def letters (what : Nat) : List Char :=
  table.filterMap fun x => if x.flags &&& what ≠ 0 then x.c else none

def opts (what : Nat) : List Char :=
  if what = OF_CMDLINE then "o:".toList ++ letters OF_CMDLINE else "A:o;s".toList ++ letters OF_SET

/-- The local variables of parse_args; `prints` are the calls of printoptions -/
structure S where
  flags : Flags
  array : Option (Bool × Arg) := none
  sort : Bool := false
  prints : List Bool := []

/-- How the loop ends: with the state of ksh_getopt, by `return -1`, or with an internal error -/
inductive R
  | done (s : S) (g : G)
  | bad (s : S)
  | internal (s : S)

/-- One option (misc.c:377-430): go on with a state, or leave -/
def handle (me : Bool) (what : Nat) (c : Char) (plus : Bool) (optarg : Option Arg) (s : S) : S ⊕ R :=
  let set := if plus then 0 else 1
  if c = 'A' then .inl { s with array := some (!plus, optarg.getD []) }
  else if c = 'o' then
    match optarg with
    | none => .inl { s with prints := s.prints ++ [!plus] }
    | some n =>
      match option n with
      | some x =>
        if set = s.flags x.f then .inl s
        else if x.flags &&& what ≠ 0 then .inl { s with flags := changeFlag me x.f what set s.flags }
        else .inr (.bad s)
      | none => .inr (.bad s)
  else if c = '?' then .inr (.bad s)
  else if what = OF_SET ∧ c = 's' then .inl { s with sort := true }
  else
    match table.find? fun x => x.c == some c && x.flags &&& what ≠ 0 with
    | some x => .inl { s with flags := changeFlag me x.f what set s.flags }
    | none => .inr (.internal s)

/-- The loop over the options (misc.c:375-431).  `optarg` is cleared before each call, which does
not matter because it is only used after `A` and `o`, for which ksh_getopt sets it. -/
def loop (me : Bool) (what : Nat) (argv : List Arg) : Nat → G → S → Option R
  | 0, _, _ => none
  | n + 1, g, s =>
    match getopt true (opts what) argv { g with optarg := none } with
    | none => none
    | some (none, _, g') => some (.done s g')
    | some (some c, _, g') =>
      match handle me what c g'.plus g'.optarg s with
      | .inl s' => loop me what argv n g' s'
      | .inr r => some r

/-- a parameter name (`skip_varname(array, false)` reaches the end) -/
def isName : Arg → Bool
  | [] => false
  | c :: s => (c.isAlpha || c = '_') && s.all fun c => c.isAlphanum || c = '_'

/-- What parse_args did: the flags, the result (`none` for -1), `*setargsp`, the positional part -/
structure Out where
  flags : Flags
  argi : Option Nat
  setargs : Bool
  sort : Bool
  array : Option (Bool × Arg)
  prints : List Bool

/-- the test for `-` as the name of a login shell (misc.c:367-371) -/
def loginName (a : Arg) : Bool :=
  a.head? = some '-' || ('/' ∈ a && ((a.reverse.takeWhile (· ≠ '/')).reverse).head? = some '-')

/-- parse_args (misc.c:329-465).  A lone `-` or `+` is looked for unless there was a `--`. -/
def parseArgs (me : Bool) (what : Nat) (argv : List Arg) (fl : Flags) : Option Out :=
  let fl := if what = OF_CMDLINE then upd fl .login (if loginName (argv.headD []) then 1 else 0) else fl
  (loop me what argv ((argv.map fun a => a.length + 1).sum + 1) reset { flags := fl }).map fun r =>
    match r with
    | .bad s => ⟨s.flags, none, false, s.sort, s.array, s.prints⟩
    | .internal s => ⟨s.flags, none, false, s.sort, s.array, s.prints⟩
    | .done s g =>
      let cur := argv[g.optind]?
      let lone := !g.minusminus && (cur == some ['-'] || cur == some ['+'])
      let fl := if lone && cur == some ['-'] && s.flags .posix = 0 then upd (upd s.flags .verbose 0) .xtrace 0 else s.flags
      let i := if lone then g.optind + 1 else g.optind
      let setargs := s.array.isNone && (g.minusminus || i < argv.length)
      match s.array with
      | some (_, a) =>
        if isName a then ⟨fl, some argv.length, setargs, s.sort, s.array, s.prints⟩
        else ⟨fl, none, setargs, s.sort, s.array, s.prints⟩
      | none => ⟨fl, some i, setargs, s.sort, s.array, s.prints⟩

/-- c_set with arguments (c_sh.c:614-647): the flags, the positional parameters and whether it
succeeded.  `sort` is qsort(3) with strcmp. -/
def cset (me : Bool) (sort : List Arg → List Arg) (argv : List Arg) (fl : Flags) (pos : List Arg) : Option (Flags × List Arg × Bool) :=
  (parseArgs me OF_SET argv fl).map fun o =>
    match o.argi with
    | none => (o.flags, pos, false)
    | some i =>
      let rest := argv.drop i
      (o.flags, if o.setargs then (if o.sort then sort rest else rest) else pos, true)

/-- the short listing of `set +o` (misc.c:239-245): the words of the output -/
def shortList (fl : Flags) : List Arg :=
  "set".toList :: table.flatMap fun x =>
    match x.name with
    | some n => [(if fl x.f ≠ 0 then "-o" else "+o").toList, n]
    | none => []

/-- `strstr(s, t)` -/
def isIn (t : Arg) : Arg → Bool
  | [] => t.isEmpty
  | c :: s => t.isPrefixOf (c :: s) || isIn t s

/-- set_editmode (edit.c:214-234), for the values of `EDITOR` and `VISUAL` -/
def setEditmode (me : Bool) (ed : Arg) (fl : Flags) : Flags :=
  let ed := (ed.reverse.takeWhile (· ≠ '/')).reverse
  if isIn "emacs".toList ed then changeFlag me .emacs OF_SPECIAL 1 fl
  else if isIn "gmacs".toList ed then changeFlag me .gmacs OF_SPECIAL 1 fl
  else if isIn "vi".toList ed then changeFlag me .vi OF_SPECIAL 1 fl
  else fl

/-- The flags before the environment is imported (main.c:240-277); `sh`: the shell was called as sh -/
def initial (sh : Bool) : Flags :=
  let fl := upd (upd (fun _ => 0) .nohup 1) .brace 1
  let fl := upd fl .sh (if sh then 1 else 0)
  upd (changeFlag true .emacs OF_SPECIAL 1 fl) .vitab 1

end Ksh.Options
