import Verif.Options.Model

/-!
# The start of the shell (main.c:127-145, 342-460, 836-854; misc.c:300-318)

What is read, the positional parameters, the files read before, the restricted mode and the user ids.  The options are parsed by
`Options.parseArgs`.  Parameters: which files can be opened, which descriptors are terminals, what reading a start-up file does to
the shell (`incl`; `none` if it leaves the shell) and what substitution makes of a word.  Built without PLEDGE and DEFAULT_ENV.
Not modelled: job control, the history and the warning about the current directory.
-/

namespace Ksh.Start

open Ksh.Options

abbrev Str := List Char

/-! ## User ids -/

/-- The ids of the process. -/
structure Ids where
  ruid : Nat
  euid : Nat
  suid : Nat
  rgid : Nat
  egid : Nat
  sgid : Nat
  groups : List Nat
  deriving DecidableEq, Repr

/-- setresuid(2): the super-user may set anything, others only to what they have; failures are ignored by the caller. -/
def setresuid (i : Ids) (r e s : Nat) : Ids :=
  if i.euid = 0 ∨ (∀ x ∈ [r, e, s], x ∈ [i.ruid, i.euid, i.suid]) then { i with ruid := r, euid := e, suid := s } else i

/-- setresgid(2) -/
def setresgid (i : Ids) (r e s : Nat) : Ids :=
  if i.euid = 0 ∨ (∀ x ∈ [r, e, s], x ∈ [i.rgid, i.egid, i.sgid]) then { i with rgid := r, egid := e, sgid := s } else i

/-- setgroups(2) -/
def setgroups (i : Ids) (l : List Nat) : Ids := if i.euid = 0 then { i with groups := l } else i

/-- main.c:342: the option before the arguments are parsed -/
def priv0 (i : Ids) : Bool := i.ruid ≠ i.euid || i.rgid ≠ i.egid

/-- change_flag(FPRIVILEGED, …, v), misc.c:270-308; `ksheuid` is set once, main.c:328 -/
def changePriv (ksheuid : Nat) (st : Bool × Ids) (v : Bool) : Bool × Ids :=
  if st.1 && !v then
    let gid := st.2.rgid
    let i := setresgid st.2 gid gid gid
    let i := setgroups i [gid]
    (v, setresuid i ksheuid ksheuid ksheuid)
  else (v, st.2)

/-- A shell in which the option is turned on and off. -/
def privRun (ksheuid : Nat) : Bool × Ids → List Bool → Bool × Ids
  | st, [] => st
  | st, v :: l => privRun ksheuid (changePriv ksheuid st v) l

/-! ## Input and parameters -/

/-- Where commands come from. -/
inductive Src
  | str (s : Str)
  | file (f : Str)
  | stdin
  deriving DecidableEq, Repr

structure Sh where
  flags : Flags
  var : Str → Str
  /-- `l->argv`, with the `NULL` at the end, and `l->argc` -/
  argv : List (Option Str)
  argc : Int
  /-- variables made read-only -/
  ro : List Str := []

/-- What is outside. -/
structure W where
  openable : Str → Bool
  tty0 : Bool
  tty2 : Bool
  incl : Str → Sh → Option Sh
  /-- substitute(s, 0) and substitute(s, DOTILDE) -/
  subst : Sh → Str → Str
  substT : Sh → Str → Str

/-- main.c:350-377: the source, `kshname`, `argi` and the flags; `.inl` is the exit status after errorf (io.c:27-42 sets it to 1). -/
def input (w : W) (argv : List Str) (argi : Nat) (fl : Flags) : Nat ⊕ (Src × Str × Nat × Flags) :=
  let kshname := argv.headD []
  if fl .command ≠ 0 then
    match argv[argi]? with
    | none => .inl 1
    | some c =>
      match argv[argi + 1]? with
      | some n => .inr (.str c, n, argi + 2, fl)
      | none => .inr (.str c, kshname, argi + 1, fl)
  else if argi < argv.length ∧ fl .stdin = 0 then
    let f := argv[argi]?.getD []
    if w.openable f then .inr (.file f, f, argi + 1, fl)
    -- exstat = 127, which errorf overwrites
    else .inl 1
  else
    let fl := upd fl .stdin 1
    .inr (.stdin, kshname, argi, if w.tty0 && w.tty2 then upd (upd fl .talking 1) .talkingI 1 else fl)

/-- make_argv, main.c:132-145: `mem` is the memory from the second argument on; `none` if something behind the end is read. -/
def makeArgv (kshname : Str) (argc : Nat) (mem : List (Option Str)) : Option (List (Option Str)) :=
  ((List.range (argc - 1)).mapM fun i => mem[i + 1]?).map fun l => some kshname :: l ++ [none]

/-! ## Start-up files -/

/-- What has been included so far with the shell that each of the files saw, and the shell. -/
abbrev Tr := List (Str × Sh) × Option Sh

/-- include, main.c:476-540; a file that cannot be opened is passed over -/
def incl (w : W) (f : Sh → Str) (r : Tr) : Tr :=
  match r with
  | (t, none) => (t, none)
  | (t, some s) => (t ++ [(f s, s)], if w.openable (f s) then w.incl (f s) s else some s)

def cond (b : Sh → Bool) (g : Tr → Tr) (r : Tr) : Tr :=
  match r.2 with
  | some s => if b s then g r else r
  | none => r

/-- main.c:413-435 -/
def profiles (w : W) (s : Sh) : Tr :=
  let r : Tr := ([], some s)
  let r := cond (fun s => s.flags .login ≠ 0) (fun r =>
    cond (fun s => s.flags .privileged = 0) (incl w fun s => w.subst s "$HOME/.profile".toList) (incl w (fun _ => "/etc/profile".toList) r)) r
  match r.2 with
  | none => r
  | some s =>
    if s.flags .privileged ≠ 0 then incl w (fun _ => "/etc/suid_profile".toList) r
    else if s.flags .talking ≠ 0 then
      let f := w.substT s (s.var "ENV".toList)
      if f ≠ [] then incl w (fun _ => f) r else r
    else r

/-- is_restricted, main.c:836-854 -/
def isRestricted (name : Str) : Bool :=
  let n := (name.reverse.takeWhile (· ≠ '/')).reverse
  ["rsh".toList, "rksh".toList, "rpdksh".toList, "pdrksh".toList].contains n

inductive Out
  | exit (status : Nat)
  /-- a start-up file left the shell -/
  | left
  | run (src : Src) (s : Sh)

/-- main.c:346-458; `fl` are the flags before the arguments; `none` for an access out of bounds. -/
def start (w : W) (argv : List Str) (fl : Flags) (var : Str → Str) : Option (List (Str × Sh) × Out) :=
  match parseArgs true OF_CMDLINE argv fl with
  | none => none
  | some o =>
    match o.argi with
    | none => some ([], .exit 1)
    | some argi =>
      match input w argv argi o.flags with
      | .inl n => some ([], .exit n)
      | .inr (src, kshname, argi, fl) =>
        match makeArgv kshname (argv.length - (argi - 1)) ((argv.map some ++ [none]).drop (argi - 1)) with
        | none => none
        | some av =>
          let restricted := fl .restricted ≠ 0
          let errexit := fl .errexit ≠ 0
          let fl := upd (upd fl .restricted 0) .errexit 0
          match profiles w { flags := fl, var := var, argv := av, argc := (argv.length : Int) - argi } with
          | (t, none) => some (t, .left)
          | (t, some s) =>
            let restricted := restricted || isRestricted (argv.headD []) || isRestricted (s.var "SHELL".toList)
            let s := if restricted then
                { s with flags := upd s.flags .restricted 1, ro := s.ro ++ ["PATH".toList, "ENV".toList, "SHELL".toList] }
              else s
            let s := if errexit then { s with flags := upd s.flags .errexit 1 } else s
            let s := if s.flags .talking ≠ 0 then s else { s with flags := upd s.flags .trackall 1 }
            some (t, .run src s)

end Ksh.Start
