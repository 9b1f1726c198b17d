import Verif.Getopt.Model
import Verif.Num.Model
import Verif.Lex.Model
/-!
# Names of signals, trap and kill

Model of the table of names (inittraps, trap.c:24-44, posix_signals.h:41-123), gettrap (trap.c:92-119), c_trap (c_sh.c:475-516) and
c_kill (c_ksh.c:1145-1255).  What settrap does to the process is in `Verif/Trap`; here only the stored command counts.

Left out: the table printed by `kill -l` without operands (`Verif/Menu`), that bi_errorf may end a script for the special builtin
trap, j_kill (`Verif/Jobs`).  Letters are those of ASCII.
-/

namespace Ksh.Signal
open Ksh.Getopt (Arg)

/-- sigtraps: NSIG and the names of the entries 0 .. NSIG. -/
structure Table where
  nsig : Nat
  name : Nat → Option (List Char)

/-- inittraps (trap.c:24-44); `sys` is the list sys_signame without the empty entries at its end. -/
def initTable (nsig : Nat) (sys : List (List Char × Nat)) : Table :=
  ⟨nsig, fun i => if i = 0 then some ['E', 'X', 'I', 'T'] else if i = nsig then some ['E', 'R', 'R']
    else (sys.find? fun x => x.2 == i).map (·.1)⟩

def lower (s : List Char) : List Char := s.map Char.toLower

/-- strcmp or strcasecmp is 0. -/
def same (ic : Bool) (a b : List Char) : Bool := if ic then lower a == lower b else a == b

/-- Taking `SIG` off (trap.c:106-109). -/
def strip (ic : Bool) (s : List Char) : List Char := if same ic (s.take 3) ['S', 'I', 'G'] then s.drop 3 else s

/-- The loop of gettrap (trap.c:111-117). -/
def find (T : Table) (ic : Bool) (s : List Char) : Option Nat :=
  (List.range (T.nsig + 1)).find? fun i => match T.name i with
    | some nm => same ic nm s
    | none => false

/-- gettrap (trap.c:92-119): the index in sigtraps. -/
def gettrap (T : Table) (s : List Char) (ic : Bool) : Option Nat :=
  match s with
  | c :: r =>
    if Num.isDigit c then
      match Num.getn (c :: r) with
      | some n => if 0 ≤ n ∧ n < T.nsig then some n.toNat else none
      | none => none
    else find T ic (strip ic (c :: r))
  | [] => find T ic (strip ic [])

/-- The commands of the traps. -/
abbrev St := Nat → Option (List Char)

/-- settrap (trap.c:297-298). -/
def St.set (st : St) (n : Nat) (s : Option (List Char)) : St := fun m => if m = n then s else st m

/-- The loop of c_trap (c_sh.c:507-514): the status and the traps. -/
def setAll (T : Table) (s : Option (List Char)) : List Arg → St → Nat × St
  | [], st => (0, st)
  | w :: ws, st => match gettrap T w true with
    | none => (1, st)
    | some n => setAll T s ws (st.set n s)

/-- `-` stands for the default (c_sh.c:503-504). -/
def command (s : Arg) : Option (List Char) := if s = ['-'] then none else some s

/-- The text for one trap (c_sh.c:489-491; a null string is printed as in shf.c:930-931). -/
def line (s : List Char) (name : Option (List Char)) : List Char :=
  ['t', 'r', 'a', 'p', ' ', '-', '-', ' '] ++ Lex.printQuoted s ++ [' '] ++
    name.getD ['(', 'n', 'u', 'l', 'l', ' ', '%', 's', ')'] ++ ['\n']

/-- What `trap` prints (c_sh.c:487-493). -/
def listing (T : Table) (st : St) : List (List Char) :=
  (List.range (T.nsig + 1)).filterMap fun n => (st n).map fun s => line s (T.name n)

/-- The options of a builtin that has none: what follows them (c_sh.c:482-484 and the like). -/
def operands (argv : List Arg) : Option (List Arg) :=
  match Getopt.getopt false [] argv Getopt.reset with
  | some (none, _, g) => some (argv.drop g.optind)
  | _ => none

/-- c_trap (c_sh.c:475-516): output, status and traps. -/
def trap (T : Table) (argv : List Arg) (st : St) : List (List Char) × Nat × St :=
  match operands argv with
  | none => ([], 1, st)
  | some [] => (listing T st, 0, st)
  | some (w :: ws) =>
    ([], if gettrap T w false = none then setAll T (command w) ws st else setAll T none (w :: ws) st)

/-- What kill does for an operand (c_ksh.c:1236-1253). -/
inductive Call where
  /-- j_kill -/
  | job (p : Arg) (sig : Nat)
  | pid (n : Int) (sig : Nat)
  | pgrp (n : Int) (sig : Nat)
  /-- the message that this is neither a job nor a number -/
  | bad (p : Arg)
deriving DecidableEq

def target (sig : Nat) (p : Arg) : Call :=
  if p.head? = some '%' then .job p sig
  else match Num.getn p with
    | none => .bad p
    | some n => if n < -1 then .pgrp (-n) sig else .pid n sig

/-- A line of `kill -l status` (c_ksh.c:1192-1199): a name or a number. -/
def statusName (T : Table) (n : Int) : List Char ⊕ Int :=
  let n := if 128 < n ∧ n < 128 + T.nsig then n - 128 else n
  if 0 < n ∧ n < T.nsig then
    match T.name n.toNat with
    | some nm => .inl nm
    | none => .inr n
  else .inr n

inductive Out where
  | badSignal (s : Arg)
  /-- a wrong option: the message is ksh_getopt's -/
  | badOption
  | usage
  /-- the table -/
  | table
  /-- the lines of `kill -l status ..`; an operand that is no number ends it -/
  | names (l : List (List Char ⊕ Int)) (bad : Option Arg)
  | calls (l : List Call)
deriving DecidableEq

/-- The options (c_ksh.c:1164-1178); fuel is used up by each letter. -/
def options (T : Table) (argv : List Arg) : Nat → Getopt.G → Bool → Option Nat → Out ⊕ (Bool × Option Nat × List Arg)
  | 0, _, _, _ => .inl .usage
  | n + 1, g, lflag, t =>
    match Getopt.getopt false ['l', 's', ':'] argv g with
    | some (none, _, g') => .inr (lflag, t, argv.drop g'.optind)
    | some (some c, _, g') =>
      if c = 'l' then options T argv n g' true t
      else if c = 's' then
        match gettrap T (g'.optarg.getD []) true with
        | none => .inl (.badSignal (g'.optarg.getD []))
        | some k => options T argv n g' lflag (some k)
      else .inl .badOption
    | none => .inl .usage

/-- kill -l with operands (c_ksh.c:1191-1200). -/
def statusNames (T : Table) : List Arg → List (List Char ⊕ Int) × Option Arg
  | [] => ([], none)
  | p :: ps => match Num.getn p with
    | none => ([], some p)
    | some n => (statusName T n :: (statusNames T ps).1, (statusNames T ps).2)

/-- What follows the options (c_ksh.c:1181-1254).  15 is SIGTERM. -/
def act (T : Table) (lflag : Bool) (t : Option Nat) (ps : List Arg) : Out :=
  if (lflag = true ∧ t ≠ none) ∨ (ps = [] ∧ lflag = false) then .usage
  else if lflag then
    if ps = [] then .table else .names (statusNames T ps).1 (statusNames T ps).2
  else .calls (ps.map (target (t.getD 15)))

/-- The old style (c_ksh.c:1154-1155). -/
def old : Arg → Bool
  | '-' :: c :: _ => Num.isDigit c || Num.isUpper c
  | _ => false

/-- c_kill (c_ksh.c:1145-1255); `args` are the arguments without the name of the command. -/
def kill (T : Table) (args : List Arg) : Out :=
  match args with
  | p :: ps =>
    if old p then
      match gettrap T (p.drop 1) true with
      | none => .badSignal (p.drop 1)
      | some k => act T false (some k) (if ps.head? = some ['-', '-'] then ps.drop 1 else ps)
    else
      match options T (['k', 'i', 'l', 'l'] :: p :: ps) ((args.map (·.length + 1)).sum + 1) Getopt.reset false none with
      | .inl o => o
      | .inr (lflag, t, r) => act T lflag t r
  | [] => act T false none []

end Ksh.Signal
