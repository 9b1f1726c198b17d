import Verif.Getopt.Model
/-!
# Model of `print` and `echo` (`c_print`, c_ksh.c:204-404)

Characters have codes 1 to 255 in arguments and 0 to 255 in the output.  The file
descriptors for `-p` and `-u` come from an oracle (`coproc_getfd`, `check_fd`); blocking
`SIGPIPE` and messages are left out.
-/

namespace Ksh.Print
open Ksh.Getopt (Arg G)

/-- the bits of `flags`, c_ksh.c:207-211, and `fd` -/
structure Flags where
  nl : Bool := true
  expand : Bool := true
  pmm : Bool := false
  hist : Bool := false
  fd : Nat := 1
  deriving DecidableEq, Repr

/-- c_ksh.c:239-250, the inner loop of `echo` over one argument: `none` for a bad option. -/
def echoWord : List Char → Flags → Option Flags
  | [], f => some f
  | c :: r, f =>
    if c = 'n' then echoWord r { f with nl := false }
    else if c = 'e' then echoWord r { f with expand := true }
    else if c = 'E' then echoWord r { f with expand := false }
    else none

/-- c_ksh.c:238-255 -/
def echoOpts : List Arg → Flags → Flags × List Arg
  | [], f => (f, [])
  | a :: r, f =>
    match a with
    | '-' :: c :: cs =>
      match echoWord (c :: cs) f with
      | some f' => echoOpts r f'
      | none => (f, a :: r)
    | _ => (f, a :: r)

/-- c_ksh.c:231-256 -/
def echoArgs (posix : Bool) (args : List Arg) : Flags × List Arg :=
  if posix then
    match args with
    | ['-', 'n'] :: r => ({ nl := false }, r)
    | _ => ({}, args)
  else echoOpts args {}

/-- what `-p` (`none`) and `-u` (its argument) find -/
abbrev Fds := Option Arg → Option Nat

/-- The option loop of `print`, c_ksh.c:258-295; `none` for `return 1` (or no fuel).
`optarg` is read only behind `-u`, which always sets it, so that clearing it before each
call changes nothing. -/
def printOpts (fds : Fds) : Nat → List Char → List Arg → G → Flags → Option (Flags × G)
  | 0, _, _, _, _ => none
  | n + 1, options, argv, g, f =>
    match Getopt.getopt false options argv { g with optarg := none } with
    | none => none
    | some (none, _, g') => some (f, g')
    | some (some c, _, g') =>
      if c = 'R' then printOpts fds n ['n', 'e'] argv g' { f with pmm := true, expand := false }
      else if c = 'e' then printOpts fds n options argv g' { f with expand := true }
      else if c = 'n' then printOpts fds n options argv g' { f with nl := false }
      else if c = 'p' then
        match fds none with
        | none => none
        | some d => printOpts fds n options argv g' { f with fd := d }
      else if c = 'r' then printOpts fds n options argv g' { f with expand := false }
      else if c = 's' then printOpts fds n options argv g' { f with hist := true }
      else if c = 'u' then
        match g'.optarg with
        | none => none
        | some [] => printOpts fds n options argv g' { f with fd := 0 }
        | some a =>
          match fds (some a) with
          | none => none
          | some d => printOpts fds n options argv g' { f with fd := d }
      else if c = '?' then none
      else printOpts fds n options argv g' f

/-- c_ksh.c:296-303 -/
def printArgs (fds : Fds) (n : Nat) (argv : List Arg) : Option (Flags × List Arg) :=
  match printOpts fds n ['R', 'n', 'p', 'r', 's', 'u', ','] argv Getopt.reset {} with
  | none => none
  | some (f, g) =>
    let i := if g.minusminus = false then (if argv[g.optind]? = some ['-'] then g.optind + 1 else g.optind)
      else if f.pmm then g.optind - 1 else g.optind
    some (f, argv.drop i)

/-- c_ksh.c:335-342: up to three octal digits, `n` allowed. -/
def octal : Nat → Nat → List Char → Nat × List Char
  | 0, v, s => (v, s)
  | n + 1, v, s =>
    match s with
    | c :: r => if '0' ≤ c ∧ c ≤ '7' then octal n (v * 8 + (c.toNat - '0'.toNat)) r else (v, s)
    | [] => (v, s)

theorem octal_length : ∀ n v s, (octal n v s).2.length ≤ s.length
  | 0, _, _ => Nat.le_refl _
  | n + 1, v, s => by
    cases s with
    | nil => simp [octal]
    | cons c r =>
      simp only [octal]
      split
      · exact Nat.le_trans (octal_length n _ r) (by simp)
      · exact Nat.le_refl _

/-- `Xput` stores a `char` -/
def byte (n : Nat) : Char := Char.ofNat (n % 256)

/-- One argument, c_ksh.c:311-350: the characters put, and whether the newline is kept. -/
def one (expand nl : Bool) (s : List Char) : List Char × Bool :=
  match s with
  | [] => ([], nl)
  | c :: t =>
    if expand && c = '\\' then
      match t with
      | [] => (['\\'], nl)
      | d :: u =>
        let put (out : List Char) (x : List Char × Bool) := (out ++ x.1, x.2)
        if d = 'a' then put [byte 7] (one expand nl u)
        else if d = 'b' then put [byte 8] (one expand nl u)
        else if d = 'c' then one expand false u
        else if d = 'f' then put [byte 12] (one expand nl u)
        else if d = 'n' then put [byte 10] (one expand nl u)
        else if d = 'r' then put [byte 13] (one expand nl u)
        else if d = 't' then put [byte 9] (one expand nl u)
        else if d = 'v' then put [byte 11] (one expand nl u)
        else if d = '0' then put [byte (octal 3 0 u).1] (one expand nl (octal 3 0 u).2)
        else if d = '\\' then put ['\\'] (one expand nl u)
        else put ['\\', d] (one expand nl u)
    else (c :: (one expand nl t).1, (one expand nl t).2)
termination_by s.length
decreasing_by
  all_goals simp only [List.length_cons]
  all_goals first
    | omega
    | (have h := octal_length 3 0 u; omega)

/-- All arguments, c_ksh.c:308-353 -/
def body (expand : Bool) : Bool → List Arg → List Char × Bool
  | nl, [] => ([], nl)
  | nl, [a] => one expand nl a
  | nl, a :: b :: r =>
    let x := one expand nl a
    let y := body expand x.2 (b :: r)
    (x.1 ++ ' ' :: y.1, y.2)

/-- c_ksh.c:354-355 -/
def output (f : Flags) (args : List Arg) : List Char :=
  let x := body f.expand f.nl args
  if x.2 then x.1 ++ ['\n'] else x.1

/-- An answer of `write`: a number of bytes, an interruption that lets the loop go on, or
another error. -/
inductive W
  | wrote (n : Nat)
  | eintr
  | err

/-- The loop c_ksh.c:375-398: what reaches the file, and the exit status (`none` if the
answers run out). -/
def writeAll : List W → List Char → List Char × Option Nat
  | _, [] => ([], some 0)
  | [], _ => ([], none)
  | .wrote n :: ws, s => (s.take n ++ (writeAll ws (s.drop n)).1, (writeAll ws (s.drop n)).2)
  | .eintr :: ws, s => writeAll ws s
  | .err :: _, _ => ([], some 1)

inductive Result
  | error
  | hist (s : List Char)
  | out (fd : Nat) (s : List Char)
  deriving DecidableEq, Repr

/-- `c_print` up to the writing -/
def cprint (posix : Bool) (fds : Fds) (n : Nat) (argv : List Arg) : Result :=
  let fin (f : Flags) (args : List Arg) := if f.hist then Result.hist (output f args) else .out f.fd (output f args)
  match argv with
  | [] => .error
  | name :: args =>
    if name.head? = some 'e' then
      let (f, r) := echoArgs posix args
      fin f r
    else match printArgs fds n (name :: args) with
      | none => .error
      | some (f, r) => fin f r

end Ksh.Print
