/-!
# Model of `ksh_getopt` (misc.c:848-977) and its use by `getopts` (c_ksh.c:1318-1331)

`argv` is the list of all arguments including `argv[0]`.  Reading a string behind its NUL or
`argv` behind its terminating `NULL` is the distinct outcome `none`.  `bi_errorf` for
`GF_ERROR` is left out (the caller sees `?` either way).
-/

namespace Ksh.Getopt

abbrev Arg := List Char

/-- The members of `Getopt` that change; `plus`/`minusminus` stand for `info`. -/
structure G where
  optind : Nat
  p : Nat
  optarg : Option Arg
  plus : Bool
  minusminus : Bool
  deriving DecidableEq, Repr

/-- What a call does: value returned (`none` for -1) and warning printed. -/
inductive Msg
  | unknown (c : Char)
  | requires (c : Char)
  deriving DecidableEq, Repr

/-- `ksh_getopt_reset`, misc.c:848-856 -/
def reset : G := ⟨1, 0, none, false, false⟩

/-- `argv[i][p]`; `some none` is the NUL. -/
def chr (argv : List Arg) (i p : Nat) : Option (Option Char) :=
  match argv[i]? with
  | none => none
  | some a => if p ≤ a.length then some a[p]? else none

/-- `argv[i]`; `some none` is the `NULL` at the end. -/
def arg (argv : List Arg) (i : Nat) : Option (Option Arg) :=
  if i ≤ argv.length then some argv[i]? else none

/-- `strchr` -/
def strchr : List Char → Char → Option (List Char)
  | [], _ => none
  | d :: r, c => if d = c then some (d :: r) else strchr r c

def digit (c : Char) : Bool := '0' ≤ c && c ≤ '9'

/-- the test of misc.c:961-962 and 968-969 -/
def number (s : Arg) : Bool :=
  (match s with | [] => false | c :: _ => digit c) || s = "unlimited".toList

/-- misc.c:890-908: the next argument. -/
def fresh (plusopt : Bool) (argv : List Arg) (g : G) : Option (Option Char × G) :=
  match arg argv g.optind with
  | none => none
  | some none => some (none, { g with p := 0 })
  | some (some a) =>
    if a = ['-', '-'] then some (none, { g with optind := g.optind + 1, p := 0, minusminus := true })
    else
      match a with
      | [] => some (none, { g with p := 0 })
      | flag :: rest =>
        if flag ≠ '-' ∧ (plusopt = false ∨ flag ≠ '+') then some (none, { g with p := 0 })
        else
          match rest with
          | [] => some (none, { g with p := 0 })
          | c :: _ => some (some c, { g with p := 1, optind := g.optind + 1, plus := flag ≠ '-' })

/-- The first part, misc.c:889-909: the option character, or `none` if options end. -/
def pick (plusopt : Bool) (argv : List Arg) (g : G) : Option (Option Char × G) :=
  if g.p = 0 then fresh plusopt argv g
  else
    match chr argv (g.optind - 1) g.p with
    | none => none
    | some none => fresh plusopt argv g
    | some (some c) => some (some c, g)

/-- `ksh_getopt`, misc.c:883-977.  Answer: value returned (`none` for -1), warning, state;
`none` altogether for an access out of bounds. -/
def getopt (plusopt : Bool) (options : List Char) (argv : List Arg) (g : G) : Option (Option Char × Option Msg × G) :=
  match pick plusopt argv g with
  | none => none
  | some (none, g) => some (none, none, g)
  | some (some c, g) =>
    let g := { g with p := g.p + 1 }
    let silent := options.head? = some ':'
    if c = '?' ∨ c = ':' ∨ c = ';' ∨ c = ',' ∨ c = '#' ∨ strchr options c = none then
      if silent then some (some '?', none, { g with optarg := some [c] })
      else some (some '?', some (.unknown c), g)
    else
      let o := ((strchr options c).getD []).drop 1
      let cur := (argv[g.optind - 1]?.getD []).drop g.p
      match chr argv (g.optind - 1) g.p, arg argv g.optind with
      | some here, some next =>
        if o.head? = some ':' ∨ o.head? = some ';' then
          if here ≠ none then some (some c, none, { g with optarg := some cur, p := 0 })
          else match next with
            | some a => some (some c, none, { g with optarg := some a, optind := g.optind + 1, p := 0 })
            | none =>
              if o.head? = some ';' then some (some c, none, { g with optarg := none, p := 0 })
              else if silent then some (some ':', none, { g with optarg := some [c] })
              else some (some '?', some (.requires c), g)
        else if o.head? = some ',' then some (some c, none, { g with optarg := some cur, p := 0 })
        else if o.head? = some '#' then
          if here ≠ none then
            if number cur then some (some c, none, { g with optarg := some cur, p := 0 })
            else some (some c, none, { g with optarg := none })
          else match next with
            | some a =>
              if number a then some (some c, none, { g with optarg := some a, optind := g.optind + 1, p := 0 })
              else some (some c, none, { g with optarg := none })
            | none => some (some c, none, { g with optarg := none })
        else some (some c, none, g)
      | _, _ => none

/-- What a caller sees of one call. -/
structure Ev where
  plus : Bool
  ret : Char
  optarg : Option Arg
  msg : Option Msg
  deriving DecidableEq, Repr

/-- Repeated calls until -1, with `optarg` cleared before each as in c_ksh.c:1318.  Answer:
the results and the final state. -/
def run : Nat → Bool → List Char → List Arg → G → Option (List Ev × G)
  | 0, _, _, _, _ => none
  | n + 1, plusopt, options, argv, g =>
    match getopt plusopt options argv { g with optarg := none } with
    | none => none
    | some (none, _, g') => some ([], g')
    | some (some c, m, g') => (run n plusopt options argv g').map fun (es, g'') => (⟨g'.plus, c, g'.optarg, m⟩ :: es, g'')

end Ksh.Getopt
