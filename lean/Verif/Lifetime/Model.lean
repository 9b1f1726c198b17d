/-!
# How long assignments and declarations last

Modelled: the assignments in front of a command and the block made for them (`comexec`,
exec.c:448-527), `newblock` and `popblock` (var.c:55-98), where `global` and `local` find or make a
variable (var.c:246-268, 273-325), and that `typeset` declares in the innermost block whatever it was made
for (c_ksh.c:706-707, var.c:657-659).

Simplifications.  A variable is its value, or not set; attributes, arrays, read-only and special variables are in
`Vars`, `Varmem`, `Arr`, `Special`.  Values are computed from the variables that are visible.  A call of a function
or of eval is given by the commands that are run; `regular` stands for any other command that may run or
assign something (`read x`, a program).  Errors and jumps out of the body (`Leave`) are left out, and
`unset` (C33).  `set -a` is not set (exec.c:512-513).
-/
namespace Ksh.Lifetime

abbrev Name := Nat
abbrev Str := List Char

/-- A value, computed from what is visible. -/
abbrev Expr := (Name → Option Str) → Str

/-- Which command it is: a special built-in (with KEEPASN), perhaps behind `command`; another
command; a function of either kind. -/
inductive Kind where
  | special (via : Bool)
  | regular
  | ksh
  | posix
  deriving DecidableEq

inductive Cmd where
  | nop
  | note (x : Name)                      -- prints `$x`
  | seq (a b : Cmd)
  | set (as : List (Name × Expr))        -- assignments and no command
  | typeset (as : List (Name × Expr)) (via : Bool) (x : Name) (v : Option Expr)
  | call (as : List (Name × Expr)) (k : Kind) (body : Cmd)

/-- A block: its variables, each with a value or not set. -/
abbrev Block := Name → Option (Option Str)

structure St where
  bs : List Block               -- genv->loc, innermost first, without the last
  g : Name → Option Str         -- the last block
  out : List (Name × Option Str) := []

/-- `global` (var.c:246-259) and the value. -/
def look : List Block → (Name → Option Str) → Name → Option Str
  | [], g, x => g x
  | b :: r, g, x =>
    match b x with
    | some v => v
    | none => look r g x

/-- Setting what `global` finds, or makes in the last block. -/
def put (x : Name) (v : Option Str) : List Block → (Name → Option Str) → List Block × (Name → Option Str)
  | [], g => ([], fun y => if y = x then v else g y)
  | b :: r, g =>
    if (b x).isSome then ((fun y => if y = x then some v else b y) :: r, g)
    else let q := put x v r g; (b :: q.1, q.2)

def St.vis (s : St) : Name → Option Str := look s.bs s.g

/-- `typeset(cp, 0, ...)`: an assignment. -/
def assign (x : Name) (v : Option Str) (s : St) : St :=
  { s with bs := (put x v s.bs s.g).1, g := (put x v s.bs s.g).2 }

/-- `local` (var.c:273-325) without a value: a new variable is not set. -/
def declare (x : Name) (s : St) : St :=
  match s.bs with
  | [] => s
  | b :: r => { s with bs := (fun y => if y = x then some ((b x).getD none) else b y) :: r }

/-- `typeset(cp, LOCAL|..., ...)` with a value. -/
def setLocal (x : Name) (v : Str) (s : St) : St :=
  match s.bs with
  | [] => { s with g := fun y => if y = x then some v else s.g y }
  | b :: r => { s with bs := (fun y => if y = x then some (some v) else b y) :: r }

/-- The loop over the assignments (exec.c:514-527), for each of its three uses. -/
def assigns : List (Name × Expr) → St → St
  | [], s => s
  | a :: l, s => assigns l (assign a.1 (some (a.2 s.vis)) s)

def locals : List (Name × Expr) → St → St
  | [], s => s
  | a :: l, s => locals l (setLocal a.1 (a.2 s.vis) s)

/-- `bourne_function_call`: both (exec.c:525-527). -/
def boths : List (Name × Expr) → St → St
  | [], s => s
  | a :: l, s =>
    let v := a.2 s.vis
    boths l (setLocal a.1 v (assign a.1 (some v) s))

def newblock (s : St) : St := { s with bs := (fun _ => none) :: s.bs }
def popblock (s : St) : St := { s with bs := s.bs.tail }

/-- `typeset x`, `typeset x=v` (c_typeset); the operand is expanded before the assignments are made
(exec.c:90-93). -/
def doTypeset (x : Name) (v : Option Str) (s : St) : St :=
  match v with
  | none => declare x s
  | some t => setLocal x t s

def exec : Cmd → St → St
  | .nop, s => s
  | .note x, s => { s with out := s.out ++ [(x, s.vis x)] }
  | .seq a b, s => exec b (exec a s)
  | .set as, s => assigns as s
  | .typeset as via x v, s =>
    let t := v.map (fun e => e s.vis)
    -- exec.c:500-511: `=typeset` keeps assignments, unless behind `command`
    if via then popblock (doTypeset x t (locals as (newblock s)))
    else doTypeset x t (assigns as s)
  | .call as k body, s =>
    match k with
    | .special false => exec body (assigns as s)
    | .posix => popblock (exec body (boths as (newblock s)))
    | _ => popblock (exec body (locals as (newblock s)))

end Ksh.Lifetime
