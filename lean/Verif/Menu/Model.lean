/-!
# Lists in columns and the select command

Model of print_columns (misc.c:1013-1064), its four users (select_fmt_entry and pr_menu, exec.c:1290-1344; plain_fmt_entry and
pr_list, edit.c:297-357; kill_fmt_entry and kill -l, c_ksh.c:1125-1233; options_fmt_entry and printoptions,
misc.c:202-238), do_selectargs (exec.c:1251-1281) and the loop of select (exec.c:276-317).

Characters are bytes.  Simplified: x_cols is a natural number (edit.c:78 and var.c:1030-1042 keep it at least MIN_COLS); int does
not overflow; `read -r REPLY` is an oracle that delivers the values it gives REPLY, and fails when there are no more.
-/

namespace Ksh.Menu

/-! ## Formats -/

/-- The digits of a number: "%d" for a number that is not negative; the bound is for termination only. -/
def decF : Nat → Nat → List Char
  | 0, n => [Char.ofNat (48 + n % 10)]
  | f + 1, n => if n < 10 then [Char.ofNat (48 + n)] else decF f (n / 10) ++ [Char.ofNat (48 + n % 10)]

def dec (n : Nat) : List Char := decF n n

def spaces (n : Nat) : List Char := List.replicate n ' '

/-- "%-*s" -/
def ljust (w : Nat) (s : List Char) : List Char := s ++ spaces (w - s.length)

/-- "%*s" and "%*d" -/
def rjust (w : Nat) (s : List Char) : List Char := spaces (w - s.length) ++ s

/-! ## Columns -/

/-- The number of rows and columns (misc.c:1028-1042). -/
def grid (x n mw : Nat) (prefcol : Bool) : Nat × Nat :=
  let cols := if x / (mw + 1) = 0 then 1 else x / (mw + 1)
  let rows := (n + cols - 1) / cols
  if prefcol && n != 0 && decide (rows < cols) then (if n < cols then n else cols, rows) else (rows, cols)

/-- nspace (misc.c:1047-1049).  A negative difference gives a quotient that is not positive, as 0 does here. -/
def gap (x mw cols : Nat) : Nat := if (x - mw * cols) / cols = 0 then 1 else (x - mw * cols) / cols

/-- The inner loop (misc.c:1051-1059); the caller's function writes at most `mw` characters. -/
def row (n rows cols cw sp : Nat) (ent : Nat → List Char) (r : Nat) : List Char :=
  (List.range cols).flatMap fun c =>
    if c * rows + r < n then ljust cw (ent (c * rows + r)) ++ (if c + 1 < cols then spaces sp else []) else []

/-- col_width (misc.c:1044-1046). -/
def colWidth (mw cols : Nat) : Nat := if cols = 1 then 0 else mw

/-- print_columns (misc.c:1016-1064); `func` formats an element into a buffer of the given size. -/
def printColumns (x n : Nat) (func : Nat → Nat → List Char) (mw : Nat) (prefcol : Bool) : List Char :=
  let g := grid x n mw prefcol
  (List.range g.1).flatMap fun r =>
    row n g.1 g.2 (colWidth mw g.2) (gap x mw g.2) (fun i => func i (mw + 1)) r ++ ['\n']

/-- shf_snprintf into a buffer of `size` bytes. -/
def snprintf (size : Nat) (s : List Char) : List Char := s.take (size - 1)

/-- The longest of some lengths, as the loops of the callers compute it. -/
def widest (l : List Nat) : Nat := l.foldl (fun m i => if m < i then i else m) 0

/-- The number of digits (exec.c:1329, c_ksh.c:1212): `for (i = n, d = 1; i >= 10; i /= 10) d++`. -/
def digitsF : Nat → Nat → Nat
  | 0, _ => 1
  | f + 1, n => if n < 10 then 1 else digitsF f (n / 10) + 1

def digits (n : Nat) : Nat := digitsF n n

/-- select_fmt_entry (exec.c:1291-1299). -/
def selectEntry (ap : List (List Char)) (numWidth i size : Nat) : List Char :=
  snprintf size (rjust numWidth (dec (i + 1)) ++ [')', ' '] ++ ap.getD i [])

/-- pr_menu (exec.c:1304-1343). -/
def prMenu (x : Nat) (ap : List (List Char)) : List Char :=
  let nwidth := widest (ap.map List.length)
  let dwidth := digits ap.length
  printColumns x ap.length (selectEntry ap dwidth) (dwidth + nwidth + 2) true

/-- iscntrl, in the C locale. -/
def cntrl (c : Char) : Bool := c.toNat < 32 || c.toNat == 127

/-- UNCTRL (edit.h:21). -/
def unctrl (c : Char) : Char := if c.toNat = 127 then '?' else Char.ofNat (c.toNat ||| 64)

/-- plain_fmt_entry (edit.c:297-324). -/
def plainFmt : List Char → Nat → List Char
  | [], _ => []
  | c :: s, bsize =>
    if cntrl c then (if bsize < 3 then [] else '^' :: unctrl c :: plainFmt s (bsize - 2))
    else if bsize < 2 then [] else c :: plainFmt s (bsize - 1)

/-- strlen_esc (edit.c:327-340). -/
def strlenEsc : List Char → Nat
  | [] => 0
  | c :: s => (if cntrl c then 1 else 0) + 1 + strlenEsc s

/-- pr_list (edit.c:342-357). -/
def prList (x : Nat) (ap : List (List Char)) : List Char :=
  printColumns x ap.length (fun i size => plainFmt (ap.getD i []) size) (widest (ap.map strlenEsc) + 1) false

/-- A signal: its name, if it has one, its number and its message. -/
structure Sig where
  name : Option (List Char)
  signal : Nat
  mess : List Char

/-- The middle field of a line of kill -l (c_ksh.c:1131-1141). -/
def Sig.shown (s : Sig) : List Char := s.name.getD (dec s.signal)

/-- kill_fmt_entry (c_ksh.c:1125-1143). -/
def killEntry (sigs : List Sig) (numWidth nameWidth i size : Nat) : List Char :=
  match sigs[i + 1]? with
  | none => []
  | some s => snprintf size (rjust numWidth (dec (i + 1)) ++ [' '] ++ rjust nameWidth s.shown ++ [' '] ++ s.mess)

/-- kill -l (c_ksh.c:1205-1232); `sigs` are the NSIG elements of sigtraps. -/
def killList (x : Nat) (sigs : List Sig) : List Char :=
  let numWidth := digits sigs.length
  let nameWidth := widest (sigs.map fun s => match s.name with | some n => n.length | none => numWidth)
  let messWidth := widest (sigs.map fun s => s.mess.length)
  printColumns x (sigs.length - 1) (killEntry sigs numWidth nameWidth) (numWidth + nameWidth + messWidth + 3) true

/-- options_fmt_entry (misc.c:202-211). -/
def optEntry (opts : List (List Char × Bool)) (width i size : Nat) : List Char :=
  match opts[i]? with
  | none => []
  | some o => snprintf size (ljust width o.1 ++ [' '] ++ (if o.2 then ['o', 'n'] else ['o', 'f', 'f']))

/-- printoptions (misc.c:214-237), the verbose version without its heading. -/
def printOpts (x : Nat) (opts : List (List Char × Bool)) : List Char :=
  let w := widest (opts.map fun o => o.1.length)
  printColumns x opts.length (optEntry opts w) (w + 5) true

/-! ## The answers -/

/-- isspace, in the C locale. -/
def space (c : Char) : Bool := c == ' ' || (9 ≤ c.toNat && c.toNat ≤ 13)

def isDigit (c : Char) : Bool := '0' ≤ c && c ≤ '9'

/-- The value of a string of digits. -/
def value (s : List Char) : Nat := s.foldl (fun v c => v * 10 + (c.toNat - 48)) 0

/-- strtonum(s, 1, max) (used in exec.c:1275): white space, a sign, digits, and nothing after them; no number outside the range
of long long, or outside 1 .. max. -/
def strtonum (s : List Char) (max : Nat) : Option Nat :=
  let t := s.dropWhile space
  let neg := t.head? == some '-'
  let u := if neg || t.head? == some '+' then t.drop 1 else t
  if u = [] || !u.all isDigit then none
  else if neg then none
  else if value u > 9223372036854775807 then none
  else if value u < 1 || max < value u then none
  else some (value u)

/-- What select puts in its parameter for an answer (exec.c:1274-1278). -/
def choose (ap : List (List Char)) (s : List Char) : List Char :=
  match strtonum s ap.length with
  | none => []
  | some i => ap.getD (i - 1) []

/-- What select does, as it is seen: it shows the menu, asks (PS3), runs the commands with a word in the parameter. -/
inductive Ev where
  | menu
  | ask
  | run (reply word : List Char)
deriving DecidableEq

/-- do_selectargs (exec.c:1251-1281): what is done, and the answer, the word, and the input that is left; no answer if read
fails. -/
def selectArgs (ap : List (List Char)) : Bool → List Char → List (List Char) →
    List Ev × Option (List Char × List Char × List (List Char))
  | first, reply, input =>
    let evs := (if first || reply == [] then [Ev.menu] else []) ++ [.ask]
    match input with
    | [] => (evs, none)
    | s :: rest =>
      if s ≠ [] then (evs, some (s, choose ap s, rest))
      else (evs ++ (selectArgs ap true s rest).1, (selectArgs ap true s rest).2)

/-- The loop (exec.c:308-316).  `body` says what the commands make of REPLY; none for break.  The status is 1 at the end of the
input and 0 for break. -/
def loop (ap : List (List Char)) (body : List Char → List Char → Option (List Char)) :
    Nat → Bool → List Char → List (List Char) → List Ev × Option Nat
  | 0, _, _, _ => ([], none)
  | f + 1, first, reply, input =>
    match selectArgs ap first reply input with
    | (evs, none) => (evs, some 1)
    | (evs, some (s, w, rest)) =>
      match body s w with
      | none => (evs ++ [.run s w], some 0)
      | some reply' => (evs ++ [.run s w] ++ (loop ap body f false reply' rest).1, (loop ap body f false reply' rest).2)

/-- select (exec.c:276-317) with a value of REPLY and the answers that read will deliver. -/
def select (ap : List (List Char)) (body : List Char → List Char → Option (List Char)) (reply : List Char)
    (input : List (List Char)) : List Ev × Option Nat :=
  loop ap body (input.length + 1) true reply input

end Ksh.Menu
