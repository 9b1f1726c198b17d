import Verif.History.Vis
/-!
# The history in memory and in its file

`histsave`, `histbackup`, `histreset`, `sethistsize`, `sethistfile`, `hist_init`, `history_load`,
`history_write`, `hist_execute` and `hist_get` of history.c.

The array `history[]` holds identifiers of strings, and `heap` tells for each identifier
whether the string is still allocated.  An access outside the array, to a cell that has never been
set, or to a string that has been freed makes a function return `none`.

Not modelled: errors of the system calls (other than a failing open and a failing reallocarray), locking, NUL
bytes in the file, and a change of the file by another process between the check of its time and
the write (it is excluded by the lock).
-/
namespace Ksh.History

/-- The history file while it is open. -/
structure F where
  /-- what is in the file -/
  text : Bytes
  /-- its st_mtim is not that of `last_sb` -/
  stale : Bool := false
  /-- `line_co` -/
  lineCo : Nat := 1
  deriving DecidableEq, Repr

structure H where
  /-- `histsize` -/
  size : Nat
  /-- `history[0 .. histsize-1]`; `none` has not been set -/
  cells : List (Option Nat)
  /-- `histptr - history + 1`, the number of entries -/
  n : Nat := 0
  /-- the strings by identifier; `none` after afree() -/
  heap : List (Option Bytes) := []
  /-- `hist_source->line` -/
  line : Int := 0
  /-- `last_line` of histbackup -/
  lastLine : Int := -1
  /-- `ignoredups`, `ignorespace` -/
  dups : Bool := false
  space : Bool := false
  /-- `hname` is not NULL -/
  named : Bool := false
  /-- `histfh` -/
  file : Option F := none
  /-- isgraph() of the bytes above 127 -/
  hi : Byte → Bool := fun _ => false

/-- init_histvec, history.c:620-637. -/
def init (size : Nat) (hi : Byte → Bool) : H := { size := size, cells := List.replicate size none, hi := hi }

/-- `*hp` for the entry at position `i`. -/
def get (h : H) (i : Nat) : Option Bytes :=
  match h.cells[i]? with
  | some (some id) => (h.heap[id]?).join
  | _ => none

/-- `afree(history[i], APERM)`. -/
def freeAt (h : H) (i : Nat) : Option H :=
  match h.cells[i]? with
  | some (some id) =>
    match h.heap[id]? with
    | some (some _) => some { h with heap := h.heap.set id none }
    | _ => none
  | _ => none

/-- A loop of afree() over `k` entries from `i` on. -/
def freeFrom (h : H) (i : Nat) : Nat → Option H
  | 0 => some h
  | k + 1 => (freeAt h i).bind fun h => freeFrom h (i + 1) k

/-- `*histptr = c` for the last entry, with the copy of the command. -/
def setLast (h : H) (c : Bytes) : Option H :=
  if 0 < h.n ∧ h.n - 1 < h.cells.length then
    some { h with cells := h.cells.set (h.n - 1) (some h.heap.length), heap := h.heap ++ [some c] }
  else none

/-- Add an entry, history.c:699-706. -/
def push (h : H) (c : Bytes) : Option H :=
  if h.n < h.size then setLast { h with n := h.n + 1 } c
  else
    (freeAt h 0).bind fun h =>
      -- memmove(history, history + 1, (histsize - 1) * sizeof(*history))
      setLast { h with cells := h.cells.drop 1 ++ h.cells.drop (h.size - 1) } c

/-- `if ((cp = strrchr(c, '\n')) != NULL) *cp = '\0';`, history.c:670-671. -/
def chop (c : Bytes) : Bytes :=
  if 0x0a ∈ c then ((c.reverse.dropWhile (· != 0x0a)).drop 1).reverse else c

/-- The tests of histsave, history.c:666-681: `none` if the command is not saved.  The copy
`c` is made here; when it is a duplicate it is freed at once. -/
def accept (h : H) (cmd : Bytes) : Option (Option Bytes) :=
  if h.space && cmd.head? == some 0x20 then some none
  else if h.dups && 0 < h.n then
    match get h (h.n - 1) with
    | none => none
    | some last => some (if last = chop cmd then none else some (chop cmd))
  else some (some (chop cmd))

/-- `histsave(line_co, line, 0)`. -/
def saveMem (h : H) (cmd : Bytes) : Option H :=
  (accept h cmd).bind fun
    | none => some h
    | some c => push h c

/-- The entries that are read in turn, for history_write. -/
def entries (h : H) : Nat → Option (List Bytes)
  | 0 => some []
  | k + 1 => (entries h k).bind fun l => (get h k).map fun s => l ++ [s]

/-- history_write, history.c:846-875. -/
def write (h : H) (f : F) : Option H :=
  if f.lineCo < h.size + h.size / 4 then some { h with file := some f }
  else (entries h h.n).map fun l => { h with file := some { text := fileOf h.hi l, stale := false, lineCo := h.size } }

/-- The lines of the file are not followed by an incomplete one (the `return` at
history.c:781). -/
def intact : Nat → Bytes → Bool
  | 0, _ => true
  | k + 1, f =>
    let (enc, f') := fgets LINE f
    if enc = [] then true
    else if 0x0a ∈ enc then intact k f'
    else
      match discard k enc f' with
      | none => false
      | some f'' => intact k f''

/-- The loop of history_load over the decoded lines. -/
def loadLines (h : H) (lineCo : Nat) : List Bytes → Option (H × Nat)
  | [] => some (h, lineCo)
  | l :: ls => (saveMem { h with line := lineCo } l).bind fun h => loadLines h (lineCo + 1) ls

/-- history_load, history.c:763-802. -/
def load (h : H) (f : F) : Option H :=
  (loadLines h 1 ((lines f.text.length f.text).map strunvis)).bind fun (h, lineCo) =>
    if intact f.text.length f.text then write h { f with lineCo := lineCo }
    else some { h with file := some { f with lineCo := lineCo } }

/-- histreset, history.c:456-466. -/
def reset (h : H) : Option H := (freeFrom h 0 h.n).map fun h => { h with n := 0, line := 0 }

/-- `histsave(lno, cmd, 1)`, history.c:661-727; `lno` is not used. -/
def save (h : H) (cmd : Bytes) : Option H :=
  (accept h cmd).bind fun
    | none => some h
    | some c =>
      match h.file with
      | none => push h c
      | some f =>
        (if f.stale then (reset h).bind fun h => load h f else some h).bind fun h =>
          (push h c).bind fun h =>
            match h.file with
            | none => some h
            | some f => write h { text := f.text ++ (strvis h.hi c ++ [0x0a]), stale := false, lineCo := f.lineCo + 1 }

/-- histbackup, history.c:443-454. -/
def backup (h : H) : Option H :=
  if 0 < h.n ∧ h.lastLine ≠ h.line then
    (freeAt h (h.n - 1)).map fun h => { h with n := h.n - 1, line := h.line - 1, lastLine := h.line - 1 }
  else some h

/-- The lines of the text of hist_execute, history.c:316-325; a newline at its end is ignored. -/
def cmdLines (cmd : Bytes) : List Bytes :=
  let rec go : Bytes → Bytes → List Bytes
    | [], acc => [acc]
    | c :: s, acc => if c == 0x0a then (if s = [] then [acc] else acc :: go s []) else go s (acc ++ [c])
  go cmd []

def saveAll (h : H) : List Bytes → Option H
  | [] => some h
  | l :: ls => (save { h with line := h.line + 1 } l).bind fun h => saveAll h ls

/-- hist_execute, history.c:305-342, up to the execution. -/
def execute (h : H) (cmd : Bytes) : Option H := (backup h).bind fun h => saveAll h (cmdLines cmd)

/-- sethistsize, history.c:560-586, for `n > 0`; `ok` tells that reallocarray succeeds. -/
def resize (h : H) (n : Nat) (ok : Bool) : Option H :=
  if n = h.size then some h
  else
    (if h.n > n then
      (freeFrom h 0 (h.n - n)).map fun h =>
        -- memmove(history, histptr - offset, n * sizeof(char *)), offset = n - 1
        ({ h with cells := (h.cells.drop (h.n - n)).take n ++ h.cells.drop n }, n)
    else some (h, h.n)).map fun (h, m) =>
      if ok then { h with size := n, cells := h.cells.take n ++ List.replicate (n - h.cells.length) none, n := m } else h

/-- hist_init, history.c:807-843; `f` is the text of the file, or `none` if it cannot be
opened. -/
def openFile (h : H) : Option Bytes → Option H
  | none => some { h with named := true, file := none }
  | some t =>
    -- HMAGIC1, HMAGIC2
    if t.take 2 = [0xab, 0xcd] then some { h with named := true, file := none }
    else load { h with named := true } { text := t }

/-- sethistfile with a new name, history.c:593-615. -/
def setFile (h : H) (f : Option Bytes) : Option H :=
  (if h.named then reset h else some h).bind fun h => openFile h f

inductive Op
  /-- a line typed by the user: lex.c:1157-1160 -/
  | cmd (c : Bytes)
  /-- `print -s` or `read -s` in a file read by `.`, or in `eval`: there `source->line` is
  not `hist_source->line` (c_ksh.c:359, c_sh.c:412) -/
  | other (c : Bytes)
  /-- HISTCONTROL -/
  | control (dups space : Bool)
  /-- HISTSIZE -/
  | resize (n : Nat) (ok : Bool)
  /-- `fc -s`, `fc -e` -/
  | execute (c : Bytes)
  /-- HISTFILE is set to another name -/
  | setFile (f : Option Bytes)
  /-- another process writes the file -/
  | ext (text : Bytes)

def step (h : H) : Op → Option H
  | .cmd c => save { h with line := h.line + 1 } c
  | .other c => save h c
  | .control d s => some { h with dups := d, space := s }
  | .resize n ok => if 0 < n then resize h n ok else some h
  | .execute c => execute h c
  | .setFile f => setFile h f
  | .ext t => some { h with file := h.file.map fun f => { f with text := t, stale := true } }

def run (h : H) : List Op → Option H
  | [] => some h
  | op :: l => (step h op).bind fun h => run h l

/-- The number `fc -l` prints for the entry at position `i`, history.c:223. -/
def number (h : H) (i : Nat) : Int := h.line - ((h.n : Int) - 1 - i)

inductive Got
  | entry (i : Nat)
  | fails
  deriving DecidableEq, Repr

/-- hist_get_newest, history.c:424-433. -/
def newest (h : H) (allowCur : Bool) : Got :=
  if h.n = 0 || (!allowCur && h.n == 1) then .fails else .entry (if allowCur then h.n - 1 else h.n - 2)

/-- hist_get of a number, history.c:399-418. -/
def getNum (h : H) (k : Int) (approx allowCur : Bool) : Got :=
  let p : Int := (h.n : Int) - 1 + (if k < 0 then k else k - h.line)
  if p < 0 then (if approx then (if h.n ≤ 1 then .fails else .entry 0) else .fails)
  else if p > (h.n : Int) - 1 then (if approx then newest h allowCur else .fails)
  else if !allowCur && p == (h.n : Int) - 1 then .fails
  else .entry p.toNat

end Ksh.History
