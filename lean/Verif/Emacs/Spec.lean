import Verif.Emacs.Model
import Verif.Edit.Comment
/-!
# What the emacs mode commands are meant to do

A line being edited is the text left of the cursor and the text from the cursor on.  Nothing here
refers to the buffer, to positions in it, or to the array that holds the killed text.
-/

namespace Ksh.Emacs

/-- A line being edited. -/
structure Line where
  left : List Char
  right : List Char
  /-- how many bytes are left of the mark -/
  mark : Option Nat
  /-- the killed texts, the last one first -/
  kills : List (List Char)
  /-- which of them was yanked last (19 after a `yank-pop` that was refused) -/
  cur : Nat
  /-- the history line shown -/
  histp : Int
  /-- the last command was a yank -/
  yanked : Bool
  /-- the last text to insert fitted -/
  fit : Bool
  deriving DecidableEq, Repr

namespace Line

def text (a : Line) : List Char := a.left ++ a.right

/-- Put the cursor after `p` bytes. -/
def moveTo (a : Line) (p : Nat) : Line := { a with left := a.text.take p, right := a.text.drop p }

/-- Insert before the cursor; a line has less than `size` bytes. -/
def ins (size : Nat) (a : Line) (x : List Char) : Line :=
  if a.text.length + x.length < size then { a with left := a.left ++ x, fit := true }
  else { a with fit := false }

/-- A position after `n` bytes from `p` on are gone. -/
def shift (p n m : Nat) : Nat := if m ≤ p then m else if m < p + n then p else m - n

/-- Delete `n` bytes from the cursor on. -/
def cut (a : Line) (n : Nat) : Line :=
  { a with right := a.right.drop n, mark := a.mark.map (shift a.left.length n) }

/-- Remember a text, the oldest of more than twenty is forgotten. -/
def remember (a : Line) (x : List Char) : Line := { a with kills := (x :: a.kills).take 20 }

/-- Delete and remember, unless there is nothing to delete. -/
def kill (a : Line) (n : Nat) : Line :=
  if n = 0 then a else (a.remember (a.right.take n)).cut n

/-- How many bytes `n` bytes and the rest of the last character are, to the right. -/
def forwLen (n : Nat) (r : List Char) : Nat :=
  min n r.length + ((r.drop n).takeWhile cont).length

/-- The same to the left: the first of the bytes is no continuation, unless it is the first of
the line. -/
def backLen (n : Nat) (l r : List Char) : Nat :=
  let m := min n l.length
  m + ((((r.headD '\x00' :: l.reverse).take l.length).drop m).takeWhile cont).length

/-- What is left after skipping a word and what is before it. -/
def dropWord (r : List Char) : List Char := (r.dropWhile mfs).dropWhile (fun c => !mfs c)

def dropWords : Nat → List Char → List Char
  | 0, r => r
  | n+1, r => dropWords n (dropWord r)

def foldWord (f : Fold) (w : List Char) : List Char :=
  match f with
  | .upper => w.map Char.toUpper
  | .lower => w.map Char.toLower
  | .cap => (w.take 1).map Char.toUpper ++ (w.drop 1).map Char.toLower

/-- `n` words with their case changed, and the rest. -/
def foldWords (f : Fold) : Nat → List Char → List Char × List Char
  | 0, r => ([], r)
  | n+1, r =>
    let r1 := r.dropWhile mfs
    let (w, rest) := foldWords f n (r1.dropWhile (fun c => !mfs c))
    (r.takeWhile mfs ++ foldWord f (r1.takeWhile (fun c => !mfs c)) ++ w, rest)

/-- The next `c` after position `p`, or the first one on the line; the line ends with a NUL. -/
def nextPos (t : List Char) (c : Char) (p : Nat) : Option Nat :=
  match (t.drop (p+1)).findIdx? (· = c) with
  | some i => some (p + 1 + i)
  | none => t.findIdx? (· = c)

/-- The last `c` before position `p`, or the last one on the line that is after `p`. -/
def prevPos (t : List Char) (c : Char) (p : Nat) : Option Nat :=
  match (t.take p).reverse.findIdx? (· = c) with
  | some i => some (p - 1 - i)
  | none => ((t.drop (p+1)).reverse.findIdx? (· = c)).map (fun i => t.length - 1 - i)

def nthPos (next : Nat → Option Nat) : Nat → Nat → Option Nat
  | 0, p => some p
  | n+1, p => (next p).bind (nthPos next n)

def search (a : Line) (p : Option Nat) : Line :=
  match p with
  | none => a
  | some p => a.moveTo p

/-- Show a line of the history. -/
def load (size : Nat) (hist : List (List Char)) (a : Line) (hp : Int) : Line :=
  if 0 ≤ hp ∧ hp < hist.length then
    { a with left := (hist.getD hp.toNat []).take (size - 1), right := [], histp := hp }
  else a

/-- Swap the bytes around the cursor and move on, or the two bytes before it. -/
def transpose (gmacs : Bool) (a : Line) : Line :=
  if a.right = [] ∨ gmacs then
    match a.left.reverse with
    | x :: y :: l => { a with left := l.reverse ++ [x, y] }
    | _ => a
  else
    match a.left.reverse, a.right with
    | x :: l, y :: r => { a with left := l.reverse ++ [y, x], right := r }
    | _, _ => a

/-- Kill to the given position. -/
def killTo (a : Line) (p : Nat) : Line :=
  if p < a.left.length then (a.moveTo p).kill (a.left.length - p)
  else a.kill (p - a.left.length)

/-- The end of the line, or the position after `n` bytes and the rest of that character. -/
def column (a : Line) : Option Nat → Nat
  | none => a.text.length
  | some n => forwLen n a.text

def yank (size : Nat) (a : Line) : Line :=
  match a.kills with
  | [] => { a with cur := 0, fit := false }
  | k :: _ => { a with mark := some a.left.length, cur := 0 }.ins size k

/-- Replace the text just yanked by the one killed before it; the last one follows the first. -/
def yankPop (size : Nat) (a : Line) : Line :=
  match (if a.yanked then a.kills[a.cur]? else none) with
  | none => { a with cur := 19, fit := false }
  | some k =>
    let next := (a.cur + 1) % a.kills.length
    { (a.moveTo (a.left.length - k.length)).cut k.length with cur := next }.ins size (a.kills.getD next [])

def killRegion (a : Line) : Line :=
  match a.mark with
  | none => a
  | some m =>
    let p := min m a.left.length
    { (a.moveTo p).kill (max m a.left.length - p) with mark := some p }

/-- A word with a backslash before the characters the shell would not take literally. -/
def quoted (ifs : List Char) (w : List Char) : List Char :=
  w.flatMap (fun c => if special ifs c then ['\\', c] else [c])

/-- The last word of a line, up to its end; the separators are blanks and quotes. -/
def lastWord (h : List Char) : List Char :=
  let tail := (h.reverse.takeWhile cfs).reverse
  let rest := (h.reverse.dropWhile cfs).reverse
  (rest.reverse.takeWhile (fun c => !cfs c)).reverse ++ (if rest = [] then tail.drop 1 else tail)

end Line
end Ksh.Emacs
