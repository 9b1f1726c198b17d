/-!
# Model of the line editor's helpers (edit.c)

`x_do_comment` (edit.c:248-286), `x_longest_prefix` (edit.c:795-812), `x_basename`
(edit.c:837-855) and the choice of what to print in `x_print_expansions`
(edit.c:358-402).  Buffers are lists with explicit bounds: reading or writing outside
gives `none`.  C strings do not contain NUL; reading the terminator gives `'\x00'`.
-/

namespace Ksh.Edit

/-- Read `buf[i]`. -/
def rd (buf : List Char) (i : Nat) : Option Char := buf[i]?

/-- Write `buf[i] = c`, inside the `bsize` bytes the caller gave. -/
def wr (bsize : Nat) (buf : List Char) (i : Nat) (c : Char) : Option (List Char) :=
  if i < bsize ∧ i < buf.length then some (buf.set i c) else none

/-- The loop of edit.c:260-264, `k = len - i` more iterations: answers the buffer and
`j`. -/
def uncomment (bsize len : Nat) : Nat → List Char → Nat → Bool → Option (List Char × Nat)
  | 0, buf, j, _ => some (buf, j)
  | k+1, buf, j, saw =>
    match rd buf (len - (k+1)) with
    | none => none
    | some c =>
      if !saw || c != '#' then
        match wr bsize buf j c with
        | none => none
        | some buf' =>
          -- line 263 reads `buf[i]` again, after the write
          match rd buf' (len - (k+1)) with
          | none => none
          | some c' => uncomment bsize len k buf' (j+1) (c' == '\n')
      else uncomment bsize len k buf j (c == '\n')

/-- edit.c:271-273: newlines among the first `n` characters. -/
def countNl (buf : List Char) : Nat → Option Nat
  | 0 => some 0
  | n+1 =>
    match countNl buf n, rd buf n with
    | some m, some c => some (if c == '\n' then m+1 else m)
    | _, _ => none

/-- The loop of edit.c:277-281, with `i` characters left and the write position `j`;
`--j` below 0 is out of bounds. -/
def comment (bsize : Nat) : Nat → List Char → Nat → Option (List Char)
  | 0, buf, _ => some buf
  | i+1, buf, j =>
    match rd buf i with
    | none => none
    | some c =>
      if c == '\n' then
        if j < 2 then none
        else
          match wr bsize buf (j-1) '#' with
          | none => none
          | some buf' =>
            -- line 280 reads `buf[i]` again
            match rd buf' i with
            | none => none
            | some c' =>
              match wr bsize buf' (j-2) c' with
              | none => none
              | some buf'' => comment bsize i buf'' (j-2)
      else
        if j < 1 then none
        else
          match wr bsize buf (j-1) c with
          | none => none
          | some buf' => comment bsize i buf' (j-1)

/-- `x_do_comment`, edit.c:248-286: return value, buffer, `*lenp`. -/
def doComment (buf : List Char) (bsize len : Nat) : Option (Int × List Char × Nat) :=
  if len = 0 then some (1, buf, len)
  else
    match rd buf 0 with
    | none => none
    | some c =>
      if c == '#' then
        match uncomment bsize len (len - 1) buf 0 false with
        | none => none
        | some (buf', j) => some (0, buf', j)
      else
        match countNl buf len with
        | none => none
        | some m =>
          if len + (m + 1) ≥ bsize then some (-1, buf, len)
          else
            match comment bsize len buf (len + (m + 1)) with
            | none => none
            | some buf' =>
              match wr bsize buf' 0 '#' with
              | none => none
              | some buf'' => some (1, buf'', len + (m + 1))

/-! ## Completion -/

/-- `p[j]` of a C string: the terminator after the last character, nothing behind it. -/
def chr (p : List Char) (j : Nat) : Option Char :=
  if j < p.length then p[j]? else if j = p.length then some '\x00' else none

/-- The inner loop of edit.c:806-810: the new `prefix_len`; `k = prefix_len - j` more
iterations. -/
def inner (w0 p : List Char) (plen : Nat) : Nat → Option Nat
  | 0 => some plen
  | k+1 =>
    match chr p (plen - (k+1)), chr w0 (plen - (k+1)) with
    | some a, some b => if a ≠ b then some (plen - (k+1)) else inner w0 p plen k
    | _, _ => none

def outer (w0 : List Char) : List (List Char) → Nat → Option Nat
  | [], plen => some plen
  | p :: ps, plen =>
    match inner w0 p plen plen with
    | none => none
    | some l => outer w0 ps l

/-- `x_longest_prefix`, edit.c:795-812 -/
def longestPrefix : List (List Char) → Option Nat
  | [] => some 0
  | w :: ws => outer w ws w.length

/-- edit.c:847-848: skip trailing slashes, `p` is an index. -/
def skipSlash (s : List Char) : Nat → Nat
  | 0 => 0
  | p+1 => if s[p+1]? = some '/' then skipSlash s p else p+1

/-- edit.c:849-850 -/
def skipName (s : List Char) : Nat → Nat
  | 0 => 0
  | p+1 => if s[p+1]? ≠ some '/' then skipName s p else p+1

/-- `x_basename(s, NULL)`, edit.c:837-855 -/
def basename (s : List Char) : Nat :=
  if s = [] then 0
  else
    let p := skipName s (skipSlash s (s.length - 1))
    if s[p]? = some '/' ∧ p + 1 < s.length then p + 1 else p

/-- edit.c:383-384 -/
def backSlash (w : List Char) : Nat → Nat
  | 0 => 0
  | n+1 => if w[n]? ≠ some '/' then backSlash w n else n+1

/-- edit.c:371-372 -/
def oneWord (words : List (List Char)) (plen : Nat) : Nat :=
  match words with
  | [w] => basename w
  | _ => plen

/-- edit.c:374-390: print without the directory if all are in the same one. -/
def cut (words : List (List Char)) (plen : Nat) : List (List Char) :=
  if words.any (fun w => basename (w.drop plen) > plen) then words
  else
    match words with
    | [] => words
    | w0 :: _ => words.map (fun w => w.drop (backSlash w0 plen))

/-- `x_print_expansions`, edit.c:358-402: what is handed to `pr_list`. -/
def listing (isCommand : Bool) (words : List (List Char)) : Option (List (List Char)) :=
  if isCommand then some words
  else
    match longestPrefix words with
    | none => none
    | some plen => if plen > 0 then some (cut words (oneWord words plen)) else some words

end Ksh.Edit
