/-!
# Model of field splitting in `expand` (eval.c:150-745)

Modelled: the second half of the loop (eval.c:580-735) as far as it decides where words
begin and end, for words made of literal and quoted characters, quotes, `$x`, `$(..)`,
`$*` and `$@`; and the reading of command output (eval.c:548-577).  Left out: `${x-word}`
and the other forms with a word part, tilde expansion, and the marking of characters for
globbing (see `Glob`); a word is given here as the plain text it has before globbing.
-/

namespace Ksh.Ifs

/-- IFS: which characters are in `C_IFS`; the first one (`ifs0`, `none` for a null IFS,
var.c:987-988). -/
structure Env where
  ifs : Char → Bool
  ifs0 : Option Char

/-- `C_IFSWS`, misc.c:57 -/
def ws (c : Char) : Bool := c == ' ' || c == '\t' || c == '\n'

/-- eval.c:49-53 -/
inductive Word
  | word | ws | nws | iws | quote
  deriving DecidableEq, Repr

/-- The state of `expand`.  `fresh` says that `type` is `XSUB` (and not yet `XSUBMID`);
`cur` is the text in `ds`, `out` the words in `*wp`. -/
structure S where
  quote : Bool
  word : Word
  fresh : Bool
  cur : List Char
  out : List (List Char)
  deriving DecidableEq, Repr

/-- A compiled word. -/
inductive Piece
  /-- `CHAR` -/
  | char (c : Char)
  /-- `QCHAR` -/
  | qchar (c : Char)
  | oquote
  | cquote
  /-- `OSUBST` of a plain parameter with this value -/
  | sub (v : List Char)
  /-- `COMSUB` producing these characters -/
  | com (v : List Char)
  /-- `$@` (`split`) or `$*` with at least one parameter -/
  | args (split : Bool) (a : List Char) (as : List (List Char))
  /-- `$@` without parameters, `XNULLSUB` -/
  | noargs
  deriving Repr

/-- eval.c:597-616 -/
def emit (s : S) : S := { s with out := s.out ++ [s.cur], cur := [] }

/-- eval.c:580-733 for a character `c ≠ 0`; `split` is the condition
`!quote && (f & DOBLANK) && doblank`. -/
def put (E : Env) (split : Bool) (s : S) (c : Char) : S :=
  if split && E.ifs c then
    let s' := if s.word = .word ∨ s.word = .quote ∨ ((s.word = .iws ∨ s.word = .nws) ∧ ws c = false)
      then emit s else s
    if s.word ≠ .nws then { s' with word := if ws c then .ws else .nws } else s'
  else
    let s' := if s.fresh then
        { s with out := if s.word = .nws ∧ s.cur = [] then s.out ++ [[]] else s.out, fresh := false }
      else s
    { s' with cur := s'.cur ++ [c], word := .word }

/-- `XARG`/`XARGSEP`, eval.c:510-546; `a` is the current parameter, `as` those that follow. -/
def argsGo (E : Env) (blank split : Bool) : List Char → List (List Char) → S → S
  | a, as, s =>
    let s := a.foldl (put E (!s.quote && blank)) s
    let s := if s.quote && split then { s with word := .word } else s
    match as with
    | [] => s
    | b :: bs =>
      match E.ifs0 with
      | none =>
        if s.quote && !split then argsGo E blank split b bs s
        else if !s.quote && s.word = .ws then argsGo E blank split b bs s
        else argsGo E blank split b bs { emit s with word := if s.word ≠ .nws then .ws else .nws }
      | some c =>
        if s.quote && split then argsGo E blank split b bs (put E blank s c)
        else argsGo E blank split b bs (put E (!s.quote && blank) s c)

/-- One piece of the word; `blank` is `f & DOBLANK`. -/
def piece (E : Env) (blank : Bool) (s : S) : Piece → S
  | .char c => put E false s c
  | .qchar c => put E false s c
  | .oquote => { s with quote := true,
                        word := match s.word with
                          | .quote => .word
                          | .word => .word
                          | _ => .quote }
  | .cquote => { s with quote := false }
  | .sub v =>
    let s := if s.word = .quote then { s with word := .word } else s
    let s := v.foldl (put E (!s.quote && blank)) { s with fresh := true }
    { s with fresh := false }
  | .com v => v.foldl (put E (!s.quote && blank)) s
  | .args split a as =>
    let s := if s.word = .quote then { s with word := .word } else s
    argsGo E blank split a as s
  | .noargs =>
    if blank then
      if s.cur = [] ∧ s.word ≠ .word then { s with word := .iws } else s
    else s

/-- eval.c:593-619 for `c == 0` -/
def finish (s : S) : List (List Char) :=
  if s.word = .word ∨ s.word = .quote then s.out ++ [s.cur] else s.out

/-- eval.c:197 -/
def init (blank : Bool) : S := ⟨false, if blank then .ws else .word, false, [], []⟩

/-- `expand` (eval.c:150-745) -/
def expand (E : Env) (blank : Bool) (w : List Piece) : List (List Char) :=
  finish (w.foldl (piece E blank) (init blank))

/-! ## Reading command output, eval.c:548-577 -/

/-- The inner loop eval.c:555-557: skip NULs, count newlines; the next character (`none` at
end of file), the input after it, the count. -/
def comSkip : List Char → Nat → Option Char × List Char × Nat
  | [], n => (none, [], n)
  | c :: r, n => if c = '\x00' then comSkip r n else if c = '\n' then comSkip r (n + 1) else (some c, r, n)

theorem comSkip_len : ∀ (i : List Char) (n : Nat) {c r m}, comSkip i n = (some c, r, m) → r.length + 1 + m ≤ i.length + n
  | [], n, c, r, m, h => by simp [comSkip] at h
  | d :: i, n, c, r, m, h => by
    rw [comSkip] at h
    split at h
    · have := comSkip_len i n h; simp; omega
    · split at h
      · have := comSkip_len i (n + 1) h; simp; omega
      · cases h; simp

/-- The characters produced: each iteration gives one character or ends.  `shf_ungetc`
puts the character back. -/
def comRead (i : List Char) (newlines : Nat) : List Char :=
  match newlines with
  | n + 1 => '\n' :: comRead i n
  | 0 =>
    match h : comSkip i 0 with
    | (none, _, _) => []
    | (some c, r, 0) => c :: comRead r 0
    | (some c, r, m + 1) => '\n' :: comRead (c :: r) m
termination_by i.length + newlines
decreasing_by
  · omega
  · have := comSkip_len _ _ h; omega
  · have := comSkip_len _ _ h; simp; omega

end Ksh.Ifs
