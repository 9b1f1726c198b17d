/-!
# The buffer a word is collected in

`yylex` writes the word into an `XString` (expand.h:36-55, misc.c:111-120) that has `X_EXTRA` bytes more
than its length.  `Xcheck` makes room for one byte; between two calls of it the lexer may write several.
A path of the code is given by its writes and checks in their order; here is every path through the
`switch` (lex.c:194-718), `get_brace_var` (lex.c:1519-1586) and `arraysub` (lex.c:1594-1617).
Which path is taken is left open (any sequence is allowed, which is more than the code does).  Writing
outside of the allocated bytes is the outcome `none`.

Left out: failure of the allocator, lengths that overflow, the bytes written (Lex).
-/
namespace Ksh.Lexbuf

/-- expand.h:7 -/
def X_EXTRA : Nat := 8

/-- `len` and the offset of `wp` -/
structure Buf where
  len : Nat
  pos : Nat
  deriving DecidableEq, Repr

inductive Ev
  /-- `Xcheck(ws, wp)` -/
  | chk
  /-- `*wp++ = ..` -/
  | put
  /-- `*wp = ..` -/
  | tmp
  /-- lex.c:551-556: what was written from offset `start` on is moved up by one, `wp++`; `start` is the offset of `EXPRSUB`
  (lex.c:366), in front of `wp` -/
  | move (start : Nat)
  deriving DecidableEq, Repr

/-- misc.c:116-119 -/
def grow (b : Buf) (more : Nat) : Buf := { b with len := b.len + (if more > b.len then more else b.len) }

def ev (b : Buf) : Ev → Option Buf
  | .chk => some (if b.pos + 1 - b.len > 0 then grow b (b.pos + 1 - b.len) else b)
  | .put => if b.pos < b.len + X_EXTRA then some { b with pos := b.pos + 1 } else none
  | .tmp => if b.pos < b.len + X_EXTRA then some b else none
  -- the last byte moved goes to `wp`
  | .move _ => if b.pos < b.len + X_EXTRA then some { b with pos := b.pos + 1 } else none

def evs : List Ev → Buf → Option Buf
  | [], b => some b
  | e :: l, b =>
    match ev b e with
    | none => none
    | some b => evs l b

/-- `n` times `l` -/
def times (n : Nat) (l : List Ev) : List Ev := (List.replicate n l).flatten

/-- The variable part of `${..}`: `n` characters, each put after a check (lex.c:1582-1583), then perhaps a
subscript of `k` characters (lex.c:1552-1564), then the null (lex.c:1578). -/
structure Brace where
  n : Nat
  sub : Option Nat

def Brace.path (v : Brace) : List Ev :=
  times v.n [.chk, .put] ++ (match v.sub with | none => [] | some k => .put :: times k [.chk, .put]) ++ [.put]

/-- A path through the `switch`. -/
inductive Path
  /-- nothing is written: a backslash at the end of the input (lex.c:310, 352, 621, 665), a history event
  (lex.c:253) -/
  | nothing
  /-- one byte: quotes, `|` and `)` of patterns, a character of `$(..)` and of backquotes, their end (lex.c:318,
  323, 368, 374, 427, 461, 470, 524, 526, 541, 564, 595, 606, 612, 616, 628, 671, 675, 684, 707, 710) -/
  | one
  /-- two bytes: a character with `CHAR` or `QCHAR`, `OPAT`, `CSUBST` (lex.c:298-299, 311, 315, 338, 342, 348, 421,
  450, 458, 464, 571-572, 581-582, 592-593, 597-598, 622-623, 666-667, 677-678, 700-701, 712-713) -/
  | two
  /-- `[` after a name (lex.c:262-291): the subscript is closed and has `k` characters; or not, or no name -/
  | subscript (k : Nat)
  | bracket
  /-- a backslash that stays (lex.c:351-355) -/
  | keep
  /-- `${` (lex.c:377-385), with a colon or without -/
  | brace (v : Brace) (colon : Bool)
  /-- `$name` of `n + 1` characters (lex.c:401-411) -/
  | name (n : Nat)
  /-- `$1`, `$?`, .. (lex.c:413-419) -/
  | special
  /-- `$((` that turns out to be `$(` (lex.c:546-564) -/
  | mismatch (start : Nat)
  /-- a backslash and a character in a quoted here delimiter (lex.c:687-701) -/
  | delim

def Path.body : Path → List Ev
  | .nothing => []
  | .one => [.put]
  | .two => [.put, .put]
  | .subscript k => [.tmp, .put, .put] ++ times k [.chk, .put, .put]
  | .bracket => [.tmp, .put, .put]
  | .keep => [.chk, .put, .put, .put, .put]
  | .brace v colon => [.put, .put] ++ v.path ++ (if colon then [.put, .put] else [])
  | .name n => [.put, .put] ++ times (n + 1) [.chk, .put] ++ [.put, .put, .put]
  | .special => [.chk, .put, .put, .put, .put, .put, .put]
  | .mismatch start => [.move start, .put]
  | .delim => [.put, .put, .put, .put]

/-- `Xinit(ws, wp, 64, ATEMP)`, lex.c:155 -/
def start : Buf := ⟨64, 0⟩

/-- A call of `yylex`: perhaps the quote in front of `((` (lex.c:163), the rounds of the loop, each with the check of
lex.c:193, perhaps the quote at the end (lex.c:642, in a round), the check (lex.c:721) and `EOS` (lex.c:812). -/
def yylex (letexpr : Bool) (l : List Path) (last : Bool) : Option Buf :=
  evs ((if letexpr then [.put] else []) ++ l.flatMap (fun p => .chk :: p.body) ++ (if last then [.chk, .put] else []) ++
    [.chk, .put]) start

/-- `arraysub`, lex.c:1601-1613, for `n` characters: the text is terminated once. -/
def arraysub (n : Nat) : Option Buf := evs (times n [.chk, .put] ++ [.put]) ⟨32, 0⟩

end Ksh.Lexbuf
