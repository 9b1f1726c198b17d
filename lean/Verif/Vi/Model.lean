import Verif.Edit.Model
import Verif.Emacs.Model
/-!
# Model of the vi mode line editor (vi.c)

`cbuf` is a list of `cbufsize` bytes (a `Char` stands for a byte); it is not terminated, what is
behind `linelen` is left over from earlier.  Reading or writing outside an array, a `memmove` with
a negative length, and setting the cursor or the length of the line below 0 give `none`.

Not modelled: the screen (vi.c:1357-1368, 1439-1456, 1736-1988; `winleft`), which reads the buffer
and changes nothing else; listing expansions (`print_expansions`), which only writes to the screen
apart from ending macros when nothing matches.  Counts are natural numbers: the overflow of
`argc1 * 10` and `argc1 * argc2` (vi.c:325, 351, 356) is not modelled.
-/

namespace Ksh.Vi

/-- `struct edstate`, vi.c:28-34; `cbufsize` is the length of `mem`. -/
structure Buf where
  mem : List Char
  len : Nat
  cur : Nat
  deriving DecidableEq, Repr

/-- vi.c:136-137 -/
inductive Mode where
  | cmd | ins | rep
  deriving DecidableEq, Repr

/-- vi.c:139-148 -/
inductive St where
  | normal | arg1 | ext | arg2 | xch | fail | vcmd | redo | lit | search
  deriving DecidableEq, Repr

/-- `enum expand_mode`, vi.c:195 -/
inductive Exp where
  | none | expand | complete | print
  deriving DecidableEq, Repr

/-- What the editor is given from outside. -/
structure Env where
  /-- `LINE`, sh.h:39: the size of `ibuf`, `ybuf`, `holdbuf` -/
  cap : Nat
  /-- `Flag(FVISHOW8)` -/
  show8 : Bool
  /-- `Flag(FVITABCOMPLETE)` -/
  tab : Bool
  /-- `Flag(FVIESCCOMPLETE)` -/
  esc : Bool
  /-- `edchars`, `none` for a character that is not set -/
  erase : Option Char
  kill : Option Char
  werase : Option Char
  intr : Option Char
  quit : Option Char
  eof : Option Char
  /-- `history … histptr` -/
  hist : List (List Char)
  /-- `source->line` -/
  line : Int
  /-- the value of `IFS` -/
  ifs : List Char
  /-- `x_cf_glob` with `XCF_FULLPATH` or without, on the text and the cursor: `*startp`, `*endp`,
  `*is_commandp`, the words -/
  glob : Bool → List Char → Nat → Nat × Nat × Bool × List (List Char)
  /-- the value of the alias `_c` -/
  alias : Char → Option (List Char)

/-- The statics of vi.c. -/
structure Ed where
  /-- `*es` -/
  es : Buf
  /-- `*undo` -/
  undo : Buf
  ibuf : List Char
  inslen : Nat
  /-- `first_insert` -/
  first : Bool
  /-- `saved_inslen` -/
  saved : Nat
  srchlen : Nat
  locpat : List Char
  /-- `srchpat`, up to its NUL -/
  srchpat : List Char
  /-- `ybuf`, the first `yanklen` bytes -/
  ybuf : List Char
  /-- `fsavecmd` -/
  fcmd : Char
  /-- `fsavech` -/
  fch : Char
  lastcmd : List Char
  lastac : Nat
  lastsearch : Char
  /-- `insert` -/
  mode : Mode
  hnum : Int
  ohnum : Int
  hlast : Int
  modified : Bool
  state : St
  /-- `curcmd` -/
  cmd : List Char
  cmdlen : Nat
  argc1 : Nat
  argc2 : Nat
  expanded : Exp
  /-- `buf` of `expand_word` -/
  xbuf : Option Buf
  /-- `buf` of `complete_word` -/
  cbuf : Option Buf
  /-- `holdbuf`, the first `holdlen` bytes -/
  hold : List Char
  /-- `holdbuf` as a string -/
  holdS : List Char
  /-- `macro`: what is left of each macro being expanded, innermost first, with its name.  In the
  code these are one array, vi.c:182-193; `none` is `macro.p == NULL`. -/
  mac : Option (List (List Char × Char))
  deriving DecidableEq, Repr

/-- What `vi_cmd` returns: -1, 0, 1, 2. -/
inductive Ret where
  | fail | ok | done | edit
  deriving DecidableEq, Repr

/-! ## Characters -/

/-- `isu8cont`, vi.c:2262-2266 -/
def cont (e : Env) (c : Char) : Bool := !e.show8 && (0x80 ≤ c.toNat && c.toNat < 0xc0)

/-- `isspace` -/
def space (c : Char) : Bool :=
  c == ' ' || c == '\t' || c == '\n' || c == '\x0b' || c == '\x0c' || c == '\r'

/-- `letnum`, sh.h:290 -/
def letnum (c : Char) : Bool := c.isAlphanum || c == '_'

/-- `uc & 0x80` -/
def high (c : Char) : Bool := 0x80 ≤ c.toNat

/-- `c & 0x7f` -/
def low (c : Char) : Char := Char.ofNat (c.toNat % 128)

/-- `CTRL(x)`, vi.c:26 -/
def ctrl (c : Char) : Char := Char.ofNat (c.toNat % 32)

/-- `is_bad`, vi.c:88, 97-131 -/
def isBad (c : Char) : Bool := low c == '\x00'

/-- `is_move`, vi.c:90, 97-131 -/
def isMove (c : Char) : Bool := "\x08 $%,0;BEFTW^befhltw|".toList.contains (low c)

/-- `is_extend`, vi.c:91 -/
def isExtend (c : Char) : Bool := "cdy".toList.contains (low c)

/-- `is_long`, vi.c:92 -/
def isLong (c : Char) : Bool := "@FTfrt".toList.contains (low c)

/-- `is_undoable`, vi.c:93 -/
def isUndoable (c : Char) : Bool := !("\x05\x0c\x12GNYjknuvy".toList.contains (low c))

/-- `is_srch`, vi.c:94 -/
def isSrch (c : Char) : Bool := low c == '/' || low c == '?'

/-- `is_zerocount`, vi.c:95 -/
def isZero (c : Char) : Bool := "\x06\x09\x1bG\\_gv|".toList.contains (low c)

/-- The `C_` commands, vi.c:97-131 -/
def isC (c : Char) : Bool :=
  "\x05\x06\x09\x0c\x0e\x10\x12\x16\x18\x1b#*+-/=?@ACDGINPRSUXY\\_agijknpsuvx~".toList.contains (low c)

/-- `is_cmd`, vi.c:89 -/
def isCmd (c : Char) : Bool := isMove c || isExtend c || isC c

/-- `nextstate`, vi.c:537-552 -/
def nextstate (c : Char) : St :=
  if isExtend c then .ext
  else if isSrch c then .search
  else if isLong c then .xch
  else if c = '.' then .redo
  else if isCmd c then .vcmd
  else .fail

/-- `char_len`, vi.c:2196-2208 -/
def charLen (e : Env) (c : Char) : Nat :=
  let m := high c && e.show8
  let d := if m then low c else c
  1 + (if m then 2 else 0) + (if d.toNat < 0x20 || d.toNat = 0x7f then 1 else 0)

/-! ## The buffer -/

/-- The line. -/
def Buf.text (b : Buf) : List Char := b.mem.take b.len

/-- `putbuf`, vi.c:1469-1489: whether it fitted, the buffer. -/
def putbuf (b : Buf) (s : List Char) (repl : Bool) : Option (Bool × Buf) :=
  if s = [] then some (true, b)
  else if repl then
    if b.cur + s.length ≥ b.mem.length then some (false, b)
    else
      match Emacs.memput b.mem b.cur s with
      | none => none
      | some m => some (true, { mem := m, len := max b.len (b.cur + s.length), cur := b.cur + s.length })
  else
    if b.len + s.length ≥ b.mem.length then some (false, b)
    else
      match Emacs.memmove b.mem (b.cur + s.length) b.cur ((b.len : Int) - b.cur) with
      | none => none
      | some m1 =>
        match Emacs.memput m1 b.cur s with
        | none => none
        | some m => some (true, { mem := m, len := b.len + s.length, cur := b.cur + s.length })

/-- `del_range`, vi.c:1491-1497 -/
def delRange (b : Buf) (x y : Nat) : Option Buf :=
  if (b.len : Int) - ((y : Int) - x) < 0 then none
  else if b.len = y then some { b with len := ((b.len : Int) - ((y : Int) - x)).toNat }
  else
    match Emacs.memmove b.mem x y ((b.len : Int) - y) with
    | none => none
    | some m => some { b with mem := m, len := ((b.len : Int) - ((y : Int) - x)).toNat }

/-- `yank_range`, vi.c:1321-1327: the bytes yanked. -/
def yankRange (e : Env) (b : Buf) (x y : Nat) : Option (List Char) :=
  if y < x then none
  else if y > b.mem.length ∨ y - x > e.cap then none
  else some ((b.mem.drop x).take (y - x))

/-- `while (isu8cont(cbuf[--cur])) continue`, vi.c:706-707, 1197-1198, 1315-1316 -/
def backCont (e : Env) (m : List Char) : Nat → Option Nat
  | 0 => none
  | n+1 =>
    match m[n]? with
    | none => none
    | some c => if cont e c then backCont e m n else some n

/-- `while (cursor > 0) if (!isu8cont(cbuf[--cursor])) break`, vi.c:841-843, 852-854, 941-943,
1169-1171 -/
def backSafe (e : Env) (m : List Char) : Nat → Option Nat
  | 0 => some 0
  | n+1 =>
    match m[n]? with
    | none => none
    | some c => if cont e c then backSafe e m n else some n

/-- `while (tcursor > 0 && isu8cont(cbuf[tcursor])) tcursor--`, vi.c:572-573 -/
def backFrom (e : Env) (m : List Char) : Nat → Option Nat
  | 0 => some 0
  | n+1 =>
    match m[n+1]? with
    | none => none
    | some c => if cont e c then backFrom e m n else some (n+1)

/-- `while (isu8cont(cbuf[ncursor])) ncursor--`, vi.c:1268-1269 -/
def backBar (e : Env) (m : List Char) : Nat → Option Nat
  | 0 =>
    match m[0]? with
    | none => none
    | some c => if cont e c then none else some 0
  | n+1 =>
    match m[n+1]? with
    | none => none
    | some c => if cont e c then backBar e m n else some (n+1)

/-- `while (isu8cont(cbuf[++cursor])) continue`, vi.c:771-772: the list is `&cbuf[cursor + 1]`,
`i` is `cursor + 1`. -/
def skipCont (e : Env) : List Char → Nat → Option Nat
  | [], _ => none
  | c :: l, i => if cont e c then skipCont e l (i+1) else some i

/-- `while (cursor < linelen) if (!isu8cont(cbuf[++cursor])) break`, vi.c:836-838; `k` is
`linelen - cursor`. -/
def fwdSafe (e : Env) (m : List Char) (len : Nat) : Nat → Option Nat
  | 0 => some len
  | k+1 =>
    match m[len - k]? with
    | none => none
    | some c => if cont e c then fwdSafe e m len k else some (len - k)

/-- vi.c:957-960, 988-991: from `linelen - k` on, past `a` characters. -/
def cntUp (e : Env) (m : List Char) (len : Nat) : Nat → Nat → Option Nat
  | 0, _ => some len
  | k+1, a =>
    match m[len - (k+1)]? with
    | none => none
    | some c =>
      if cont e c then cntUp e m len k a
      else
        match a with
        | 0 => some (len - (k+1))
        | a+1 => cntUp e m len k a

/-- vi.c:1237-1241: the first byte counts as a character. -/
def right (e : Env) (m : List Char) (len cur : Nat) : Nat → Option Nat
  | 0 => some cur
  | a+1 => if cur < len then cntUp e m len (len - cur - 1) a else some cur

/-- vi.c:1000-1003, 1227-1230 -/
def cntDown (e : Env) (m : List Char) : Nat → Nat → Option Nat
  | 0, _ => some 0
  | n+1, a =>
    match m[n+1]? with
    | none => none
    | some c =>
      if cont e c then cntDown e m n a
      else
        match a with
        | 0 => some (n+1)
        | a+1 => cntDown e m n a

/-- vi.c:927-934: `cur` and `c1`; `k` is `linelen - cur`. -/
def repCount (e : Env) (m : List Char) (len a : Nat) : Nat → Nat → Option (Nat × Nat)
  | 0, c1 => some (len, c1)
  | k+1, c1 =>
    match m[len - (k+1)]? with
    | none => none
    | some c =>
      let c2 := if cont e c then c1 else c1 + 1
      if c2 > a then some (len - (k+1), c2) else repCount e m len a k c2

/-! ## Words -/

/-- The loop of `forwword`, vi.c:1536-1552; `k` is `linelen - ncursor`. -/
def fwInner (m : List Char) (len : Nat) : Nat → Bool → Option Bool → Option Nat
  | 0, _, _ => some len
  | k+1, skip, want =>
    match m[len - (k+1)]? with
    | none => none
    | some c =>
      if space c then fwInner m len k true want
      else if skip then some (len - (k+1))
      else if high c then fwInner m len k skip want
      else
        match want with
        | none => fwInner m len k skip (some (letnum c))
        | some w => if w ≠ letnum c then some (len - (k+1)) else fwInner m len k skip want

/-- `forwword`, vi.c:1528-1555 -/
def forwword (m : List Char) (len : Nat) : Nat → Nat → Option Nat
  | 0, nc => some nc
  | n+1, nc =>
    if nc < len then
      match fwInner m len (len - nc) false none with
      | none => none
      | some x => forwword m len n x
    else some nc

/-- The loop of `backword`, vi.c:1566-1584, with the `ncursor++` behind it. -/
def bwInner (m : List Char) : Nat → Bool → Option Bool → Option Nat
  | 0, _, _ => some 0
  | n+1, skip, want =>
    match m[n]? with
    | none => none
    | some c =>
      if space c then (if skip then bwInner m n skip want else some (n+1))
      else if high c then bwInner m n false want
      else
        match want with
        | none => bwInner m n false (some (letnum c))
        | some w => if w ≠ letnum c then some (n+1) else bwInner m n false want

/-- `backword`, vi.c:1558-1587 -/
def backword (m : List Char) : Nat → Nat → Option Nat
  | 0, nc => some nc
  | n+1, nc =>
    if 0 < nc then
      match bwInner m nc true none with
      | none => none
      | some x => backword m n x
    else some nc

/-- The loop of `endword`, vi.c:1600-1616; `k` is `linelen - ncursor` after `++ncursor`. -/
def ewInner (m : List Char) (len : Nat) : Nat → Bool → Option Bool → Option Nat
  | 0, _, _ => some len
  | k+1, skip, want =>
    match m[len - (k+1)]? with
    | none => none
    | some c =>
      if space c then (if skip then ewInner m len k skip want else some (len - (k+1)))
      else if high c then ewInner m len k false want
      else
        match want with
        | none => ewInner m len k false (some (letnum c))
        | some w => if w ≠ letnum c then some (len - (k+1)) else ewInner m len k false want

/-- `endword`, vi.c:1590-1619 -/
def endword (m : List Char) (len : Nat) : Nat → Nat → Option Nat
  | 0, nc => some nc
  | n+1, nc =>
    if nc < len then
      match ewInner m len (len - (nc+1)) true none with
      | none => none
      | some x => endword m len n x
    else some nc

/-- `while (nc < linelen && p(cbuf[nc])) nc++`; `k` is `linelen - nc`. -/
def scanUp (p : Char → Bool) (m : List Char) (len : Nat) : Nat → Option Nat
  | 0 => some len
  | k+1 =>
    match m[len - (k+1)]? with
    | none => none
    | some c => if p c then scanUp p m len k else some (len - (k+1))

/-- `while (nc >= 0 && p(cbuf[nc])) nc--`, `nc + 1` before and after. -/
def scanDown (p : Char → Bool) (m : List Char) : Nat → Option Nat
  | 0 => some 0
  | n+1 =>
    match m[n]? with
    | none => none
    | some c => if p c then scanDown p m n else some (n+1)

/-- `Forwword`, vi.c:1622-1637: here `cbuf[ncursor]` is read before `ncursor < linelen` is looked
at, so the byte behind the line is read. -/
def Forwword (m : List Char) (len : Nat) : Nat → Nat → Option Nat
  | 0, nc => some nc
  | n+1, nc =>
    if nc < len then
      if m[len]? = none then none
      else
        match scanUp (fun c => !space c) m len (len - nc) with
        | none => none
        | some x =>
          match scanUp space m len (len - x) with
          | none => none
          | some y => Forwword m len n y
    else some nc

/-- `Backword`, vi.c:1640-1656 -/
def Backword (m : List Char) : Nat → Nat → Option Nat
  | 0, nc => some nc
  | n+1, nc =>
    if 0 < nc then
      match scanDown space m nc with
      | none => none
      | some x =>
        match scanDown (fun c => !space c) m x with
        | none => none
        | some y => Backword m n y
    else some nc

/-- `Endword`, vi.c:1659-1674 -/
def Endword (m : List Char) (len : Nat) : Nat → Nat → Option Nat
  | 0, nc => some nc
  | n+1, nc =>
    if nc < len then
      match scanUp space m len (len - (nc+1)) with
      | none => none
      | some x =>
        match scanUp (fun c => !space c) m len (len - x) with
        | none => none
        | some y => Endword m len n y
    else some nc

/-! ## Moves

A move gives `some none` for -1. -/

/-- `do { if (++ncursor == linelen) return -1 } while (cbuf[ncursor] != ch)`, vi.c:1508-1516; `k`
is `linelen - ncursor` after `++ncursor`. -/
def findUp (m : List Char) (len : Nat) (ch : Char) : Nat → Option (Option Nat)
  | 0 => some none
  | k+1 =>
    match m[len - (k+1)]? with
    | none => none
    | some c => if c ≠ ch then findUp m len ch k else some (some (len - (k+1)))

/-- `do { if (--ncursor < 0) return -1 } while (cbuf[ncursor] != ch)` -/
def findDown (m : List Char) (ch : Char) : Nat → Option (Option Nat)
  | 0 => some none
  | n+1 =>
    match m[n]? with
    | none => none
    | some c => if c ≠ ch then findDown m ch n else some (some n)

/-- `while (cnt--)`, vi.c:1507-1517.  With `ncursor >= linelen` `++ncursor == linelen` never
holds and the search runs out of the buffer. -/
def findLoop (m : List Char) (len : Nat) (ch : Char) (forw : Bool) : Nat → Nat → Option (Option Nat)
  | 0, nc => some (some nc)
  | n+1, nc =>
    match (if forw then (if len ≤ nc then none else findUp m len ch (len - (nc+1))) else findDown m ch nc) with
    | none => none
    | some none => some none
    | some (some x) => findLoop m len ch forw n x

/-- `findch`, vi.c:1499-1525 -/
def findch (b : Buf) (ch : Char) (cnt : Nat) (forw incl : Bool) : Option (Option Nat) :=
  if b.len = 0 then some none
  else
    match findLoop b.mem b.len ch forw cnt b.cur with
    | none => none
    | some none => some none
    | some (some x) =>
      if incl then some (some x)
      else if forw then (if x = 0 then none else some (some (x - 1)))
      else some (some (x + 1))

/-- `bracktype`, vi.c:1329-1355 -/
def bracktype (c : Char) : Int :=
  if c = '(' then 1 else if c = '[' then 2 else if c = '{' then 3
  else if c = ')' then -1 else if c = ']' then -2 else if c = '}' then -3 else 0

/-- vi.c:1283-1297, going up; `k` is `linelen - ncursor` after `++ncursor`. -/
def brUp (m : List Char) (len : Nat) (i : Int) : Nat → Nat → Option (Option Nat)
  | 0, _ => some none
  | k+1, d =>
    match m[len - (k+1)]? with
    | none => none
    | some c =>
      if bracktype c = i then brUp m len i k (d+1)
      else if bracktype c = -i then
        (if d ≤ 1 then some (some (len - (k+1))) else brUp m len i k (d-1))
      else brUp m len i k d

/-- vi.c:1283-1297, going down. -/
def brDown (m : List Char) (i : Int) : Nat → Nat → Option (Option Nat)
  | 0, _ => some none
  | n+1, d =>
    match m[n]? with
    | none => none
    | some c =>
      if bracktype c = i then brDown m i n (d+1)
      else if bracktype c = -i then (if d ≤ 1 then some (some n) else brDown m i n (d-1))
      else brDown m i n d

/-- The command `%`, vi.c:1276-1300 -/
def percent (b : Buf) (sub : Bool) : Option (Option Nat) :=
  match scanUp (fun c => bracktype c = 0) b.mem b.len (b.len - b.cur) with
  | none => none
  | some x =>
    if x ≥ b.len then some none
    else
      match b.mem[x]? with
      | none => none
      | some c =>
        if bracktype c > 0 then
          match brUp b.mem b.len (bracktype c) (b.len - (x+1)) 1 with
          | none => none
          | some none => some none
          | some (some y) => some (some (if sub then y + 1 else y))
        else brDown b.mem (bracktype c) x 1

/-- The cases of `domove`. -/
inductive MK where
  | b | B | e | E | find | again | left | right | w | W | zero | caret | bar | dollar | pct | bad
  deriving DecidableEq, Repr

/-- vi.c:1182-1304 -/
def mkind (c : Char) : MK :=
  if c = 'b' then .b else if c = 'B' then .B else if c = 'e' then .e else if c = 'E' then .E
  else if c = 'f' || c = 'F' || c = 't' || c = 'T' then .find
  else if c = ',' || c = ';' then .again
  else if c = 'h' || c = '\x08' then .left
  else if c = ' ' || c = 'l' then .right
  else if c = 'w' then .w else if c = 'W' then .W
  else if c = '0' then .zero else if c = '^' then .caret else if c = '|' then .bar
  else if c = '$' then .dollar else if c = '%' then .pct else .bad

/-- vi.c:1205-1206 -/
def setFind (s : Ed) (c a : Char) : Ed := if mkind c = .find then { s with fcmd := c, fch := a } else s

/-- vi.c:1211-1221, after `setFind` -/
def findMove (s : Ed) (n : Nat) (c : Char) (sub : Bool) : Option (Option Nat) :=
  if s.fcmd = ' ' then some none
  else
    let incl := s.fcmd = 'f' || s.fcmd = 'F'
    let t := (s.fcmd.toNat > 'a'.toNat) != (c = ',')
    match findch s.es s.fch n t incl with
    | none => none
    | some none => some none
    | some (some x) => some (some (if sub && t then x + 1 else x))

/-- A word move that fails at the end of the line. -/
def guardMove (g : Bool) (r : Option Nat) : Option (Option Nat) := if g then some none else r.map some

/-- `domove`, vi.c:1176-1306, after `setFind`. -/
def domove (e : Env) (s : Ed) (n : Nat) (c : Char) (sub : Bool) : Option (Option Nat) :=
  let b := s.es
  match mkind c with
  | .b => guardMove (!sub && b.cur = 0) (backword b.mem n b.cur)
  | .B => guardMove (!sub && b.cur = 0) (Backword b.mem n b.cur)
  | .e => guardMove (!sub && b.cur + 1 ≥ b.len)
      ((endword b.mem b.len n b.cur).bind (fun x => if sub then some x else backCont e b.mem x))
  | .E => guardMove (!sub && b.cur + 1 ≥ b.len)
      ((Endword b.mem b.len n b.cur).bind (fun x => if sub then some x else backCont e b.mem x))
  | .find => findMove s n c sub
  | .again => findMove s n c sub
  | .left => guardMove (!sub && b.cur = 0) (cntDown e b.mem b.cur n)
  | .right => guardMove (!sub && b.cur + 1 ≥ b.len) (right e b.mem b.len b.cur n)
  | .w => guardMove (!sub && b.cur + 1 ≥ b.len) (forwword b.mem b.len n b.cur)
  | .W => guardMove (!sub && b.cur + 1 ≥ b.len) (Forwword b.mem b.len n b.cur)
  | .zero => some (some 0)
  | .caret => (scanUp space b.mem (b.len - 1) (b.len - 1)).map some
  | .bar => (backBar e b.mem (min n b.len - 1)).map some
  | .dollar => some (some b.len)
  | .pct => percent b sub
  | .bad => some none

/-! ## History -/

/-- `vi_error`, vi.c:2235-2242 -/
def err (s : Ed) : Ed := { s with mac := none }

/-- `modified = 1; hnum = hlast;` -/
def dirty (s : Ed) : Ed := { s with modified := true, hnum := s.hlast }

/-- The bytes before the first NUL. -/
def cstr (l : List Char) : List Char := l.takeWhile (· ≠ '\x00')

/-- `save_cbuf`, vi.c:1373-1379 -/
def saveCbuf (e : Env) (s : Ed) : Option Ed :=
  if s.es.len > s.es.mem.length ∨ s.es.len ≥ e.cap then none
  else some { s with hold := s.es.text, holdS := cstr s.es.text }

/-- `memmove(cbuf, l, linelen)` with a new `linelen`; `cursor = 0`. -/
def setLine (b : Buf) (l : List Char) : Option Buf :=
  match Emacs.memput b.mem 0 l with
  | none => none
  | some m => some { mem := m, len := l.length, cur := 0 }

/-- `restore_cbuf`, vi.c:1381-1387 -/
def restoreCbuf (s : Ed) : Option Ed :=
  match setLine s.es s.hold with
  | none => none
  | some b => some { s with es := b }

/-- vi.c:1694-1700, 1727-1733: a line from the history becomes the line. -/
def grabLine (e : Env) (s : Ed) (save : Bool) (l : List Char) : Option Ed :=
  match (if save then saveCbuf e s else some s) with
  | none => none
  | some s1 =>
    match setLine s1.es (l.take (s1.es.mem.length - 1)) with
    | none => none
    | some b => some { s1 with es := b }

/-- `grabhist`, vi.c:1676-1703: whether it found the line. -/
def grabhist (e : Env) (s : Ed) (save : Bool) (n : Int) : Option (Bool × Ed) :=
  if n < 0 ∨ n > s.hlast then some (false, s)
  else if n = s.hlast then
    match restoreCbuf s with
    | none => none
    | some s1 => some (true, { s1 with ohnum := n })
  else
    match e.hist[n.toNat]? with
    | none => none
    | some l =>
      match grabLine e s save l with
      | none => none
      | some s1 => some (true, { s1 with ohnum := n })

/-- Whether a line matches: `strncmp(*hp, str, len) == 0` or `strstr(*hp, str)`. -/
def hits (anchored : Bool) (pat l : List Char) : Bool :=
  if anchored then pat.isPrefixOf l else (Emacs.strstr pat l).isSome

/-- The loop of `findhist` going up: `i` is the number of the first line of the list. -/
def findFwd (anchored : Bool) (pat : List Char) : List (List Char) → Nat → Option Nat
  | [], _ => none
  | l :: ls, i => if hits anchored pat l then some i else findFwd anchored pat ls (i+1)

/-- The loop of `findhist` going down, from line `n - 1`. -/
def findBwd (h : List (List Char)) (anchored : Bool) (pat : List Char) : Nat → Option Nat
  | 0 => none
  | n+1 => if hits anchored pat (h.getD n []) then some n else findBwd h anchored pat n

/-- `findhist`, history.c:496-514 -/
def findhist (h : List (List Char)) (start : Int) (fwd : Bool) (pat : List Char) (anchored : Bool) : Option Nat :=
  let maxhist : Int := (h.length : Int) - 1
  let st := if start < 0 ∨ start ≥ maxhist then maxhist else start
  if st < 0 then none
  else if fwd then findFwd anchored pat (h.drop st.toNat) st.toNat
  else findBwd h anchored pat (st.toNat + 1)

/-- `strcmp(a, b) >= 0` -/
def strcmpGe : List Char → List Char → Bool
  | _, [] => true
  | [], _ :: _ => false
  | x :: xs, y :: ys => if x = y then strcmpGe xs ys else y.toNat < x.toNat

/-- `grabsearch`, vi.c:1705-1735: the number of the line, `none` for -1. -/
def grabsearch (e : Env) (s : Ed) (fwd : Bool) : Option (Option Int × Ed) :=
  if (s.hnum = 0 ∧ fwd = false) ∨ (s.hnum ≥ s.hlast - 1 ∧ fwd = true) then some (none, s)
  else
    let start := if fwd then s.hnum + 1 else s.hnum - 1
    let anchored := s.srchpat.head? = some '^'
    let pat := if anchored then s.srchpat.tail else s.srchpat
    match findhist e.hist start fwd pat anchored with
    | none =>
      if start ≠ 0 ∧ fwd = true ∧ strcmpGe s.holdS pat = true then
        match restoreCbuf s with
        | none => none
        | some s1 => some (some 0, s1)
      else some (none, s)
    | some h =>
      match e.hist[h]? with
      | none => none
      | some l =>
        match grabLine e s s.modified l with
        | none => none
        | some s1 => some (some h, s1)

/-! ## Inserting -/

/-- `putbuf` on the line. -/
def put (s : Ed) (x : List Char) (repl : Bool) : Option (Bool × Ed) :=
  match putbuf s.es x repl with
  | none => none
  | some (r, b) => some (r, { s with es := b })

/-- `while (count-- > 0) if (putbuf(ibuf, inslen, …) != 0) return -1`, vi.c:1311-1313 -/
def redoLoop (x : List Char) (repl : Bool) : Nat → Ed → Option (Bool × Ed)
  | 0, s => some (true, s)
  | n+1, s =>
    match put s x repl with
    | none => none
    | some (false, s1) => some (false, s1)
    | some (true, s1) => redoLoop x repl n s1

/-- `redo_insert`, vi.c:1308-1319 -/
def redoInsert (e : Env) (s : Ed) (count : Nat) : Option (Bool × Ed) :=
  if s.inslen > s.ibuf.length then none
  else
    match redoLoop (s.ibuf.take s.inslen) (s.mode = .rep) count s with
    | none => none
    | some (false, s1) => some (false, s1)
    | some (true, s1) =>
      if s1.es.cur > 0 then
        match backCont e s1.es.mem s1.es.cur with
        | none => none
        | some x => some (true, { s1 with es := { s1.es with cur := x }, mode := .cmd })
      else some (true, { s1 with mode := .cmd })

/-- `x_escape` with `putbuf`, edit.c:944-971: `pre` are the bytes not yet put. -/
def escape (ifs : List Char) : List Char → List Char → Ed → Option (Bool × Ed)
  | pre, [], s => put s pre false
  | pre, c :: l, s =>
    if Emacs.special ifs c then
      match put s pre false with
      | none => none
      | some (false, s1) => some (false, s1)
      | some (true, s1) =>
        match put s1 ['\\'] false with
        | none => none
        | some (_, s2) =>
          match put s2 [c] false with
          | none => none
          | some (_, s3) => escape ifs [] l s3
    else escape ifs (pre ++ [c]) l s

/-- vi.c:2050-2060 -/
def expandLoop (ifs : List Char) : List (List Char) → Ed → Option (Bool × Ed)
  | [], s => some (true, s)
  | w :: ws, s =>
    match escape ifs [] w s with
    | none => none
    | some (false, s1) => some (false, s1)
    | some (true, s1) =>
      if ws = [] then some (true, s1)
      else
        match put s1 [' '] false with
        | none => none
        | some (false, s2) => some (false, s2)
        | some (true, s2) => expandLoop ifs ws s2

/-- `restore_edstate`, vi.c:1405-1413 -/
def restoreEd (b old : Buf) : Option Buf :=
  match Emacs.memput b.mem 0 old.text with
  | none => none
  | some m => some { mem := m, len := old.len, cur := old.cur }

/-- vi.c:2048-2049, 2162-2163: delete the word. -/
def cutWord (s : Ed) (start stop : Nat) : Option Ed :=
  match delRange s.es start stop with
  | none => none
  | some b => some { s with es := { b with cur := start } }

/-- vi.c:2064-2066, 2183-2185 -/
def toInsert (s : Ed) : Ed := { dirty s with mode := .ins, lastac := 0 }

/-- vi.c:2035-2068, behind the undoing of the last expansion. -/
def expandNew (e : Env) (s : Ed) : Option Ed :=
  match e.glob true s.es.text s.es.cur with
  | (_, _, _, []) => some (err { s with xbuf := none })
  | (start, stop, _, w :: ws) =>
    match cutWord { s with xbuf := some s.es, expanded := .expand } start stop with
    | none => none
    | some s1 =>
      match expandLoop e.ifs (w :: ws) s1 with
      | none => none
      | some (r, s2) =>
        let i := if r then s.es.cur - stop else 0
        some (toInsert { s2 with es := { s2.es with cur := s2.es.cur + i } })

/-- `expand_word`, vi.c:2014-2069; the return value is not used. -/
def expandWord (e : Env) (s : Ed) (command : Bool) : Option Ed :=
  match s.xbuf with
  | none => expandNew e s
  | some old =>
    if command = false ∧ s.expanded = .expand then
      match restoreEd s.es old with
      | none => none
      | some b => some { s with es := b, xbuf := none, expanded := .none }
    else expandNew e s

/-- vi.c:2161-2187: put `m` for the word. -/
def completePut (e : Env) (s : Ed) (start stop : Nat) (m : List Char) (uniq : Bool) : Option Ed :=
  match cutWord { s with cbuf := some s.es } start stop with
  | none => none
  | some s1 =>
    match escape e.ifs [] m s1 with
    | none => none
    | some (r, s2) =>
      if r && uniq then
        if m ≠ [] ∧ m.getLast? ≠ some '/' then
          match put { s2 with expanded := .none } [' '] false with
          | none => none
          | some (_, s3) => some (toInsert s3)
        else some (toInsert { s2 with expanded := .none })
      else some (toInsert s2)

/-- vi.c:2129-2140: the `count`th word, without its directory when that is enough for a command. -/
def pick (isCommand : Bool) (words : List (List Char)) (i : Nat) (w : List Char) : List Char :=
  if isCommand then
    let m := w.drop (Edit.basename w)
    if (words.zipIdx.any (fun (v, j) => j ≠ i && v.drop (Edit.basename v) == m)) then w else m
  else w

/-- vi.c:2101-2187, behind the undoing of the last completion. -/
def completeNew (e : Env) (s0 : Ed) (count : Nat) : Option Ed :=
  let s := { s0 with cbuf := none }
  match e.glob (count ≠ 0) s.es.text s.es.cur with
  | (_, _, _, []) => some (err s)
  | (start, stop, isc, w :: ws) =>
    match count with
    | n+1 =>
      match (w :: ws)[n]? with
      | none => some (err s)
      | some v => completePut e s start stop (pick isc (w :: ws) n v) true
    | 0 =>
      match Edit.longestPrefix (w :: ws) with
      | none => none
      | some k => completePut e { s with expanded := .complete } start stop (w.take k) (ws = [])

/-- `print_expansions`, vi.c:2190-2207: only an error is kept. -/
def printExp (e : Env) (s : Ed) (b : Buf) : Ed :=
  if (e.glob true b.text b.cur).2.2.2 = [] then err s else s

/-- `complete_word`, vi.c:2071-2188; the return value is not used. -/
def completeWord (e : Env) (s : Ed) (command : Bool) (count : Nat) : Option Ed :=
  match s.cbuf with
  | none => completeNew e s count
  | some old =>
    if command = false ∧ s.expanded = .complete then
      some { printExp e s old with expanded := .print }
    else if command = false ∧ s.expanded = .print then
      match restoreEd s.es old with
      | none => none
      | some b => some { s with es := b, cbuf := none, expanded := .none }
    else completeNew e s count

/-- vi.c:582-585, 607-610 -/
def shorten (s : Ed) (n : Nat) : Ed := { s with inslen := s.inslen - n }

/-- Erase one character, vi.c:571-588. -/
def eraseChar (e : Env) (s : Ed) : Option Ed :=
  match s.es.cur with
  | 0 => none
  | n+1 =>
    match backFrom e s.es.mem n with
    | none => none
    | some t =>
      if s.mode = .rep then
        if s.es.cur < s.undo.len then
          if s.undo.mem.length < s.es.cur then none
          else
            match Emacs.memput s.es.mem t ((s.undo.mem.drop t).take (s.es.cur - t)) with
            | none => none
            | some m => some { shorten s (s.es.cur - t) with es := { s.es with mem := m, cur := t }, expanded := .none }
        else if s.es.len < s.es.cur - t then none
        else some { shorten s (s.es.cur - t) with
                      es := { s.es with len := s.es.len - (s.es.cur - t), cur := t }, expanded := .none }
      else
        match Emacs.memmove s.es.mem t s.es.cur ((s.es.len : Int) - s.es.cur) with
        | none => none
        | some m => some { shorten s (s.es.cur - t) with
                      es := { mem := m, len := s.es.len - (s.es.cur - t), cur := t }, expanded := .none }

/-- vi.c:559-589 -/
def insErase (e : Env) (s : Ed) : Option Ed :=
  if s.mode = .rep then (if s.es.cur = s.undo.cur then some (err s) else eraseChar e s)
  else if s.es.cur = 0 then some s else eraseChar e s

/-- vi.c:590-600 -/
def insKill (s : Ed) : Option Ed :=
  if s.es.cur ≠ 0 then
    match Emacs.memmove s.es.mem 0 s.es.cur ((s.es.len : Int) - s.es.cur) with
    | none => none
    | some m => some { s with es := { mem := m, len := s.es.len - s.es.cur, cur := 0 }, inslen := 0, expanded := .none }
  else some { s with expanded := .none }

/-- vi.c:601-615 -/
def insWerase (s : Ed) : Option Ed :=
  if s.es.cur ≠ 0 then
    match backword s.es.mem 1 s.es.cur with
    | none => none
    | some t =>
      match Emacs.memmove s.es.mem t s.es.cur ((s.es.len : Int) - s.es.cur) with
      | none => none
      | some m => some { shorten s (s.es.cur - t) with
                      es := { mem := m, len := s.es.len - (s.es.cur - t), cur := t }, expanded := .none }
  else some { s with expanded := .none }

/-- vi.c:630-645: leave insert mode, putting what was inserted again for a count. -/
def insEsc (e : Env) (s : Ed) : Option (Bool × Ed) :=
  let s1 := { s with expanded := .none }
  if s1.first then
    if s1.inslen = 0 then redoInsert e { s1 with first := false, inslen := s1.saved } 0
    else redoInsert e { s1 with first := false, lastcmd := 'a' :: s1.lastcmd.tail, lastac := 1 } 0
  else if "scC".toList.contains (s1.lastcmd.headD '\x00') then redoInsert e s1 0
  else redoInsert e s1 (s1.lastac - 1)

/-- vi.c:676-688: whether there was room. -/
def insChar (e : Env) (s : Ed) (ch : Char) : Option (Bool × Ed) :=
  if s.es.len ≥ s.es.mem.length - 1 then some (false, s)
  else if s.inslen ≥ e.cap then none
  else
    let s1 := { s with ibuf := s.ibuf.set s.inslen ch, inslen := s.inslen + 1, expanded := .none }
    if s.mode = .ins then
      match Emacs.memmove s.es.mem (s.es.cur + 1) s.es.cur ((s.es.len : Int) - s.es.cur) with
      | none => none
      | some m =>
        match Emacs.memput m s.es.cur [ch] with
        | none => none
        | some m' => some (true, { s1 with es := { mem := m', len := s.es.len + 1, cur := s.es.cur + 1 } })
    else
      match Emacs.memput s.es.mem s.es.cur [ch] with
      | none => none
      | some m => some (true, { s1 with es := { mem := m, len := max s.es.len (s.es.cur + 1), cur := s.es.cur + 1 } })

/-- The cases of `vi_insert`. -/
inductive IK where
  | nul | nl | esc | expand | complete | skip | char
  deriving DecidableEq, Repr

/-- vi.c:622-689 -/
def ikind (e : Env) (ch : Char) : IK :=
  if ch = '\x00' then .nul
  else if ch = '\r' ∨ ch = '\n' then .nl
  else if ch = '\x1b' then .esc
  else if ch = ctrl 'x' then .expand
  else if ch = ctrl 'f' ∨ (ch = '\t' ∧ e.tab = true) then .complete
  else if ch = ctrl 'l' ∨ ch = ctrl 'r' then .skip
  else .char

/-- vi.c:616-690, behind the editing characters. -/
def insKey (e : Env) (s0 : Ed) (ch : Char) : Option (Ret × Ed) :=
  let s := if s0.first ∧ ch ≠ '\x1b' then { s0 with saved := 0 } else s0
  if ch = ctrl 'e' then some (.ok, printExp e s s.es)
  else
    match ikind e ch with
    | .nul => some (.fail, s)
    | .nl => some (.done, s)
    | .esc =>
      match insEsc e s with
      | none => none
      | some (r, s1) => some (if r then .ok else .fail, s1)
    | .expand => (expandWord e s false).map (fun s1 => (.ok, s1))
    | .complete => (completeWord e s false 0).map (fun s1 => (.ok, s1))
    | .skip => some (.ok, s)
    | .char =>
      match insChar e s ch with
      | none => none
      | some (r, s1) => some (if r then .ok else .fail, s1)

/-- `vi_insert`, vi.c:554-691 -/
def insert (e : Env) (s : Ed) (ch : Char) : Option (Ret × Ed) :=
  if some ch = e.erase ∨ ch = '\x08' then (insErase e s).map (fun s1 => (.ok, s1))
  else if some ch = e.kill then (insKill s).map (fun s1 => (.ok, s1))
  else if some ch = e.werase then (insWerase s).map (fun s1 => (.ok, s1))
  else insKey e s ch

/-! ## Commands -/

/-- `es->cursor = x` -/
def setCur (s : Ed) (x : Nat) : Ed := { s with es := { s.es with cur := x } }

/-- `del_range` on the line. -/
def del (s : Ed) (x y : Nat) : Option Ed :=
  match delRange s.es x y with
  | none => none
  | some b => some { s with es := b }

/-- vi.c:714-719 -/
def saveUndo (s : Ed) (n : Nat) (cmd : List Char) : Option Ed :=
  if s.es.len > s.es.mem.length then none
  else
    match Emacs.memput s.undo.mem 0 s.es.text with
    | none => none
    | some m => some { s with undo := { mem := m, len := s.es.len, cur := s.es.cur }, lastac := n, lastcmd := cmd }

/-- `@`, vi.c:731-766 -/
def macroCmd (e : Env) (s : Ed) (c : Char) : Option (Ret × Ed) :=
  match e.alias c with
  | none => some (.fail, s)
  | some v =>
    if c = '\x00' then some (.fail, s)
    else
      let fs := s.mac.getD []
      if fs.any (fun f => f.2 == c) then some (.fail, s)
      else some (.ok, { s with mac := some ((v, c) :: fs) })

/-- vi.c:804-811: `cw` on a word does not take the blanks behind it. -/
def cwTweak (s : Ed) (o m : Char) (nc : Nat) : Option Nat :=
  if o = 'c' ∧ (m = 'w' ∨ m = 'W') then
    match s.es.mem[s.es.cur]? with
    | none => none
    | some c =>
      if space c then some nc
      else
        match scanDown space s.es.mem nc with
        | none => none
        | some x => if x = 0 then none else some x
  else some nc

/-- vi.c:796-821: the range; `some none` for -1. -/
def opRange (e : Env) (s : Ed) (n : Nat) (o m : Char) : Option (Option (Nat × Nat)) :=
  if o = m then
    if o = 'c' then
      match domove e s 1 '^' true with
      | none => none
      | some none => none
      | some (some x) => some (some (x, s.es.len))
    else some (some (0, s.es.len))
  else if isMove m = false then some none
  else
    match domove e s n m true with
    | none => none
    | some none => some none
    | some (some nc) =>
      match cwTweak s o m nc with
      | none => none
      | some nc =>
        if nc > s.es.cur then some (some (s.es.cur, nc))
        else some (some (nc, if m = '%' then s.es.cur + 1 else s.es.cur))

/-- vi.c:822-832 -/
def opDo (e : Env) (s : Ed) (o : Char) (x y : Nat) : Option Ed :=
  match (if o ≠ 'c' ∧ x ≠ y then (yankRange e s.es x y).map (fun t => { s with ybuf := t }) else some s) with
  | none => none
  | some s1 =>
    match (if o ≠ 'y' then (del s1 x y).map (fun s2 => setCur s2 x) else some s1) with
    | none => none
    | some s2 => some (if o = 'c' then { dirty s2 with mode := .ins } else s2)

/-- `c`, `d`, `y`, vi.c:793-832: `o` the command, `m` the move, `a` its character. -/
def opCmd (e : Env) (s : Ed) (n : Nat) (o m a : Char) : Option (Ret × Ed) :=
  let s1 := if o = m ∨ isMove m = false then s else setFind s m a
  match opRange e s1 n o m with
  | none => none
  | some none => some (.fail, s1)
  | some (some (x, y)) =>
    match opDo e s1 o x y with
    | none => none
    | some s2 => some (.ok, s2)

/-- `while (putbuf(ybuf, yanklen, 0) == 0 && --argcnt > 0)`, vi.c:839, 850: the last `argcnt`. -/
def putLoop (x : List Char) : Nat → Ed → Option (Nat × Ed)
  | 0, s =>
    match put s x false with
    | none => none
    | some (r, s1) => some (if r then 1 else 0, s1)
  | n+1, s =>
    match put s x false with
    | none => none
    | some (false, s1) => some (n+1, s1)
    | some (true, s1) => if n = 0 then some (0, s1) else putLoop x n s1

/-- vi.c:839-846, 850-857 -/
def putCmd (e : Env) (s : Ed) (n : Nat) : Option (Ret × Ed) :=
  match putLoop s.ybuf n s with
  | none => none
  | some (a, s1) =>
    match backSafe e s1.es.mem s1.es.cur with
    | none => none
    | some x => some (if a ≠ 0 then .fail else .ok, setCur s1 x)

/-- `p`, vi.c:834-846 -/
def putAfter (e : Env) (s : Ed) (n : Nat) : Option (Ret × Ed) :=
  match fwdSafe e s.es.mem s.es.len (s.es.len - s.es.cur) with
  | none => none
  | some x => putCmd e (setCur (dirty s) (if s.es.cur < s.es.len then x else s.es.cur)) n

/-- vi.c:879-884, 901-906, 912-917 -/
def histCmd (e : Env) (s : Ed) (n : Int) : Option (Ret × Ed) :=
  match grabhist e s s.modified n with
  | none => none
  | some (false, s1) => some (.fail, s1)
  | some (true, s1) => some (.ok, { s1 with modified := false, hnum := n })

/-- `r`, vi.c:920-946 -/
def replaceCmd (e : Env) (s0 : Ed) (n : Nat) (c : Char) : Option (Ret × Ed) :=
  if s0.es.len = 0 then some (.fail, s0)
  else
    let s := dirty s0
    if c = '\x00' then some (.ok, err s)
    else
      match repCount e s.es.mem s.es.len n (s.es.len - s.es.cur) 0 with
      | none => none
      | some (x, c1) =>
        if n > c1 then some (.fail, s)
        else
          match del s s.es.cur x with
          | none => none
          | some s1 =>
            match redoLoop [c] false n s1 with
            | none => none
            | some (_, s2) =>
              match backSafe e s2.es.mem s2.es.cur with
              | none => none
              | some y =>
                match Emacs.memput s2.es.mem s2.es.len ['\x00'] with
                | none => none
                | some m => some (.ok, { s2 with es := { s2.es with mem := m, cur := y } })

/-- `s`, vi.c:953-963 -/
def substCmd (e : Env) (s : Ed) (n : Nat) : Option (Ret × Ed) :=
  if s.es.len = 0 then some (.fail, s)
  else
    match cntUp e s.es.mem s.es.len (s.es.len - s.es.cur) n with
    | none => none
    | some x => (del (dirty s) s.es.cur x).map (fun s1 => (.ok, { s1 with mode := .ins }))

/-- `x`, vi.c:984-994 -/
def xCmd (e : Env) (s : Ed) (n : Nat) : Option (Ret × Ed) :=
  if s.es.len = 0 then some (.fail, s)
  else
    match cntUp e s.es.mem s.es.len (s.es.len - s.es.cur) n with
    | none => none
    | some x =>
      match yankRange e s.es s.es.cur x with
      | none => none
      | some t => (del { dirty s with ybuf := t } s.es.cur x).map (fun s1 => (.ok, s1))

/-- `X`, vi.c:996-1007 -/
def xBackCmd (e : Env) (s : Ed) (n : Nat) : Option (Ret × Ed) :=
  if s.es.cur = 0 then some (.fail, s)
  else
    match cntDown e s.es.mem s.es.cur n with
    | none => none
    | some x =>
      match yankRange e s.es x s.es.cur with
      | none => none
      | some t => (del { dirty s with ybuf := t } x s.es.cur).map (fun s1 => (.ok, setCur s1 x))

/-- `v`, vi.c:965-982: the number put behind `--`. -/
def editCmd (e : Env) (s : Ed) (n : Nat) : Option (Ret × Ed) :=
  if s.es.len = 0 ∧ n = 0 then some (.fail, s)
  else if n = 0 ∧ s.modified = true ∧ s.es.len ≥ s.es.mem.length then none
  else
    let k : Int := if n = 0 then (if s.modified then 0 else e.line + 1 - (s.hlast - s.hnum)) else n
    let t := "fc -e ${VISUAL:-${EDITOR:-vi}} --".toList ++ (if k = 0 then [] else ' ' :: (toString k).toList)
    match Emacs.memput s.es.mem 0 (t.take (s.es.mem.length - 1)) with
    | none => none
    | some m => some (.edit, { s with es := { s.es with mem := m, len := (t.take (s.es.mem.length - 1)).length } })

/-- `/`, `?`, `n`, `N`, vi.c:1024-1055 -/
def searchCmd (e : Env) (s0 : Ed) (c : Char) : Option (Ret × Ed) :=
  let c3 := c = '/' ∨ c = '?'
  let s1 := if c = '?' ∧ s0.hnum = s0.hlast then { s0 with hnum := -1 } else s0
  let s := if c3 then { s1 with srchlen := 0, lastsearch := c } else s1
  if s.lastsearch = ' ' then some (.fail, s)
  else
    match grabsearch e s ((s.lastsearch = '?') != (c = 'N')) with
    | none => none
    | some (none, s2) =>
      if c3 then (restoreCbuf s2).map (fun s3 => (.fail, s3)) else some (.fail, s2)
    | some (some h, s2) => some (.ok, { s2 with modified := false, hnum := h, ohnum := h })

/-- `issp`, vi.c:1063: as `isspace` -/
def dropBlank (l : List Char) : List Char := l.dropWhile space

def dropWord (l : List Char) : List Char := l.dropWhile (fun c => !space c)

/-- vi.c:1067-1072 -/
def dropWords : Nat → List Char → List Char
  | 0, l => l
  | n+1, l => if l = [] then l else dropWords n (dropBlank (dropWord l))

/-- vi.c:1077-1088: `sp` -/
def lastField (sp : List Char) : Bool → List Char → List Char
  | _, [] => sp
  | ins, c :: l =>
    if space c then lastField sp true l
    else if ins then lastField (c :: l) false l
    else lastField sp ins l

/-- `_`, vi.c:1056-1108.  The cursor steps over one byte. -/
def underCmd (e : Env) (s0 : Ed) (n : Nat) : Option (Ret × Ed) :=
  match e.hist.getLast? with
  | none => some (.fail, s0)
  | some p0 =>
    let sp := if n ≠ 0 then dropWords (n - 1) (dropBlank p0) else lastField p0 false p0
    if n ≠ 0 ∧ sp = [] then some (.fail, s0)
    else
      let s := setCur (dirty s0) (if s0.es.cur ≠ s0.es.len then s0.es.cur + 1 else s0.es.cur)
      match put s [' '] false with
      | none => none
      | some (false, s1) => some (.fail, setCur s1 (s1.es.cur - 1))
      | some (true, s1) =>
        match put s1 (sp.takeWhile (fun c => !space c)) false with
        | none => none
        | some (false, s2) => some (.fail, setCur s2 (s2.es.cur - 1))
        | some (true, s2) => some (.ok, { s2 with mode := .ins })

/-- vi.c:1120-1126 -/
def flipCase (c : Char) : Char := if c.isLower then c.toUpper else if c.isUpper then c.toLower else c

/-- vi.c:1117-1129 -/
def tildeLoop : Nat → Ed → Option Ed
  | 0, s => some s
  | n+1, s =>
    match s.es.mem[s.es.cur]? with
    | none => none
    | some c =>
      let s1 := if c.isLower || c.isUpper then dirty s else s
      tildeLoop n { s1 with es := { s.es with
                      mem := s.es.mem.set s.es.cur (flipCase c),
                      cur := if s.es.cur + 1 < s.es.len then s.es.cur + 1 else s.es.cur } }

/-- `#`, vi.c:1133-1140 -/
def commentCmd (s : Ed) : Option (Ret × Ed) :=
  match Edit.doComment s.es.mem s.es.mem.length s.es.len with
  | none => none
  | some (ret, m, l) =>
    if ret < 0 then some (.fail, { s with es := { s.es with mem := m, len := l } })
    else some (if ret = 0 then .ok else .done, { s with es := { mem := m, len := l, cur := 0 } })

/-- The cases of `vi_cmd`. -/
inductive CK where
  | screen | macro | a | A | S | Y | op | p | P | C | D | g | G | i | I | j | k | r | R | s | v | x | X | u | U
  | search | under | tilde | hash | list | tab | esc | comp | star | other
  deriving DecidableEq, Repr

/-- vi.c:721-1166 -/
def ckind (c : Char) : CK :=
  if c = ctrl 'l' ∨ c = ctrl 'r' then .screen
  else if c = '@' then .macro
  else if c = 'a' then .a
  else if c = 'A' then .A
  else if c = 'S' then .S
  else if c = 'Y' then .Y
  else if c = 'c' ∨ c = 'd' ∨ c = 'y' then .op
  else if c = 'p' then .p
  else if c = 'P' then .P
  else if c = 'C' then .C
  else if c = 'D' then .D
  else if c = 'g' then .g
  else if c = 'G' then .G
  else if c = 'i' then .i
  else if c = 'I' then .I
  else if c = 'j' ∨ c = '+' ∨ c = ctrl 'n' then .j
  else if c = 'k' ∨ c = '-' ∨ c = ctrl 'p' then .k
  else if c = 'r' then .r
  else if c = 'R' then .R
  else if c = 's' then .s
  else if c = 'v' then .v
  else if c = 'x' then .x
  else if c = 'X' then .X
  else if c = 'u' then .u
  else if c = 'U' then .U
  else if c = '?' ∨ c = '/' ∨ c = 'n' ∨ c = 'N' then .search
  else if c = '_' then .under
  else if c = '~' then .tilde
  else if c = '#' then .hash
  else if c = '=' ∨ c = ctrl 'e' then .list
  else if c = '\t' then .tab
  else if c = '\x1b' then .esc
  else if c = '\\' ∨ c = ctrl 'f' then .comp
  else if c = '*' ∨ c = ctrl 'x' then .star
  else .other

/-- `a`, vi.c:768-774 -/
def appendCmd (e : Env) (s : Ed) : Option (Ret × Ed) :=
  if s.es.len ≠ 0 then
    match skipCont e (s.es.mem.drop (s.es.cur + 1)) (s.es.cur + 1) with
    | none => none
    | some x => some (.ok, { setCur (dirty s) x with mode := .ins })
  else some (.ok, { dirty s with mode := .ins })

/-- `S` and `I`, vi.c:783-788, 892-896 -/
def firstCmd (e : Env) (s : Ed) (cut : Bool) : Option (Ret × Ed) :=
  match domove e s 1 '^' true with
  | none => none
  | some none => none
  | some (some x) =>
    if cut then (del (setCur s x) x s.es.len).map (fun s1 => (.ok, { dirty s1 with mode := .ins }))
    else some (.ok, { setCur (dirty s) x with mode := .ins })

/-- `g` and `G`, vi.c:870-885 -/
def gotoCmd (e : Env) (s : Ed) (n : Int) : Option (Ret × Ed) :=
  let a := if n = 0 then 1 else s.hlast - (e.line - n)
  histCmd e s (a - 1)

/-- The `switch` of `vi_cmd`, vi.c:721-1167. -/
def switch (e : Env) (s : Ed) (n : Nat) (cmd : List Char) : Option (Ret × Ed) :=
  let c := cmd.headD '\x00'
  let c1 := cmd.getD 1 '\x00'
  let c2 := cmd.getD 2 '\x00'
  match ckind c with
  | .screen => some (.ok, s)
  | .macro => macroCmd e s c1
  | .a => appendCmd e s
  | .A => some (.ok, { setCur (dirty s) s.es.len with mode := .ins })
  | .S => firstCmd e s true
  | .Y => opCmd e s n 'y' '$' '\x00'
  | .op => opCmd e s n c c1 c2
  | .p => putAfter e s n
  | .P => putCmd e (dirty s) n
  | .C => (del (dirty s) s.es.cur s.es.len).map (fun s1 => (.ok, { s1 with mode := .ins }))
  | .D =>
    match yankRange e s.es s.es.cur s.es.len with
    | none => none
    | some t => (del { s with ybuf := t } s.es.cur s.es.len).map (fun s1 => (.ok, s1))
  | .g => gotoCmd e s (if n = 0 then s.hlast else n)
  | .G => gotoCmd e s n
  | .i => some (.ok, { dirty s with mode := .ins })
  | .I => firstCmd e s false
  | .j => histCmd e s (s.hnum + n)
  | .k => histCmd e s (s.hnum - n)
  | .r => replaceCmd e s n c1
  | .R => some (.ok, { dirty s with mode := .rep })
  | .s => substCmd e s n
  | .v => editCmd e s n
  | .x => xCmd e s n
  | .X => xBackCmd e s n
  | .u => some (.ok, { s with es := s.undo, undo := s.es })
  | .U => if s.modified = false then some (.fail, s) else histCmd e s s.ohnum
  | .search => searchCmd e s c
  | .under => underCmd e s n
  | .tilde => if s.es.len = 0 then some (.fail, s) else (tildeLoop n s).map (fun s1 => (.ok, s1))
  | .hash => commentCmd s
  | .list => some (.ok, printExp e s s.es)
  | .tab => if e.tab then (completeWord e s true n).map (fun s1 => (.ok, s1)) else some (.fail, s)
  | .esc => if e.esc then (completeWord e s true n).map (fun s1 => (.ok, s1)) else some (.fail, s)
  | .comp => (completeWord e s true n).map (fun s1 => (.ok, s1))
  | .star => (expandWord e s true).map (fun s1 => (.ok, s1))
  | .other => some (.ok, s)

/-- `#` returns at once, the other commands that succeed come to vi.c:1168-1171. -/
def clamp (e : Env) (c : Char) : Ret × Ed → Option (Ret × Ed)
  | (.ok, s) =>
    if s.mode = .cmd ∧ s.es.cur ≥ s.es.len ∧ ckind c ≠ .hash then
      (backSafe e s.es.mem s.es.cur).map (fun x => (.ok, setCur s x))
    else some (.ok, s)
  | r => some r

/-- A movement command, vi.c:703-710. -/
def moveCmd (e : Env) (s0 : Ed) (n : Nat) (cmd : List Char) : Option (Ret × Ed) :=
  let c := cmd.headD '\x00'
  let s := setFind s0 c (cmd.getD 1 '\x00')
  match domove e s n c false with
  | none => none
  | some none => some (.fail, s)
  | some (some x) =>
    if x = s.es.len ∧ x ≠ 0 then (backCont e s.es.mem x).map (fun y => (.ok, setCur s y))
    else some (.ok, setCur s x)

/-- The count, vi.c:700-701. -/
def count (n : Nat) (c : Char) : Nat := if n = 0 ∧ isZero c = false then 1 else n

/-- vi.c:712-1172 -/
def editing (e : Env) (s : Ed) (n : Nat) (cmd : List Char) : Option (Ret × Ed) :=
  match (if isUndoable (cmd.headD '\x00') ∧ s.mac = none then saveUndo s n cmd else some s) with
  | none => none
  | some s1 => (switch e s1 n cmd).bind (clamp e (cmd.headD '\x00'))

/-- `vi_cmd`, vi.c:693-1174 -/
def viCmd (e : Env) (s : Ed) (n0 : Nat) (cmd : List Char) : Option (Ret × Ed) :=
  let n := count n0 (cmd.headD '\x00')
  if isMove (cmd.headD '\x00') then moveCmd e s n cmd else editing e s n cmd

/-! ## Keys -/

/-- The second `switch` of `vi_hook`, vi.c:462-520: whether the line is finished. -/
def hookEnd (e : Env) (s : Ed) : Option (Bool × Ed) :=
  match s.state with
  | .vcmd =>
    match viCmd e { s with state := .normal } s.argc1 s.cmd with
    | none => none
    | some (.fail, s1) => some (false, err s1)
    | some (.ok, s1) => some (false, if s1.mode ≠ .cmd then { s1 with inslen := 0 } else s1)
    | some (_, s1) => some (true, s1)
  | .redo =>
    let s1 := { s with state := .normal, lastac := if s.argc1 ≠ 0 then s.argc1 else s.lastac }
    match viCmd e s1 s1.lastac s1.lastcmd with
    | none => none
    | some (.fail, s2) => some (false, err s2)
    | some (.ok, s2) =>
      if s2.mode ≠ .cmd then
        match redoInsert e s2 (if "scC".toList.contains (s2.lastcmd.headD '\x00') then 1 else s2.lastac) with
        | none => none
        | some (r, s3) => some (false, if r then s3 else err s3)
      else some (false, s2)
    | some (.done, s2) => some (true, s2)
    | some (.edit, s2) => some (false, s2)
  | .fail => some (false, err { s with state := .normal })
  | _ => some (false, s)

/-- `curcmd[cmdlen++] = ch` -/
def addCmd (s : Ed) (ch : Char) : Option Ed :=
  if s.cmdlen ≥ s.cmd.length then none
  else some { s with cmd := s.cmd.set s.cmdlen ch, cmdlen := s.cmdlen + 1 }

/-- vi.c:339-345, 357-363: the character after `c`, `d`, `y`. -/
def extKey (e : Env) (s : Ed) (ch : Char) : Option (Bool × Ed) :=
  match addCmd s ch with
  | none => none
  | some s1 =>
    hookEnd e { s1 with state := if ch = s1.cmd.headD '\x00' ∧ high ch = false then .vcmd
                                 else if isMove ch then nextstate ch else .fail }

/-- vi.c:267-286 -/
def hookInsert (e : Env) (s0 : Ed) (ch0 : Char) : Option (Bool × Ed) :=
  let s := if ch0 = ctrl 'v' then { s0 with state := .lit } else s0
  let ch := if ch0 = ctrl 'v' then '^' else ch0
  match insert e s ch with
  | none => none
  | some (.fail, s1) => some (false, err { s1 with state := .normal })
  | some (.ok, s1) =>
    if s1.state = .lit then
      if s1.es.cur = 0 then none else some (false, setCur s1 (s1.es.cur - 1))
    else some (false, s1)
  | some (_, s1) => some (true, s1)

/-- vi.c:298-308: the pattern is typed in place of the line. -/
def startSearch (e : Env) (s : Ed) (ch : Char) : Option (Bool × Ed) :=
  match saveCbuf e s with
  | none => none
  | some s1 =>
    match put { s1 with es := { s1.es with cur := 0, len := 0 } } [if ch = '/' then '/' else '?'] false with
    | none => none
    | some (r, s2) => some (!r, s2)

/-- vi.c:288-310 -/
def hookCommand (e : Env) (s0 : Ed) (ch : Char) : Option (Bool × Ed) :=
  if ch = '\r' ∨ ch = '\n' then some (true, s0)
  else
    let s := { s0 with cmdlen := 0, argc1 := 0 }
    if '1' ≤ ch ∧ ch ≤ '9' then some (false, { s with argc1 := ch.toNat - '0'.toNat, state := .arg1 })
    else
      match addCmd s ch with
      | none => none
      | some s1 =>
        if nextstate ch = .search then startSearch e { s1 with state := .search } ch
        else hookEnd e { s1 with state := nextstate ch }

/-- vi.c:313-321 -/
def hookLit (s : Ed) (ch : Char) : Option (Bool × Ed) :=
  if isBad ch then (del s s.es.cur (s.es.cur + 1)).map (fun s1 => (false, err { s1 with state := .normal }))
  else
    match Emacs.memput s.es.mem s.es.cur [ch] with
    | none => none
    | some m => some (false, { s with es := { s.es with mem := m, cur := s.es.cur + 1 }, state := .normal })

/-- vi.c:394-399: `srchlen` and `linelen`; `none` when `linelen` goes below 0. -/
def srchErase (e : Env) (pat : List Char) : Nat → Nat → Option (Nat × Nat)
  | 0, l => some (0, l)
  | n+1, l =>
    match pat[n]? with
    | none => none
    | some c =>
      if l < charLen e c then none
      else if n > 0 ∧ cont e c = true then srchErase e pat n (l - charLen e c)
      else some (n, l - charLen e c)

/-- vi.c:426-427 -/
def srchShrink (e : Env) (pat : List Char) (n : Nat) : Nat → Nat → Option Nat
  | 0, l => some l
  | i+1, l =>
    if i < n then some l
    else
      match pat[i]? with
      | none => none
      | some c => if l < charLen e c then none else srchShrink e pat n i (l - charLen e c)

/-- The bytes shown for a character of the pattern, vi.c:437-453. -/
def shown (e : Env) (ch : Char) : List Char :=
  let m := high ch && e.show8
  let d := if m then low ch else ch
  (if m then ['M', '-'] else []) ++
    (if d.toNat < 0x20 || d.toNat = 0x7f then ['^', Char.ofNat (d.toNat ^^^ 64)] else [d])

/-- vi.c:433-457: the length is looked at, but nothing follows from it. -/
def srchChar (e : Env) (s : Ed) (ch : Char) : Option Ed :=
  if s.srchlen = 39 then some (err s)
  else if s.srchlen ≥ s.locpat.length then none
  else
    match Emacs.memput s.es.mem s.es.len (shown e ch) with
    | none => none
    | some m => some { s with
        locpat := s.locpat.set s.srchlen ch, srchlen := s.srchlen + 1,
        es := { mem := m, len := s.es.len + (shown e ch).length, cur := s.es.len + (shown e ch).length } }

/-- vi.c:376-458 -/
def hookSearch (e : Env) (s : Ed) (ch : Char) : Option (Bool × Ed) :=
  if ch = '\r' ∨ ch = '\n' then
    match restoreCbuf s with
    | none => none
    | some s1 =>
      if s1.srchlen = 0 then
        if s1.srchpat = [] then some (false, err { s1 with state := .normal })
        else hookEnd e { s1 with state := .vcmd }
      else if s1.srchlen ≥ s1.locpat.length then none
      else hookEnd e { s1 with srchpat := cstr (s1.locpat.take s1.srchlen),
                               locpat := s1.locpat.set s1.srchlen '\x00', state := .vcmd }
  else if some ch = e.erase ∨ ch = '\x08' then
    if s.srchlen ≠ 0 then
      match srchErase e s.locpat s.srchlen s.es.len with
      | none => none
      | some (n, l) => some (false, { s with srchlen := n, es := { s.es with len := l, cur := l } })
    else (restoreCbuf s).map (fun s1 => (false, { s1 with state := .normal }))
  else if some ch = e.kill then
    some (false, { s with srchlen := 0, es := { s.es with len := 1, cur := 1 } })
  else if some ch = e.werase then
    match backword s.locpat 1 s.srchlen with
    | none => none
    | some n =>
      match srchShrink e s.locpat n s.srchlen s.es.len with
      | none => none
      | some l => some (false, { s with srchlen := n, es := { s.es with len := l, cur := l } })
  else (srchChar e s ch).map (fun s1 => (false, s1))

/-- `isdigit` -/
def digit (c : Char) : Bool := '0' ≤ c && c ≤ '9'

/-- `vi_hook`, vi.c:258-521: whether the line is finished. -/
def hook (e : Env) (s : Ed) (ch : Char) : Option (Bool × Ed) :=
  match s.state with
  | .normal => if s.mode ≠ .cmd then hookInsert e s ch else hookCommand e s ch
  | .lit => hookLit s ch
  | .arg1 =>
    if digit ch then some (false, { s with argc1 := s.argc1 * 10 + (ch.toNat - '0'.toNat) })
    else
      match addCmd s ch with
      | none => none
      | some s1 => hookEnd e { s1 with state := nextstate ch }
  | .ext =>
    if '1' ≤ ch ∧ ch ≤ '9' then some (false, { s with argc2 := ch.toNat - '0'.toNat, state := .arg2 })
    else extKey e { s with argc2 := 0 } ch
  | .arg2 =>
    if digit ch then some (false, { s with argc2 := s.argc2 * 10 + (ch.toNat - '0'.toNat) })
    else extKey e { s with argc1 := if s.argc1 = 0 then s.argc2 else s.argc1 * s.argc2 } ch
  | .xch =>
    if ch = '\x1b' then some (false, { s with state := .normal })
    else
      match addCmd s ch with
      | none => none
      | some s1 => hookEnd e { s1 with state := .vcmd }
  | .search => hookSearch e s ch
  | _ => hookEnd e s

/-- `vi_reset`, vi.c:523-535, 1424-1457, for a buffer `buf`; the statics keep what they had. -/
def reset (e : Env) (old : Ed) (buf : List Char) : Ed :=
  { old with
    state := .normal, ohnum := e.hist.length, hnum := e.hist.length, hlast := e.hist.length
    mode := .ins, saved := old.inslen, first := true, inslen := 0, modified := true, mac := none
    es := { mem := buf, len := 0, cur := 0 }
    undo := { mem := old.undo.mem.take buf.length, len := 0, cur := 0 }
    hold := [] }

/-- What reading a line comes to. -/
inductive Out where
  /-- a line -/
  | line (l : List Char)
  /-- -1 -/
  | eof
  /-- `trapsig`, `unwind` -/
  | intr
  /-- the keys are used up -/
  | more (s : Ed)
  deriving DecidableEq, Repr

/-- The next key from the macros, vi.c:207-217; `none` in the first place to read the keyboard. -/
def pull : List (List Char × Char) → Option Char × Option (List (List Char × Char))
  | [] => (none, none)
  | ([], _) :: fs => pull fs
  | (c :: l, n) :: fs => (some c, some ((l, n) :: fs))

/-- vi.c:245-255 -/
def finish (len : Nat) (s : Ed) : Option Out :=
  if len ≤ s.es.len then some .eof
  else if s.es.len > s.es.mem.length then none
  else some (.line (s.es.text ++ ['\n']))

/-- One key, vi.c:223-241. -/
def key (e : Env) (len : Nat) (s : Ed) (c : Char) : Option Out :=
  if s.state ≠ .lit ∧ (some c = e.intr ∨ some c = e.quit) then some .intr
  else if s.state ≠ .lit ∧ some c = e.eof then (if s.es.len = 0 then some .eof else some (.more s))
  else
    match hook e s c with
    | none => none
    | some (true, s1) => finish len s1
    | some (false, s1) => some (.more s1)

/-- The next key: from the macros, or from the keyboard; without any left, none. -/
def next (s : Ed) (keys : List Char) : Option (Char × Ed × List Char) :=
  match s.mac with
  | some fs =>
    match pull fs with
    | (some c, m) => some (c, { s with mac := m }, keys)
    | (none, _) =>
      match keys with
      | [] => none
      | c :: ks => some (c, { s with mac := none }, ks)
  | none =>
    match keys with
    | [] => none
    | c :: ks => some (c, s, ks)

/-- The loop of `x_vi`, vi.c:206-243: at most `n` keys, from the macros or the keyboard. -/
def run (e : Env) (len : Nat) : Nat → Ed → List Char → Option Out
  | 0, s, _ => some (.more s)
  | n+1, s, keys =>
    match next s keys with
    | none => some (.more s)
    | some (c, s1, ks) =>
      match key e len s1 c with
      | none => none
      | some (.more s2) => run e len n s2 ks
      | some o => some o

end Ksh.Vi
