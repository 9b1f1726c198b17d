/-!
# Prompts

Model of special_prompt_expand and dopprompt (lex.c:1167-1503).  Characters are bytes.  A pointer into the prompt is the
rest of the string behind it; the string ends with the list.

`none` stands for undefined behaviour: reading behind the 0 of the prompt, or using `strbuf` before it was set.

Simplified: what the system says (strftime and localtime, gethostname, ttyname, basename, the variables) comes from `Env`;
doprint is always on, since it only decides whether the text is written; int does not overflow.
-/

namespace Ksh.Prompt

/-- What the escapes show. -/
structure Env where
  /-- Flag(FSH) -/
  sh : Bool
  /-- ksheuid is 0 -/
  root : Bool
  /-- strftime of the current time; the empty string if localtime fails -/
  time : List Char → List Char
  host : List Char
  jobs : Nat
  /-- basename of ttyname(0) -/
  tty : Option (List Char)
  kshname : List Char
  user : List Char
  /-- the third word of ksh_version, and the whole -/
  verShort : List Char
  version : List Char
  pwd : List Char
  home : List Char
  /-- basename of PWD -/
  pwdBase : List Char
  line : Nat
  cmdOffset : Nat

/-- sizeof strbuf - 1 (lex.c:1214). -/
def bufMax : Nat := 1023

/-- Decimal digits of a number. -/
def dec (n : Nat) : List Char := Nat.toDigits 10 n

/-- `\w` (lex.c:1380-1394). -/
def cwd (e : Env) : List Char :=
  if e.pwd = ['/'] then e.pwd
  else if e.pwd = e.home then ['~']
  else if e.pwd.take e.home.length = e.home ∧ (e.pwd.drop e.home.length).head? = some '/' then
    '~' :: '/' :: e.pwd.drop (e.home.length + 1)
  else e.pwd

/-- An octal digit (lex.c:1418-1419). -/
def oct (c : Char) : Bool := '0' ≤ c && c ≤ '7'

/-- "%c" of the value of three octal digits (lex.c:1424-1426): a byte; 0 ends the string. -/
def octal (a b c : Char) : List Char :=
  let n := ((a.toNat - 48) * 64 + (b.toNat - 48) * 8 + (c.toNat - 48)) % 256
  if n = 0 then [] else [Char.ofNat n]

/-- What an escape does: the contents of strbuf, where cp goes, whether the length is reset (`\n`, `\r`), what becomes of
`counting`. -/
structure Esc where
  buf : Option (List Char)
  rest : List Char
  reset : Bool
  count : Option Bool
deriving DecidableEq

/-- An escape that only sets strbuf to a text and is one character long. -/
def simple (t : List Char) (rest : List Char) : Esc := ⟨some (t.take bufMax), rest, false, none⟩

/-- `\D` (lex.c:1240-1260). -/
def escD (e : Env) (rest : List Char) : Option Esc :=
  match rest with
  | [] => none
  | b :: r =>
    if b = '{' ∧ '}' ∈ r then
      some ⟨some ((e.time ((r.take bufMax).takeWhile (· ≠ '}'))).take bufMax), (r.dropWhile (· ≠ '}')).drop 1, false, none⟩
    else some (simple ['\\', 'D'] rest)

/-- `\0` .. `\7` (lex.c:1409-1428). -/
def escOct (c : Char) (rest : List Char) : Esc :=
  match rest with
  | a :: b :: r => if oct a && oct b then simple (octal c a b) r else simple ['\\', c] rest
  | _ => simple ['\\', c] rest

/-- The switch over the character after a backslash (lex.c:1231-1447); `buf` is strbuf before. -/
def escape (e : Env) (buf : Option (List Char)) (c : Char) (rest : List Char) : Option Esc :=
  if e.sh && !(c == 'h' || c == 'p') then some (simple ['\\', c] rest)
  else match c with
    | 'a' => some (simple ['\x07'] rest)
    | 'd' => some (simple (e.time "%a %b %d".toList) rest)
    | 'D' => escD e rest
    | 'e' => some (simple ['\x1b'] rest)
    | 'h' => some (simple (e.host.takeWhile (· ≠ '.')) rest)
    | 'H' => some (simple e.host rest)
    | 'j' => some (simple (dec e.jobs) rest)
    | 'l' => match e.tty with
      | some t => some (simple t rest)
      | none => some ⟨buf, rest, false, none⟩
    | 'n' => some ⟨some ['\n'], rest, true, none⟩
    | 'p' => some (simple (if e.root then ['#'] else ['$']) rest)
    | 'r' => some ⟨some ['\r'], rest, true, none⟩
    | 's' => some (simple e.kshname rest)
    | 't' => some (simple (e.time "%T".toList) rest)
    | 'T' => some (simple (e.time "%l:%M:%S".toList) rest)
    | '@' => some (simple (e.time "%r".toList) rest)
    | 'A' => some (simple (e.time "%R".toList) rest)
    | 'u' => some (simple e.user rest)
    | 'v' => some (simple e.verShort rest)
    | 'V' => some (simple e.version rest)
    | 'w' => some (simple (cwd e) rest)
    | 'W' => some (simple (if e.pwd = e.home then ['~'] else e.pwdBase) rest)
    | '!' => some (simple (dec (e.line + 1)) rest)
    | '#' => some (simple (dec (e.line - e.cmdOffset + 1)) rest)
    | '\\' => some (simple ['\\'] rest)
    | '[' => some ⟨some [], rest, false, some false⟩
    | ']' => some ⟨some [], rest, false, some true⟩
    | _ => if oct c then some (escOct c rest) else some (simple ['\\', c] rest)

/-- The variables of dopprompt.  `out` is what has been written. -/
structure St where
  out : List Char
  tot : Nat
  trunc : Nat
  sp : List Char
  indel : Bool
  counting : Bool
  buf : Option (List Char)
deriving DecidableEq

/-- The tests on the character cp points to (lex.c:1225-1237); `more` is cp + 1.  The result says delimitthis. -/
def look (delim : Option Char) (s : St) (c : Char) (more : List Char) : Bool × St :=
  if s.indel ∧ delim ≠ some c then (false, s)
  else if c = '\n' ∨ c = '\r' then (false, { s with tot := 0, sp := more })
  else if c = '\t' then (false, if s.counting then { s with tot := s.tot / 8 * 8 + 8 } else s)
  else if delim = some c then (true, { s with indel := !s.indel })
  else (false, s)

/-- The end of an escape or of a history number (lex.c:1450-1465, 1474-1486). -/
def emit (s : St) (delimitthis : Bool) (t : List Char) : St :=
  if s.trunc ≠ 0 ∧ t.length ≤ s.trunc then { s with trunc := s.trunc - t.length }
  else
    { s with out := s.out ++ t.drop s.trunc, trunc := 0,
             tot := if s.counting && !s.indel && !delimitthis then s.tot + (t.length - s.trunc) else s.tot }

/-- An ordinary character (lex.c:1488-1494). -/
def put (s : St) (delimitthis : Bool) (c : Char) : St :=
  let s1 := if s.counting = true ∧ s.trunc ≠ 0 then { s with trunc := s.trunc - 1 } else { s with out := s.out ++ [c] }
  { s1 with tot := if s.counting && !s.indel && !delimitthis then s.tot + 1 else s.tot }

/-- The changes an escape makes before its text is written. -/
def applyEsc (s : St) (x : Esc) : St :=
  { s with buf := x.buf, tot := if x.reset then 0 else s.tot, sp := if x.reset then x.rest else s.sp,
           counting := x.count.getD s.counting }

/-- The branches of the loop body (lex.c:1239-1494) for the character `c` at cp. -/
def body (e : Env) (dt : Bool) (s : St) (c : Char) (more : List Char) : Option (St × List Char) :=
  if c = '\\' then
    match more with
    | [] => some (s, [])
    | d :: rest => match escape e s.buf d rest with
      | none => none
      | some x => match x.buf with
        | none => none
        | some t => some (emit (applyEsc s x) dt t, x.rest)
  else if c ≠ '!' then some (put s dt c, more)
  else if more.head? = some '!' then some (put s dt '!', more.drop 1)
  else some (emit s dt (dec (e.line + 1)), more)

/-- The loop of dopprompt (lex.c:1222-1495).  Each round advances cp, so a bound of the length is enough. -/
def loop (e : Env) (delim : Option Char) : Nat → St → List Char → Option St
  | _, s, [] => some s
  | 0, _, _ :: _ => none
  | n + 1, s, c :: more =>
    match body e (look delim s c more).1 (look delim s c more).2 c more with
    | none => none
    | some (s', cp) => loop e delim n s' cp

/-- The delimiter (lex.c:1219-1222). -/
def header (sp : List Char) : Option Char × List Char :=
  match sp with
  | d :: '\r' :: r => (some d, r)
  | _ => (none, sp)

/-- dopprompt (lex.c:1211-1500). -/
def dopprompt (e : Env) (sp : List Char) (ntruncate : Nat) : Option St :=
  loop e (header sp).1 (header sp).2.length ⟨[], 0, ntruncate, sp, false, true, none⟩ (header sp).2

/-- pprompt (lex.c:1502-1506): what is written. -/
def pprompt (e : Env) (sp : List Char) (n : Nat) : Option (List Char) := (dopprompt e sp n).map (·.out)

/-- promptlen (lex.c:1508-1512): the length and the rest to be written when the line is redrawn. -/
def promptlen (e : Env) (sp : List Char) : Option (Nat × List Char) := (dopprompt e sp 0).map fun s => (s.tot, s.sp)

/-- special_prompt_expand (lex.c:1167-1176): the first `\$` becomes `\p`, and so on. -/
def special : List Char → List Char
  | '\\' :: '$' :: r => '\\' :: 'p' :: special r
  | c :: r => c :: special r
  | [] => []

end Ksh.Prompt
