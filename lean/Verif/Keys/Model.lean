/-!
# Key bindings of emacs mode

Model of kb_encode .. x_emacs_keys, x_e_getc, x_e_getu8, x_set_arg and the key loop of x_emacs (emacs.c) and of c_bind
(c_ksh.c).  Bytes are numbers below 256, C strings are lists without 0.

`none` stands for undefined behaviour: a write outside a buffer of LINE + 1 = 4097 bytes or a read of released memory.

Simplified: iscntrl is that of ASCII (in the C and UTF-8 locales no byte above 127 is a control character); `alloc` and
`strdup` do not fail; what the functions that are called do is not described here (see `Ksh.Emacs`), except that
x_literal and x_set_arg take part in reading; the value of x_set_arg is a natural number (the code uses int).
-/

namespace Ksh.Keys

/-- LINE (sh.h:39); the buffers have one byte more. -/
def LINE : Nat := 4096

/-- An entry of x_ftab (emacs.c:42-46): the name and XF_NOBIND.  The function is the index. -/
structure Func where
  name : List Nat
  nobind : Bool
deriving DecidableEq

/-- struct kb_entry (emacs.c:71-77).  `id` stands for the address, `fn` for ftab. -/
structure Entry where
  id : Nat
  seq : List Nat
  fn : Nat
  args : Option (List Nat)
deriving DecidableEq

/-- kblist, and the next address that has not been used. -/
structure Keymap where
  kb : List Entry
  next : Nat
deriving DecidableEq

/-- CTRL (edit.h:20) of a byte below 128. -/
def ctrl (c : Nat) : Nat := if c = 63 then 127 else c % 32

/-- UNCTRL (edit.h:21) of a control character. -/
def unctrl (c : Nat) : Nat := if c = 127 then 63 else c + 64

/-- iscntrl. -/
def cntrl (c : Nat) : Bool := c < 32 || c == 127

/-- `*s >= '?'` (emacs.c:1257); char is signed. -/
def geQ (c : Nat) : Bool := 63 ≤ c && c < 128

/-- The bytes kb_encode stores (emacs.c:1253-1267).  94 is `^`. -/
def encRaw : List Nat → List Nat
  | [] => []
  | [c] => [c]
  | c :: d :: s =>
    if c = 94 then
      if geQ d then ctrl d :: encRaw s else 94 :: encRaw (d :: s)
    else c :: encRaw (d :: s)

/-- A C string ends at its first 0. -/
def cstr (l : List Nat) : List Nat := l.takeWhile (· ≠ 0)

/-- kb_encode (emacs.c:1247-1269). -/
def encode (s : List Nat) : Option (List Nat) :=
  if (encRaw s).length ≤ LINE then some (cstr (encRaw s)) else none

/-- The bytes kb_decode stores (emacs.c:1278-1285). -/
def decRaw : List Nat → List Nat
  | [] => []
  | c :: s => if cntrl c then 94 :: unctrl c :: decRaw s else c :: decRaw s

/-- kb_decode (emacs.c:1271-1288). -/
def decode (s : List Nat) : Option (List Nat) :=
  if (decRaw s).length ≤ LINE then some (decRaw s) else none

/-- kb_match (emacs.c:1290-1305). -/
def kmatch (kb : List Entry) (s : List Nat) : Bool :=
  kb.any fun k => decide (s.length ≤ k.seq.length) && k.seq.take s.length == s

/-- kb_add_string (emacs.c:1315-1348); false when the binding is refused. -/
def addString (m : Keymap) (fn : Nat) (args : Option (List Nat)) (s : List Nat) : Bool × Keymap :=
  if kmatch m.kb s then (false, m)
  else (true, { kb := m.kb ++ [⟨m.next, s, fn, args⟩], next := m.next + 1 })

/-- The TAILQ_FOREACH_SAFE loops of x_bind that delete a binding (emacs.c:1428-1434, 1440-1445, 1455-1460). -/
def delSeq (s : List Nat) : List Entry → List Entry
  | [] => []
  | k :: kb => if k.seq = s then kb else k :: delSeq s kb

/-- The deletion as an operation on the map. -/
def delete (m : Keymap) (s : List Nat) : Keymap := { m with kb := delSeq s m.kb }

/-- A line written by kb_print (emacs.c:1371-1381), taken apart: sequence, function or text, and whether it is a text. -/
structure Line where
  seq : List Nat
  what : List Nat
  isText : Bool
deriving DecidableEq

/-- kb_print (emacs.c:1371-1381). -/
def kprint (ft : List Func) (k : Entry) : Option (List Line) :=
  if (ft[k.fn]?).any (fun f => !f.nobind) then
    (decode k.seq).map fun d => [⟨d, ((ft[k.fn]?).map (·.name)).getD [], false⟩]
  else match k.args with
    | none => some []
    | some a => match decode k.seq, decode a with
      | some d, some t => some [⟨d, t, true⟩]
      | _, _ => none

/-- "show all bindings" of x_bind (emacs.c:1407-1412). -/
def listAll (ft : List Func) : List Entry → Option (List Line)
  | [] => some []
  | k :: kb => match kprint ft k, listAll ft kb with
    | some a, some b => some (a ++ b)
    | _, _ => none

/-- The search for a name in x_ftab (emacs.c:1451-1454). -/
def findName (ft : List Func) (name : List Nat) : Option Nat := ft.findIdx? (·.name == name)

/-- The index of the text function x_ins_string in x_ftab. -/
def findText (ft : List Func) : Option Nat := findName ft [109, 97, 99, 114, 111, 45, 115, 116, 114, 105, 110, 103]

/-- What a call of x_bind with a sequence and a second argument did. -/
inductive Bound where
  | cleared | refused | set | noFunction
deriving DecidableEq

/-- kb_add_string's verdict. -/
def verdict (r : Bool × Keymap) : Bound × Keymap := (if r.1 then .set else .refused, r.2)

/-- "set binding" of x_bind (emacs.c:1438-1463). -/
def setBinding (ft : List Func) (text : Nat) (m : Keymap) (ins a2 : List Nat) (mcr : Bool) : Option (Bound × Keymap) :=
  if mcr then
    (encode a2).map fun t => verdict (addString (delete m ins) text (some t) ins)
  else match findName ft a2 with
    | none => some (.noFunction, m)
    | some fn => some (verdict (addString (delete m ins) fn none ins))

/-- x_bind with a2 given (emacs.c:1414-1467).  `in` is the encoded sequence: snprintf cuts at LINE bytes, which changes
nothing after kb_encode.  The return value is 1 for `noFunction` and 0 otherwise. -/
def xbind (ft : List Func) (text : Nat) (m : Keymap) (a1 a2 : List Nat) (mcr : Bool) : Option (Bound × Keymap) :=
  match encode a1 with
  | none => none
  | some ins => if a2 = [] then some (.cleared, delete m ins) else setBinding ft text m ins a2 mcr

/-- The return value of x_bind. -/
def Bound.status : Bound → Nat
  | .noFunction => 1
  | _ => 0

/-- "print binding" of x_bind (emacs.c:1415-1424): the line, or the text for auto-insert. -/
def printOne (ft : List Func) (m : Keymap) (a1 : List Nat) : Option (List Line) :=
  match encode a1 with
  | none => none
  | some ins => match m.kb.find? (·.seq == ins) with
    | some k => kprint ft k
    | none => (decode a1).map fun d => [⟨d, [97, 117, 116, 111, 45, 105, 110, 115, 101, 114, 116], false⟩]

/-- The separation of an operand of `bind` at its first `=` (c_ksh.c:1387-1389). -/
def splitEq (s : List Nat) : List Nat × Option (List Nat) :=
  match s.dropWhile (· ≠ 61) with
  | [] => (s.takeWhile (· ≠ 61), none)
  | _ :: r => (s.takeWhile (· ≠ 61), some r)

/-! ## Reading keys -/

/-- Where characters come from: unget_char, macro_args (emacs.c:118) as the entry it points into with the characters
left there, and the terminal.  When the terminal has no byte left the read fails. -/
structure In where
  unget : Int
  mac : Option (Nat × List Nat)
  tty : List Nat
deriving DecidableEq

/-- A byte read through a pointer to char. -/
def sgn (b : Nat) : Int := if b < 128 then b else (b : Int) - 256

/-- The byte that is stored for a character. -/
def byte (c : Int) : Nat := (c % 256).toNat

/-- x_getc (edit.c:117-132). -/
def xgetc (i : In) : Int × In :=
  match i.tty with
  | [] => (-1, i)
  | b :: t => (b, { i with tty := t })

/-- x_e_getc (emacs.c:1820-1838).  `kb` tells which entries have not been released. -/
def getc (kb : List Entry) (i : In) : Option (Int × In) :=
  if 0 ≤ i.unget then some (i.unget, { i with unget := -1 })
  else match i.mac with
    | none => some (xgetc i)
    | some (id, r) =>
      if kb.any (·.id == id) then
        match r with
        | [] => some (xgetc { i with mac := none })
        | b :: r => some (sgn b, { i with mac := some (id, r) })
      else none

/-- The number of bytes the first byte announces (emacs.c:1855-1862). -/
def ulen (c : Int) : Nat :=
  if 240 ≤ byte c ∧ byte c < 248 ∧ c < 245 then 4
  else if 224 ≤ byte c ∧ byte c < 240 then 3
  else if 192 ≤ byte c ∧ byte c < 224 ∧ 193 < c then 2
  else 1

/-- The condition of emacs.c:1868-1872 under which a byte does not belong to the character. -/
def reject (c : Int) (len : Nat) (cc : Int) : Bool :=
  !(decide (128 ≤ byte cc) && decide (byte cc < 192)) ||
    (c == 224 && len == 3 && decide (cc < 160)) || (c == 237 && len == 3 && decide (159 < cc)) ||
    (c == 240 && len == 4 && decide (cc < 144)) || (c == 244 && len == 4 && decide (143 < cc))

/-- The loop of x_e_getu8 (emacs.c:1864-1877). -/
def conts (kb : List Entry) (c : Int) : Nat → List Nat → In → Option (List Nat × In)
  | n + 2, buf, i => match getc kb i with
    | none => none
    | some (cc, i) =>
      if cc = -1 then some (buf, i)
      else if reject c (n + 2) cc then some (buf, { i with unget := cc })
      else conts kb c (n + 1) (buf ++ [byte cc]) i
  | _, buf, i => some (buf, i)

/-- x_e_getu8 (emacs.c:1840-1881); `buf` is what the buffer holds.  The result is `none` inside for -1.  The bytes and the
0 behind them have to fit. -/
def getu8 (kb : List Entry) (buf : List Nat) (i : In) : Option (Option (List Nat) × In) :=
  match getc kb i with
  | none => none
  | some (c, i) =>
    if c = -1 then some (none, i)
    else match conts kb c (ulen c) (buf ++ [byte c]) i with
      | none => none
      | some (buf, i) => if buf.length ≤ LINE then some (some buf, i) else none

/-- The search of x_emacs for bindings (emacs.c:332-347). -/
def scan (line : List Nat) : List Entry → Nat → Option Entry → Nat × Option Entry
  | [], sub, km => (sub, km)
  | k :: kb, sub, km =>
    if k.seq.length < line.length then scan line kb sub km
    else if k.seq.take line.length == line then
      let km := if k.seq.length = line.length then some k else km
      if 1 < sub + 1 then (sub + 1, km) else scan line kb (sub + 1) km
    else if 1 < sub then (sub, km) else scan line kb sub km

/-- What x_emacs does with the keys (emacs.c:351-372). -/
inductive Act where
  | eof
  | call (k : Entry) (c : Nat)
  | text (k : Entry)
  | beep
  | insLine (l : List Nat)
  | insByte (c : Nat)
deriving DecidableEq

/-- The branch for a binding (emacs.c:352-359).  `text` is the index of x_ins_string. -/
def fire (text : Nat) (k : Entry) (line : List Nat) (i : In) : Act × In :=
  match k.args with
  | some a => if k.fn = text ∧ i.mac = none then (.text k, { i with mac := some (k.id, a) })
    else (.call k (line.getLastD 0), i)
  | none => (.call k (line.getLastD 0), i)

/-- The branch without a binding (emacs.c:362-371). -/
def unbound (line : List Nat) (ntries : Nat) (i : In) : Act × In :=
  if 1 < ntries then (.beep, i)
  else if 1 < line.length then (.insLine line, i)
  else (.insByte (line.headD 0), i)

/-- The loop of x_emacs up to the action (emacs.c:318-372).  `n` bounds the rounds. -/
def keys (text : Nat) (kb : List Entry) : Nat → List Nat → Nat → In → Option (Act × In)
  | 0, _, _, _ => none
  | n + 1, line, ntries, i => match getu8 kb line i with
    | none => none
    | some (none, i) => some (.eof, i)
    | some (some line, i) => match scan line kb 0 none with
      | (1, some k) => some (fire text k line i)
      | (0, _) => some (unbound line (ntries + 1) i)
      | _ => keys text kb n line (ntries + 1) i

/-- The number of characters that can be read. -/
def In.size (i : In) : Nat :=
  (if 0 ≤ i.unget then 1 else 0) + ((i.mac.map (·.2.length)).getD 0) + i.tty.length

/-- One command of x_emacs without a preceding quote; each round reads a character, so the bound is large enough. -/
def command (text : Nat) (kb : List Entry) (i : In) : Option (Act × In) := keys text kb (i.size + 1) [] 0 i

/-- The key after x_literal (emacs.c:325-328, 362-371). -/
def literal (kb : List Entry) (i : In) : Option (Act × In) :=
  match getu8 kb [] i with
  | none => none
  | some (none, i) => some (.eof, i)
  | some (some line, i) => some (unbound line 1 i)

/-- The loop of x_set_arg (emacs.c:1953-1954); `n` bounds the digits. -/
def setArg (kb : List Entry) : Nat → Int → Nat → Bool → In → Option (Option Nat × In)
  | 0, _, _, _, _ => none
  | n + 1, c, v, first, i =>
    if 48 ≤ c ∧ c ≤ 57 then match getc kb i with
      | none => none
      | some (c', i) => setArg kb n c' (v * 10 + (c - 48).toNat) false i
    else if c < 0 ∨ first = true then some (none, i)
    else some (some v, { i with unget := c })

/-! ## Sessions -/

/-- The indices of the functions the reader has to know. -/
structure Fns where
  text : Nat
  quote : Nat
  setArg : Nat

/-- The shell as far as keys are concerned.  `lit` is x_literal_set, `km` the variable kmatch of x_emacs, `sarg` the last
value x_set_arg found. -/
structure S where
  map : Keymap
  inp : In
  lit : Bool
  km : Option Nat
  sarg : Option Nat
deriving DecidableEq

/-- What can happen.  `bind` and `list` are commands of the user: entered as a line, or run by a trap while the editor
waits for a key (edit.c:123-128).  `read` is a function of the editor that reads a character by itself
(emacs.c:750, 768, 893), `start` a new call of x_emacs (emacs.c:277, 313-315). -/
inductive Ev where
  | key
  | read
  | start
  | bind (a1 a2 : List Nat) (mcr : Bool)
  | list

/-- The use of kmatch after a quoted key (emacs.c:374-378). -/
def useMatch (s : S) : Option S :=
  match s.km with
  | none => some s
  | some id => if s.map.kb.any (·.id == id) then some s else none

/-- The functions that take part in reading. -/
def act (f : Fns) (s : S) (a : Act) : Option S :=
  match a with
  | .call k c =>
    if k.fn = f.quote then some { s with lit := true, km := some k.id }
    else if k.fn = f.setArg then
      (setArg s.map.kb (s.inp.size + 2) (sgn c) 0 true s.inp).map fun r =>
        { s with sarg := r.1, inp := r.2, km := some k.id }
    else some { s with km := some k.id }
  | .text k => some { s with km := some k.id }
  | _ => some { s with km := none }

/-- One key command of x_emacs. -/
def key (f : Fns) (s : S) : Option S :=
  if s.lit then match literal s.map.kb s.inp with
    | none => none
    | some (_, i) => useMatch { s with inp := i, lit := false }
  else match command f.text s.map.kb s.inp with
    | none => none
    | some (a, i) => act f { s with inp := i } a

/-- One event. -/
def step (ft : List Func) (f : Fns) (s : S) : Ev → Option S
  | .key => key f s
  | .read => (getc s.map.kb s.inp).map fun r => { s with inp := r.2 }
  | .start => some { s with lit := false, km := none }
  | .bind a1 a2 m => (xbind ft f.text s.map a1 a2 m).map fun r => { s with map := r.2 }
  | .list => (listAll ft s.map.kb).map fun _ => s

/-- A sequence of events. -/
def run (ft : List Func) (f : Fns) : S → List Ev → Option S
  | s, [] => some s
  | s, e :: es => match step ft f s e with
    | none => none
    | some s => run ft f s es

end Ksh.Keys
