import Verif.Edit.Model
/-!
# Model of the emacs mode line editor (emacs.c)

The buffer `xbuf … xend` is a list of bytes (a `Char` stands for a byte), pointers into it are
indices.  Reading or writing outside the buffer, forming a pointer before it, and a `memmove`
with a negative length (which `size_t` turns into a huge one) give `none`.

Not modelled: the screen (`x_zots`, `x_bs`, `x_redraw`, `x_adjust`, `xbp`, `xlp`, emacs.c:651-708,
1026-1096, 1799-1811, 1885-1935, 2150-2163); these read the buffer but change neither it nor
`xcp`, `xep`, `xmp`.  Key lookup (emacs.c:317-382) is not modelled: a run is a list of commands
with their arguments.  `x_arg` is a natural number; the overflow of `n * 10` in `x_set_arg`
(emacs.c:1953-1954) is not modelled.
-/

namespace Ksh.Emacs

/-- What the line editor is given from outside. -/
structure Env where
  /-- `history … histptr` -/
  hist : List (List Char)
  /-- `Flag(FGMACS)` -/
  gmacs : Bool
  /-- the value of `IFS`, edit.c:947 -/
  ifs : List Char
  /-- `x_cf_glob` (edit.c:717-755) on the text and the cursor: `*startp`, `*endp`, the words;
  an empty list for no match. -/
  glob : List Char → Nat → Nat × Nat × List (List Char)

/-- `KILLSIZE`, emacs.c:113 -/
def killSize : Nat := 20

/-- The statics of emacs.c:85-115. -/
structure Ed where
  /-- `xbuf … xend` -/
  mem : List Char
  /-- `xcp` -/
  cp : Nat
  /-- `xep` -/
  ep : Nat
  /-- `xmp` -/
  mark : Option Nat
  /-- `killstack` -/
  ring : List (Option (List Char))
  /-- `killsp` -/
  sp : Nat
  /-- `killtp` -/
  tp : Nat
  /-- `x_histp - history` -/
  histp : Int
  /-- `x_last_command` is `x_yank` or `x_meta_yank` -/
  yanked : Bool
  /-- the last `x_do_ins` found room; false after a yank without text (not in the code, only read
  by the statements) -/
  fit : Bool
  deriving DecidableEq, Repr

/-- What a command returns: `KSTD`, `KEOL`, `KINTR`. -/
inductive Ret where
  | std | eol | intr
  deriving DecidableEq, Repr

/-- `isu8cont`, emacs.c:268-272 -/
def cont (c : Char) : Bool := 0x80 ≤ c.toNat && c.toNat < 0xc0

/-- `is_mfs`, emacs.c:56-57 -/
def mfs (c : Char) : Bool := !(c.isAlphanum || c == '_' || c == '$' || 0x80 ≤ c.toNat)

/-- `is_cfs`, emacs.c:53 -/
def cfs (c : Char) : Bool := c == ' ' || c == '\t' || c == '"' || c == '\''

/-! ## C library -/

/-- `memmove(dst, src, n)` inside the buffer. -/
def memmove (m : List Char) (dst src : Nat) (n : Int) : Option (List Char) :=
  if n < 0 ∨ (dst + n : Int) > m.length ∨ (src + n : Int) > m.length then none
  else some (m.take dst ++ (m.drop src).take n.toNat ++ m.drop (dst + n.toNat))

/-- `memmove(dst, s, n)` with `s` outside the buffer. -/
def memput (m : List Char) (dst : Nat) (s : List Char) : Option (List Char) :=
  if dst + s.length > m.length then none
  else some (m.take dst ++ s ++ m.drop (dst + s.length))

/-- `strncat` to an empty string: at most `n` bytes, up to the NUL; `none` when it reads past
the buffer. -/
def cstrN : List Char → Nat → Option (List Char)
  | _, 0 => some []
  | [], _+1 => none
  | c :: l, n+1 =>
    if c = '\x00' then some []
    else match cstrN l n with
      | none => none
      | some r => some (c :: r)

/-- `strchr(p, c)`, `i` is the position of `p`: `none` is a read past the buffer, `some none` is
`NULL`. -/
def strchr (c : Char) : List Char → Nat → Option (Option Nat)
  | [], _ => none
  | x :: l, i =>
    if x = c then some (some i)
    else if x = '\x00' then some none
    else strchr c l (i+1)

/-- `strstr(s, pat)` as an offset. -/
def strstr (pat : List Char) : List Char → Option Nat
  | [] => if pat = [] then some 0 else none
  | c :: l => if pat.isPrefixOf (c :: l) then some 0 else (strstr pat l).map (· + 1)

/-! ## Primitives -/

/-- `x_goto`, emacs.c:635-649, for a pointer that may lie before the buffer. -/
def goto (s : Ed) (p : Int) : Option Ed :=
  if p < 0 ∨ p > s.mem.length then none else some { s with cp := p.toNat }

/-- `x_do_ins`, emacs.c:428-441: the return value and the editor. -/
def doIns (s : Ed) (x : List Char) : Option (Bool × Ed) :=
  if s.ep + x.length ≥ s.mem.length then some (false, { s with fit := false })
  else
    match memmove s.mem (s.cp + x.length) s.cp ((s.ep : Int) - s.cp + 1) with
    | none => none
    | some m1 =>
      match memput m1 s.cp x with
      | none => none
      | some m2 => some (true, { s with mem := m2, cp := s.cp + x.length, ep := s.ep + x.length, fit := true })

/-- `x_ins`, emacs.c:443-467 -/
def ins (s : Ed) (x : List Char) : Option Ed := (doIns s x).map (·.2)

/-- `x_push`, emacs.c:1179-1186 -/
def push (s : Ed) (n : Nat) : Option Ed :=
  match cstrN (s.mem.drop s.cp) n with
  | none => none
  | some k =>
    if s.sp < s.ring.length then
      some { s with ring := s.ring.set s.sp (some k), sp := (s.sp + 1) % killSize }
    else none

/-- emacs.c:513-518 -/
def moveMark (cp nc : Nat) : Option Nat → Option Nat
  | none => none
  | some m => if m > cp then (if cp + nc > m then some cp else some (m - nc)) else some m

/-- emacs.c:526-533: `xep -= nc`, the sizes of the deleted bytes are read, the rest moves. -/
def cutOut (s : Ed) (nc : Nat) : Option Ed :=
  if nc > s.ep ∨ s.cp + nc > s.mem.length then none
  else
    match memmove s.mem s.cp (s.cp + nc) (((s.ep - nc : Nat) : Int) - s.cp + 1) with
    | none => none
    | some m => some { s with mem := m, ep := s.ep - nc }

/-- `x_delete`, emacs.c:505-558 -/
def del (s : Ed) (nc : Nat) (psh : Bool) : Option Ed :=
  if nc = 0 then some s
  else
    let s1 := { s with mark := moveMark s.cp nc s.mark }
    match (if psh then push s1 nc else some s1) with
    | none => none
    | some s2 => cutOut s2 nc

/-! ## Characters -/

/-- `while (x_arg--) x_ins(str)`, emacs.c:417-418 -/
def insLoop (x : List Char) : Nat → Ed → Option Ed
  | 0, s => some s
  | n+1, s =>
    match ins s x with
    | none => none
    | some s' => insLoop x n s'

/-- `x_insert`, emacs.c:403-420 -/
def insert (s : Ed) (c : Char) (arg : Nat) : Option Ed :=
  if c = '\x00' then some s else insLoop [c] arg s

/-- `while (x_arg < col && isu8cont(xcp[-x_arg])) x_arg++`, emacs.c:480-481, 721-722; the first
argument bounds the number of turns. -/
def extBack (m : List Char) (cp : Nat) : Nat → Nat → Option Nat
  | 0, a => some a
  | k+1, a =>
    match m[cp - a]? with
    | none => none
    | some c => if cont c then extBack m cp k (a+1) else some a

/-- `while (x_arg < nleft && isu8cont(p[x_arg])) x_arg++`, emacs.c:498-499, 738-739, 1168-1169. -/
def extForw (m : List Char) (p : Nat) : Nat → Nat → Option Nat
  | 0, a => some a
  | k+1, a =>
    match m[p + a]? with
    | none => none
    | some c => if cont c then extForw m p k (a+1) else some a

/-- emacs.c:472-481, 713-722: the number of bytes to the left; `none` inside is the bell. -/
def backCount (s : Ed) (arg : Nat) : Option (Option Nat) :=
  if s.cp = 0 then some none
  else (extBack s.mem s.cp (s.cp - min arg s.cp) (min arg s.cp)).map some

/-- emacs.c:490-499, 730-739 -/
def forwCount (s : Ed) (arg : Nat) : Option (Option Nat) :=
  if s.ep = s.cp then some none
  else (extForw s.mem s.cp (s.ep - s.cp - min arg (s.ep - s.cp)) (min arg (s.ep - s.cp))).map some

/-- `x_del_back`, emacs.c:469-485 -/
def delBack (s : Ed) (arg : Nat) : Option Ed :=
  match backCount s arg with
  | none => none
  | some none => some s
  | some (some n) =>
    match goto s ((s.cp : Int) - n) with
    | none => none
    | some s' => del s' n false

/-- `x_del_char`, emacs.c:487-502 -/
def delChar (s : Ed) (arg : Nat) : Option Ed :=
  match forwCount s arg with
  | none => none
  | some none => some s
  | some (some n) => del s n false

/-- `x_mv_back`, emacs.c:710-725 -/
def mvBack (s : Ed) (arg : Nat) : Option Ed :=
  match backCount s arg with
  | none => none
  | some none => some s
  | some (some n) => goto s ((s.cp : Int) - n)

/-- `x_mv_forw`, emacs.c:727-742 -/
def mvForw (s : Ed) (arg : Nat) : Option Ed :=
  match forwCount s arg with
  | none => none
  | some none => some s
  | some (some n) => goto s (s.cp + n)

/-! ## Words -/

/-- `while (cp != xbuf && p(cp[-1])) cp--`, emacs.c:599-606 -/
def skipB (m : List Char) (p : Char → Bool) : Nat → Option Nat
  | 0 => some 0
  | cp+1 =>
    match m[cp]? with
    | none => none
    | some c => if p c then skipB m p cp else some (cp+1)

/-- `while (cp != xep && p(*cp)) cp++`, emacs.c:623-630; the first argument bounds the number of
turns by the size of the buffer. -/
def skipF (m : List Char) (ep : Nat) (p : Char → Bool) : Nat → Nat → Option Nat
  | 0, _ => none
  | k+1, cp =>
    if cp = ep then some cp
    else
      match m[cp]? with
      | none => none
      | some c => if p c then skipF m ep p k (cp+1) else some cp

/-- emacs.c:598-607 -/
def bwordLoop (m : List Char) : Nat → Nat → Option Nat
  | 0, cp => some cp
  | n+1, cp =>
    match skipB m mfs cp with
    | none => none
    | some p =>
      match skipB m (fun c => !mfs c) p with
      | none => none
      | some q => bwordLoop m n q

/-- emacs.c:622-631 -/
def fwordLoop (m : List Char) (ep : Nat) : Nat → Nat → Option Nat
  | 0, cp => some cp
  | n+1, cp =>
    match skipF m ep mfs (m.length + 1) cp with
    | none => none
    | some p =>
      match skipF m ep (fun c => !mfs c) (m.length + 1) p with
      | none => none
      | some q => fwordLoop m ep n q

/-- `x_bword`, emacs.c:588-610: the count and the editor with the cursor moved. -/
def bword (s : Ed) (arg : Nat) : Option (Nat × Ed) :=
  if s.cp = 0 then some (0, s)
  else
    match bwordLoop s.mem arg s.cp with
    | none => none
    | some q => (goto s q).map (fun s' => (s.cp - q, s'))

/-- `x_fword`, emacs.c:612-633 -/
def fword (s : Ed) (arg : Nat) : Option Nat :=
  if s.cp = s.ep then some 0
  else (fwordLoop s.mem s.ep arg s.cp).map (· - s.cp)

/-- `x_del_bword`, emacs.c:560-565 -/
def delBword (s : Ed) (arg : Nat) : Option Ed :=
  match bword s arg with
  | none => none
  | some (n, s') => del s' n true

/-- `x_mv_bword`, emacs.c:567-572 -/
def mvBword (s : Ed) (arg : Nat) : Option Ed := (bword s arg).map (·.2)

/-- `x_mv_fword`, emacs.c:574-579 -/
def mvFword (s : Ed) (arg : Nat) : Option Ed :=
  match fword s arg with
  | none => none
  | some n => goto s (s.cp + n)

/-- `x_del_fword`, emacs.c:581-586 -/
def delFword (s : Ed) (arg : Nat) : Option Ed :=
  match fword s arg with
  | none => none
  | some n => del s n true

/-- `U`, `L` or `C`, emacs.c:2053-2071 -/
inductive Fold where
  | upper | lower | cap
  deriving DecidableEq, Repr

/-- emacs.c:2103-2109 -/
def foldFirst (f : Fold) (c : Char) : Char :=
  if f = .lower then (if c.isUpper then c.toLower else c)
  else (if c.isLower then c.toUpper else c)

/-- emacs.c:2116-2122 -/
def foldNext (f : Fold) (c : Char) : Char :=
  if f = .upper then (if c.isLower then c.toUpper else c)
  else (if c.isUpper then c.toLower else c)

/-- emacs.c:2115-2124 -/
def foldRest (f : Fold) (ep : Nat) : Nat → List Char → Nat → Option (List Char × Nat)
  | 0, _, _ => none
  | k+1, m, cp =>
    if cp = ep then some (m, cp)
    else
      match m[cp]? with
      | none => none
      | some c => if mfs c then some (m, cp) else foldRest f ep k (m.set cp (foldNext f c)) (cp+1)

/-- emacs.c:2102-2111 -/
def foldOne (f : Fold) (ep : Nat) (m : List Char) (cp : Nat) : Option (List Char × Nat) :=
  if cp = ep then some (m, cp)
  else
    match m[cp]? with
    | none => none
    | some c => some (m.set cp (foldFirst f c), cp+1)

/-- emacs.c:2092-2125 -/
def foldLoop (f : Fold) (ep : Nat) : Nat → List Char → Nat → Option (List Char × Nat)
  | 0, m, cp => some (m, cp)
  | n+1, m, cp =>
    match skipF m ep mfs (m.length + 1) cp with
    | none => none
    | some p =>
      match foldOne f ep m p with
      | none => none
      | some (m1, p1) =>
        match foldRest f ep (m1.length + 1) m1 p1 with
        | none => none
        | some (m2, p2) => foldLoop f ep n m2 p2

/-- `x_fold_case`, emacs.c:2083-2128 -/
def foldCase (s : Ed) (f : Fold) (arg : Nat) : Option Ed :=
  if s.cp = s.ep then some s
  else
    match foldLoop f s.ep arg s.mem s.cp with
    | none => none
    | some (m, p) => goto { s with mem := m } p

/-! ## Searching for a character -/

/-- emacs.c:751-757: `none` inside is the bell. -/
def forwLoop (m : List Char) (ep : Nat) (c : Char) : Nat → Nat → Option (Option Nat)
  | 0, cp => some (some cp)
  | n+1, cp =>
    match (if cp = ep then some none else strchr c (m.drop (cp+1)) (cp+1)) with
    | none => none
    | some (some p) => forwLoop m ep c n p
    | some none =>
      match strchr c m 0 with
      | none => none
      | some none => some none
      | some (some p) => forwLoop m ep c n p

/-- `x_search_char_forw`, emacs.c:744-761; no character is end of file. -/
def searchForw (s : Ed) (c : Option Char) (arg : Nat) : Option Ed :=
  if s.ep < s.mem.length then
    let m := s.mem.set s.ep '\x00'
    match c with
    | none => some { s with mem := m }
    | some c =>
      match forwLoop m s.ep c arg s.cp with
      | none => none
      | some none => some { s with mem := m }
      | some (some p) => goto { s with mem := m } p
  else none

/-- The inner loop of emacs.c:770-779.  `*p == c` compares a signed `char` with an `int` from 0
to 255: bytes from 0x80 on never match. -/
def backOne (m : List Char) (ep cp : Nat) (c : Char) : Nat → Nat → Option (Option Nat)
  | 0, _ => none
  | k+1, p =>
    let q := if p = 0 then ep else p - 1
    if q = cp then some none
    else
      match m[q]? with
      | none => none
      | some x => if x = c ∧ x.toNat < 0x80 then some (some q) else backOne m ep cp c k q

/-- emacs.c:769-779 -/
def backLoop (m : List Char) (ep : Nat) (c : Char) : Nat → Nat → Option (Option Nat)
  | 0, cp => some (some cp)
  | n+1, cp =>
    match backOne m ep cp c (ep + 2) cp with
    | none => none
    | some none => some none
    | some (some p) => backLoop m ep c n p

/-- `x_search_char_back`, emacs.c:763-782 -/
def searchBack (s : Ed) (c : Option Char) (arg : Nat) : Option Ed :=
  match c with
  | none => some s
  | some c =>
    match backLoop s.mem s.ep c arg s.cp with
    | none => none
    | some none => some s
    | some (some p) => goto s p

/-! ## Lines -/

/-- `x_newline`, emacs.c:784-792 -/
def newline (s : Ed) : Option (Ed × Ret) :=
  if s.ep < s.mem.length then
    some ({ s with mem := s.mem.set s.ep '\n', ep := s.ep + 1 }, .eol)
  else none

/-- `x_load_hist`, emacs.c:826-844: `strlcpy` of the line. -/
def loadHist (env : Env) (s : Ed) (hp : Int) : Option Ed :=
  if hp < 0 ∨ hp > (env.hist.length : Int) - 1 then some s
  else
    match env.hist[hp.toNat]? with
    | none => none
    | some h =>
      match memput s.mem 0 (h.take (s.mem.length - 1) ++ ['\x00']) with
      | none => none
      | some m =>
        some { s with mem := m, histp := hp, cp := (h.take (s.mem.length - 1)).length,
                      ep := (h.take (s.mem.length - 1)).length }

/-- `x_match`, emacs.c:964-973 -/
def xmatch (str pat : List Char) : Option Nat :=
  match pat with
  | '^' :: rest => if rest.isPrefixOf str then some 0 else none
  | _ => strstr pat str

/-- `(*pat == '^')` -/
def caret (pat : List Char) : Nat := if pat.head? = some '^' then 1 else 0

/-- The loop of emacs.c:948-957, `hp = k - 1`: the entry found and the offset of the match;
`some none` is the end of the history. -/
def searchLoop (hist : List (List Char)) (pat : List Char) : Nat → Option (Option (Nat × Nat))
  | 0 => some none
  | k+1 =>
    match hist[k]? with
    | none => none
    | some h =>
      match xmatch h pat with
      | some i => some (some (k, i))
      | none => searchLoop hist pat k

/-- `x_search`, emacs.c:942-962: the result and the editor. -/
def search (env : Env) (s : Ed) (pat : List Char) (sameline : Bool) : Option (Option Nat × Ed) :=
  match searchLoop env.hist pat (s.histp - (if sameline then 0 else 1) + 1).toNat with
  | none => none
  | some none => some (none, { s with histp := (env.hist.length : Int) - 1 })
  | some (some (k, i)) =>
    match loadHist env s k with
    | none => none
    | some s1 =>
      match goto s1 ((i : Int) + pat.length - caret pat) with
      | none => none
      | some s2 => some (some i, s2)

/-- A key while searching: bound to `x_search_hist`, to `x_del_back`, to `x_insert`. -/
inductive SKey where
  | again | back | char (c : Char)
  deriving DecidableEq, Repr

/-- The text of the line: up to the NUL. -/
def cstr (m : List Char) : List Char := m.takeWhile (· ≠ '\x00')

/-- emacs.c:916-931 -/
def addKey (env : Env) (s : Ed) (pat : List Char) (offset : Option Nat) (c : Char) :
    Option (List Char × Option Nat × Ed) :=
  if pat.length ≥ 256 then some (pat, offset, s)
  else
    let pat' := pat ++ [c]
    match (if offset.isSome then xmatch (cstr s.mem) pat' else none) with
    | some i =>
      match goto s ((i : Int) + pat'.length - caret pat') with
      | none => none
      | some s' => some (pat', some i, s')
    | none =>
      match search env s pat' false with
      | none => none
      | some (o, s') => some (pat', o, s')

/-- The loop of emacs.c:887-937; the list ends with another command or the end of file. -/
def searchKeys (env : Env) : List SKey → Ed → List Char → Option Nat → Option Ed
  | [], s, _, _ => some s
  | .again :: ks, s, pat, _ =>
    match search env s pat false with
    | none => none
    | some (o, s') => searchKeys env ks s' pat o
  | .back :: ks, s, pat, _ =>
    if pat = [] then some s
    else if pat.dropLast = [] then searchKeys env ks s [] none
    else
      match search env s pat.dropLast true with
      | none => none
      | some (o, s') => searchKeys env ks s' pat.dropLast o
  | .char c :: ks, s, pat, offset =>
    if c = '\x00' then some s
    else
      match addKey env s pat offset c with
      | none => none
      | some (pat', o, s') => searchKeys env ks s' pat' o

/-- `x_del_line`, emacs.c:975-991 -/
def delLine (s : Ed) : Option Ed :=
  if s.ep < s.mem.length then
    match push { s with mem := s.mem.set s.ep '\x00', cp := 0 } s.ep with
    | none => none
    | some s1 => some { s1 with ep := 0, mem := s1.mem.set 0 '\x00', mark := none }
  else none

/-- Swap `m[i]` and `m[j]`. -/
def swap (m : List Char) (i j : Nat) : Option (List Char) :=
  match m[i]?, m[j]? with
  | some a, some b => some ((m.set i b).set j a)
  | _, _ => none

/-- `x_transpose`, emacs.c:1098-1148 -/
def transpose (env : Env) (s : Ed) : Option Ed :=
  if s.cp = 0 then some s
  else if s.cp = s.ep ∨ env.gmacs then
    if s.cp = 1 then some s
    else (swap s.mem (s.cp - 1) (s.cp - 2)).map (fun m => { s with mem := m })
  else
    match swap s.mem (s.cp - 1) s.cp with
    | none => none
    | some m => goto { s with mem := m } (s.cp + 1)

/-- emacs.c:1164-1167 -/
def killArg (ep : Nat) : Option Nat → Nat
  | none => ep
  | some n => min n ep

/-- `x_kill`, emacs.c:1157-1177 -/
def kill (s : Ed) (arg : Option Nat) : Option Ed :=
  match extForw s.mem 0 (s.ep - killArg s.ep arg) (killArg s.ep arg) with
  | none => none
  | some a =>
    if a < s.cp then
      match goto s a with
      | none => none
      | some s' => del s' (s.cp - a) true
    else del s (a - s.cp) true

/-! ## The kill ring -/

/-- emacs.c:1191-1195 -/
def yankTop (sp : Nat) : Nat := (if sp = 0 then killSize else sp) - 1

/-- `x_yank`, emacs.c:1188-1204 -/
def yank (s : Ed) : Option Ed :=
  let s := { s with tp := yankTop s.sp }
  match s.ring[s.tp]? with
  | none => none
  | some none => some { s with fit := false }
  | some (some k) => ins { s with mark := some s.cp } k

/-- The loop of emacs.c:1220-1225; the first argument bounds the number of turns. -/
def popLoop (ring : List (Option (List Char))) : Nat → Nat → Option (Nat × List Char)
  | 0, _ => none
  | n+1, tp =>
    let tp := if tp = 0 then killSize - 1 else tp - 1
    match ring[tp]? with
    | none => none
    | some (some k) => some (tp, k)
    | some none => popLoop ring n tp

/-- emacs.c:1217-1226 -/
def pop (s : Ed) (k : List Char) : Option Ed :=
  match goto s ((s.cp : Int) - k.length) with
  | none => none
  | some s1 =>
    match del s1 k.length false with
    | none => none
    | some s2 =>
      match popLoop s2.ring killSize s2.tp with
      | none => none
      | some (tp, k') => ins { s2 with tp := tp } k'

/-- `x_meta_yank`, emacs.c:1206-1228 -/
def metaYank (s : Ed) : Option Ed :=
  if s.yanked then
    match s.ring[s.tp]? with
    | none => none
    | some none => some { s with tp := s.sp, fit := false }
    | some (some k) => pop s k
  else some { s with tp := s.sp, fit := false }

/-! ## The mark -/

/-- `x_kill_region`, emacs.c:1611-1633 -/
def killRegion (s : Ed) : Option Ed :=
  match s.mark with
  | none => some s
  | some m =>
    let xr := if m > s.cp then s.cp else m
    match goto s xr with
    | none => none
    | some s1 =>
      match del s1 (if m > s.cp then m - s.cp else s.cp - m) true with
      | none => none
      | some s2 => some { s2 with mark := some xr }

/-- `x_xchg_point_mark`, emacs.c:1635-1648 -/
def xchg (s : Ed) : Option Ed :=
  match s.mark with
  | none => some s
  | some m => goto { s with mark := some s.cp } m

/-! ## Completion -/

/-- edit.c:951-952: `strchr` also finds the NUL, which a word does not contain. -/
def special (ifs : List Char) (c : Char) : Bool :=
  "!\"#$&'()*:;<=>?[\\]`{|}".toList.contains c || ifs.contains c

/-- `x_escape` with `x_do_ins` (edit.c:944-971): `pre` are the bytes not yet put.  The results
of putting the backslash and the character are not looked at. -/
def escape (ifs : List Char) : List Char → List Char → Ed → Option (Bool × Ed)
  | pre, [], s => if pre = [] then some (true, s) else doIns s pre
  | pre, c :: l, s =>
    if special ifs c then
      match doIns s pre with
      | none => none
      | some (false, s1) => some (false, s1)
      | some (true, s1) =>
        match doIns s1 ['\\'] with
        | none => none
        | some (_, s2) =>
          match doIns s2 [c] with
          | none => none
          | some (_, s3) => escape ifs [] l s3
    else escape ifs (pre ++ [c]) l s

/-- emacs.c:1765-1771 -/
def complete1 (env : Env) (s : Ed) (start olen nlen : Nat) (w : List Char) (many : Bool) : Option Ed :=
  if !many || nlen > olen then
    match goto s start with
    | none => none
    | some s1 =>
      match del s1 olen false with
      | none => none
      | some s2 => (escape env.ifs [] (w.take nlen) s2).map (·.2)
  else some s

/-- emacs.c:1773-1776: `words[0][nlen - 1]` -/
def complete2 (s : Ed) (nlen : Nat) (w : List Char) (many : Bool) : Option Ed :=
  if many then some s
  else if nlen = 0 then none
  else
    match w[nlen - 1]? with
    | none => none
    | some c => if c = '/' then some s else ins s [' ']

/-- `do_complete` with `CT_COMPLETE` or `CT_COMPLIST`, emacs.c:1735-1787; listing only writes to
the screen. -/
def complete (env : Env) (s : Ed) : Option Ed :=
  match env.glob (s.mem.take s.ep) s.cp with
  | (_, _, []) => some s
  | (start, stop, w :: ws) =>
    match Edit.longestPrefix (w :: ws) with
    | none => none
    | some nlen =>
      match complete1 env s start (stop - start) nlen w (ws ≠ []) with
      | none => none
      | some s1 => complete2 s1 nlen w (ws ≠ [])

/-- emacs.c:1721-1727 -/
def expandLoop (ifs : List Char) : List (List Char) → Ed → Option Ed
  | [], s => some s
  | w :: ws, s =>
    match escape ifs [] w s with
    | none => none
    | some (false, s1) => some s1
    | some (true, s1) =>
      if ws = [] then some s1
      else
        match doIns s1 [' '] with
        | none => none
        | some (false, s2) => some s2
        | some (true, s2) => expandLoop ifs ws s2

/-- `x_expand`, emacs.c:1700-1731 -/
def expand (env : Env) (s : Ed) : Option Ed :=
  match env.glob (s.mem.take s.ep) s.cp with
  | (_, _, []) => some s
  | (start, stop, w :: ws) =>
    match goto s start with
    | none => none
    | some s1 =>
      match del s1 (stop - start) false with
      | none => none
      | some s2 => expandLoop env.ifs (w :: ws) s2

/-! ## The rest -/

/-- `x_comment`, emacs.c:1970-1989 -/
def comment (s : Ed) : Option (Ed × Ret) :=
  match Edit.doComment s.mem s.mem.length s.ep with
  | none => none
  | some (ret, m, len) =>
    if ret < 0 then some ({ s with mem := m }, .std)
    else if len < m.length then
      let s1 := { s with mem := m.set len '\x00', ep := len, cp := 0 }
      if ret > 0 then newline s1 else some (s1, .std)
    else none

/-- `while (rcp > cp && p(*rcp)) rcp--`, emacs.c:2020-2023 -/
def wordLoop (h : List Char) (p : Char → Bool) : Nat → Option Nat
  | 0 => some 0
  | r+1 =>
    match h[r+1]? with
    | none => none
    | some c => if p c then wordLoop h p r else some (r+1)

/-- emacs.c:2016-2026: the last word; `&cp[strlen(cp) - 1]` of an empty line is before it. -/
def lastWord (h : List Char) : Option (List Char) :=
  if h = [] then none
  else
    match wordLoop h cfs (h.length - 1) with
    | none => none
    | some a =>
      match wordLoop h (fun c => !cfs c) a with
      | none => none
      | some b =>
        match h[b]? with
        | none => none
        | some c => some (h.drop (if cfs c then b + 1 else b))

/-- emacs.c:2032-2042 -/
def nthWord : Nat → List Char → List Char
  | n+2, h => nthWord (n+1) ((h.dropWhile (fun c => !cfs c)).dropWhile cfs)
  | _, h => h.takeWhile (fun c => !cfs c)

/-- `x_prev_histword`, emacs.c:2006-2050 -/
def prevHistword (env : Env) (s : Ed) (arg : Option Nat) : Option Ed :=
  match env.hist.getLast? with
  | none => some s
  | some h =>
    match arg with
    | none =>
      match lastWord h with
      | none => none
      | some w => ins s w
    | some n => ins s (nthWord n (h.dropWhile cfs))

/-- The commands of `x_ftab` (emacs.c:206-266), with what they read from the keyboard. -/
inductive Cmd where
  | insert (c : Char) | insStr (x : List Char)
  | delBack | delChar | mvBack | mvForw | delBword | delFword | mvBword | mvFword
  | mvBegin | mvEnd | fold (f : Fold)
  | searchForw (c : Option Char) | searchBack (c : Option Char)
  | newline | eot | eotDel | abort
  | begHist | endHist | prevCom | nextCom | gotoHist (line : Int) | searchHist (ks : List SKey)
  | delLine | transpose | kill | yank | metaYank | setMark | killRegion | xchg
  | complete | expand | comment | prevHistword
  | noop
  deriving DecidableEq, Repr

def std : Option Ed → Option (Ed × Ret) := Option.map (fun s => (s, .std))

/-- The command functions; `arg` is `none` when `x_arg_defaulted`. -/
def exec (env : Env) (s : Ed) (c : Cmd) (arg : Option Nat) : Option (Ed × Ret) :=
  let n := arg.getD 1
  match c with
  | .insert c => std (insert s c n)
  | .insStr x => std (ins s (cstr x))
  | .delBack => std (delBack s n)
  | .delChar => std (delChar s n)
  | .mvBack => std (mvBack s n)
  | .mvForw => std (mvForw s n)
  | .delBword => std (delBword s n)
  | .delFword => std (delFword s n)
  | .mvBword => std (mvBword s n)
  | .mvFword => std (mvFword s n)
  | .mvBegin => std (goto s 0)
  | .mvEnd => std (goto s s.ep)
  | .fold f => std (foldCase s f n)
  | .searchForw c => std (searchForw s c n)
  | .searchBack c => std (searchBack s c n)
  | .newline => newline s
  | .eot => some (s, .eol)
  | .eotDel => if s.ep = 0 ∧ arg = none then some (s, .eol) else std (delChar s n)
  | .abort => if 0 < s.mem.length then some ({ s with mem := s.mem.set 0 '\x00', cp := 0, ep := 0 }, .intr) else none
  | .begHist => std (loadHist env s 0)
  | .endHist => std (loadHist env s ((env.hist.length : Int) - 1))
  | .prevCom => std (loadHist env s (s.histp - n))
  | .nextCom => std (loadHist env s (s.histp + n))
  | .gotoHist line =>
    match arg with
    | none => std (loadHist env s 0)
    | some n => std (loadHist env s ((env.hist.length : Int) - 1 + n - line))
  | .searchHist ks => std (searchKeys env ks s [] none)
  | .delLine => std (delLine s)
  | .transpose => std (transpose env s)
  | .kill => std (kill s arg)
  | .yank => std (yank s)
  | .metaYank => std (metaYank s)
  | .setMark => some ({ s with mark := some s.cp }, .std)
  | .killRegion => std (killRegion s)
  | .xchg => std (xchg s)
  | .complete => std (complete env s)
  | .expand => std (expand env s)
  | .comment => comment s
  | .prevHistword => std (prevHistword env s arg)
  | .noop => some (s, .std)

/-- emacs.c:369-371: `x_last_command` -/
def isYank : Cmd → Bool
  | .yank => true
  | .metaYank => true
  | _ => false

/-- One turn of `x_emacs`, emacs.c:359-399. -/
def step (env : Env) (s : Ed) (c : Cmd) (arg : Option Nat) : Option (Ed × Ret) :=
  (exec env s c arg).map (fun r => ({ r.1 with yanked := isYank c }, r.2))

/-- `x_emacs` (emacs.c:274-400) on a list of commands: the bytes handed to the caller,
`xbuf … xep`; `some none` while the line is being edited or after an interrupt. -/
def run (env : Env) : List (Cmd × Option Nat) → Ed → Option (Ed × Ret)
  | [], s => some (s, .std)
  | (c, arg) :: ks, s =>
    match step env s c arg with
    | none => none
    | some (s', .std) => run env ks s'
    | some (s', r) => some (s', r)

/-- emacs.c:281-286, 311-313: the state in which a line begins; the kill ring is kept. -/
def start (env : Env) (m : List Char) (ring : List (Option (List Char))) (sp tp : Nat) : Ed :=
  { mem := m.set 0 '\x00', cp := 0, ep := 0, mark := none, ring := ring, sp := sp, tp := tp,
    histp := env.hist.length, yanked := false, fit := true }

end Ksh.Emacs
