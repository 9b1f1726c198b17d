/-!
# Model of the pattern matcher

misc.c:502-827 (`gmatch`, `has_globbing`, `do_gmatch`, `posix_cclass`, `cclass`,
`pat_scan`), eval.c:934-980 (`trimsub`), eval.c:1147-1173 (`debunk`).

A byte is a `Nat`; C strings contain no 0 byte.  A pointer into the pattern is the
remaining text (up to the terminating NUL) together with the signed distance `k` to
`pe`; reading at or behind the NUL gives 0.  A pointer into the subject is the text
up to `se`.
-/

namespace Ksh.Glob

/-- bytes -/
scoped notation "B" => Nat

/-- sh.h:36 -/
scoped notation "MAGIC" => (7 : Nat)

/-- `p[i]` -/
def at' (p : List B) (i : Nat) : B := (p[i]?).getD 0

/-- `(c & 0x80) && strchr("*+?@! ", c & 0x7f)`; `strchr` also finds the NUL, so 0x80
itself counts. -/
def isExt (c : B) : Bool :=
  decide (128 ≤ c) && decide (c - 128 ∈ [42, 43, 63, 64, 33, 32, 0])

/-- `has_globbing` (misc.c:542-593) on a whole string: `nest`, `bnest`, `saw_glob`,
`in_bracket`. -/
def hasGlobbingLoop : Nat → List B → Int → Int → Bool → Bool → Bool
  | 0, _, _, _, _, _ => false
  | _ + 1, [], nest, _, saw, inb => saw && !inb && nest == 0
  | f + 1, c :: p, nest, bnest, saw, inb =>
    if c ≠ MAGIC then hasGlobbingLoop f p nest bnest saw inb
    else
      -- `*++p`, then `p++` of the loop
      let c := at' p 0
      let q := p.drop 1
      if c = 42 ∨ c = 63 then hasGlobbingLoop f q nest bnest true inb
      else if c = 91 then
        if !inb then
          let q := if at' q 0 = MAGIC ∧ at' q 1 = 33 then q.drop 2 else q
          let q := if at' q 0 = MAGIC ∧ at' q 1 = 93 then q.drop 2 else q
          hasGlobbingLoop f q nest bnest true true
        else hasGlobbingLoop f q nest bnest saw inb
      else if c = 93 then
        if inb then (if bnest ≠ 0 then false else hasGlobbingLoop f q nest bnest saw false)
        else hasGlobbingLoop f q nest bnest saw inb
      else if isExt c then
        if inb then hasGlobbingLoop f q nest (bnest + 1) true inb
        else hasGlobbingLoop f q (nest + 1) bnest true inb
      else if c = 124 then
        if inb ∧ bnest = 0 then false else hasGlobbingLoop f q nest bnest saw inb
      else if c = 41 then
        if inb then (if bnest = 0 then false else hasGlobbingLoop f q nest (bnest - 1) saw inb)
        else if nest ≠ 0 then hasGlobbingLoop f q (nest - 1) bnest saw inb
        else hasGlobbingLoop f q nest bnest saw inb
      else hasGlobbingLoop f q nest bnest saw inb

/-- `has_globbing(p, p + strlen(p))`; every round consumes a byte. -/
def hasGlobbing (p : List B) : Bool := hasGlobbingLoop (p.length + 1) p 0 0 false false

/-- `pat_scan` (misc.c:812-827); the result is the offset of the returned pointer. -/
def patScan (sep : Bool) : List B → Int → Nat → Nat → Option Nat
  | [], _, _, _ => none
  | [c], k, _, _ =>
    -- a last byte: not MAGIC, or MAGIC followed by the NUL
    if k ≤ 0 then none else if c ≠ MAGIC then none else none
  | c :: d :: p, k, nest, off =>
    if k ≤ 0 then none
    else if c ≠ MAGIC then patScan sep (d :: p) (k - 1) nest (off + 1)
    else if d = 41 then
      if nest = 0 then some (off + 2) else patScan sep p (k - 2) (nest - 1) (off + 2)
    else if d = 124 ∧ sep = true ∧ nest = 0 then some (off + 2)
    else patScan sep p (k - 2) (if isExt d then nest + 1 else nest) (off + 2)

def inR (lo hi c : B) : Bool := decide (lo ≤ c) && decide (c ≤ hi)

/-- `<ctype.h>` in the C locale, for the names of charclass.h:17-31 (`blank` is
commented out there). -/
def ctypeOf (name : List B) : Option (B → Bool) :=
  let lower := inR 97 122
  let upper := inR 65 90
  let digit := inR 48 57
  let alpha := fun c => lower c || upper c
  let graph := inR 33 126
  let tbl : List (String × (B → Bool)) := [
    ("alnum", fun c => alpha c || digit c), ("alpha", alpha),
    ("cntrl", fun c => inR 0 31 c || c == 127), ("digit", digit), ("graph", graph), ("lower", lower),
    ("print", inR 32 126), ("punct", fun c => graph c && !(alpha c || digit c)),
    ("space", fun c => inR 9 13 c || c == 32), ("upper", upper),
    ("xdigit", fun c => digit c || inR 97 102 c || inR 65 70 c)]
  (tbl.find? fun e => e.1.toList.map Char.toNat == name).map (·.2)

/-- Return value of `posix_cclass` -/
inductive PC
  | no | yes | unterminated | invalid
  deriving DecidableEq, Repr

/-- `posix_cclass` (misc.c:722-748): `p` is the text behind `[:`.  Returns the class
test and the text behind the class (for `unterminated` the caller steps back). -/
def posixCclass (p : List B) (test : B) : PC × List B :=
  -- strchr(pattern, ':')
  let name := p.takeWhile (· ≠ 58)
  let rest := p.dropWhile (· ≠ 58)
  if rest = [] ∨ at' rest 1 ≠ MAGIC then (.unterminated, [])
  else
    let ep := rest.drop 3
    match ctypeOf name with
    | none => (.invalid, ep)
    | some f => (if f test then .yes else .no, ep)

/-- The inner loop over classes (misc.c:762-772): `p` points to `MAGIC [ :` or `[ :`.
`none` is `return NULL`. -/
def cclassNames : Nat → List B → B → Bool → Option (List B × Bool)
  | 0, _, _, _ => none
  | f + 1, p, sub, found =>
    let pp := p.drop ((if at' p 0 = MAGIC then 1 else 0) + 2)
    match posixCclass pp sub with
    | (.unterminated, _) => some (p.drop (if at' p 0 = MAGIC then 1 else 0), found)
    | (.invalid, _) => none
    | (r, ep) =>
      let found := found || r == .yes
      if at' ep 0 = MAGIC ∧ at' ep 1 = 91 ∧ at' ep 2 = 58 then cclassNames f ep sub found
      else some (ep, found)

/-- One coded character of a bracket (misc.c:777-786). -/
def cclassChar (p : List B) : B × List B :=
  let c := at' p 0
  let p := p.drop 1
  if c = MAGIC then
    let c := at' p 0
    let p := p.drop 1
    if 128 ≤ c then
      let c := c - 128
      (if c = 32 then 40 else c, p)
    else (c, p)
  else (c, p)

/-- The upper end of a range (misc.c:793-798). -/
def cclassEnd (p : List B) : B × List B :=
  let d := at' p 0
  let p := p.drop 1
  if d = MAGIC then
    let d := at' p 0
    let p := p.drop 1
    (if 128 ≤ d then d - 128 else d, p)
  else (d, p)

/-- `MAGIC [ :` or `[ :` (misc.c:760-761) -/
def atClass (p : List B) : Bool :=
  (at' p 0 == MAGIC && at' p 1 == 91 && at' p 2 == 58) || (at' p 0 == 91 && at' p 1 == 58)

/-- `MAGIC ]` -/
def atEnd (p : List B) : Bool := at' p 0 == MAGIC && at' p 1 == 93

/-- `MAGIC -` not before `MAGIC ]` (misc.c:790-791) -/
def atRange (p : List B) : Bool :=
  at' p 0 == MAGIC && at' p 1 == 45 && (at' p 2 != MAGIC || at' p 3 != 93)

/-- misc.c:808 -/
def cclassRet (p : List B) (neg found : Bool) : Option (List B) :=
  if found ≠ neg then some (p.drop 2) else none

/-- The body of the loop of `cclass` behind the classes (misc.c:777-806); `again` is the
next round. -/
def cclassOne (again : List B → Bool → Option (List B)) (orig p : List B) (sub : B)
    (neg found : Bool) : Option (List B) :=
  let (c, p) := cclassChar p
  if c = 0 then (if sub = 91 then some orig else none)
  else
    let r := atRange p
    let (d, p) := if r then cclassEnd (p.drop 2) else (c, p)
    if r ∧ d < c then none
    else
      let found := found || (c == sub || (decide (c ≤ sub) && decide (sub ≤ d)))
      if atEnd p then cclassRet p neg found
      else again p found

/-- The loop of `cclass` (misc.c:758-808).  `none` is `NULL`, otherwise the text behind
the bracket. -/
def cclassLoop (orig : List B) (sub : B) (neg : Bool) : Nat → List B → Bool → Option (List B)
  | 0, _, _ => none
  | f + 1, p, found =>
    if atClass p then
      match cclassNames (f + 1) p sub found with
      | none => none
      | some (p, found) =>
        if atEnd p then cclassRet p neg found
        else cclassOne (cclassLoop orig sub neg f) orig p sub neg found
    else cclassOne (cclassLoop orig sub neg f) orig p sub neg found

/-- `cclass` (misc.c:750-809): `p` is the text behind `MAGIC [`. -/
def cclass (p : List B) (sub : B) : Option (List B) :=
  -- misc.c:756: a leading MAGIC is skipped even if no `!` follows
  let f := p.length + 1
  if at' p 0 = MAGIC then
    if at' p 1 = 33 then cclassLoop p sub true f (p.drop 2) false
    else cclassLoop p sub false f (p.drop 1) false
  else cclassLoop p sub false f p false

/-- first success in a list; `none` is "out of fuel" (or a null pointer) -/
def anyM {α : Type} (f : α → Option Bool) : List α → Option Bool
  | [] => some false
  | a :: l =>
    match f a with
    | none => none
    | some true => some true
    | some false => anyM f l

def andM (a : Option Bool) (b : Unit → Option Bool) : Option Bool :=
  match a with
  | none => none
  | some false => some false
  | some true => b ()

def orM (a : Option Bool) (b : Unit → Option Bool) : Option Bool :=
  match a with
  | none => none
  | some true => some true
  | some false => b ()

def notM (a : Option Bool) : Option Bool := a.map (!·)

/-- the positions `srest = s .. se`: the text before and behind -/
def splits (s : List B) : List (List B × List B) :=
  (List.range (s.length + 1)).map fun i => (s.take i, s.drop i)

/-- `while (ISMAGIC(p[0]) && p[1] == '*') p += 2` (misc.c:628-629) -/
def collapse : List B → Int → List B × Int
  | c :: d :: p, k => if c = MAGIC ∧ d = 42 then collapse p (k - 2) else (c :: d :: p, k)
  | p, k => (p, k)

/-- The sub-patterns visited by `for (psub = p; ; psub = pnext)`: pairs of the text and
the distance to `pnext - 2`; `off` is `psub - p`, `pr` is `prest - p`.  `none` means
that `pat_scan` returned `NULL`. -/
def subPats (p : List B) (k : Int) (pr : Nat) : Nat → Nat → Option (List (List B × Int))
  | 0, _ => none
  | f + 1, off =>
    match patScan true (p.drop off) (k - off) 0 off with
    | none => none
    | some nx =>
      let this := (p.drop off, ((nx : Int) - 2) - off)
      if nx = pr then some [this]
      else (subPats p k pr f nx).map (this :: ·)

/-- `do_gmatch` (misc.c:595-720).  `none` is "out of fuel". -/
def gm : Nat → List B → List B → Int → Option Bool
  | 0, _, _, _ => none
  | n + 1, s, p, k =>
    if k ≤ 0 then some (s == [])
    else
      let pc := at' p 0
      let p1 := p.drop 1
      let sc := at' s 0
      let s1 := s.drop 1
      if pc ≠ MAGIC then
        if sc ≠ pc then some false else gm n s1 p1 (k - 1)
      else
        let op := at' p1 0
        let p := p1.drop 1
        let k := k - 2
        if op = 91 then
          if sc = 0 then some false
          else match cclass p sc with
            | none => some false
            | some q => gm n s1 q (k - (p.length - q.length))
        else if op = 63 then
          if sc = 0 then some false else gm n s1 p k
        else if op = 42 then
          let (p, k) := collapse p k
          if k = 0 then some true
          else anyM (fun t => gm n t.2 p k) (splits s)
        else if op = 128 + 43 ∨ op = 128 + 42 then
          match patScan false p k 0 0 with
          | none => some false
          | some pr =>
            let rest := fun t => gm n t (p.drop pr) (k - pr)
            orM (if op = 128 + 42 then rest s else some false) fun _ =>
            match subPats p k pr (p.length + 1) 0 with
            | none => none
            | some subs =>
              anyM (fun sub => anyM (fun ut =>
                andM (gm n ut.1 sub.1 sub.2) fun _ =>
                orM (rest ut.2) fun _ =>
                if ut.1 = [] then some false else gm n ut.2 (MAGIC :: op :: p) (k + 2)) (splits s)) subs
        else if op = 128 + 63 ∨ op = 128 + 64 ∨ op = 128 + 32 then
          match patScan false p k 0 0 with
          | none => some false
          | some pr =>
            let rest := fun t => gm n t (p.drop pr) (k - pr)
            orM (if op = 128 + 63 then rest s else some false) fun _ =>
            match subPats p k pr (p.length + 1) 0 with
            | none => none
            | some subs =>
              anyM (fun sub => anyM (fun ut =>
                andM (gm n ut.1 sub.1 sub.2) fun _ => rest ut.2)
                (if k = pr then [(s, [])] else splits s)) subs
        else if op = 128 + 33 then
          match patScan false p k 0 0 with
          | none => some false
          | some pr =>
            let rest := fun t => gm n t (p.drop pr) (k - pr)
            match subPats p k pr (p.length + 1) 0 with
            | none => none
            | some subs =>
              anyM (fun ut =>
                andM (notM (anyM (fun sub => gm n ut.1 sub.1 sub.2) subs)) fun _ => rest ut.2) (splits s)
        else
          if sc ≠ op then some false
          else if s = [] then some false   -- `s` is behind `se` from here on
          else gm n s1 p k

/-- `debunk` (eval.c:1147-1173): the text of a pattern without the MAGIC marks. -/
def debunk : List B → List B
  | [] => []
  | [c] => if c = MAGIC then [] else [c]
  | c :: d :: p =>
    if c ≠ MAGIC then c :: debunk (d :: p)
    else if isExt d then (if d = 128 + 32 then [40] else [d - 128, 40]) ++ debunk p
    else d :: debunk p

/-- `gmatch` (misc.c:502-524) -/
def gmatch (n : Nat) (s p : List B) (isfile : Bool) : Option Bool :=
  if isfile = false ∧ hasGlobbing p = false then some (debunk p == s)
  else gm n s p p.length

/-- `trimsub` (eval.c:938-980), with the matcher as a parameter. -/
inductive Trim
  | prefixShort | prefixLong | suffixShort | suffixLong
  deriving DecidableEq, Repr

def trimsub (mt : List B → Bool) (str : List B) : Trim → List B
  | .prefixShort =>
    match (List.range (str.length + 1)).find? (fun i => mt (str.take i)) with
    | some i => str.drop i
    | none => str
  | .prefixLong =>
    match (List.range (str.length + 1)).reverse.find? (fun i => mt (str.take i)) with
    | some i => str.drop i
    | none => str
  | .suffixShort =>
    match (List.range (str.length + 1)).reverse.find? (fun i => mt (str.drop i)) with
    | some i => str.take i
    | none => str
  | .suffixLong =>
    match (List.range (str.length + 1)).find? (fun i => mt (str.drop i)) with
    | some i => str.take i
    | none => str

end Ksh.Glob
