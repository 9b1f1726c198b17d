/-!
# Model of copying and freeing command trees (tree.c:431-535, 608-688)

Memory is a map from addresses to objects: strings of bytes, arrays of pointers, `struct op` and
`struct ioword` (tree.h:13-27, 72-78).  Pointers are addresses of whole objects; `NULL` is 0.
Reading or writing outside of an object, using an object as one of another kind and freeing what is
not allocated have no result.  `alloc` takes addresses never used before (Alloc is the model of the
allocator); its failure, which ends the shell, is not modelled, nor are areas.
-/

namespace Ksh.Tree

abbrev Bytes := List UInt8

/-! ## Words -/

/-- The prefix codes, tree.h:57-68. -/
def EOS : UInt8 := 0
def CHAR : UInt8 := 1
def QCHAR : UInt8 := 2
def COMSUB : UInt8 := 3
def EXPRSUB : UInt8 := 4
def OQUOTE : UInt8 := 5
def CQUOTE : UInt8 := 6
def OSUBST : UInt8 := 7
def CSUBST : UInt8 := 8
def OPAT : UInt8 := 9
def SPAT : UInt8 := 10
def CPAT : UInt8 := 11

/-- Where `wdscan` is: at a prefix code, at the byte after `CHAR`, `QCHAR` or `OPAT`, in a text up
to its NUL, or at the byte after `CSUBST`. -/
inductive M
  | code | one | text | close
  deriving DecidableEq

/-- `wdscan` (tree.c:491-535): the number of bytes up to where it stops, `none` if it leaves the
object.  `k` counts the bytes passed. -/
def scan (c : UInt8) : M → Int → Nat → Bytes → Option Nat
  | _, _, _, [] => none
  | .one, nest, k, _ :: r => scan c .code nest (k + 1) r
  | .text, nest, k, b :: r => scan c (if b = 0 then .code else .text) nest (k + 1) r
  | .close, nest, k, _ :: r => if c = CSUBST ∧ nest = 0 then some (k + 1) else scan c .code (nest - 1) (k + 1) r
  | .code, nest, k, b :: r =>
    if b = EOS then some (k + 1)
    else if b = CHAR ∨ b = QCHAR then scan c .one nest (k + 1) r
    else if b = COMSUB ∨ b = EXPRSUB then scan c .text nest (k + 1) r
    else if b = OQUOTE ∨ b = CQUOTE then scan c .code nest (k + 1) r
    else if b = OSUBST then scan c .text (nest + 1) (k + 1) r
    else if b = CSUBST then scan c .close nest (k + 1) r
    else if b = OPAT then scan c .one (nest + 1) (k + 1) r
    else if b = SPAT ∨ b = CPAT then
      if c = b ∧ nest = 0 then some (k + 1)
      else scan c .code (if b = CPAT then nest - 1 else nest) (k + 1) r
    else scan c .code nest (k + 1) r

def wdscan (w : Bytes) (c : UInt8) : Option Nat := scan c .code 0 0 w

/-! ## Memory -/

structure OpObj where
  type : Nat
  evalflags : Nat
  args : Nat
  vars : Nat
  ioact : Nat
  left : Nat
  right : Nat
  str : Nat
  lineno : Int
  deriving DecidableEq

structure IoObj where
  unit : Int
  flag : Nat
  name : Nat
  delim : Nat
  heredoc : Nat
  deriving DecidableEq

inductive Obj
  | bytes (s : Bytes)
  | ptrs (l : List Nat)
  | op (o : OpObj)
  | io (o : IoObj)
  deriving DecidableEq

abbrev Mem := Nat → Option Obj

structure Heap where
  mem : Mem
  next : Nat

def upd (m : Mem) (a : Nat) (o : Option Obj) : Mem := fun b => if b = a then o else m b

def alloc (h : Heap) (o : Obj) : Heap × Nat := (⟨upd h.mem h.next (some o), h.next + 1⟩, h.next)

def store (h : Heap) (a : Nat) (o : Obj) : Heap := { h with mem := upd h.mem a (some o) }

/-- `p[i] = v` for an array of pointers -/
def write (h : Heap) (p i v : Nat) : Option Heap :=
  match h.mem p with
  | some (.ptrs l) => if i < l.length then some (store h p (.ptrs (l.set i v))) else none
  | _ => none

/-- the pointers up to the one that is `NULL` -/
def upto : List Nat → Option (List Nat)
  | [] => none
  | p :: r => if p = 0 then some [] else (upto r).map (p :: ·)

def readPtrs (m : Mem) (p : Nat) : Option (List Nat) :=
  match m p with
  | some (.ptrs l) => upto l
  | _ => none

/-! ## Copying -/

/-- `wdcopy`, tree.c:483-488 -/
def wdcopy (h : Heap) (p : Nat) : Option (Heap × Nat) :=
  match h.mem p with
  | some (.bytes s) => (wdscan s EOS).map fun n => alloc h (.bytes (s.take n))
  | _ => none

def strlen : Bytes → Option Nat
  | [] => none
  | b :: r => if b = 0 then some 0 else (strlen r).map (· + 1)

/-- `str_save`, misc.c:80-92 -/
def strSave (h : Heap) (p : Nat) : Option (Heap × Nat) :=
  if p = 0 then some (h, 0)
  else match h.mem p with
    | some (.bytes s) => (strlen s).map fun n => alloc h (.bytes (s.take n ++ [0]))
    | _ => none

/-- `*rw++ = wdcopy(*tw++, ap)`, and the `NULL` at the end -/
def copyLoop (h : Heap) (arr i : Nat) : List Nat → Option Heap
  | [] => write h arr i 0
  | w :: ws => do
    let (h, a) ← wdcopy h w
    let h ← write h arr i a
    copyLoop h arr (i + 1) ws

/-- Copying `vars` or `args`, tree.c:450-472.  What is in the new array at first is taken to be
pointers to nowhere. -/
def copyArr (h : Heap) (p : Nat) : Option (Heap × Nat) :=
  if p = 0 then some (h, 0)
  else do
    let ws ← readPtrs h.mem p
    let (h, a) := alloc h (.ptrs (List.replicate (ws.length + 2) 1))
    let h ← copyLoop h a 0 ws
    some (h, a)

/-- `if (p != NULL) q = wdcopy(p, ap)` -/
def copyWord? (h : Heap) (p : Nat) : Option (Heap × Nat) := if p = 0 then some (h, 0) else wdcopy h p

/-- the loop of `iocopy`, tree.c:618-635 -/
def ioLoop (h : Heap) (arr i : Nat) : List Nat → Option Heap
  | [] => write h arr i 0
  | p :: ps =>
    match h.mem p with
    | some (.io o) => do
      let (h, q) := alloc h (.io o)
      let h ← write h arr i q
      let (h, name) ← copyWord? h o.name
      let (h, delim) ← copyWord? h o.delim
      let (h, heredoc) ← strSave h o.heredoc
      ioLoop (store h q (.io { o with name := name, delim := delim, heredoc := heredoc })) arr (i + 1) ps
    | _ => none

/-- `iocopy`, tree.c:608-638, and the test of its caller -/
def iocopy (h : Heap) (p : Nat) : Option (Heap × Nat) :=
  if p = 0 then some (h, 0)
  else do
    let ps ← readPtrs h.mem p
    let (h, a) := alloc h (.ptrs (List.replicate (ps.length + 2) 1))
    let h ← ioLoop h a 0 ps
    some (h, a)

def TCASE : Nat := 11

/-- Copying `str`, tree.c:448 -/
def copyStr (h : Heap) (type p : Nat) : Option (Heap × Nat) := if type = TCASE then wdcopy h p else strSave h p

/-- `tcopy`, tree.c:434-481; the first argument bounds the depth.  The fields of the new node are
written at once, at the end. -/
def tcopy : Nat → Heap → Nat → Option (Heap × Nat)
  | 0, _, _ => none
  | n + 1, h, p =>
    if p = 0 then some (h, 0)
    else match h.mem p with
      | some (.op t) => do
        let (h, r) := alloc h (.op ⟨0, 0, 1, 1, 1, 1, 1, 1, 0⟩)
        let (h, str) ← copyStr h t.type t.str
        let (h, vars) ← copyArr h t.vars
        let (h, args) ← copyArr h t.args
        let (h, ioact) ← iocopy h t.ioact
        let (h, left) ← tcopy n h t.left
        let (h, right) ← tcopy n h t.right
        some (store h r (.op ⟨t.type, t.evalflags, args, vars, ioact, left, right, str, t.lineno⟩), r)
      | _ => none

/-! ## Freeing -/

/-- `afree` -/
def free (m : Mem) (a : Nat) : Option Mem :=
  if a = 0 then some m
  else match m a with
    | some _ => some (upd m a none)
    | none => none

def frees (m : Mem) : List Nat → Option Mem
  | [] => some m
  | a :: r => (free m a).bind (frees · r)

/-- freeing `vars` or `args`, tree.c:654-664 -/
def freeArr (m : Mem) (p : Nat) : Option Mem :=
  if p = 0 then some m
  else do
    let ws ← readPtrs m p
    let m ← frees m ws
    free m p

def freeIos (m : Mem) : List Nat → Option Mem
  | [] => some m
  | p :: ps =>
    match m p with
    | some (.io o) => do
      let m ← frees m [o.name, o.delim, o.heredoc, p]
      freeIos m ps
    | _ => none

/-- `iofree`, tree.c:675-688 -/
def iofree (m : Mem) (p : Nat) : Option Mem :=
  if p = 0 then some m
  else do
    let ps ← readPtrs m p
    let m ← freeIos m ps
    free m p

/-- `tfree`, tree.c:643-673 -/
def tfree : Nat → Mem → Nat → Option Mem
  | 0, _, _ => none
  | n + 1, m, p =>
    if p = 0 then some m
    else match m p with
      | some (.op t) => do
        let m ← free m t.str
        let m ← freeArr m t.vars
        let m ← freeArr m t.args
        let m ← iofree m t.ioact
        let m ← tfree n m t.left
        let m ← tfree n m t.right
        free m p
      | _ => none

end Ksh.Tree
