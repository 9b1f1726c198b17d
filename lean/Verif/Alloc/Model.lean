/-!
# Model of the region allocator (alloc.c)

`malloc`/`realloc` are parameters: the address they return is an argument (0 is `NULL`).
Addresses are those of `struct link`; the offset between a block and its link (`L2P`,
`P2L`, alloc.c:37-38) is left out.  Reading or writing the link of a block that is not
live, and freeing such a block, is undefined behaviour (`ub`).  `internal_errorf` does
not return (`refused`).
-/

namespace Ksh.Alloc

/-- A live block: `struct link` (alloc.c:14-17) and the size passed to `malloc`. -/
structure Blk where
  prev : Nat
  next : Nat
  size : Nat
  deriving DecidableEq, Repr

/-- The heap and the `freelist` of every region. -/
structure St where
  heap : Nat → Option Blk
  head : Nat → Nat

inductive Out
  | ok (st : St) (p : Nat)
  | refused
  | ub

def SIZE_MAX : Nat := 2 ^ 64 - 1
/-- `sizeof(struct link)` -/
def LINK : Nat := 16

def St.set (st : St) (a : Nat) (b : Option Blk) : St :=
  { st with heap := fun x => if x = a then b else st.heap x }
def St.setHead (st : St) (ap a : Nat) : St :=
  { st with head := fun x => if x = ap then a else st.head x }

/-- `a->prev = v`, when `a` is live -/
def setPrev (st : St) (a v : Nat) : Option St :=
  (st.heap a).map fun b => st.set a (some { b with prev := v })
/-- `a->next = v` -/
def setNext (st : St) (a v : Nat) : Option St :=
  (st.heap a).map fun b => st.set a (some { b with next := v })

/-- a statement guarded by `if (p)`; `none` is undefined behaviour -/
def guarded (p : Nat) (st : St) (f : Option St) : Option St :=
  if p ≠ 0 then f else some st

def finish (p : Nat) : Option St → Out
  | none => .ub
  | some st => .ok st p

/-- alloc.c:40-60; `r` is what `malloc` returns. -/
def alloc (r size ap : Nat) (st : St) : Out :=
  if size > SIZE_MAX - LINK then .refused
  else if r = 0 then .refused
  else
    let h := st.head ap
    let st := st.set r (some ⟨0, h, LINK + size⟩)
    finish r ((guarded h st (setPrev st h r)).map fun st => st.setHead ap r)

/-- alloc.c:84-112; `r` is what `realloc` (or `malloc`) returns.  `realloc` keeps the
contents, here the links. -/
def aresize (r ptr size ap : Nat) (st : St) : Out :=
  if ptr = 0 then alloc r size ap st
  else if size > SIZE_MAX - LINK then .refused
  else match st.heap ptr with
    | none => .ub
    | some b =>
      if r = 0 then .refused
      else
        let st := (st.set ptr none).set r (some { b with size := LINK + size })
        finish r (
          (if b.prev ≠ 0 then setNext st b.prev r else some (st.setHead ap r)).bind fun st =>
          guarded b.next st (setPrev st b.next r))

/-- alloc.c:68: `1UL << (sizeof(size_t) * 4)` -/
def MUL_NO_OVERFLOW : Nat := 2 ^ 32

/-- alloc.c:70-81; the product is a `size_t`. -/
def areallocarray (r ptr nmemb size ap : Nat) (st : St) : Out :=
  if (nmemb ≥ MUL_NO_OVERFLOW ∨ size ≥ MUL_NO_OVERFLOW) ∧ nmemb > 0 ∧ SIZE_MAX / nmemb < size then .refused
  else aresize r ptr (nmemb * size % (SIZE_MAX + 1)) ap st

/-- alloc.c:114-131 -/
def afree (ptr ap : Nat) (st : St) : Out :=
  if ptr = 0 then .ok st 0
  else match st.heap ptr with
    | none => .ub
    | some b =>
      finish 0 (
        ((if b.prev ≠ 0 then setNext st b.prev b.next else some (st.setHead ap b.next)).bind fun st =>
          guarded b.next st (setPrev st b.next b.prev)).map fun st => st.set ptr none)

/-- The loop of `afreeall` (alloc.c:29-32); `none` is out of fuel. -/
def freeLoop : Nat → Nat → St → Option Out
  | 0, _, _ => none
  | n + 1, l, st =>
    if l = 0 then some (.ok st 0)
    else match st.heap l with
      | none => some .ub
      | some b => freeLoop n b.next (st.set l none)

/-- alloc.c:24-34 -/
def afreeall (n ap : Nat) (st : St) : Option Out :=
  (freeLoop n (st.head ap) st).map fun
    | .ok st p => .ok (st.setHead ap 0) p
    | o => o

/-- `ainit` of every region (alloc.c:19-22) before anything is allocated. -/
def start : St := ⟨fun _ => none, fun _ => 0⟩

end Ksh.Alloc
