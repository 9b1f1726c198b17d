/-
Model of the open-addressing name tables of `table.c`.

A C string is the list of its bytes without the terminating NUL.
-/
namespace Ksh.Table

/-- A C string: its bytes up to, not including, the NUL. -/
abbrev Name := List UInt8

/-- `struct tbl` (table.h:17-38), reduced to the fields the table code looks at:
`defined` is the `DEFINED` flag bit, `arr` the `ARRAY` flag bit; `val` stands for
every caller-owned field (`val`, `type`, ...).  The `FINUSE` bit, which only
decides whether a dropped entry is freed, is not modelled. -/
structure Entry (V : Type) where
  name : Name
  defined : Bool
  arr : Bool
  val : Option V

/-- `struct table` (table.h:11-15) without the allocation area; `size` is the
length of `slots`, `none` is a NULL slot. -/
structure Table (V : Type) where
  slots : List (Option (Entry V))
  nfree : Int

variable {V : Type}

/-- `hash` (table.c:32-40): `h = 33*h + c` in 32-bit unsigned arithmetic. -/
def hash (n : Name) : UInt32 :=
  n.foldl (fun h c => 33 * h + c.toUInt32) 0

/-- `&tbls[h & (size-1)]` (table.c:71-72, 96, 120).  `size` is positive here. -/
def home (size : Nat) (n : Name) : Nat := (hash n).toNat &&& (size - 1)

/-- The step of the probe loops: `if (pp == tbls) pp += size; pp--`
(table.c:72-74, 96-102, 120-125). -/
def prev (size i : Nat) : Nat := if i = 0 then size - 1 else i - 1

/-- Result of a probe loop. `spin` is the non-terminating loop: after `size`
steps the loop is back where it started without having left. -/
inductive Probe where
  | hit (i : Nat)
  | empty (i : Nat)
  | spin
  deriving DecidableEq, Repr

/-- The common probe loop of `texpand`, `ktsearch` and `ktenter`
(table.c:71-74, 96-102, 120-125): leave on a NULL slot or on an entry that
satisfies `stop`.  `fuel` is the table size: see `Probe.spin`. -/
def probe (slots : List (Option (Entry V))) (stop : Entry V → Bool) :
    Nat → Nat → Probe
  | 0, _ => .spin
  | fuel + 1, i =>
    match slots[i]? with
    | some (some e) =>
      if stop e then .hit i else probe slots stop fuel (prev slots.length i)
    | _ => .empty i

/-- `ktsearch` (table.c:87-105); `none` when the loop would not terminate,
`some none` for a NULL result. -/
def search (t : Table V) (n : Name) : Option (Option (Entry V)) :=
  if t.slots.length = 0 then some none
  else
    match probe t.slots (fun e => e.name == n && e.defined) t.slots.length
        (home t.slots.length n) with
    | .hit i => some ((t.slots[i]?).join)
    | .empty _ => some none
    | .spin => none

/-- One iteration of the rehash loop of `texpand` (table.c:69-80). -/
def rehash1 (t : Table V) (o : Option (Entry V)) : Option (Table V) :=
  match o with
  | none => some t
  | some e =>
    if e.defined then
      match probe t.slots (fun _ => false) t.slots.length (home t.slots.length e.name) with
      | .empty i => some { slots := t.slots.set i (some e), nfree := t.nfree - 1 }
      | _ => none
    else some t

/-- `texpand` (table.c:52-82). -/
def texpand (t : Table V) (nsize : Nat) : Option (Table V) :=
  t.slots.foldlM rehash1
    { slots := List.replicate nsize none, nfree := ((7 * nsize / 10 : Nat) : Int) }

/-- Outcome of `ktenter`. -/
inductive Enter (V : Type) where
  | slot (t : Table V) (i : Nat)   -- table and index of the returned entry
  | tooMany                        -- internal_errorf("too many vars")
  | spin                           -- a loop that never ends

/-- `INT_MAX/2`, `INT_MAX = 2^31-1`. -/
def intMaxHalf : Nat := (2 ^ 31 - 1) / 2

/-- The fresh entry of table.c:136-144. -/
def fresh (n : Name) : Entry V := { name := n, defined := false, arr := false, val := none }

/-- The part of `ktenter` from `Search:` on (table.c:118-149).  `goto Search`
is a recursive call; `tries` bounds the number of jumps (running out is `spin`). -/
def enterLoop (n : Name) : Nat → Table V → Enter V
  | 0, _ => .spin
  | tries + 1, t =>
    match probe t.slots (fun e => e.name == n) t.slots.length (home t.slots.length n) with
    | .hit i => .slot t i
    | .spin => .spin
    | .empty i =>
      if t.nfree ≤ 0 then
        if t.slots.length ≤ intMaxHalf then
          match texpand t (2 * t.slots.length) with
          | some t' => enterLoop n tries t'
          | none => .spin
        else .tooMany
      else .slot { slots := t.slots.set i (some (fresh n)), nfree := t.nfree - 1 } i

/-- `ktenter` (table.c:110-150); `INIT_TBLS` is 8. -/
def enter (t : Table V) (n : Name) : Enter V :=
  if t.slots.length = 0 then
    match texpand t 8 with
    | some t' => enterLoop n 2 t'
    | none => .spin
  else enterLoop n 2 t

/-- `ktinit` (table.c:42-50) -/
def init (tsize : Nat) : Option (Table V) :=
  if tsize = 0 then some { slots := [], nfree := 0 }
  else texpand { slots := [], nfree := 0 } tsize

/-- What callers do to an entry they hold a pointer to: a store through it. -/
def modifyAt (t : Table V) (i : Nat) (f : Entry V → Entry V) : Table V :=
  { t with slots := t.slots.modify i (Option.map f) }

/-- Operations of the callers on a table. -/
inductive Op (V : Type) where
  /-- `ktenter` and then `flag |= DEFINED`, value stored (e.g. c_ksh.c c_alias) -/
  | define (n : Name) (v : V)
  /-- `ktenter` alone (e.g. exec.c findfunc with `create`) -/
  | touch (n : Name)
  /-- `ktsearch` and, when found, `ktdelete` (`flag = 0`, table.c:152-156) -/
  | delete (n : Name)

/-- Outcome of an operation on a table. -/
inductive Res (V : Type) where
  | ok (t : Table V)
  | tooMany
  | spin

/-- Execute one operation. -/
def step (t : Table V) : Op V → Res V
  | .define n v =>
    match enter t n with
    | .slot t' i => .ok (modifyAt t' i (fun e => { e with defined := true, val := some v }))
    | .tooMany => .tooMany
    | .spin => .spin
  | .touch n =>
    match enter t n with
    | .slot t' _ => .ok t'
    | .tooMany => .tooMany
    | .spin => .spin
  | .delete n =>
    if t.slots.length = 0 then .ok t
    else
      match probe t.slots (fun e => e.name == n && e.defined) t.slots.length
          (home t.slots.length n) with
      | .hit i => .ok (modifyAt t i (fun e => { e with defined := false, arr := false }))
      | .empty _ => .ok t
      | .spin => .spin

/-- Execute a history of operations; stops at an error. -/
def run (t : Table V) : List (Op V) → Res V
  | [] => .ok t
  | o :: os =>
    match step t o with
    | .ok t' => run t' os
    | .tooMany => .tooMany
    | .spin => .spin

/-- `ktwalk`/`ktnext` (table.c:158-174): the entries returned by successive
`ktnext` calls. -/
def walk (t : Table V) : List (Entry V) :=
  t.slots.filterMap (fun o => o.bind (fun e => if e.defined then some e else none))

/-- `strcmp(a,b) <= 0` on unsigned bytes. -/
def nameLe : Name → Name → Bool
  | [], _ => true
  | _ :: _, [] => false
  | a :: as, b :: bs => if a = b then nameLe as bs else decide (a < b)

/-- `ktsort` (table.c:184-202): the defined (or array) entries, sorted by
`tnamecmp` (table.c:176-182).  `qsort` is modelled by merge sort. -/
def ktsort (t : Table V) : List (Entry V) :=
  (t.slots.filterMap (fun o => o.bind (fun e => if e.defined || e.arr then some e else none))).mergeSort
    (fun a b => nameLe a.name b.name)

end Ksh.Table
