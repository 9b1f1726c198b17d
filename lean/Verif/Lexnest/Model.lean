/-!
# The stack of states of the lexer

Modelled: the array and the chain of blocks in which `yylex` keeps what it is inside of (lex.c:36-77,
112-124, 139-153), `push_state_` and `pop_state_` (lex.c:1672-1695), the access to the innermost
state, and the search for a double quote around a backquote (lex.c:432-451).

A pointer is a block and an offset.  Reading outside of a block or of a block that was released, reading the
other member of the union, forming a pointer outside of its block, releasing the array, which is no
block of the heap: all these are `none`.  `alloc` returns any block that is not in use, with any contents
(`Ksh.Alloc`); that it fails is not modelled.
-/
namespace Ksh.Lexnest

/-- STATE_BSIZE (lex.c:112). -/
def bsize : Nat := 32

structure Ptr where
  blk : Nat
  off : Nat
  deriving DecidableEq, Repr

/-- struct lex_state (lex.c:39-70): a state with what belongs to it, or the link of the first one. -/
inductive Cell (S : Type) where
  | data (s : S)
  | link (p : Option Ptr)

/-- The blocks in use; block 0 is the array `states` of yylex (lex.c:139). -/
abbrev Heap (S : Type) := Nat → Option (Nat → Cell S)

structure L (S : Type) where
  heap : Heap S
  sp : Ptr          -- statep
  base : Ptr        -- state_info.base
  fin : Ptr         -- state_info.end

variable {S : Type}

def load (h : Heap S) (p : Ptr) : Option (Cell S) :=
  if p.off < bsize then (h p.blk).map (fun f => f p.off) else none

def store (h : Heap S) (p : Ptr) (c : Cell S) : Option (Heap S) :=
  if p.off < bsize then
    match h p.blk with
    | none => none
    | some f => some (fun b => if b = p.blk then some (fun i => if i = p.off then c else f i) else h b)
  else none

/-- Pointer arithmetic, within the block or one behind its end. -/
def plus (p : Ptr) (n : Nat) : Option Ptr := if p.off + n ≤ bsize then some ⟨p.blk, p.off + n⟩ else none
def minus (p : Ptr) (n : Nat) : Option Ptr := if n ≤ p.off then some ⟨p.blk, p.off - n⟩ else none

/-- lex.c:149-153, and the first state (lex.c:160-187). -/
def start (s : S) (junk : Nat → Cell S) : L S :=
  { heap := fun b => if b = 0 then some (fun i => if i = 0 then .link none else if i = 1 then .data s else junk i) else none
    sp := ⟨0, 1⟩, base := ⟨0, 0⟩, fin := ⟨0, bsize⟩ }

/-- `push_state_` (lex.c:1672-1682). -/
def pushState (l : L S) (oldEnd : Ptr) (new : Nat) (junk : Nat → Cell S) : L S :=
  { heap := fun b => if b = new then some (fun i => if i = 0 then .link (some oldEnd) else junk i) else l.heap b
    base := ⟨new, 0⟩, fin := ⟨new, bsize⟩, sp := ⟨new, 1⟩ }

/-- PUSH_STATE (lex.c:114-118). -/
def push (s : S) (new : Nat) (junk : Nat → Cell S) (l : L S) : Option (L S) :=
  match plus l.sp 1 with
  | none => none
  | some p =>
    let l1 := if p = l.fin then pushState l p new junk else { l with sp := p }
    (store l1.heap l1.sp (.data s)).map (fun h => { l1 with heap := h })

/-- `pop_state_` (lex.c:1684-1695). -/
def popState (l : L S) (oldEnd : Ptr) : Option (L S) :=
  match load l.heap oldEnd with
  | some (.link (some p)) =>
    match minus p bsize with
    | none => none
    | some nb =>
      if l.base.blk = 0 ∨ l.base.off ≠ 0 then none        -- afree of something else
      else
        match plus nb (bsize - 1) with
        | none => none
        | some q =>
          some { heap := fun b => if b = l.base.blk then none else l.heap b, base := nb, fin := p, sp := q }
  | _ => none

/-- POP_STATE (lex.c:120-124); the state is read by `top`. -/
def pop (l : L S) : Option (L S) :=
  match minus l.sp 1 with
  | none => none
  | some p => if p = l.base then popState l p else some { l with sp := p }

/-- `statep->...` -/
def top (l : L S) : Option S :=
  match load l.heap l.sp with
  | some (.data s) => some s
  | _ => none

/-- Changes of what belongs to the innermost state, such as the count of parentheses. -/
def modify (f : S → S) (l : L S) : Option (L S) :=
  match top l with
  | none => none
  | some s => (store l.heap l.sp (.data (f s))).map (fun h => { l with heap := h })

/-- The inner loop (lex.c:436-441); where it stops. -/
def scan (isq : S → Bool) (h : Heap S) (base : Ptr) : Nat → Ptr → Option (Bool × Ptr)
  | 0, _ => none
  | n + 1, s =>
    if s = base then some (false, s)
    else
      match load h s with
      | some (.data x) =>
        if isq x then some (true, s)
        else match minus s 1 with
          | none => none
          | some s' => scan isq h base n s'
      | _ => none

/-- The outer loop (lex.c:435-447); `n` bounds the number of blocks. -/
def search (isq : S → Bool) (h : Heap S) : Nat → Ptr → Ptr → Option Bool
  | 0, _, _ => none
  | n + 1, s, base =>
    match scan isq h base (bsize + 1) s with
    | none => none
    | some (found, s') =>
      if s' ≠ base then some found
      else
        match load h s' with
        | some (.link none) => some false
        | some (.link (some p)) =>
          match minus p 1, minus p bsize with
          | some s2, some b2 => search isq h n s2 b2
          | _, _ => none
        | _ => none

end Ksh.Lexnest
