import Verif.Table.Lemmas
/-!
# Model of the life of functions (exec.c:562-640, 744-805, table.c:52-156)

Entries of the table of functions and the trees of their bodies are objects in memory, which are
released; a use of a released object is the outcome `bad`.
-/

namespace Ksh.Func

open Ksh.Table (Name home prev)

/-- `struct tbl` (table.h:17-38) of a function: the flags `DEFINED`, `ISSET`, `ALLOC`, `FINUSE`,
`FDELETE` and `FKSH`; `tree` is `val.t`, 0 is `NULL`.  The flags `TRACE` and `EXPORT` and the fields
for functions to be loaded (`u.fpath`) are not modelled. -/
structure Ent where
  name : Name
  defined : Bool
  isset : Bool
  alloc : Bool
  finuse : Bool
  fdelete : Bool
  fksh : Bool
  tree : Nat
  deriving DecidableEq, Repr

/-- Outcomes: `bad` is the use of a released object, `hang` a loop without end, `tooMany` the internal
error of table.c:131. -/
inductive Out (α : Type) where
  | ok (a : α)
  | bad
  | hang
  | tooMany
  deriving DecidableEq, Repr

def Out.bind {α β : Type} : Out α → (α → Out β) → Out β
  | .ok a, f => f a
  | .bad, _ => .bad
  | .hang, _ => .hang
  | .tooMany, _ => .tooMany

/-- A call in progress, exec.c:562-640: the local variables `tp` and `old_inuse` of `comexec`, and the tree that `execute`
was called with. -/
structure Frame where
  ent : Nat
  oldInuse : Bool
  tree : Nat
  deriving DecidableEq, Repr

/-- The table of functions (`slots`, `nfree`), memory, and the calls in progress, innermost first.
Only the table of the global block is modelled: `findfunc` creates entries in no other. -/
structure St (B : Type) where
  slots : List (Option Nat)
  nfree : Int
  ents : Nat → Option Ent
  trees : Nat → Option B
  next : Nat
  frames : List Frame

variable {B : Type}

/-- A table without entries, `ktinit(&l->funs, &l->area, 0)`, var.c:84. -/
def init : St B := ⟨[], 0, fun _ => none, fun _ => none, 1, []⟩

def upd {α : Type} (m : Nat → Option α) (p : Nat) (v : Option α) : Nat → Option α := fun q => if q = p then v else m q

/-- Result of a probe loop. -/
inductive Probe where
  | hit (p : Nat)
  | empty (i : Nat)
  | spin
  | bad
  deriving DecidableEq, Repr

/-- The probe loops of `ktsearch` and `ktenter`, table.c:96-102, 120-125. -/
def probe (ents : Nat → Option Ent) (slots : List (Option Nat)) (stop : Ent → Bool) : Nat → Nat → Probe
  | 0, _ => .spin
  | fuel + 1, i =>
    match slots[i]? with
    | some (some p) =>
      match ents p with
      | none => .bad
      | some e => if stop e then .hit p else probe ents slots stop fuel (prev slots.length i)
    | _ => .empty i

/-- The probe loop of `texpand`, table.c:71-74. -/
def vacant (slots : List (Option Nat)) : Nat → Nat → Option Nat
  | 0, _ => none
  | fuel + 1, i =>
    match slots[i]? with
    | some (some _) => vacant slots fuel (prev slots.length i)
    | _ => some i

/-- `ktsearch`, table.c:87-105. -/
def search (s : St B) (n : Name) : Out (Option Nat) :=
  if s.slots.length = 0 then .ok none
  else
    match probe s.ents s.slots (fun e => e.name == n && e.defined) s.slots.length (home s.slots.length n) with
    | .hit p => .ok (some p)
    | .empty _ => .ok none
    | .spin => .hang
    | .bad => .bad

/-- The loop body of `texpand`, table.c:69-80: entries, the new slots, and `nfree`. -/
def rehash1 (a : (Nat → Option Ent) × List (Option Nat) × Int) (o : Option Nat) : Out ((Nat → Option Ent) × List (Option Nat) × Int) :=
  match o with
  | none => .ok a
  | some p =>
    match a.1 p with
    | none => .bad
    | some e =>
      if e.defined then
        match vacant a.2.1 a.2.1.length (home a.2.1.length e.name) with
        | some i => .ok (a.1, a.2.1.set i (some p), a.2.2 - 1)
        | none => .hang
      else if e.finuse then .ok a
      else .ok (upd a.1 p none, a.2)

def rehash : (Nat → Option Ent) × List (Option Nat) × Int → List (Option Nat) → Out ((Nat → Option Ent) × List (Option Nat) × Int)
  | a, [] => .ok a
  | a, o :: r => (rehash1 a o).bind fun a' => rehash a' r

/-- `texpand`, table.c:52-82. -/
def texpand (s : St B) (nsize : Nat) : Out (St B) :=
  (rehash (s.ents, List.replicate nsize none, ((7 * nsize / 10 : Nat) : Int)) s.slots).bind fun a =>
    .ok { s with ents := a.1, slots := a.2.1, nfree := a.2.2 }

/-- A new entry, table.c:136-144. -/
def fresh (n : Name) : Ent := ⟨n, false, false, false, false, false, false, 0⟩

/-- `ktenter` from `Search:` on, table.c:118-149, with at most `tries - 1` jumps back. -/
def enterLoop (n : Name) : Nat → St B → Out (St B × Nat)
  | 0, _ => .hang
  | tries + 1, s =>
    match probe s.ents s.slots (fun e => e.name == n) s.slots.length (home s.slots.length n) with
    | .hit p => .ok (s, p)
    | .spin => .hang
    | .bad => .bad
    | .empty i =>
      if s.nfree ≤ 0 then
        if s.slots.length ≤ Table.intMaxHalf then (texpand s (2 * s.slots.length)).bind fun s' => enterLoop n tries s'
        else .tooMany
      else .ok ({ s with slots := s.slots.set i (some s.next), nfree := s.nfree - 1, ents := upd s.ents s.next (some (fresh n)), next := s.next + 1 }, s.next)

/-- `ktenter`, table.c:110-150. -/
def enter (s : St B) (n : Name) : Out (St B × Nat) :=
  if s.slots.length = 0 then (texpand s 8).bind fun s' => enterLoop n 2 s'
  else enterLoop n 2 s

/-- `findfunc` with `create`, exec.c:744-762. -/
def findfunc (s : St B) (n : Name) : Out (St B × Nat) :=
  (search s n).bind fun
    | some p => .ok (s, p)
    | none => (enter s n).bind fun (s', p) =>
      match s'.ents p with
      | none => .bad
      | some e => .ok ({ s' with ents := upd s'.ents p (some { fresh e.name with defined := true }) }, p)

/-- The loop of `define`, exec.c:773-788: the entry to use. -/
def defineLoop (n : Name) : Nat → St B → Out (St B × Nat)
  | 0, _ => .hang
  | k + 1, s =>
    (findfunc s n).bind fun (s', p) =>
      match s'.ents p with
      | none => .bad
      | some e =>
        if e.finuse then defineLoop n k { s' with ents := upd s'.ents p (some { e with name := [], defined := false, fdelete := true }) }
        else .ok (s', p)

/-- exec.c:790-793: the tree of the old function is released. -/
def drop (s : St B) (e : Ent) : Out (St B × Ent) :=
  if e.alloc then
    match s.trees e.tree with
    | none => .bad
    | some _ => .ok ({ s with trees := upd s.trees e.tree none }, { e with isset := false, alloc := false })
  else .ok (s, e)

/-- `define`, exec.c:768-805: `some (body, ksh_func)` is a definition, `none` removes the function.  The
loop is given three rounds. -/
def define (s : St B) (n : Name) (t : Option (B × Bool)) : Out (St B) :=
  (defineLoop n 3 s).bind fun (s1, p) =>
    match s1.ents p with
    | none => .bad
    | some e =>
      (drop s1 e).bind fun (s2, e2) =>
        match t with
        | none => .ok { s2 with ents := upd s2.ents p (some { fresh e2.name with tree := e2.tree }) }
        | some (b, ksh) =>
          .ok { s2 with trees := upd s2.trees s2.next (some b), next := s2.next + 1
                        ents := upd s2.ents p (some { e2 with isset := true, alloc := true, fksh := e2.fksh || ksh, tree := s2.next }) }

/-- The beginning of a call, exec.c:613-619; nothing happens if there is no such function. -/
def call (s : St B) (n : Name) : Out (St B) :=
  (search s n).bind fun
    | none => .ok s
    | some p =>
      match s.ents p with
      | none => .bad
      | some e =>
        if e.isset then .ok { s with ents := upd s.ents p (some { e with finuse := true }), frames := ⟨p, e.finuse, e.tree⟩ :: s.frames }
        else .ok s

/-- The end of a call, exec.c:625-636, however it ends. -/
def ret (s : St B) : Out (St B) :=
  match s.frames with
  | [] => .ok s
  | f :: r =>
    match s.ents f.ent with
    | none => .bad
    | some e =>
      if e.fdelete && !f.oldInuse then
        (drop s e).bind fun (s', e') => .ok { s' with ents := upd s'.ents f.ent (some { fresh e'.name with tree := e'.tree }), frames := r }
      else .ok { s with ents := upd s.ents f.ent (some { e with finuse := f.oldInuse }), frames := r }

/-- What happens to functions. -/
inductive Op (B : Type) where
  | define (n : Name) (b : B) (ksh : Bool)
  | remove (n : Name)
  | call (n : Name)
  | ret

def step (s : St B) : Op B → Out (St B)
  | .define n b ksh => define s n (some (b, ksh))
  | .remove n => define s n none
  | .call n => call s n
  | .ret => ret s

def run (s : St B) : List (Op B) → Out (St B)
  | [] => .ok s
  | o :: r => (step s o).bind fun s' => run s' r

end Ksh.Func
