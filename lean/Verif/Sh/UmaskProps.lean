import Verif.Sh.Umask
/-!
# Properties of `umask` (C28)

Specification: a table of what each class may do, and clauses that change it.
-/

namespace Ksh.Umask

/-! ## Specification -/

/-- user, group, others -/
inductive Cls
  | u | g | o
  deriving DecidableEq, Repr

inductive Perm
  | r | w | x
  deriving DecidableEq, Repr

/-- Who may do what with new files. -/
abbrev Table := Cls → Perm → Bool

inductive Who
  | all | cls (c : Cls)
  deriving DecidableEq, Repr

inductive What
  | perm (p : Perm)
  /-- what that class had to begin with -/
  | copy (c : Cls)
  /-- `X`: execution, if some class had it -/
  | cond
  /-- `s`, without effect -/
  | nothing
  deriving DecidableEq, Repr

inductive Op
  | set | add | remove
  deriving DecidableEq, Repr

structure Clause where
  who : List Who
  acts : List (Op × List What)
  deriving DecidableEq, Repr

def Clause.named (k : Clause) (c : Cls) : Bool := k.who.isEmpty || k.who.contains .all || k.who.contains (.cls c)

def grants (init : Table) (l : List What) (p : Perm) : Bool := l.any fun
  | .perm q => decide (q = p)
  | .copy c => init c p
  | .cond => decide (p = .x) && (init .u .x || init .g .x || init .o .x)
  | .nothing => false

def change (op : Op) (had grant : Bool) : Bool :=
  match op with
  | .set => grant
  | .add => had || grant
  | .remove => had && !grant

def Clause.run (init : Table) (k : Clause) (t : Table) : Table := fun c p =>
  if k.named c then k.acts.foldl (fun b a => change a.1 b (grants init a.2 p)) (t c p) else t c p

def runAll (init : Table) (ks : List Clause) : Table := ks.foldl (fun t k => k.run init t) init

/-- the table of a mask: what is not masked is allowed -/
def table (m : Mode) : Table := fun c p =>
  !m.getLsbD (match c, p with
    | .u, .r => 8 | .u, .w => 7 | .u, .x => 6 | .g, .r => 5 | .g, .w => 4 | .g, .x => 3 | .o, .r => 2 | .o, .w => 1 | .o, .x => 0)

def Cls.chr : Cls → Char
  | .u => 'u' | .g => 'g' | .o => 'o'
def Who.chr : Who → Char
  | .all => 'a' | .cls c => c.chr
def Perm.chr : Perm → Char
  | .r => 'r' | .w => 'w' | .x => 'x'
def What.chr : What → Char
  | .perm p => p.chr | .copy c => c.chr | .cond => 'X' | .nothing => 's'
def Op.chr : Op → Char
  | .set => '=' | .add => '+' | .remove => '-'

def spellActs (as : List (Op × List What)) : List Char := as.flatMap fun a => a.1.chr :: a.2.map What.chr
def Clause.spell (k : Clause) : List Char := k.who.map Who.chr ++ spellActs k.acts

/-- clauses separated by commas, with a comma allowed at the end -/
def spell (ks : List Clause) (comma : Bool) : List Char :=
  [','].intercalate (ks.map Clause.spell) ++ if comma then [','] else []

/-! ## Bits -/

def posOf (u g o : Bool) : Mode := (if u then 0o100#9 else 0) ||| (if g then 0o010#9 else 0) ||| (if o then 0o001#9 else 0)
def valOf (r w x : Bool) : Mode := (if r then 4#9 else 0) ||| (if w then 2#9 else 0) ||| (if x then 1#9 else 0)

def bitC (u g o : Bool) : Cls → Bool
  | .u => u | .g => g | .o => o
def bitP (r w x : Bool) : Perm → Bool
  | .r => r | .w => w | .x => x

/-- the bit number -/
def ix : Cls → Perm → Nat
  | .u, .r => 8 | .u, .w => 7 | .u, .x => 6 | .g, .r => 5 | .g, .w => 4 | .g, .x => 3 | .o, .r => 2 | .o, .w => 1 | .o, .x => 0

theorem table_eq (m : Mode) (c : Cls) (p : Perm) : table m c p = !m.getLsbD (ix c p) := by
  cases c <;> cases p <;> rfl

theorem ix_lt (c : Cls) (p : Perm) : ix c p < 9 := by cases c <;> cases p <;> decide

theorem mul_bits : ∀ (r w x u g o : Bool) (c : Cls) (p : Perm),
    (valOf r w x * posOf u g o).getLsbD (ix c p) = (bitC u g o c && bitP r w x p) := by
  intro r w x u g o c p
  cases c <;> cases p <;> revert r w x u g o <;> decide

theorem mul7_bits : ∀ (u g o : Bool) (c : Cls) (p : Perm), (posOf u g o * 7#9).getLsbD (ix c p) = bitC u g o c := by
  intro u g o c p
  cases c <;> cases p <;> revert u g o <;> decide

theorem low_bits (v : Mode) : v &&& 7#9 = valOf (v.getLsbD 2) (v.getLsbD 1) (v.getLsbD 0) := by
  apply BitVec.eq_of_getLsbD_eq
  intro i hi
  have : i = 0 ∨ i = 1 ∨ i = 2 ∨ i = 3 ∨ i = 4 ∨ i = 5 ∨ i = 6 ∨ i = 7 ∨ i = 8 := by omega
  have key : ∀ (a b c : Bool), (valOf a b c).getLsbD 0 = c ∧ (valOf a b c).getLsbD 1 = b ∧ (valOf a b c).getLsbD 2 = a ∧
      ∀ i < 9, 3 ≤ i → (valOf a b c).getLsbD i = false := by decide
  obtain ⟨k0, k1, k2, k3⟩ := key (v.getLsbD 2) (v.getLsbD 1) (v.getLsbD 0)
  rw [BitVec.getLsbD_and]
  rcases this with rfl | rfl | rfl | rfl | rfl | rfl | rfl | rfl | rfl
  · rw [k0, show (7#9).getLsbD 0 = true from rfl, Bool.and_true]
  · rw [k1, show (7#9).getLsbD 1 = true from rfl, Bool.and_true]
  · rw [k2, show (7#9).getLsbD 2 = true from rfl, Bool.and_true]
  all_goals
    rw [k3 _ (by omega) (by omega)]
    exact Bool.and_false _

def lowBit (v : Mode) : Perm → Bool
  | .r => v.getLsbD 2 | .w => v.getLsbD 1 | .x => v.getLsbD 0

theorem bitP_low (v : Mode) (p : Perm) : bitP (v.getLsbD 2) (v.getLsbD 1) (v.getLsbD 0) p = lowBit v p := by cases p <;> rfl

/-- one operation, bit by bit -/
theorem apply_bits (op : Op) (u g o : Bool) (v new : Mode) (c : Cls) (p : Perm) :
    (apply op.chr (posOf u g o) v new).getLsbD (ix c p) =
      if bitC u g o c then change op (new.getLsbD (ix c p)) (lowBit v p) else new.getLsbD (ix c p) := by
  have h1 := mul_bits (v.getLsbD 2) (v.getLsbD 1) (v.getLsbD 0) u g o c p
  rw [bitP_low] at h1
  have h2 := mul7_bits u g o c p
  have h3 := ix_lt c p
  have hne : ¬ ('=' = '-') ∧ ¬ ('+' = '-') ∧ ¬ ('+' = '=') := by decide
  cases op
  · simp only [apply, Op.chr, low_bits, change, hne, if_false, if_true, BitVec.getLsbD_or, BitVec.getLsbD_and, BitVec.getLsbD_not, h1, h2, h3]
    cases bitC u g o c <;> simp
  · simp only [apply, Op.chr, low_bits, change, hne, if_false, if_true, BitVec.getLsbD_or, h1]
    cases bitC u g o c <;> simp
  · simp only [apply, Op.chr, low_bits, change, if_true, BitVec.getLsbD_and, BitVec.getLsbD_not, h1, h3]
    cases bitC u g o c <;> simp

/-! ## Reading -/

def isWho (c : Char) : Prop := c = 'a' ∨ c = 'u' ∨ c = 'g' ∨ c = 'o'
def isWhat (c : Char) : Prop := c ∈ ['r', 'w', 'x', 'u', 'g', 'o', 'X', 's']

theorem or_pos (u g o : Bool) : posOf u g o ||| 0o111#9 = posOf true true true ∧ posOf u g o ||| 0o100#9 = posOf true g o ∧
    posOf u g o ||| 0o010#9 = posOf u true o ∧ posOf u g o ||| 0o001#9 = posOf u g true := by
  revert u g o; decide

theorem who_spell : ∀ (ws : List Who) (u g o : Bool) (rest : List Char), (∀ c, rest.head? = some c → ¬ isWho c) →
    who (ws.map Who.chr ++ rest) (posOf u g o) =
      (posOf (u || ws.contains .all || ws.contains (.cls .u)) (g || ws.contains .all || ws.contains (.cls .g))
        (o || ws.contains .all || ws.contains (.cls .o)), rest)
  | [], u, g, o, rest, h => by
    cases rest with
    | nil => simp [who]
    | cons c rest =>
      have := h c rfl
      simp only [isWho, not_or] at this
      simp [who, this]
  | w :: ws, u, g, o, rest, h => by
    obtain ⟨o1, o2, o3, o4⟩ := or_pos u g o
    cases w with
    | all =>
      simp only [List.map_cons, List.cons_append, Who.chr, who, if_true, o1]
      rw [who_spell ws true true true rest h]
      simp
    | cls c =>
      cases c
      · simp only [List.map_cons, List.cons_append, Who.chr, Cls.chr, who, reduceCtorEq, Char.reduceEq, if_false, if_true, o2]
        rw [who_spell ws true g o rest h]
        simp [Bool.or_assoc]
      · simp only [List.map_cons, List.cons_append, Who.chr, Cls.chr, who, reduceCtorEq, Char.reduceEq, if_false, if_true, o3]
        rw [who_spell ws u true o rest h]
        simp [Bool.or_assoc]
      · simp only [List.map_cons, List.cons_append, Who.chr, Cls.chr, who, reduceCtorEq, Char.reduceEq, if_false, if_true, o4]
        rw [who_spell ws u g true rest h]
        simp [Bool.or_assoc]

theorem any_exec (m : Mode) : (m &&& 0o111#9 ≠ 0) ↔ (m.getLsbD 6 || m.getLsbD 3 || m.getLsbD 0) = true := by
  have h : m &&& 0o111#9 = posOf (m.getLsbD 6) (m.getLsbD 3) (m.getLsbD 0) := by
    apply BitVec.eq_of_getLsbD_eq
    intro i hi
    have : i = 0 ∨ i = 1 ∨ i = 2 ∨ i = 3 ∨ i = 4 ∨ i = 5 ∨ i = 6 ∨ i = 7 ∨ i = 8 := by omega
    have key : ∀ (a b c : Bool), (posOf a b c).getLsbD 0 = c ∧ (posOf a b c).getLsbD 3 = b ∧ (posOf a b c).getLsbD 6 = a ∧
        ∀ i < 9, i ≠ 0 → i ≠ 3 → i ≠ 6 → (posOf a b c).getLsbD i = false := by decide
    obtain ⟨k0, k1, k2, k3⟩ := key (m.getLsbD 6) (m.getLsbD 3) (m.getLsbD 0)
    rw [BitVec.getLsbD_and]
    rcases this with rfl | rfl | rfl | rfl | rfl | rfl | rfl | rfl | rfl
    · rw [k0, show (0o111#9).getLsbD 0 = true from rfl, Bool.and_true]
    · rw [k3 _ (by omega) (by omega) (by omega) (by omega)]; exact Bool.and_false _
    · rw [k3 _ (by omega) (by omega) (by omega) (by omega)]; exact Bool.and_false _
    · rw [k1, show (0o111#9).getLsbD 3 = true from rfl, Bool.and_true]
    · rw [k3 _ (by omega) (by omega) (by omega) (by omega)]; exact Bool.and_false _
    · rw [k3 _ (by omega) (by omega) (by omega) (by omega)]; exact Bool.and_false _
    · rw [k2, show (0o111#9).getLsbD 6 = true from rfl, Bool.and_true]
    · rw [k3 _ (by omega) (by omega) (by omega) (by omega)]; exact Bool.and_false _
    · rw [k3 _ (by omega) (by omega) (by omega) (by omega)]; exact Bool.and_false _
  rw [h]
  generalize m.getLsbD 6 = a
  generalize m.getLsbD 3 = b
  generalize m.getLsbD 0 = c
  revert a b c
  decide

theorem perms_spell (mask : Mode) : ∀ (l : List What) (v : Mode) (rest : List Char), (∀ c, rest.head? = some c → ¬ isWhat c) →
    ∃ v', perms (~~~mask) (l.map What.chr ++ rest) v = (v', rest) ∧ ∀ p, lowBit v' p = (lowBit v p || grants (table mask) l p)
  | [], v, rest, h => by
    refine ⟨v, ?_, by simp [grants]⟩
    cases rest with
    | nil => simp [perms]
    | cons c rest =>
      have := h c rfl
      simp only [isWhat, List.mem_cons, List.not_mem_nil, or_false, not_or] at this
      simp [perms, this]
  | w :: l, v, rest, h => by
    have key : ∀ (v1 : Mode), perms (~~~mask) ((w :: l).map What.chr ++ rest) v = perms (~~~mask) (l.map What.chr ++ rest) v1 →
        (∀ p, lowBit v1 p = (lowBit v p || grants (table mask) [w] p)) →
        ∃ v', perms (~~~mask) ((w :: l).map What.chr ++ rest) v = (v', rest) ∧
          ∀ p, lowBit v' p = (lowBit v p || grants (table mask) (w :: l) p) := by
      intro v1 h1 h2
      obtain ⟨v', g1, g2⟩ := perms_spell mask l v1 rest h
      refine ⟨v', by rw [h1, g1], fun p => ?_⟩
      rw [g2, h2]
      simp [grants, Bool.or_assoc]
    cases w with
    | perm q =>
      cases q
      · refine key (v ||| 4#9) (by simp [perms, What.chr, Perm.chr]) (fun p => ?_)
        cases p <;> simp [lowBit, grants]
      · refine key (v ||| 2#9) (by simp [perms, What.chr, Perm.chr]) (fun p => ?_)
        cases p <;> simp [lowBit, grants]
      · refine key (v ||| 1#9) (by simp [perms, What.chr, Perm.chr]) (fun p => ?_)
        cases p <;> simp [lowBit, grants]
    | copy c =>
      cases c
      · refine key (v ||| (~~~mask >>> 6)) (by simp [perms, What.chr, Cls.chr]) (fun p => ?_)
        cases p <;> simp [lowBit, grants, table]
      · refine key (v ||| (~~~mask >>> 3)) (by simp [perms, What.chr, Cls.chr]) (fun p => ?_)
        cases p <;> simp [lowBit, grants, table]
      · refine key (v ||| ~~~mask) (by simp [perms, What.chr, Cls.chr]) (fun p => ?_)
        cases p <;> simp [lowBit, grants, table]
    | cond =>
      refine key (if ~~~mask &&& 0o111#9 ≠ 0 then v ||| 1#9 else v) (by simp [perms, What.chr]) (fun p => ?_)
      have := any_exec (~~~mask)
      by_cases hx : ~~~mask &&& 0o111#9 ≠ 0
      · rw [if_pos hx]
        have := this.1 hx
        cases p
        · simp [lowBit, grants]
        · simp [lowBit, grants]
        · simp only [lowBit, grants, table]
          simp at this ⊢
          simp [this]
      · rw [if_neg hx]
        have hx' : ¬ ((~~~mask).getLsbD 6 || (~~~mask).getLsbD 3 || (~~~mask).getLsbD 0) = true := fun h => hx (this.2 h)
        cases p
        · simp [lowBit, grants]
        · simp [lowBit, grants]
        · simp only [lowBit, grants, table]
          simp at hx' ⊢
          simp [hx']
    | nothing => exact key v (by simp [perms, What.chr]) (fun p => by cases p <;> simp [lowBit, grants])

/-- what follows the permissions: the end, a comma or another operation -/
def Follows (rest : List Char) : Prop := ∀ c, rest.head? = some c → c = ',' ∨ c = '=' ∨ c = '+' ∨ c = '-'

theorem op_cases (op : Op) : (op.chr = '=' ∨ op.chr = '+' ∨ op.chr = '-') ∧ ¬ isWho op.chr ∧ ¬ isWhat op.chr ∧ op.chr ≠ ',' := by
  cases op <;> simp [Op.chr, isWho, isWhat]

/-- one turn -/
theorem loop_step (mask : Mode) (fuel : Nat) (ws : List Who) (op : Op) (l : List What) (rest : List Char) (hr : Follows rest)
    (u g o : Bool) (new : Mode) :
    ∃ u' g' o' new', (∀ c, bitC u' g' o' c = if ws = [] ∧ u = false ∧ g = false ∧ o = false then true else
        bitC u g o c || ws.contains .all || ws.contains (.cls c)) ∧
      (∀ c p, new'.getLsbD (ix c p) = if bitC u' g' o' c then change op (new.getLsbD (ix c p)) (grants (table mask) l p)
        else new.getLsbD (ix c p)) ∧
      loop (~~~mask) (fuel + 1) (ws.map Who.chr ++ op.chr :: (l.map What.chr ++ rest)) (posOf u g o) new =
        match rest with
        | [] => .set (~~~new')
        | d :: s => if d = ',' then loop (~~~mask) fuel s 0 new' else loop (~~~mask) fuel (d :: s) (posOf u' g' o') new' := by
  obtain ⟨hop, hw, hwt, hcm⟩ := op_cases op
  have hwho := who_spell ws u g o (op.chr :: (l.map What.chr ++ rest)) (by intro c hc; simp at hc; subst hc; exact hw)
  obtain ⟨v, hv, hg⟩ := perms_spell mask l 0 rest (by
    intro c hc
    rcases hr c hc with rfl | rfl | rfl | rfl <;> simp [isWhat])
  -- the positions
  obtain ⟨u', g', o', hpos, hbit⟩ : ∃ u' g' o', (if posOf (u || ws.contains .all || ws.contains (.cls .u))
      (g || ws.contains .all || ws.contains (.cls .g)) (o || ws.contains .all || ws.contains (.cls .o)) = 0 then 0o111#9 else
      posOf (u || ws.contains .all || ws.contains (.cls .u))
      (g || ws.contains .all || ws.contains (.cls .g)) (o || ws.contains .all || ws.contains (.cls .o))) = posOf u' g' o' ∧
      ∀ c, bitC u' g' o' c = if ws = [] ∧ u = false ∧ g = false ∧ o = false then true else
        bitC u g o c || ws.contains .all || ws.contains (.cls c) := by
    by_cases he : ws = [] ∧ u = false ∧ g = false ∧ o = false
    · obtain ⟨rfl, rfl, rfl, rfl⟩ := he
      exact ⟨true, true, true, by decide, fun c => by cases c <;> rfl⟩
    · refine ⟨_, _, _, if_neg ?_, fun c => by rw [if_neg he]; cases c <;> rfl⟩
      have hz : ∀ a b c : Bool, posOf a b c = 0 → a = false ∧ b = false ∧ c = false := by decide
      intro h0
      obtain ⟨z1, z2, z3⟩ := hz _ _ _ h0
      simp only [Bool.or_eq_false_iff] at z1 z2 z3
      refine he ⟨?_, z1.1.1, z2.1.1, z3.1.1⟩
      cases ws with
      | nil => rfl
      | cons w ws =>
        cases w with
        | all => simp at z1
        | cls c => cases c <;> simp at z1 z2 z3
  refine ⟨u', g', o', apply op.chr (posOf u' g' o') v new, hbit, ?_, ?_⟩
  · intro c p
    rw [apply_bits, hg]
    have : lowBit 0 p = false := by cases p <;> rfl
    rw [this, Bool.false_or]
  · have hne : ∃ c s, ws.map Who.chr ++ op.chr :: (l.map What.chr ++ rest) = c :: s := by
      cases ws with
      | nil => exact ⟨_, _, rfl⟩
      | cons w ws => exact ⟨_, _, rfl⟩
    obtain ⟨c, s, hcs⟩ := hne
    rw [loop.eq_def]
    rw [hcs] at hwho ⊢
    simp only [hwho, hpos, hv]
    rw [if_neg (by rcases hop with h | h | h <;> simp [h])]
    cases rest with
    | nil => rfl
    | cons d rest =>
      simp only
      by_cases hd : d = ','
      · rw [if_pos hd, if_pos hd]
      · rw [if_neg hd, if_neg hd, if_pos]
        have := hr d rfl
        simpa [hd] using this

theorem follows_acts (as : List (Op × List What)) (tail : List Char) (h : Follows tail) : Follows (spellActs as ++ tail) := by
  cases as with
  | nil => exact h
  | cons a as =>
    intro c hc
    simp [spellActs] at hc
    subst hc
    obtain ⟨h1, _⟩ := op_cases a.1
    rcases h1 with h1 | h1 | h1 <;> simp [h1]

/-- What is left to do after a clause. -/
def after (mask : Mode) (fuel : Nat) (tail : List Char) (new : Mode) : R :=
  match tail with
  | [] => .set (~~~new)
  | _ :: s => loop (~~~mask) fuel s 0 new

/-- further operations of a clause -/
theorem loop_acts (mask : Mode) (u g o : Bool) (hp : ¬ (u = false ∧ g = false ∧ o = false)) (tail : List Char)
    (ht : tail = [] ∨ ∃ s, tail = ',' :: s) : ∀ (as : List (Op × List What)) (fuel : Nat) (new : Mode), as ≠ [] →
    (spellActs as ++ tail).length < fuel →
    ∃ fuel' new', tail.length ≤ fuel' ∧ loop (~~~mask) fuel (spellActs as ++ tail) (posOf u g o) new = after mask fuel' tail new' ∧
      ∀ c p, new'.getLsbD (ix c p) = if bitC u g o c then as.foldl (fun b a => change a.1 b (grants (table mask) a.2 p)) (new.getLsbD (ix c p))
        else new.getLsbD (ix c p)
  | [], _, _, h, _ => absurd rfl h
  | (op, l) :: as, fuel, new, _, hf => by
    have htf : Follows tail := by
      intro c hc
      rcases ht with rfl | ⟨s, rfl⟩
      · simp at hc
      · simp at hc; simp [← hc]
    cases fuel with
    | zero => simp at hf
    | succ fuel =>
      obtain ⟨u', g', o', new', hb, hbits, hloop⟩ := loop_step mask fuel [] op l (spellActs as ++ tail) (follows_acts as tail htf) u g o new
      have hbc : ∀ c, bitC u' g' o' c = bitC u g o c := by
        intro c; rw [hb c, if_neg (fun h => hp h.2)]; simp
      have e1 : u' = u := hbc .u
      have e2 : g' = g := hbc .g
      have e3 : o' = o := hbc .o
      subst e1 e2 e3
      have hsp : spellActs ((op, l) :: as) ++ tail = op.chr :: (l.map What.chr ++ (spellActs as ++ tail)) := by simp [spellActs]
      have hlen : (spellActs as ++ tail).length < fuel := by
        have := congrArg List.length hsp
        simp only [List.length_cons, List.length_append] at this hf ⊢
        omega
      simp only [List.map_nil, List.nil_append] at hloop
      cases as with
      | nil =>
        refine ⟨fuel, new', by simp [spellActs] at hlen; omega, ?_, fun c p => by rw [hbits]; rfl⟩
        rw [hsp, hloop]
        simp only [spellActs, List.flatMap_nil, List.nil_append, after]
        rcases ht with rfl | ⟨s, rfl⟩
        · rfl
        · simp
      | cons a as =>
        obtain ⟨fuel', new'', h1, h2, h3⟩ := loop_acts mask u' g' o' hp tail ht (a :: as) fuel new' (by simp) hlen
        refine ⟨fuel', new'', h1, ?_, ?_⟩
        · rw [hsp, hloop, ← h2]
          have hcons : spellActs (a :: as) ++ tail = a.1.chr :: ((a.2.map What.chr) ++ (spellActs as ++ tail)) := by simp [spellActs]
          rw [hcons]
          simp [(op_cases a.1).2.2.2]
        · intro c p
          rw [h3, hbits]
          by_cases hc : bitC u' g' o' c = true
          · simp only [hc, if_true, List.foldl_cons]
          · simp only [hc, if_false, Bool.false_eq_true]

/-- a whole clause -/
theorem loop_clause (mask : Mode) (k : Clause) (hk : k.acts ≠ []) (tail : List Char) (ht : tail = [] ∨ ∃ s, tail = ',' :: s)
    (fuel : Nat) (hf : (k.spell ++ tail).length < fuel) (new : Mode) :
    ∃ fuel' new', tail.length ≤ fuel' ∧ loop (~~~mask) fuel (k.spell ++ tail) 0 new = after mask fuel' tail new' ∧
      ∀ c p, new'.getLsbD (ix c p) = k.run (table mask) (fun c p => new.getLsbD (ix c p)) c p := by
  obtain ⟨ws, as⟩ := k
  cases as with
  | nil => exact absurd rfl hk
  | cons a as =>
    obtain ⟨op, l⟩ := a
    have htf : Follows tail := by
      intro c hc
      rcases ht with rfl | ⟨s, rfl⟩
      · simp at hc
      · simp at hc; simp [← hc]
    cases fuel with
    | zero => simp at hf
    | succ fuel =>
      obtain ⟨u', g', o', new', hb, hbits, hloop⟩ := loop_step mask fuel ws op l (spellActs as ++ tail) (follows_acts as tail htf)
        false false false new
      have hnamed : ∀ c, bitC u' g' o' c = (Clause.mk ws ((op, l) :: as)).named c := by
        intro c
        rw [hb]
        cases ws with
        | nil => simp [Clause.named]
        | cons w ws =>
          have : bitC false false false c = false := by cases c <;> rfl
          simp [Clause.named, this]
      have hsp : (Clause.mk ws ((op, l) :: as)).spell ++ tail = ws.map Who.chr ++ op.chr :: (l.map What.chr ++ (spellActs as ++ tail)) := by
        simp [Clause.spell, spellActs]
      have hlen : (spellActs as ++ tail).length < fuel := by
        have := congrArg List.length hsp
        simp only [List.length_cons, List.length_append] at this hf ⊢
        omega
      have h0 : posOf false false false = 0 := by decide
      rw [h0] at hloop
      cases as with
      | nil =>
        refine ⟨fuel, new', by simp [spellActs] at hlen; omega, ?_, fun c p => by rw [hbits, hnamed]; rfl⟩
        rw [hsp, hloop]
        simp only [spellActs, List.flatMap_nil, List.nil_append, after]
        rcases ht with rfl | ⟨s, rfl⟩
        · rfl
        · simp
      | cons a as =>
        have hp : ¬ (u' = false ∧ g' = false ∧ o' = false) := by
          rintro ⟨rfl, rfl, rfl⟩
          have hu := hnamed .u
          have hg := hnamed .g
          have ho := hnamed .o
          simp only [bitC] at hu hg ho
          cases ws with
          | nil => simp [Clause.named] at hu
          | cons w ws =>
            cases w with
            | all => simp [Clause.named] at hu
            | cls c => cases c <;> simp [Clause.named] at hu hg ho
        obtain ⟨fuel', new'', h1, h2, h3⟩ := loop_acts mask u' g' o' hp tail ht (a :: as) fuel new' (by simp) hlen
        refine ⟨fuel', new'', h1, ?_, ?_⟩
        · rw [hsp, hloop, ← h2]
          have hcons : spellActs (a :: as) ++ tail = a.1.chr :: ((a.2.map What.chr) ++ (spellActs as ++ tail)) := by simp [spellActs]
          rw [hcons]
          simp [(op_cases a.1).2.2.2]
        · intro c p
          rw [h3, hbits, hnamed]
          simp only [Clause.run]
          by_cases hc : (Clause.mk ws ((op, l) :: a :: as)).named c = true
          · simp only [hc, if_true, List.foldl_cons]
          · simp only [hc, if_false, Bool.false_eq_true]

theorem loop_all (mask : Mode) (comma : Bool) : ∀ (ks : List Clause), ks ≠ [] → (∀ k ∈ ks, k.acts ≠ []) → ∀ (fuel : Nat),
    (spell ks comma).length < fuel → ∀ new : Mode, ∃ m, loop (~~~mask) fuel (spell ks comma) 0 new = .set m ∧
      ∀ c p, table m c p = ks.foldl (fun t k => k.run (table mask) t) (fun c p => new.getLsbD (ix c p)) c p
  | [], h, _, _, _, _ => absurd rfl h
  | [k], _, hk, fuel, hf, new => by
    have hs : spell [k] comma = k.spell ++ if comma then [','] else [] := by simp [spell]
    rw [hs] at hf ⊢
    obtain ⟨fuel', new', h1, h2, h3⟩ := loop_clause mask k (hk k (by simp)) (if comma then [','] else [])
      (by cases comma <;> simp) fuel hf new
    refine ⟨~~~new', ?_, ?_⟩
    · rw [h2]
      cases comma with
      | false => rfl
      | true =>
        simp only [if_true, List.length_singleton] at h1
        cases fuel' with
        | zero => omega
        | succ n => simp [after, loop]
    · intro c p
      rw [table_eq, BitVec.getLsbD_not, h3]
      simp [ix_lt]
  | k :: k2 :: ks, _, hk, fuel, hf, new => by
    have hs : spell (k :: k2 :: ks) comma = k.spell ++ ',' :: spell (k2 :: ks) comma := by
      simp [spell, List.intercalate, List.intersperse]
    rw [hs] at hf ⊢
    obtain ⟨fuel', new', h1, h2, h3⟩ := loop_clause mask k (hk k (by simp)) (',' :: spell (k2 :: ks) comma) (.inr ⟨_, rfl⟩) fuel hf new
    obtain ⟨m, g1, g2⟩ := loop_all mask comma (k2 :: ks) (by simp) (fun x hx => hk x (List.mem_cons_of_mem _ hx)) fuel'
      (by simpa [Nat.succ_le_iff] using h1) new'
    refine ⟨m, by rw [h2]; exact g1, ?_⟩
    intro c p
    rw [g2]
    have : (fun c p => new'.getLsbD (ix c p)) = k.run (table mask) (fun c p => new.getLsbD (ix c p)) := by
      funext c p; exact h3 c p
    rw [this]; rfl

/-- The first character of a clause is no digit. -/
theorem spell_head (ks : List Clause) (comma : Bool) (hne : ks ≠ []) (hk : ∀ k ∈ ks, k.acts ≠ []) :
    ∃ c r, spell ks comma = c :: r ∧ ¬ ('0' ≤ c ∧ c ≤ '9') := by
  cases ks with
  | nil => exact absurd rfl hne
  | cons k ks =>
    have hh : ∃ c r, k.spell = c :: r ∧ ¬ ('0' ≤ c ∧ c ≤ '9') := by
      obtain ⟨ws, as⟩ := k
      cases ws with
      | cons w ws =>
        refine ⟨w.chr, _, rfl, ?_⟩
        cases w with
        | all => decide
        | cls c => cases c <;> decide
      | nil =>
        cases as with
        | nil => exact absurd rfl (hk ⟨[], []⟩ (by simp))
        | cons a as => exact ⟨a.1.chr, _, rfl, by cases a.1 <;> decide⟩
    obtain ⟨c, r, h1, h2⟩ := hh
    cases ks with
    | nil => exact ⟨c, r ++ if comma then [','] else [], by simp [spell, h1], h2⟩
    | cons k2 ks => exact ⟨c, r ++ ',' :: spell (k2 :: ks) comma, by simp [spell, List.intercalate, h1], h2⟩

/-- **C28**: a symbolic operand does what its clauses say. -/
theorem symbolic_meaning (mask : Mode) (ks : List Clause) (comma : Bool) (hne : ks ≠ []) (hk : ∀ k ∈ ks, k.acts ≠ []) :
    ∃ m, umask mask (spell ks comma) = .set m ∧ ∀ c p, table m c p = runAll (table mask) ks c p := by
  obtain ⟨c, r, h1, h2⟩ := spell_head ks comma hne hk
  obtain ⟨m, g1, g2⟩ := loop_all mask comma ks hne hk ((spell ks comma).length + 1) (by omega) (~~~mask)
  refine ⟨m, ?_, ?_⟩
  · rw [h1] at g1 ⊢
    simp only [umask, if_neg h2]
    exact g1
  · intro c p
    have : (fun c p => (~~~mask).getLsbD (ix c p)) = table mask := by
      funext c p
      rw [table_eq, BitVec.getLsbD_not]
      simp [ix_lt]
    rw [g2, runAll, this]

/-- **C28**: classes that no clause names keep their permissions. -/
theorem only_named_classes (mask : Mode) (ks : List Clause) (comma : Bool) (hne : ks ≠ []) (hk : ∀ k ∈ ks, k.acts ≠ [])
    (c : Cls) (hc : ∀ k ∈ ks, k.named c = false) : ∃ m, umask mask (spell ks comma) = .set m ∧ ∀ p, table m c p = table mask c p := by
  obtain ⟨m, h1, h2⟩ := symbolic_meaning mask ks comma hne hk
  refine ⟨m, h1, fun p => ?_⟩
  rw [h2, runAll]
  have : ∀ (ks : List Clause) (t : Table), (∀ k ∈ ks, k.named c = false) → ks.foldl (fun t k => k.run (table mask) t) t c p = t c p := by
    intro ks
    induction ks with
    | nil => intro t _; rfl
    | cons k ks ih =>
      intro t h
      rw [List.foldl_cons, ih _ (fun x hx => h x (List.mem_cons_of_mem _ hx))]
      simp [Clause.run, h k (by simp)]
  exact this ks _ hc

theorem table_inj (m n : Mode) (h : ∀ c p, table m c p = table n c p) : m = n := by
  apply BitVec.eq_of_getLsbD_eq
  intro i hi
  have hb : ∀ c p, m.getLsbD (ix c p) = n.getLsbD (ix c p) := by
    intro c p
    have := h c p
    rw [table_eq, table_eq] at this
    exact Bool.not_inj this
  have : i = 0 ∨ i = 1 ∨ i = 2 ∨ i = 3 ∨ i = 4 ∨ i = 5 ∨ i = 6 ∨ i = 7 ∨ i = 8 := by omega
  rcases this with rfl | rfl | rfl | rfl | rfl | rfl | rfl | rfl | rfl
  · exact hb .o .x
  · exact hb .o .w
  · exact hb .o .r
  · exact hb .g .x
  · exact hb .g .w
  · exact hb .g .r
  · exact hb .u .x
  · exact hb .u .w
  · exact hb .u .r

/-- the clauses `umask -S` prints -/
def fullClauses (t : Table) : List Clause :=
  [.u, .g, .o].map fun c => ⟨[.cls c], [(.set, ([.r, .w, .x].filter (t c)).map What.perm)]⟩

theorem symText_spell : ∀ m : Mode, symText m = spell (fullClauses (table m)) false := by decide +kernel

/-- **C28**: the text of `umask -S`, given back under any mask, restores the mask. -/
theorem symbolic_restores (mask other : Mode) : umask other (symText mask) = .set mask := by
  rw [symText_spell]
  obtain ⟨m, h1, h2⟩ := symbolic_meaning other (fullClauses (table mask)) false (by simp [fullClauses]) (by
    intro k hk; simp [fullClauses] at hk; rcases hk with rfl | rfl | rfl <;> simp)
  rw [h1]
  congr 1
  apply table_inj
  intro c p
  rw [h2]
  generalize table mask = t
  generalize table other = t'
  have e : ∀ c, ([.r, .w, .x].filter (t c)) = (if t c .r then [Perm.r] else []) ++ (if t c .w then [Perm.w] else []) ++ (if t c .x then [Perm.x] else []) := by
    intro c; simp only [List.filter_cons, List.filter_nil]
    cases t c .r <;> cases t c .w <;> cases t c .x <;> rfl
  have eg : ∀ c p, grants t' (([.r, .w, .x].filter (t c)).map What.perm) p = t c p := by
    intro c p
    rw [e]
    cases h1 : t c .r <;> cases h2 : t c .w <;> cases h3 : t c .x <;> cases p <;> simp [grants, h1, h2, h3]
  simp only [runAll, fullClauses, List.map_cons, List.map_nil, List.foldl_cons, List.foldl_nil, Clause.run, Clause.named]
  cases c <;> simp [eg, change]

/-- **C28**: the octal text restores the mask, too. -/
theorem octal_restores (mask other : Mode) : umask other (octText mask) = .set mask := by
  have h1 : ∀ mask : Mode, (octText mask).head?.any (fun c => '0' ≤ c && c ≤ '9') = true ∧ octal (octText mask) 0 = .set mask := by
    decide +kernel
  obtain ⟨h1, h2⟩ := h1 mask
  cases ht : octText mask with
  | nil => rw [ht] at h1; simp at h1
  | cons c r =>
    rw [ht] at h1 h2
    simp only [List.head?_cons, Option.any_some, Bool.and_eq_true, decide_eq_true_eq] at h1
    simp only [umask, if_pos h1, h2]

/-! ## Reading out of bounds -/

theorem who_rest : ∀ (s : List Char) (p : Mode), ∃ w, s = w ++ (who s p).2 ∧ ∀ c ∈ w, isWho c
  | [], p => ⟨[], rfl, by simp⟩
  | c :: s, p => by
    have key : isWho c → ∀ q, (who (c :: s) p).2 = (who s q).2 → ∃ w, c :: s = w ++ (who (c :: s) p).2 ∧ ∀ c ∈ w, isWho c := by
      intro hc q hq
      obtain ⟨w, h1, h2⟩ := who_rest s q
      refine ⟨c :: w, by rw [hq, List.cons_append, ← h1], ?_⟩
      intro d hd
      rcases List.mem_cons.1 hd with rfl | hd
      · exact hc
      · exact h2 d hd
    by_cases h1 : c = 'a'
    · exact key (by simp [isWho, h1]) _ (by simp only [who, if_pos h1]; rfl)
    · by_cases h2 : c = 'u'
      · exact key (by simp [isWho, h2]) _ (by simp only [who, if_neg h1, if_pos h2]; rfl)
      · by_cases h3 : c = 'g'
        · exact key (by simp [isWho, h3]) _ (by simp only [who, if_neg h1, if_neg h2, if_pos h3]; rfl)
        · by_cases h4 : c = 'o'
          · exact key (by simp [isWho, h4]) _ (by simp only [who, if_neg h1, if_neg h2, if_neg h3, if_pos h4]; rfl)
          · exact ⟨[], by simp only [who, if_neg h1, if_neg h2, if_neg h3, if_neg h4, List.nil_append], by simp⟩

theorem perms_rest (old : Mode) : ∀ (s : List Char) (v : Mode), ∃ w, s = w ++ (perms old s v).2
  | [], v => ⟨[], rfl⟩
  | c :: s, v => by
    have key : (∃ q, perms old (c :: s) v = perms old s q) ∨ perms old (c :: s) v = (v, c :: s) := by
      simp only [perms]
      repeat
        first
          | exact Or.inr rfl
          | (split
             · exact Or.inl ⟨_, rfl⟩)
    rcases key with ⟨q, hq⟩ | hq
    · obtain ⟨w, h1⟩ := perms_rest old s q
      exact ⟨c :: w, by rw [hq, List.cons_append, ← h1]⟩
    · exact ⟨[], by rw [hq]; rfl⟩

theorem loop_oob (old : Mode) : ∀ (fuel : Nat) (s : List Char) (p new : Mode), s.length < fuel → loop old fuel s p new = .oob →
    ∃ pre c, s = pre ++ [c] ∧ isWho c
  | 0, s, p, new, hf, h => by omega
  | fuel + 1, [], p, new, hf, h => by simp [loop] at h
  | fuel + 1, c :: s, p, new, hf, h => by
    obtain ⟨w, h1, h2⟩ := who_rest (c :: s) p
    rw [loop.eq_def] at h
    simp only at h
    generalize hwr : who (c :: s) p = wr at h h1
    obtain ⟨q, s1⟩ := wr
    simp only at h h1
    cases s1 with
    | nil =>
      rw [List.append_nil] at h1
      have hne : w ≠ [] := by rw [← h1]; simp
      refine ⟨w.dropLast, w.getLast hne, ?_, h2 _ (List.getLast_mem hne)⟩
      rw [h1, List.dropLast_concat_getLast]
    | cons op s2 =>
      simp only at h
      split at h
      · simp at h
      · obtain ⟨w2, h3⟩ := perms_rest old s2 0
        generalize hpr : perms old s2 0 = pr at h h3
        obtain ⟨v, s3⟩ := pr
        simp only at h h3
        have hlen : s3.length ≤ s.length := by
          have e1 := congrArg List.length h1
          have e2 := congrArg List.length h3
          simp only [List.length_cons, List.length_append] at e1 e2
          omega
        simp only [List.length_cons] at hf
        cases s3 with
        | nil => simp at h
        | cons d s4 =>
          simp only at h
          have pre : ∀ s', s' = s4 ∨ s' = d :: s4 → (∃ pre c, s' = pre ++ [c] ∧ isWho c) → ∃ pre c', c :: s = pre ++ [c'] ∧ isWho c' := by
            rintro s' hs ⟨pre, c', e1, e2⟩
            rcases hs with rfl | rfl
            · exact ⟨w ++ op :: (w2 ++ d :: pre), c', by rw [h1, h3, e1]; simp, e2⟩
            · exact ⟨w ++ op :: (w2 ++ pre), c', by rw [h1, h3, e1]; simp, e2⟩
          split at h
          · exact pre s4 (.inl rfl) (loop_oob old fuel s4 _ _ (by simp at hlen; omega) h)
          · split at h
            · exact pre (d :: s4) (.inr rfl) (loop_oob old fuel (d :: s4) _ _ (by omega) h)
            · simp at h

/-- **C28** (partial: operands ending in a class letter are left out, see
`reads_out_of_bounds`): the operand is not read behind its end. -/
theorem in_bounds_partial (mask : Mode) (s : List Char)
    (h : ∀ c, s.getLast? = some c → ¬ (c = 'a' ∨ c = 'u' ∨ c = 'g' ∨ c = 'o')) : umask mask s ≠ .oob := by
  intro ho
  have hoct : ∀ (s : List Char) (m : Mode), octal s m ≠ .oob := by
    intro s
    induction s with
    | nil => intro m; simp [octal]
    | cons c s ih => intro m; simp only [octal]; split <;> simp [ih]
  cases s with
  | nil => simp [umask, loop] at ho
  | cons c s =>
    simp only [umask] at ho
    split at ho
    · exact hoct _ _ ho
    · obtain ⟨pre, d, h1, h2⟩ := loop_oob _ _ _ _ _ (by omega) ho
      exact h d (by rw [h1]; simp) h2

/-- `umask u` goes on reading behind the end of the operand. -/
theorem reads_out_of_bounds : ∀ mask : Mode, umask mask ['u'] = .oob ∧ umask mask ['g', '=', 'r', ',', 'o'] = .oob := by decide +kernel

/-! ## Examples -/

example : umask 0o022#9 "u=rwx,go-w+x".toList = .set 0o022#9 := by decide +kernel
example : umask 0o077#9 "g=u,o=r".toList = .set 0o003#9 := by decide +kernel
example : String.ofList (symText 0o027#9) = "u=rwx,g=rx,o=" := by decide +kernel
example : String.ofList (octText 0o777#9) = "0777" ∧ String.ofList (octText 0o002#9) = "002" := by decide +kernel
example : umask 0 "u~r".toList = .error ∧ umask 0 "28".toList = .error ∧ umask 0 "u=q".toList = .error := by decide +kernel
example : (Clause.mk [.cls .g] [(.set, [.copy .u]), (.remove, [.perm .w])]).spell = "g=u-w".toList := by decide

end Ksh.Umask
