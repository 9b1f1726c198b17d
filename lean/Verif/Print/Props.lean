import Verif.Print.Model
import Verif.Getopt.Props
/-!
# Properties of `print` and `echo` (C25)

Specification: an argument is a sequence of items, each with its spelling and the
characters it denotes.
-/

namespace Ksh.Print
open Ksh.Getopt (Arg G)

/-! ## Specification -/

inductive Item
  /-- a character other than a backslash -/
  | plain (c : Char)
  /-- `\a` and so on -/
  | letter (l : Char)
  /-- `\c` -/
  | cut
  /-- `\0` and up to three octal digits -/
  | oct (ds : List Char)
  /-- two backslashes -/
  | back
  /-- a backslash before any other character -/
  | other (d : Char)
  /-- a backslash at the end -/
  | last
  deriving DecidableEq, Repr

def letters : List (Char × Char) :=
  [('a', '\x07'), ('b', '\x08'), ('f', '\x0c'), ('n', '\n'), ('r', '\r'), ('t', '\t'), ('v', '\x0b')]

def isOct (c : Char) : Prop := c ∈ ['0', '1', '2', '3', '4', '5', '6', '7']

instance (c : Char) : Decidable (isOct c) := inferInstanceAs (Decidable (_ ∈ _))

def Item.spell : Item → List Char
  | .plain c => [c]
  | .letter l => ['\\', l]
  | .cut => ['\\', 'c']
  | .oct ds => '\\' :: '0' :: ds
  | .back => ['\\', '\\']
  | .other d => ['\\', d]
  | .last => ['\\']

def digits : List Char := ['0', '1', '2', '3', '4', '5', '6', '7']

/-- the number written with these octal digits -/
def octNum : List Char → Nat
  | [] => 0
  | d :: ds => digits.idxOf d * 8 ^ ds.length + octNum ds

def Item.denotes : Item → List Char
  | .plain c => [c]
  | .letter l => ((letters.lookup l).map fun c => [c]).getD []
  | .cut => []
  | .oct ds => [Char.ofNat (octNum ds % 256)]
  | .back => ['\\']
  | .other d => ['\\', d]
  | .last => ['\\']

def spell (is : List Item) : List Char := is.flatMap Item.spell
def denotes (is : List Item) : List Char := is.flatMap Item.denotes

/-- Well-formed: octal numbers are as long as they can be. -/
def Ok : List Item → Prop
  | [] => True
  | i :: r => Ok r ∧ match i with
    | .plain c => c ≠ '\\'
    | .letter l => (letters.lookup l).isSome
    | .oct ds => (∀ d ∈ ds, isOct d) ∧ ds.length ≤ 3 ∧ (ds.length = 3 ∨ ∀ d, (spell r).head? = some d → ¬ isOct d)
    | .other d => d ∉ ['a', 'b', 'c', 'f', 'n', 'r', 't', 'v', '0', '\\']
    | .last => r = []
    | _ => True

/-! ## Decoding -/

theorem isOct_iff (c : Char) : isOct c ↔ '0' ≤ c ∧ c ≤ '7' := by
  constructor
  · intro h
    simp only [isOct, List.mem_cons, List.not_mem_nil, or_false] at h
    rcases h with rfl | rfl | rfl | rfl | rfl | rfl | rfl | rfl <;> decide
  · rintro ⟨h1, h2⟩
    have h1' : 48 ≤ c.toNat := h1
    have h2' : c.toNat ≤ 55 := h2
    have : c = Char.ofNat c.toNat := (Char.ofNat_toNat c).symm
    have hk : c.toNat = 48 ∨ c.toNat = 49 ∨ c.toNat = 50 ∨ c.toNat = 51 ∨ c.toNat = 52 ∨ c.toNat = 53 ∨ c.toNat = 54 ∨ c.toNat = 55 := by omega
    rw [this]
    rcases hk with h | h | h | h | h | h | h | h <;> rw [h] <;> decide

theorem idx_eq (c : Char) (h : isOct c) : digits.idxOf c = c.toNat - '0'.toNat := by
  simp only [isOct, List.mem_cons, List.not_mem_nil, or_false] at h
  rcases h with rfl | rfl | rfl | rfl | rfl | rfl | rfl | rfl <;> decide

theorem octal_spec : ∀ (ds : List Char) (n v : Nat) (r : List Char), (∀ d ∈ ds, isOct d) → ds.length ≤ n →
    (ds.length = n ∨ ∀ d, r.head? = some d → ¬ isOct d) →
    octal n v (ds ++ r) = (v * 8 ^ ds.length + octNum ds, r)
  | [], n, v, r, _, _, hr => by
    cases n with
    | zero => simp [octal, octNum]
    | succ n =>
      rcases hr with hr | hr
      · simp at hr
      · cases r with
        | nil => simp [octal, octNum]
        | cons c r =>
          have := hr c rfl
          rw [isOct_iff] at this
          simp only [List.nil_append, octal, if_neg this, octNum, List.length_nil, Nat.pow_zero, Nat.mul_one, Nat.add_zero]
  | d :: ds, n, v, r, h, hn, hr => by
    cases n with
    | zero => simp at hn
    | succ n =>
      have hd := h d (by simp)
      have ih := octal_spec ds n (v * 8 + (d.toNat - '0'.toNat)) r (fun e he => h e (by simp [he])) (by simpa using hn)
        (by simpa using hr)
      simp only [List.cons_append, octal, if_pos ((isOct_iff d).1 hd), ih, octNum, idx_eq d hd, List.length_cons, Nat.pow_succ, Nat.add_mul,
        Prod.mk.injEq, and_true]
      rw [Nat.mul_comm (8 ^ ds.length) 8, ← Nat.mul_assoc]
      omega

theorem letter_cases (l : Char) (hl : (letters.lookup l).isSome) :
    l = 'a' ∨ l = 'b' ∨ l = 'f' ∨ l = 'n' ∨ l = 'r' ∨ l = 't' ∨ l = 'v' := by
  apply Classical.byContradiction
  intro hn
  simp only [not_or] at hn
  obtain ⟨h1, h2, h3, h4, h5, h6, h7⟩ := hn
  have : letters.lookup l = none := by
    simp only [letters, List.lookup_cons, beq_eq_false_iff_ne.2 h1, beq_eq_false_iff_ne.2 h2, beq_eq_false_iff_ne.2 h3,
      beq_eq_false_iff_ne.2 h4, beq_eq_false_iff_ne.2 h5, beq_eq_false_iff_ne.2 h6, beq_eq_false_iff_ne.2 h7, List.lookup_nil]
  rw [this] at hl
  cases hl

theorem one_nil (e nl : Bool) : one e nl [] = ([], nl) := by rw [one.eq_def]

/-- **C25**: each item is replaced by what it denotes, and `\c` drops the newline. -/
theorem escapes_decoded : ∀ (is : List Item), Ok is → ∀ nl,
    one true nl (spell is) = (denotes is, nl && !is.contains .cut)
  | [], _, nl => by simp [spell, denotes, one_nil]
  | i :: r, h, nl => by
    obtain ⟨hr, hi⟩ := h
    have ih := escapes_decoded r hr
    have hs : spell (i :: r) = i.spell ++ spell r := by simp [spell]
    have hd : denotes (i :: r) = i.denotes ++ denotes r := by simp [denotes]
    rw [hs, hd]
    cases i with
    | plain c =>
      have hc : c ≠ '\\' := hi
      simp only [Item.spell, Item.denotes, List.cons_append, List.nil_append]
      rw [one.eq_def]
      simp [hc, ih]
    | letter l =>
      have hl : (letters.lookup l).isSome := hi
      simp only [Item.spell, Item.denotes, List.cons_append, List.nil_append]
      have hm := letter_cases l hl
      rw [one.eq_def]
      rcases hm with rfl | rfl | rfl | rfl | rfl | rfl | rfl <;> simp [ih, letters, byte, List.lookup_cons]
    | cut =>
      simp only [Item.spell, Item.denotes, List.cons_append, List.nil_append]
      rw [one.eq_def]
      simp [ih]
    | oct ds =>
      obtain ⟨h1, h2, h3⟩ := hi
      have ho := octal_spec ds 3 0 (spell r) h1 h2 h3
      simp only [Item.spell, Item.denotes, List.cons_append, List.nil_append]
      rw [one.eq_def]
      simp [ho, ih, byte]
    | back =>
      simp only [Item.spell, Item.denotes, List.cons_append, List.nil_append]
      rw [one.eq_def]
      simp [ih]
    | other d =>
      have hd : d ∉ ['a', 'b', 'c', 'f', 'n', 'r', 't', 'v', '0', '\\'] := hi
      simp only [List.mem_cons, List.not_mem_nil, or_false, not_or] at hd
      obtain ⟨a1, a2, a3, a4, a5, a6, a7, a8, a9, a10⟩ := hd
      simp only [Item.spell, Item.denotes, List.cons_append, List.nil_append]
      rw [one.eq_def]
      simp [ih, a1, a2, a3, a4, a5, a6, a7, a8, a9, a10]
    | last =>
      have : r = [] := hi
      subst this
      simp only [Item.spell, Item.denotes, spell, denotes, List.flatMap_nil, List.append_nil]
      rw [one.eq_def]
      simp

theorem oct_split (s : List Char) : ∀ n, ∃ ds r, s = ds ++ r ∧ (∀ d ∈ ds, isOct d) ∧ ds.length ≤ n ∧
    (ds.length = n ∨ ∀ d, r.head? = some d → ¬ isOct d) := by
  induction s with
  | nil => intro n; exact ⟨[], [], rfl, by simp, by simp, .inr (by simp)⟩
  | cons c s ih =>
    intro n
    cases n with
    | zero => exact ⟨[], c :: s, rfl, by simp, by simp, .inl rfl⟩
    | succ n =>
      by_cases hc : isOct c
      · obtain ⟨ds, r, h1, h2, h3, h4⟩ := ih n
        refine ⟨c :: ds, r, by simp [h1], ?_, by simpa using h3, by simpa using h4⟩
        intro d hd
        rcases List.mem_cons.1 hd with rfl | hd
        · exact hc
        · exact h2 d hd
      · exact ⟨[], c :: s, rfl, by simp, by simp, .inr (by intro d hd; simp at hd; subst hd; exact hc)⟩

/-- Every argument is a sequence of items. -/
theorem every_argument_reads (s : List Char) : ∃ is, Ok is ∧ spell is = s := by
  suffices ∀ n (s : List Char), s.length ≤ n → ∃ is, Ok is ∧ spell is = s from this _ s (Nat.le_refl _)
  intro n
  induction n with
  | zero => intro s hs; exact ⟨[], trivial, by cases s with | nil => rfl | cons c s => simp at hs⟩
  | succ n ih =>
    intro s hs
    have key : ∀ (i : Item) (rest : List Char), s = i.spell ++ rest → i.spell ≠ [] →
        (∀ is, Ok is → spell is = rest → Ok (i :: is)) → ∃ is, Ok is ∧ spell is = s := by
      intro i rest h1 h2 h3
      have hl : 0 < i.spell.length := List.length_pos_iff.2 h2
      obtain ⟨is, g1, g2⟩ := ih rest (by rw [h1, List.length_append] at hs; omega)
      exact ⟨i :: is, h3 is g1 g2, by rw [h1, ← g2]; simp [spell]⟩
    cases s with
    | nil => exact ⟨[], trivial, rfl⟩
    | cons c t =>
      by_cases hc : c = '\\'
      · subst hc
        cases t with
        | nil => exact ⟨[.last], ⟨trivial, rfl⟩, rfl⟩
        | cons d u =>
          by_cases hl : (letters.lookup d).isSome
          · exact key (.letter d) u rfl (by simp [Item.spell]) (fun is h _ => ⟨h, hl⟩)
          · by_cases h1 : d = 'c'
            · subst h1; exact key .cut u rfl (by simp [Item.spell]) (fun is h _ => ⟨h, trivial⟩)
            · by_cases h2 : d = '\\'
              · subst h2; exact key .back u rfl (by simp [Item.spell]) (fun is h _ => ⟨h, trivial⟩)
              · by_cases h3 : d = '0'
                · subst h3
                  obtain ⟨ds, r, g1, g2, g3, g4⟩ := oct_split u 3
                  exact key (.oct ds) r (by simp [Item.spell, g1]) (by simp [Item.spell])
                    (fun is h hs => ⟨h, g2, g3, by rw [hs]; exact g4⟩)
                · refine key (.other d) u rfl (by simp [Item.spell]) (fun is h _ => ⟨h, ?_⟩)
                  have hl' : letters.lookup d = none := Option.not_isSome_iff_eq_none.1 hl
                  intro hm
                  simp only [List.mem_cons, List.not_mem_nil, or_false] at hm
                  rcases hm with rfl | rfl | rfl | rfl | rfl | rfl | rfl | rfl | rfl | rfl
                  all_goals first
                    | exact h1 rfl
                    | exact h2 rfl
                    | exact h3 rfl
                    | (revert hl'; decide)
      · exact key (.plain c) t rfl (by simp [Item.spell]) (fun is h _ => ⟨h, hc⟩)

/-- Without expansion, and for text without backslashes, nothing is altered. -/
theorem one_verbatim (expand nl : Bool) : ∀ (s : List Char), (expand = false ∨ '\\' ∉ s) → one expand nl s = (s, nl)
  | [], _ => one_nil _ _
  | c :: s, h => by
    have ih := one_verbatim expand nl s (h.imp id (fun h h' => h (List.mem_cons_of_mem _ h')))
    have hc : ¬ (expand && decide (c = '\\')) = true := by
      rcases h with h | h
      · simp [h]
      · simp only [List.mem_cons, not_or] at h
        simp only [Bool.and_eq_true, decide_eq_true_eq, not_and]
        exact fun _ e => h.1 e.symm
    rw [one.eq_def]
    simp only [hc, Bool.false_eq_true, if_false, ih]

theorem body_verbatim (expand nl : Bool) : ∀ (args : List Arg), (expand = false ∨ ∀ a ∈ args, '\\' ∉ a) →
    body expand nl args = ([' '].intercalate args, nl)
  | [], _ => by simp [body]
  | [a], h => by
    rw [body, one_verbatim expand nl a (h.imp id (fun h => h a (by simp)))]
    simp
  | a :: b :: r, h => by
    have ih := body_verbatim expand nl (b :: r) (h.imp id (fun h x hx => h x (List.mem_cons_of_mem _ hx)))
    rw [body, one_verbatim expand nl a (h.imp id (fun h => h a (by simp)))]
    simp only [ih]
    simp [List.intercalate, List.intersperse]

theorem body_decoded : ∀ (args : List (List Item)), (∀ a ∈ args, Ok a) → ∀ nl,
    body true nl (args.map spell) = ([' '].intercalate (args.map denotes), nl && args.all (fun a => !a.contains .cut))
  | [], _, nl => by simp [body]
  | [a], h, nl => by
    simp only [List.map_cons, List.map_nil, body]
    rw [escapes_decoded a (h a (by simp))]
    simp
  | a :: b :: r, h, nl => by
    have ih := body_decoded (b :: r) (fun x hx => h x (List.mem_cons_of_mem _ hx)) (nl && !a.contains .cut)
    simp only [List.map_cons] at ih ⊢
    rw [body, escapes_decoded a (h a (by simp))]
    simp only [ih]
    simp [List.intercalate, List.intersperse, Bool.and_assoc]

/-- **C25**: with expansion, arguments are decoded, joined by single spaces, and followed by
a newline unless it was suppressed. -/
theorem output_decoded (f : Flags) (hf : f.expand = true) (args : List (List Item)) (h : ∀ a ∈ args, Ok a) :
    output f (args.map spell) = [' '].intercalate (args.map denotes) ++
      if f.nl = true ∧ ∀ a ∈ args, Item.cut ∉ a then ['\n'] else [] := by
  simp only [output, hf, body_decoded args h]
  have : (f.nl && args.all fun a => !a.contains Item.cut) = true ↔ f.nl = true ∧ ∀ a ∈ args, Item.cut ∉ a := by
    simp
  by_cases hc : f.nl = true ∧ ∀ a ∈ args, Item.cut ∉ a
  · rw [if_pos hc, if_pos (this.2 hc)]
  · rw [if_neg hc, if_neg (fun h => hc (this.1 h)), List.append_nil]

/-- **C25**: without expansion, or without backslashes, the text is not altered. -/
theorem output_verbatim (f : Flags) (args : List Arg) (h : f.expand = false ∨ ∀ a ∈ args, '\\' ∉ a) :
    output f args = [' '].intercalate args ++ if f.nl then ['\n'] else [] := by
  simp only [output, body_verbatim f.expand f.nl args h]
  split <;> simp

/-! ## Options -/

/-- Spec: a word of `echo` options. -/
def EchoWord (a : Arg) : Prop := ∃ cs, a = '-' :: cs ∧ cs ≠ [] ∧ ∀ c ∈ cs, c = 'n' ∨ c = 'e' ∨ c = 'E'

/-- Spec: expansion is on unless the last of `e`, `E` is `E`. -/
def expands (cs : List Char) (dflt : Bool) : Bool :=
  match (cs.filter fun c => c = 'e' ∨ c = 'E').getLast? with
  | some c => c = 'e'
  | none => dflt

theorem expands_cons (c : Char) (cs : List Char) (b : Bool) : expands (c :: cs) b =
    expands cs (if c = 'e' then true else if c = 'E' then false else b) := by
  unfold expands
  by_cases h : c = 'e'
  · subst h
    simp only [List.filter_cons]
    cases hf : cs.filter fun c => decide (c = 'e' ∨ c = 'E') with
    | nil => simp [hf]
    | cons x y =>
      have hx : (x :: y).getLast? ≠ none := by simp
      simp only [List.getLast?_cons_cons, decide_true, if_true, true_or]
      cases hg : (x :: y).getLast? with
      | none => exact absurd hg hx
      | some z => rfl
  · by_cases h2 : c = 'E'
    · subst h2
      simp only [List.filter_cons]
      cases hf : cs.filter fun c => decide (c = 'e' ∨ c = 'E') with
      | nil => simp [hf]
      | cons x y =>
        have hx : (x :: y).getLast? ≠ none := by simp
        simp only [List.getLast?_cons_cons, decide_true, if_true, true_or, or_true]
        cases hg : (x :: y).getLast? with
        | none => exact absurd hg hx
        | some z => rfl
    · simp [List.filter_cons, h, h2]

theorem echoWord_spec : ∀ (cs : List Char) (f : Flags),
    ((∀ c ∈ cs, c = 'n' ∨ c = 'e' ∨ c = 'E') → echoWord cs f = some { f with nl := f.nl && !cs.contains 'n', expand := expands cs f.expand }) ∧
    ((∃ c ∈ cs, ¬ (c = 'n' ∨ c = 'e' ∨ c = 'E')) → echoWord cs f = none)
  | [], f => by simp [echoWord, expands]
  | c :: cs, f => by
    constructor
    · intro h
      have h' : ∀ c ∈ cs, c = 'n' ∨ c = 'e' ∨ c = 'E' := fun d hd => h d (by simp [hd])
      rw [expands_cons]
      rcases h c (by simp) with rfl | rfl | rfl
      · simp [echoWord, (echoWord_spec cs _).1 h']
      · simp [echoWord, (echoWord_spec cs _).1 h']
      · simp [echoWord, (echoWord_spec cs _).1 h']
    · rintro ⟨d, hd, hn⟩
      simp only [echoWord]
      rcases List.mem_cons.1 hd with rfl | hd
      · simp only [not_or] at hn
        simp [hn]
      · split
        · exact (echoWord_spec cs _).2 ⟨d, hd, hn⟩
        · split
          · exact (echoWord_spec cs _).2 ⟨d, hd, hn⟩
          · split
            · exact (echoWord_spec cs _).2 ⟨d, hd, hn⟩
            · rfl

theorem expands_append (a b : List Char) (d : Bool) : expands (a ++ b) d = expands b (expands a d) := by
  induction a generalizing d with
  | nil => rfl
  | cons c a ih => rw [List.cons_append, expands_cons, expands_cons, ih]

theorem echoOpts_spec : ∀ (os rest : List Arg) (f : Flags), (∀ o ∈ os, EchoWord o) → (∀ a, rest.head? = some a → ¬ EchoWord a) →
    echoOpts (os ++ rest) f = ({ f with nl := f.nl && !os.flatten.contains 'n', expand := expands os.flatten f.expand }, rest)
  | [], [], f, _, _ => by simp [echoOpts, expands]
  | [], a :: r, f, _, h => by
    have ha := h a rfl
    have : echoOpts (a :: r) f = (f, a :: r) := by
      simp only [echoOpts]
      split
      · rename_i c cs
        have : echoWord (c :: cs) f = none := by
          refine (echoWord_spec (c :: cs) f).2 ?_
          apply Classical.byContradiction
          intro hn
          refine ha ⟨c :: cs, rfl, by simp, fun d hd => ?_⟩
          apply Classical.byContradiction
          intro h'
          exact hn ⟨d, hd, h'⟩
        rw [this]
      · rfl
    simp [this, expands]
  | o :: os, rest, f, ho, hr => by
    obtain ⟨cs, rfl, hne, hcs⟩ := ho o (by simp)
    cases cs with
    | nil => exact absurd rfl hne
    | cons c cs =>
      have ih := echoOpts_spec os rest { f with nl := f.nl && !(c :: cs).contains 'n', expand := expands (c :: cs) f.expand }
        (fun x hx => ho x (by simp [hx])) hr
      have hm : expands ('-' :: (c :: cs)) f.expand = expands (c :: cs) f.expand := by rw [expands_cons]; simp
      simp only [List.cons_append, echoOpts, (echoWord_spec (c :: cs) f).1 hcs, ih]
      simp only [List.flatten_cons, expands_append, hm, Prod.mk.injEq, and_true, Flags.mk.injEq]
      simp [Bool.and_assoc]

/-- **C25** for `echo` outside posix mode: leading words made of `n`, `e`, `E` are options,
everything from the first other word on is printed. -/
theorem echo_prints (fds : Fds) (n : Nat) (name : Arg) (hname : name.head? = some 'e') (os rest : List Arg)
    (ho : ∀ o ∈ os, EchoWord o) (hr : ∀ a, rest.head? = some a → ¬ EchoWord a) :
    cprint false fds n (name :: os ++ rest) = .out 1 (output { nl := !os.flatten.contains 'n', expand := expands os.flatten true } rest) := by
  simp only [cprint, List.cons_append, hname, if_true, echoArgs, Bool.false_eq_true, if_false, echoOpts_spec os rest {} ho hr]
  simp

/-- In posix mode only a first `-n` is an option. -/
theorem echo_posix (fds : Fds) (n : Nat) (name : Arg) (hname : name.head? = some 'e') (args : List Arg) :
    cprint true fds n (name :: ['-', 'n'] :: args) = .out 1 (output { nl := false } args) ∧
    (args.head? ≠ some ['-', 'n'] → cprint true fds n (name :: args) = .out 1 (output {} args)) := by
  constructor
  · simp [cprint, hname, echoArgs]
  · intro h
    have ha : echoArgs true args = ({}, args) := by
      simp only [echoArgs, if_true]
      split
      · simp at h
      · rfl
    simp [cprint, hname, ha]

open Ksh.Getopt (At pick) in
theorem getopt_flag {argv : List Arg} {g0 g : G} {c : Char} {cs : Arg} {args : List Arg} (hp : pick false argv g0 = some (some c, g))
    (ha : At argv { g with p := g.p + 1 } cs args) (hc : c = 'n' ∨ c = 'r') :
    Getopt.getopt false ['R', 'n', 'p', 'r', 's', 'u', ','] argv g0 = some (some c, none, { g with p := g.p + 1 }) := by
  obtain ⟨h1, h2, h3⟩ := ha
  simp only [Nat.add_one_ne_zero, if_false] at h3
  obtain ⟨a, e1, e2, e3, e4⟩ := h3
  have hchr : Getopt.chr argv (g.optind - 1) (g.p + 1) = some cs.head? := by
    simp only [Getopt.chr, e1, e3, if_true, e4]
    rw [List.head?_drop]
  have harg : Getopt.arg argv g.optind = some args.head? := by
    simp only [Getopt.arg, if_pos (show g.optind ≤ argv.length from h1), h2, List.head?_drop]
  rcases hc with rfl | rfl <;> simp [Getopt.getopt, hp, hchr, harg, Getopt.strchr]

/-- Spec: a word of the options `-n` and `-r` of `print`. -/
def PrintWord (a : Arg) : Prop := ∃ cs, a = '-' :: cs ∧ cs ≠ [] ∧ ∀ c ∈ cs, c = 'n' ∨ c = 'r'

open Ksh.Getopt (At pick_spec) in
theorem printOpts_words (fds : Fds) (argv rest : List Arg) : ∀ (k : Nat) (g : G) (cs : Arg) (ws : List Arg) (f : Flags),
    Getopt.size cs ws ≤ k → At argv g cs (ws ++ ['-', '-'] :: rest) → (∀ c ∈ cs, c = 'n' ∨ c = 'r') → (∀ w ∈ ws, PrintWord w) →
    ∃ g', (∀ n > k, printOpts fds n ['R', 'n', 'p', 'r', 's', 'u', ','] argv g f =
        some ({ f with nl := f.nl && !(cs ++ ws.flatten).contains 'n', expand := f.expand && !(cs ++ ws.flatten).contains 'r' }, g')) ∧
      g'.minusminus = true ∧ argv.drop g'.optind = rest := by
  intro k
  -- the end of the options
  have fin : ∀ (k : Nat) (g : G) (f : Flags), At argv g [] (['-', '-'] :: rest) →
      ∃ g', (∀ n > k, printOpts fds n ['R', 'n', 'p', 'r', 's', 'u', ','] argv g f = some (f, g')) ∧
        g'.minusminus = true ∧ argv.drop g'.optind = rest := by
    intro k g f hat
    have hat' : At argv { g with optarg := none } [] (['-', '-'] :: rest) := hat
    have hf : Getopt.pick false argv { g with optarg := none } = Getopt.fresh false argv { g with optarg := none } := by
      obtain ⟨_, _, h3⟩ := hat'
      unfold Getopt.pick
      by_cases hp : g.p = 0
      · rw [if_pos hp]
      · rw [if_neg hp] at h3
        obtain ⟨a, e1, e2, e3, e4⟩ := h3
        have : Getopt.chr argv (g.optind - 1) g.p = some none := by
          have e1 : argv[g.optind - 1]? = some a := e1
          simp only [Getopt.chr, e1]
          rw [if_pos e3, ← List.head?_drop, ← e4]; rfl
        simp only [if_neg hp, this]
    have harg : Getopt.arg argv g.optind = some (some ['-', '-']) := by
      obtain ⟨h1, h2, _⟩ := hat
      simp only [Getopt.arg, if_pos h1, ← List.head?_drop, ← h2, List.head?_cons]
    have hfr : Getopt.fresh false argv { g with optarg := none } =
        some (none, { g with optarg := none, optind := g.optind + 1, p := 0, minusminus := true }) := by
      simp [Getopt.fresh, harg]
    refine ⟨{ g with optarg := none, optind := g.optind + 1, p := 0, minusminus := true }, ?_, rfl, ?_⟩
    · intro n hn
      cases n with
      | zero => omega
      | succ n => simp only [printOpts, Getopt.getopt, hf, hfr]
    · show argv.drop (g.optind + 1) = rest
      rw [← List.drop_drop, ← hat.2.1]; rfl
  -- an option letter
  have letter : ∀ (k : Nat) (g g1 : G) (c : Char) (f f' : Flags) (Q : G → Prop), (c = 'n' ∨ c = 'r') → ∀ cs args,
      Getopt.pick false argv { g with optarg := none } = some (some c, g1) → At argv { g1 with p := g1.p + 1 } cs args →
      (∃ g', (∀ n > k, printOpts fds n ['R', 'n', 'p', 'r', 's', 'u', ','] argv { g1 with p := g1.p + 1 }
          (if c = 'n' then { f with nl := false } else { f with expand := false }) = some (f', g')) ∧ Q g') →
      (∃ g', (∀ n > k + 1, printOpts fds n ['R', 'n', 'p', 'r', 's', 'u', ','] argv g f = some (f', g')) ∧ Q g') := by
    intro k g g1 c f f' Q hc cs args hp ha ⟨g', h1, h2⟩
    refine ⟨g', fun n hn => ?_, h2⟩
    cases n with
    | zero => omega
    | succ n =>
      rw [printOpts, getopt_flag hp ha hc]
      rcases hc with rfl | rfl
      · simpa using h1 n (by omega)
      · simpa using h1 n (by omega)
  have flags : ∀ (c : Char) (l : List Char) (f : Flags), (c = 'n' ∨ c = 'r') →
      ({ f with nl := f.nl && !(c :: l).contains 'n', expand := f.expand && !(c :: l).contains 'r' } : Flags) =
      { (if c = 'n' then { f with nl := false } else { f with expand := false } : Flags) with
        nl := (if c = 'n' then { f with nl := false } else { f with expand := false } : Flags).nl && !l.contains 'n',
        expand := (if c = 'n' then { f with nl := false } else { f with expand := false } : Flags).expand && !l.contains 'r' } := by
    intro c l f hc
    rcases hc with rfl | rfl <;> simp
  induction k with
  | zero =>
    intro g cs ws f hk hat hcs hws
    cases cs with
    | cons c cs => simp [Getopt.size] at hk
    | nil =>
      cases ws with
      | cons w ws => simp [Getopt.size] at hk
      | nil => simpa using fin 0 g f hat
  | succ k ih =>
    intro g cs ws f hk hat hcs hws
    have hat' : At argv { g with optarg := none } cs (ws ++ ['-', '-'] :: rest) := hat
    have hps := pick_spec (plusopt := false) hat'
    cases cs with
    | cons c cs =>
      obtain ⟨hp, ha, _⟩ := hps
      have hc := hcs c (by simp)
      have := ih { g with optarg := none, p := g.p + 1 } cs ws (if c = 'n' then { f with nl := false } else { f with expand := false })
        (by simp [Getopt.size] at hk ⊢; omega) ha (fun d hd => hcs d (by simp [hd])) hws
      rw [List.cons_append, flags c _ f hc]
      exact letter k g _ c f _ _ hc cs _ hp ha this
    | nil =>
      cases ws with
      | nil => simpa using fin (k + 1) g f hat
      | cons w ws =>
        obtain ⟨ds, rfl, hne, hds⟩ := hws w (by simp)
        cases ds with
        | nil => exact absurd rfl hne
        | cons c ds =>
          have hc := hds c (by simp)
          have hdd : ('-' :: c :: ds) ≠ ['-', '-'] := by
            intro h; simp only [List.cons.injEq, true_and] at h
            rcases hc with rfl | rfl <;> simp at h
          simp only [List.cons_append, if_neg hdd, Getopt.optionLike, if_true] at hps
          obtain ⟨c', cs', g1, ht, hp, ha, _, _, _⟩ := hps
          simp only [List.tail_cons, List.cons.injEq] at ht
          obtain ⟨rfl, rfl⟩ := ht
          have := ih { g1 with p := g1.p + 1 } ds ws (if c = 'n' then { f with nl := false } else { f with expand := false })
            (by simp [Getopt.size] at hk ⊢; omega) ha (fun d hd => hds d (by simp [hd])) (fun w hw => hws w (by simp [hw]))
          have hfl : ([] ++ (('-' :: c :: ds) :: ws).flatten : List Char).contains 'n' = (c :: (ds ++ ws.flatten)).contains 'n' := by simp
          have hfl' : ([] ++ (('-' :: c :: ds) :: ws).flatten : List Char).contains 'r' = (c :: (ds ++ ws.flatten)).contains 'r' := by simp
          rw [hfl, hfl', flags c _ f hc]
          exact letter k g _ c f _ _ hc _ _ hp ha this

/-- **C25** for `print`: words of `n` and `r`, then `--`, then anything. -/
theorem print_prints (posix : Bool) (fds : Fds) (name : Arg) (hname : name.head? ≠ some 'e') (ws args : List Arg)
    (hws : ∀ w ∈ ws, PrintWord w) : ∃ N, ∀ n ≥ N, cprint posix fds n (name :: ws ++ ['-', '-'] :: args) =
      .out 1 (output { nl := !ws.flatten.contains 'n', expand := !ws.flatten.contains 'r' } args) := by
  have hat : Getopt.At (name :: ws ++ ['-', '-'] :: args) Getopt.reset [] (ws ++ ['-', '-'] :: args) :=
    ⟨by simp [Getopt.reset], by simp [Getopt.reset], by simp [Getopt.reset]⟩
  obtain ⟨g', h1, h2, h3⟩ := printOpts_words fds _ args (Getopt.size [] ws) Getopt.reset [] ws {} (Nat.le_refl _) hat (by simp) hws
  refine ⟨Getopt.size [] ws + 1, fun n hn => ?_⟩
  have := h1 n (by omega)
  simp only [List.cons_append] at this h3 ⊢
  simp only [cprint, hname, if_false, printArgs, this, h2]
  simp [h3]

/-- **C25**: `print -r --` prints its arguments verbatim. -/
theorem print_r_verbatim (posix : Bool) (fds : Fds) (args : List Arg) :
    ∃ N, ∀ n ≥ N, cprint posix fds n (['p', 'r', 'i', 'n', 't'] :: ['-', 'r'] :: ['-', '-'] :: args) =
      .out 1 ([' '].intercalate args ++ ['\n']) := by
  obtain ⟨N, h⟩ := print_prints posix fds ['p', 'r', 'i', 'n', 't'] (by decide) [['-', 'r']] args
    (by intro w hw; simp at hw; subst hw; exact ⟨['r'], rfl, by simp, by simp⟩)
  refine ⟨N, fun n hn => ?_⟩
  have := h n hn
  rw [output_verbatim _ _ (Or.inl (by decide))] at this
  simpa using this

/-! ## Writing -/

/-- Whatever the answers of `write`, a prefix of the text reaches the file, in order, and
status 0 means all of it. -/
theorem written (ws : List W) : ∀ s, (writeAll ws s).1 <+: s ∧ ((writeAll ws s).2 = some 0 → (writeAll ws s).1 = s) := by
  induction ws with
  | nil => intro s; cases s <;> simp [writeAll]
  | cons w ws ih =>
    intro s
    cases s with
    | nil => simp [writeAll]
    | cons c s =>
      cases w with
      | eintr => simpa [writeAll] using ih (c :: s)
      | err => simp [writeAll]
      | wrote n =>
        obtain ⟨h1, h2⟩ := ih ((c :: s).drop n)
        simp only [writeAll]
        constructor
        · have := (List.prefix_append_right_inj ((c :: s).take n)).2 h1
          rwa [List.take_append_drop] at this
        · intro h; rw [h2 h, List.take_append_drop]

/-! ## Examples -/

private def out (r : Result) : String := match r with | .out _ s => String.ofList s | .hist s => String.ofList s | .error => "?"
private def av (l : List String) : List Arg := l.map String.toList

example : cprint false (fun _ => none) 9 (av ["print", "-r", "--", "a\\tb", "", "-n"]) = .out 1 "a\\tb  -n\n".toList := by decide +kernel
example : cprint false (fun _ => none) 9 (av ["print", "-R", "--", "x"]) = .out 1 "-- x\n".toList := by decide +kernel
example : cprint false (fun _ => none) 9 (av ["print", "-n", "-", "x"]) = .out 1 "x".toList := by decide +kernel
example : cprint false (fun _ => none) 9 (av ["print", "-q", "x"]) = .error := by decide +kernel
example : cprint false (fun _ => none) 0 (av ["echo", "-nE", "-e", "-x", "a"]) = .out 1 "-x a".toList := by decide +kernel
example : output {} (av ["\\0101\\07777z", "\\cq\\q", "\\"]) = "A\xff7z q\\q \\".toList := by decide +kernel
example : Ok [.oct ['1', '0', '1'], .oct ['7', '7', '7'], .plain '7'] := by
  refine ⟨⟨⟨trivial, by decide⟩, by decide, by decide, Or.inl rfl⟩, by decide, by decide, Or.inl rfl⟩
example : PrintWord ['-', 'n', 'r'] := ⟨_, rfl, by simp, by simp⟩
example : (writeAll [.wrote 2, .eintr, .wrote 0, .wrote 9] ['a', 'b', 'c']).1 = ['a', 'b', 'c'] := by decide

end Ksh.Print
