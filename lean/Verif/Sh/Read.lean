/-!
# `read` (`c_read`, c_sh.c:252-424): model and properties (C26)

The input is the sequence of characters and interruptions that `shf_getc` delivers (the
buffering of shf.c is modelled in Shf), ending in end of file.  Whether an assignment works
(read-only variable, bad integer) is an oracle.  Left out: options, prompts, the history,
the coprocess.
-/

namespace Ksh.Read

abbrev Str := List Char

/-- What `shf_getc` delivers: a character, or an interruption for which `fatal_trap_check`
answers `code` (0 if not fatal). -/
inductive In
  | ch (c : Char)
  | sig (code : Nat)
  deriving DecidableEq, Repr

/-- `ctype(c, C_IFSWS)` -/
def blank (c : Char) : Bool := c == ' ' || c == '\t' || c == '\n'

structure P where
  /-- `!expand`, option `-r` -/
  raw : Bool
  /-- `ctype(c, C_IFS)` -/
  ifs : Char → Bool

/-- The value of `c` when the inner loop ends. -/
inductive End
  | nl
  | eof (code : Nat)
  | delim
  deriving DecidableEq, Repr

/-- The inner loop c_sh.c:325-383 for one variable; `acc` is what has been put, `e` is
`expanding`. -/
def one (p : P) (last : Bool) : List In → Str → Bool → Str × End × List In
  | [], acc, _ => (acc, .eof 0, [])
  | .sig code :: r, acc, e => if code = 0 then one p last r acc e else (acc, .eof code, r)
  | .ch c :: r, acc, e =>
    if c = '\x00' then one p last r acc e
    else if e then
      if c = '\n' then one p last r acc false else one p last r (acc ++ [c]) false
    else if !p.raw && c = '\\' then one p last r acc true
    else if c = '\n' then (acc, .nl, r)
    else if p.ifs c then
      if acc.isEmpty && blank c then one p last r acc false
      else if !last then (acc, .delim, r)
      else one p last r (acc ++ [c]) false
    else one p last r (acc ++ [c]) false

/-- c_sh.c:385-388 -/
def strip (p : P) (s : Str) : Str := (s.reverse.dropWhile fun c => p.ifs c && blank c).reverse

/-- The loop over the variables, c_sh.c:324-404: the assignments made, the status and the
input left.  `ok` says whether an assignment works. -/
def vars (p : P) (ok : Str → Str → Bool) : List Str → End → List In → List (Str × Str) × Nat × List In
  | [], e, s => ([], (match e with | .eof code => if code = 0 then 1 else code | _ => 0), s)
  | n :: ns, e, s =>
    let x := if e = .delim then one p ns.isEmpty s [] false else ([], e, s)
    let v := if ns.isEmpty then strip p x.1 else x.1
    if ok n v then
      let y := vars p ok ns x.2.1 x.2.2
      ((n, v) :: y.1, y.2)
    else ([], 1, x.2.2)

/-- `c_read` with at least one name -/
def read (p : P) (ok : Str → Str → Bool) (names : List Str) (s : List In) : List (Str × Str) × Nat × List In :=
  vars p ok names .delim s

/-! ## Specification -/

/-- Spec: the input line, its characters marked as escaped or not; whether it ended in a
newline; the rest of the input.  The flag says that a backslash is in front. -/
def line (raw : Bool) : Bool → Str → List (Char × Bool) × Bool × Str
  | _, [] => ([], false, [])
  | true, c :: r => if c = '\n' then line raw false r else ((c, true) :: (line raw false r).1, (line raw false r).2)
  | false, c :: r =>
    if c = '\n' then ([], true, r)
    else if raw = false ∧ c = '\\' then line raw true r
    else ((c, false) :: (line raw false r).1, (line raw false r).2)

def isDelim (p : P) (x : Char × Bool) : Bool := !x.2 && p.ifs x.1
def isWs (p : P) (x : Char × Bool) : Bool := isDelim p x && blank x.1

/-- Spec: without trailing (unescaped) IFS white space -/
def trimEnd (p : P) (l : List (Char × Bool)) : List (Char × Bool) := (l.reverse.dropWhile (isWs p)).reverse

/-- Spec (POSIX): the fields of a line for `n + 1` variables, the last one taking the rest.
A separator is IFS white space around at most one other IFS character.  No IFS white space is
in front. -/
def fields (p : P) : Nat → List (Char × Bool) → List Str
  | 0, l => [(trimEnd p l).map (·.1)]
  | n + 1, l =>
    let rest := (l.dropWhile (fun x => !isDelim p x)).dropWhile (isWs p)
    (l.takeWhile (fun x => !isDelim p x)).map (·.1) ::
      fields p n (match rest with
        | d :: r => if isDelim p d then r.dropWhile (isWs p) else rest
        | [] => [])

/-- the characters of the input -/
def chars (s : List In) : Str := s.filterMap fun
  | .ch c => if c = '\x00' then none else some c
  | .sig _ => none

/-- no fatal signal -/
def Calm (s : List In) : Prop := ∀ k, .sig k ∈ s → k = 0

/-! ## Proofs -/

theorem chars_ch (c : Char) (r : List In) : chars (.ch c :: r) = if c = '\x00' then chars r else c :: chars r := by
  by_cases h : c = '\x00' <;> simp [chars, h]
theorem chars_sig (k : Nat) (r : List In) : chars (.sig k :: r) = chars r := by simp [chars]

def endOf (nl : Bool) : End := if nl then .nl else .eof 0

/-- what is left to be put -/
def todo (p : P) (acc : Str) (l : List (Char × Bool)) : List (Char × Bool) := if acc = [] then l.dropWhile (isWs p) else l

theorem todo_cons_plain {p acc} {x : Char × Bool} {l} (h : acc ≠ [] ∨ isWs p x = false) :
    todo p acc (x :: l) = x :: todo p (acc ++ [x.1]) l := by
  simp only [todo]
  rw [if_neg (show ¬ acc ++ [x.1] = [] by simp)]
  by_cases ha : acc = []
  · rw [if_pos ha, List.dropWhile_cons, (h.resolve_left (fun g => g ha))]
    simp
  · rw [if_neg ha]

/-- One variable: from the characters left in the line to those left behind. -/
theorem one_spec (p : P) (last : Bool) : ∀ (s : List In), Calm s → ∀ (acc : Str) (e : Bool),
    (∃ s' : List In, Calm s' ∧
      (if last = true ∨ (todo p acc (line p.raw e (chars s)).1).dropWhile (fun x => !isDelim p x) = [] then
        one p last s acc e = (acc ++ (todo p acc (line p.raw e (chars s)).1).map (·.1), endOf (line p.raw e (chars s)).2.1, s') ∧
        chars s' = (line p.raw e (chars s)).2.2
      else
        one p last s acc e = (acc ++ ((todo p acc (line p.raw e (chars s)).1).takeWhile (fun x => !isDelim p x)).map (·.1), .delim, s') ∧
        line p.raw false (chars s') = (((todo p acc (line p.raw e (chars s)).1).dropWhile (fun x => !isDelim p x)).tail, (line p.raw e (chars s)).2))) := by
  intro s
  induction s with
  | nil =>
    intro _ acc e
    refine ⟨[], by simp [Calm], ?_⟩
    have : line p.raw e (chars []) = ([], false, []) := by cases e <;> simp [line, chars]
    rw [this]
    have ht : todo p acc [] = [] := by simp [todo]
    simp [ht, one, endOf, chars]
  | cons i s ih =>
    intro hc acc e
    have hc' : Calm s := fun k hk => hc k (List.mem_cons_of_mem _ hk)
    cases i with
    | sig k =>
      have hk : k = 0 := hc k (by simp)
      subst hk
      rw [chars_sig]
      have : one p last (.sig 0 :: s) acc e = one p last s acc e := by simp [one]
      rw [this]
      exact ih hc' acc e
    | ch c =>
      by_cases h0 : c = '\x00'
      · have : one p last (.ch c :: s) acc e = one p last s acc e := by simp [one, h0]
        rw [chars_ch, if_pos h0, this]
        exact ih hc' acc e
      · rw [chars_ch, if_neg h0]
        -- a character is put
        have put : ∀ (x : Char × Bool), x.1 = c → line p.raw e (c :: chars s) = (x :: (line p.raw false (chars s)).1, (line p.raw false (chars s)).2) →
            one p last (.ch c :: s) acc e = one p last s (acc ++ [c]) false →
            (acc ≠ [] ∨ isWs p x = false) → (last = true ∨ isDelim p x = false) →
            (∃ s' : List In, Calm s' ∧
              (if last = true ∨ (todo p acc (line p.raw e (c :: chars s)).1).dropWhile (fun x => !isDelim p x) = [] then
                one p last (.ch c :: s) acc e = (acc ++ (todo p acc (line p.raw e (c :: chars s)).1).map (·.1), endOf (line p.raw e (c :: chars s)).2.1, s') ∧
                chars s' = (line p.raw e (c :: chars s)).2.2
              else
                one p last (.ch c :: s) acc e = (acc ++ ((todo p acc (line p.raw e (c :: chars s)).1).takeWhile (fun x => !isDelim p x)).map (·.1), .delim, s') ∧
                line p.raw false (chars s') = (((todo p acc (line p.raw e (c :: chars s)).1).dropWhile (fun x => !isDelim p x)).tail, (line p.raw e (c :: chars s)).2))) := by
          intro x hx hl ho hw hd
          obtain ⟨s', hs', h⟩ := ih hc' (acc ++ [c]) false
          refine ⟨s', hs', ?_⟩
          rw [hl, ho]
          rw [todo_cons_plain hw, hx]
          by_cases hlast : last = true
          · rw [if_pos (Or.inl hlast)] at h ⊢
            rw [h.1]
            exact ⟨by simp [hx], h.2⟩
          · have hdx := hd.resolve_left hlast
            have hdw : (x :: todo p (acc ++ [c]) (line p.raw false (chars s)).1).dropWhile (fun x => !isDelim p x) =
                (todo p (acc ++ [c]) (line p.raw false (chars s)).1).dropWhile (fun x => !isDelim p x) := by
              rw [List.dropWhile_cons]; simp [hdx]
            have htw : (x :: todo p (acc ++ [c]) (line p.raw false (chars s)).1).takeWhile (fun x => !isDelim p x) =
                x :: (todo p (acc ++ [c]) (line p.raw false (chars s)).1).takeWhile (fun x => !isDelim p x) := by
              rw [List.takeWhile_cons]; simp [hdx]
            rw [hdw, htw]
            split
            · rename_i hh
              rw [if_pos hh] at h
              rw [h.1]
              exact ⟨by simp [hx], h.2⟩
            · rename_i hh
              rw [if_neg hh] at h
              rw [h.1]
              exact ⟨by simp [hx], h.2⟩
        -- nothing is put and the line goes on
        have skip : ∀ e', line p.raw e (c :: chars s) = line p.raw e' (chars s) → one p last (.ch c :: s) acc e = one p last s acc e' →
            (∃ s' : List In, Calm s' ∧
              (if last = true ∨ (todo p acc (line p.raw e (c :: chars s)).1).dropWhile (fun x => !isDelim p x) = [] then
                one p last (.ch c :: s) acc e = (acc ++ (todo p acc (line p.raw e (c :: chars s)).1).map (·.1), endOf (line p.raw e (c :: chars s)).2.1, s') ∧
                chars s' = (line p.raw e (c :: chars s)).2.2
              else
                one p last (.ch c :: s) acc e = (acc ++ ((todo p acc (line p.raw e (c :: chars s)).1).takeWhile (fun x => !isDelim p x)).map (·.1), .delim, s') ∧
                line p.raw false (chars s') = (((todo p acc (line p.raw e (c :: chars s)).1).dropWhile (fun x => !isDelim p x)).tail, (line p.raw e (c :: chars s)).2))) := by
          intro e' hl ho
          rw [hl, ho]
          exact ih hc' acc e'
        cases e with
        | true =>
          by_cases hn : c = '\n'
          · refine skip false (by simp [line, hn]) (by subst hn; simp [one])
          · exact put (c, true) rfl (by simp [line, hn]) (by simp [one, h0, hn]) (.inr rfl) (.inr rfl)
        | false =>
          by_cases hn : c = '\n'
          · subst hn
            refine ⟨s, hc', ?_⟩
            have hl : line p.raw false ('\n' :: chars s) = ([], true, chars s) := by simp [line]
            have ho : one p last (.ch '\n' :: s) acc false = (acc, .nl, s) := by simp [one]
            have ht : todo p acc [] = [] := by simp [todo]
            rw [hl, ho]
            simp [ht, endOf]
          · by_cases hb : p.raw = false ∧ c = '\\'
            · refine skip true (by simp only [line, if_neg hn, if_pos hb]) ?_
              obtain ⟨hb1, rfl⟩ := hb
              simp [one, hb1]
            · have hl : line p.raw false (c :: chars s) = ((c, false) :: (line p.raw false (chars s)).1, (line p.raw false (chars s)).2) := by
                simp only [line, if_neg hn, if_neg hb]
              have hb' : (!p.raw && decide (c = '\\')) = false := by
                cases hr : p.raw with
                | true => rfl
                | false => simp; exact fun h => hb ⟨hr, h⟩
              by_cases hi : p.ifs c = true
              · by_cases hw : acc = [] ∧ blank c = true
                · -- leading white space
                  obtain ⟨rfl, hbl⟩ := hw
                  have ho : one p last (.ch c :: s) [] false = one p last s [] false := by simp [one, h0, hb', hn, hi, hbl]
                  have hws : isWs p (c, false) = true := by simp [isWs, isDelim, hi, hbl]
                  obtain ⟨s', hs', h⟩ := ih hc' [] false
                  refine ⟨s', hs', ?_⟩
                  rw [hl, ho]
                  have htd : todo p [] ((c, false) :: (line p.raw false (chars s)).1) = todo p [] (line p.raw false (chars s)).1 := by
                    simp [todo, List.dropWhile_cons, hws]
                  rw [htd]
                  exact h
                · have hnw : acc ≠ [] ∨ isWs p (c, false) = false := by
                    by_cases ha : acc = []
                    · right
                      have : blank c = false := by simpa [ha] using hw
                      simp [isWs, this]
                    · exact .inl ha
                  have hemp : (acc.isEmpty && blank c) = false := by
                    cases ha : acc with
                    | nil => simp; simpa [ha] using hw
                    | cons a b => rfl
                  by_cases hlast : last = true
                  · exact put (c, false) rfl hl (by simp [one, h0, hb', hn, hi, hemp, hlast]) hnw (.inl hlast)
                  · -- a delimiter
                    have ho : one p last (.ch c :: s) acc false = (acc, .delim, s) := by simp [one, h0, hb', hn, hi, hemp, hlast]
                    refine ⟨s, hc', ?_⟩
                    have hd : isDelim p (c, false) = true := by simp [isDelim, hi]
                    rw [hl, ho, todo_cons_plain hnw]
                    have hx : ((c, false) :: todo p (acc ++ [(c, false).1]) (line p.raw false (chars s)).1).dropWhile (fun x => !isDelim p x) =
                        (c, false) :: todo p (acc ++ [(c, false).1]) (line p.raw false (chars s)).1 := by
                      rw [List.dropWhile_cons]; simp [hd]
                    have hy : ((c, false) :: todo p (acc ++ [(c, false).1]) (line p.raw false (chars s)).1).takeWhile (fun x => !isDelim p x) = [] := by
                      rw [List.takeWhile_cons]; simp [hd]
                    rw [hx, hy, if_neg (by simp [hlast])]
                    simp [todo]
              · have hi' : p.ifs c = false := by simpa using hi
                exact put (c, false) rfl hl (by simp [one, h0, hb', hn, hi']) (.inr (by simp [isWs, isDelim, hi'])) (.inr (by simp [isDelim, hi']))

/-- what the code makes of a line -/
def codeFields (p : P) : Nat → List (Char × Bool) → List Str
  | 0, l => [strip p ((l.dropWhile (isWs p)).map (·.1))]
  | n + 1, l =>
    ((l.dropWhile (isWs p)).takeWhile (fun x => !isDelim p x)).map (·.1) ::
      codeFields p n ((l.dropWhile (isWs p)).dropWhile (fun x => !isDelim p x)).tail

theorem codeFields_nil (p : P) : ∀ n, codeFields p n [] = List.replicate (n + 1) []
  | 0 => by simp [codeFields, strip]
  | n + 1 => by simp [codeFields, codeFields_nil p n, List.replicate_succ]

/-- variables left over -/
theorem vars_end (p : P) (ok : Str → Str → Bool) (hok : ∀ n v, ok n v = true) (nl : Bool) (s : List In) : ∀ names : List Str,
    vars p ok names (endOf nl) s = (names.map fun n => (n, []), if nl then 0 else 1, s)
  | [] => by cases nl <;> simp [vars, endOf]
  | n :: ns => by
    have ih := vars_end p ok hok nl s ns
    have hne : endOf nl ≠ .delim := by cases nl <;> simp [endOf]
    rw [vars]
    simp only [if_neg hne, hok, if_true, ih]
    simp [strip]

theorem zip_replicate (ns : List Str) : ns.zip (List.replicate ns.length ([] : Str)) = ns.map fun n => (n, []) := by
  induction ns with
  | nil => rfl
  | cons n ns ih => simp [List.replicate_succ, ih]

theorem vars_spec (p : P) (ok : Str → Str → Bool) (hok : ∀ n v, ok n v = true) : ∀ (n : Str) (ns : List Str) (s : List In), Calm s →
    ∃ s', vars p ok (n :: ns) .delim s = ((n :: ns).zip (codeFields p ns.length (line p.raw false (chars s)).1),
        if (line p.raw false (chars s)).2.1 then 0 else 1, s') ∧ chars s' = (line p.raw false (chars s)).2.2
  | n, [], s, hc => by
    obtain ⟨s', _, h⟩ := one_spec p true s hc [] false
    rw [if_pos (.inl rfl)] at h
    refine ⟨s', ?_, h.2⟩
    rw [vars]
    simp only [if_true, List.isEmpty_nil, h.1, hok, vars]
    have ht : ∀ l, todo p [] l = l.dropWhile (isWs p) := by intro l; simp [todo]
    rw [ht]
    generalize (line p.raw false (chars s)).2.1 = b
    cases b <;> simp [codeFields, endOf]
  | n, n2 :: ns, s, hc => by
    obtain ⟨s1, hc1, h⟩ := one_spec p false s hc [] false
    have ht : ∀ l, todo p [] l = l.dropWhile (isWs p) := by intro l; simp [todo]
    simp only [ht] at h
    rw [vars]
    split at h
    · rename_i hd
      simp only [Bool.false_eq_true, false_or] at hd
      refine ⟨s1, ?_, h.2⟩
      simp only [if_true, List.isEmpty_cons, h.1, hok, vars_end p ok hok, Bool.false_eq_true, if_false]
      have htw : ((line p.raw false (chars s)).1.dropWhile (isWs p)).takeWhile (fun x => !isDelim p x) = (line p.raw false (chars s)).1.dropWhile (isWs p) := by
        have := List.takeWhile_append_dropWhile (p := fun x => !isDelim p x) (l := (line p.raw false (chars s)).1.dropWhile (isWs p))
        rw [hd, List.append_nil] at this
        exact this
      simp only [List.length_cons, codeFields, hd, List.tail_nil, codeFields_nil, htw, List.nil_append, List.zip_cons_cons, Prod.mk.injEq, and_true,
        List.cons.injEq, true_and]
      exact (zip_replicate (n2 :: ns)).symm
    · obtain ⟨h1, h2⟩ := h
      obtain ⟨s', g1, g2⟩ := vars_spec p ok hok n2 ns s1 hc1
      rw [h2] at g1 g2
      refine ⟨s', ?_, g2⟩
      simp only [if_true, List.isEmpty_cons, h1, hok, g1, Bool.false_eq_true, if_false]
      simp [codeFields]

/-- no IFS white space directly in front of another IFS character -/
def NoMixed (p : P) : List (Char × Bool) → Prop
  | x :: y :: l => ¬ (isWs p x = true ∧ isDelim p y = true ∧ isWs p y = false) ∧ NoMixed p (y :: l)
  | _ => True

instance instDecidableNoMixed (p : P) : (l : List (Char × Bool)) → Decidable (NoMixed p l)
  | [] => .isTrue trivial
  | [_] => .isTrue trivial
  | _ :: y :: l => @instDecidableAnd _ _ inferInstance (instDecidableNoMixed p (y :: l))

theorem NoMixed.tail {p x l} (h : NoMixed p (x :: l)) : NoMixed p l := by
  cases l with
  | nil => trivial
  | cons y l => exact h.2

theorem NoMixed.dropWhile {p} (f : Char × Bool → Bool) : ∀ {l}, NoMixed p l → NoMixed p (l.dropWhile f)
  | [], _ => trivial
  | x :: l, h => by
    rw [List.dropWhile_cons]
    split
    · exact h.tail.dropWhile f
    · exact h

/-- behind a white space separator no other delimiter follows -/
theorem after_ws {p} : ∀ {x l}, NoMixed p (x :: l) → isWs p x = true → ∀ y, (l.dropWhile (isWs p)).head? = some y → isDelim p y = false
  | x, [], _, _, y, h => by simp at h
  | x, z :: l, hm, hx, y, h => by
    rw [List.dropWhile_cons] at h
    by_cases hz : isWs p z = true
    · rw [if_pos hz] at h
      exact after_ws hm.2 hz y h
    · rw [if_neg hz] at h
      simp only [List.head?_cons, Option.some.injEq] at h
      subst h
      have := hm.1
      cases hd : isDelim p z with
      | false => rfl
      | true => exact absurd ⟨hx, hd, by simpa using hz⟩ this

theorem dropWhile_ws_idem {p : P} : ∀ l : List (Char × Bool), (l.dropWhile (isWs p)).dropWhile (isWs p) = l.dropWhile (isWs p)
  | [] => rfl
  | x :: l => by
    by_cases h : isWs p x = true
    · simp only [List.dropWhile_cons, h, if_true]; exact dropWhile_ws_idem l
    · simp only [List.dropWhile_cons, h, Bool.false_eq_true, if_false]

theorem strip_trim (p : P) (l : List (Char × Bool)) (h : ∀ x ∈ l, x.2 = true → ¬ (p.ifs x.1 = true ∧ blank x.1 = true)) :
    strip p (l.map (·.1)) = (trimEnd p l).map (·.1) := by
  simp only [strip, trimEnd, ← List.map_reverse]
  have h' : ∀ x ∈ l.reverse, x.2 = true → ¬ (p.ifs x.1 = true ∧ blank x.1 = true) := fun x hx => h x (by simpa using hx)
  congr 1
  generalize l.reverse = m at h'
  induction m with
  | nil => rfl
  | cons x m ih =>
    have ih := ih (fun y hy => h' y (List.mem_cons_of_mem _ hy))
    have hx := h' x (by simp)
    have : (p.ifs x.1 && blank x.1) = isWs p x := by
      simp only [isWs, isDelim]
      cases h2 : x.2 with
      | false => simp
      | true =>
        have := hx h2
        simp; intro a; simpa [a] using this
    simp only [List.map_cons, List.dropWhile_cons, this]
    split
    · exact ih
    · simp

theorem code_posix (p : P) : ∀ (n : Nat) (l : List (Char × Bool)), NoMixed p l →
    (∀ x ∈ l, x.2 = true → ¬ (p.ifs x.1 = true ∧ blank x.1 = true)) → codeFields p n l = fields p n (l.dropWhile (isWs p))
  | 0, l, _, hq => by
    simp only [codeFields, fields]
    rw [strip_trim p _ (fun x hx => hq x ((List.dropWhile_sublist _).subset hx))]
  | n + 1, l, hm, hq => by
    simp only [codeFields, fields, List.cons.injEq, true_and]
    have hm' : NoMixed p ((l.dropWhile (isWs p)).dropWhile (fun x => !isDelim p x)) := (hm.dropWhile _).dropWhile _
    have hq' : ∀ x ∈ ((l.dropWhile (isWs p)).dropWhile (fun x => !isDelim p x)), x.2 = true → ¬ (p.ifs x.1 = true ∧ blank x.1 = true) :=
      fun x hx => hq x ((List.dropWhile_sublist _).subset ((List.dropWhile_sublist _).subset hx))
    have hhead : ∀ x, ((l.dropWhile (isWs p)).dropWhile (fun x => !isDelim p x)).head? = some x → isDelim p x = true := by
      intro x hx
      have := List.head?_dropWhile_not (fun x => !isDelim p x) (l.dropWhile (isWs p))
      rw [hx] at this
      simpa using this
    generalize ((l.dropWhile (isWs p)).dropWhile (fun x => !isDelim p x)) = m at hm' hq' hhead
    cases m with
    | nil => simpa using code_posix p n [] trivial (by simp)
    | cons d t =>
      have hd := hhead d rfl
      have ih := code_posix p n t hm'.tail (fun x hx => hq' x (List.mem_cons_of_mem _ hx))
      rw [List.tail_cons, ih]
      by_cases hw : isWs p d = true
      · rw [List.dropWhile_cons, if_pos hw]
        have ha := after_ws hm' hw
        cases hr : t.dropWhile (isWs p) with
        | nil => rfl
        | cons y r =>
          have := ha y (by rw [hr]; rfl)
          simp only [this, Bool.false_eq_true, if_false]
      · rw [List.dropWhile_cons, if_neg hw]
        simp only [hd, if_true]

/-! ## C26 -/

/-- **C26**: whatever the names and the assignments that work, exactly one line is consumed,
the status tells whether it was complete, and every variable is assigned in order, those left
over with the empty string. -/
theorem read_line (p : P) (ok : Str → Str → Bool) (hok : ∀ n v, ok n v = true) (n : Str) (ns : List Str) (s : List In) (hc : Calm s) :
    (read p ok (n :: ns) s).1.map (·.1) = n :: ns ∧
    (read p ok (n :: ns) s).2.1 = (if (line p.raw false (chars s)).2.1 then 0 else 1) ∧
    chars (read p ok (n :: ns) s).2.2 = (line p.raw false (chars s)).2.2 := by
  obtain ⟨s', h1, h2⟩ := vars_spec p ok hok n ns s hc
  have hlen : ∀ n l, (codeFields p n l).length = n + 1 := by
    intro n
    induction n with
    | zero => intro l; simp [codeFields]
    | succ n ih => intro l; simp [codeFields, ih]
  simp only [read, h1]
  refine ⟨?_, trivial, h2⟩
  rw [List.map_fst_zip]
  simp [hlen]

/-- **C26** (partial: lines where IFS white space stands in front of another IFS character,
and lines with escaped IFS white space, are left out: see `separator_not_merged` and
`escaped_blank_stripped`): the values are the fields of the line. -/
theorem read_fields_partial (p : P) (ok : Str → Str → Bool) (hok : ∀ n v, ok n v = true) (n : Str) (ns : List Str) (s : List In) (hc : Calm s)
    (hm : NoMixed p (line p.raw false (chars s)).1)
    (hq : ∀ x ∈ (line p.raw false (chars s)).1, x.2 = true → ¬ (p.ifs x.1 = true ∧ blank x.1 = true)) :
    (read p ok (n :: ns) s).1 = (n :: ns).zip (fields p ns.length ((line p.raw false (chars s)).1.dropWhile (isWs p))) := by
  obtain ⟨s', h1, h2⟩ := vars_spec p ok hok n ns s hc
  simp only [read, h1]
  rw [code_posix p ns.length _ hm hq]

/-- The line, its newline and the rest make up the input: with -r nothing else is consumed. -/
theorem line_raw (s : Str) : s = ((line true false s).1.map (·.1)) ++ (if (line true false s).2.1 then ['\n'] else []) ++ (line true false s).2.2 ∧
    (∀ x ∈ (line true false s).1, x.1 ≠ '\n') ∧ ((line true false s).2.1 = false → (line true false s).2.2 = []) := by
  induction s with
  | nil => simp [line]
  | cons c s ih =>
    by_cases h : c = '\n'
    · subst h; simp [line]
    · simp only [line, if_neg h, Bool.true_eq_false, false_and, if_false]
      obtain ⟨h1, h2, h3⟩ := ih
      refine ⟨by simpa using h1, ?_, h3⟩
      intro x hx
      rcases List.mem_cons.1 hx with rfl | hx
      · exact h
      · exact h2 x hx

/-- A fatal signal makes `read` fail with its code, and nothing behind it is consumed. -/
theorem read_interrupted (p : P) (ok : Str → Str → Bool) (hok : ∀ n v, ok n v = true) (n : Str) (k : Nat) (hk : k ≠ 0) (s : List In) :
    (read p ok [n] (.sig k :: s)).2 = (k, s) := by
  simp [read, vars, one, hk, hok]

private def inp (s : String) : List In := s.toList.map In.ch
private def P0 (ifs : String) : P := ⟨false, fun c => ifs.toList.contains c⟩
private def nm (l : List String) : List Str := l.map String.toList
private def yes : Str → Str → Bool := fun _ _ => true

/-- `IFS=" :"; read x y` on `a : b` gives `y` the value `: b` instead of `b`. -/
theorem separator_not_merged :
    (read (P0 " :") yes (nm ["x", "y"]) (inp "a : b\n")).1 = [("x".toList, "a".toList), ("y".toList, ": b".toList)] ∧
    fields (P0 " :") 1 (line false false "a : b\n".toList).1 = nm ["a", "b"] := by decide +kernel

/-- `read x` on `a\ ` drops the escaped blank. -/
theorem escaped_blank_stripped :
    (read (P0 " ") yes (nm ["x"]) (inp "a\\ \n")).1 = [("x".toList, "a".toList)] ∧
    fields (P0 " ") 0 (line false false "a\\ \n".toList).1 = nm ["a "] := by decide +kernel

/-- A read-only variable stops reading in the middle of the line. -/
theorem failing_assignment_stops : (read (P0 " ") (fun n _ => n != ['r']) (nm ["r", "y"]) (inp "a b\nc\n")).2 = (1, inp "b\nc\n") := by decide +kernel

/-! ## Examples -/

example : read (P0 " :") yes (nm ["x", "y", "z"]) (inp "  a:b\\ c: d e \nrest") =
    ([("x".toList, "a".toList), ("y".toList, "b c".toList), ("z".toList, "d e".toList)], 0, inp "rest") := by decide +kernel
example : read (P0 " ") yes (nm ["x", "y", "z"]) (inp "a\\\nb") =
    ([("x".toList, "ab".toList), ("y".toList, []), ("z".toList, [])], 1, []) := by decide +kernel
example : NoMixed (P0 " :") (line false false "a: b c:d".toList).1 := by decide +kernel

end Ksh.Read
