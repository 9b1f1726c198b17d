import Verif.Alias.Model

/-!
# Aliases that are changed while a line is awaited

A source of type `SALIAS` does not copy the text of the alias: `str` points into `val.s` of the table
entry (lex.c:844-847), which `alias` and `unalias` free (c_ksh.c:961-965, 1017-1020).  Commands can be
run while such a source is in use: a trap, when the bottom source waits for a line (lex.c:1115-1120,
edit.c:122-128).  Here `Ksh.Alias.getscK` is repeated with that memory in it: `old` says that the text
the source was made for has been freed, and looking at it then is a fault.

`alias` and `unalias` are given by the names they change.  The table entry itself may be freed too, when
the table of aliases grows (table.c: texpand); `u.tblp` is then only compared (lex.c:840-842), which is not
modelled.  Between two commands `compile` starts again with the bottom source (syn.c:768).
-/
namespace Ksh.Alias

/-- A source with the state of the memory its `str` points into; with `SF_ALIASEND` that is `ugbuf`. -/
structure BSrc where
  src : ASrc
  old : Bool := false
  deriving DecidableEq, Repr

structure SB where
  stk : List BSrc
  base : List Char
  bfl : Bool
  deriving DecidableEq, Repr

def BSrc.change (chg : List (List Char)) (a : BSrc) : BSrc := { a with old := a.old || chg.contains a.src.name }

/-- `getsc__`, lex.c:974-1072; `chg` are the aliases that commands change if the bottom source waits
for a line.  `none`: freed memory is read.  The flag of the answer says that the bottom source was
asked; the sources above it have been popped or are about to be put back (lex.c:1036-1046). -/
def getB (chg : List (List Char)) : Bool → List BSrc → List Char → Bool → Option (Option Char × SB × Bool)
  | k, [], [], f => some (none, ⟨[], [], f || k⟩, true)
  | k, [], c :: b, f => some (some c, ⟨[], b, f || k⟩, true)
  | k, s :: st, b, f =>
    -- `*s->str`
    if s.old && !s.src.fin then none
    else
      match s.src.text with
      | c :: t => some (some c, ⟨{ s with src := { s.src with text := t, fl := s.src.fl || k } } :: st, b, f⟩, false)
      | [] =>
        if s.src.fin then getB chg (s.src.fl || k) st b f
        -- `s->u.tblp->val.s`
        else if endsSpace s.src.val then getB chg true st b f
        else
          match getB chg (s.src.fl || k) st b f with
          | none => none
          | some (some c, r, asked) =>
            let s' : BSrc := { s with src := { s.src with fin := true, text := [], fl := s.src.fl || k } }
            some (some c, ⟨(if asked then s'.change chg else s') :: r.stk, r.base, r.bfl⟩, asked)
          | some (none, r, asked) => some (none, r, asked)

def getscB (chg : List (List Char)) (s : SB) : Option (Option Char × SB) :=
  (getB chg false s.stk s.base s.bfl).map fun x => (x.1, x.2.1)

/-- `ungetsc`, lex.c:1619-1640; simplified: the character is put back on the source it came from. -/
def ungetB (c : Option Char) (s : SB) : SB :=
  match c, s.stk with
  | none, _ => s
  | some c, [] => { s with base := c :: s.base }
  | some c, a :: st => { s with stk := { a with src := { a.src with text := c :: a.src.text } } :: st }

/-- An alias is found, lex.c:843-850. -/
def pushB (name val : List Char) (s : SB) : SB := { s with stk := ⟨⟨name, val, val, false, false⟩, false⟩ :: s.stk }

/-- The same with texts that are copied. -/
def push (name val : List Char) (s : S) : S := { s with stk := ⟨name, val, val, false, false⟩ :: s.stk }

inductive Req
  | get (chg : List (List Char))
  | unget (c : Option Char)
  | push (name val : List Char)
  /-- `compile`, with anything done before -/
  | compile

/-- What the lexer reads, `none` after a fault. -/
def runB : List Req → SB → Option (List (Option Char) × SB)
  | [], s => some ([], s)
  | .get chg :: l, s =>
    match getscB chg s with
    | none => none
    | some (c, r) => (runB l r).map fun x => (c :: x.1, x.2)
  | .unget c :: l, s => runB l (ungetB c s)
  | .push n v :: l, s => runB l (pushB n v s)
  | .compile :: l, s => runB l { s with stk := [] }

/-- Specification: every alias text is copied when the alias is found. -/
def runA : List Req → S → List (Option Char) × S
  | [], s => ([], s)
  | .get _ :: l, s => ((getsc s).1 :: (runA l (getsc s).2).1, (runA l (getsc s).2).2)
  | .unget c :: l, s => runA l (unget c s)
  | .push n v :: l, s => runA l (push n v s)
  | .compile :: l, s => runA l { s with stk := [] }

def SB.erase (s : SB) : S := ⟨s.stk.map (·.src), s.base, s.bfl⟩

/-- Only sources that do not look at their alias any more may be out of date. -/
def Good (st : List BSrc) : Prop := ∀ a ∈ st, a.old = true → a.src.fin = true

theorem getB_spec (chg) : ∀ (st : List BSrc) (k : Bool) (b : List Char) (f : Bool), Good st →
    ∃ c r asked, getB chg k st b f = some (c, r, asked) ∧ getscK k (st.map (·.src)) b f = (c, r.erase) ∧
      Good r.stk
  | [], k, b, f, _ => by cases b <;> exact ⟨_, _, _, rfl, rfl, by simp [Good]⟩
  | s :: st, k, b, f, h => by
    have hs := h s (by simp)
    have ht : Good st := fun a ha => h a (by simp [ha])
    have hf : (s.old && !s.src.fin) = false := by
      cases ho : s.old
      · rfl
      · simp [hs ho]
    unfold getB
    simp only [hf, List.map_cons, getscK]
    cases hx : s.src.text with
    | cons c t =>
      refine ⟨_, _, _, rfl, rfl, ?_⟩
      intro a ha
      simp only [List.mem_cons] at ha
      rcases ha with rfl | ha
      · exact hs
      · exact ht a ha
    | nil =>
      by_cases h1 : s.src.fin = true
      · simpa [h1] using getB_spec chg st (s.src.fl || k) b f ht
      · by_cases h2 : endsSpace s.src.val = true
        · simpa [h1, h2] using getB_spec chg st true b f ht
        · obtain ⟨c, r, asked, e1, e2, e3⟩ := getB_spec chg st (s.src.fl || k) b f ht
          simp only [h1, h2, e1, e2]
          cases c with
          | none => exact ⟨_, _, _, rfl, rfl, e3⟩
          | some c =>
            refine ⟨_, _, _, rfl, ?_, ?_⟩
            · cases asked <;> rfl
            · intro a ha
              simp only [List.mem_cons] at ha
              rcases ha with rfl | ha
              · cases asked <;> intro _ <;> rfl
              · exact e3 a ha

theorem runB_spec : ∀ (l : List Req) (s : SB), Good s.stk →
    ∃ r, runB l s = some ((runA l s.erase).1, r) ∧ (runA l s.erase).2 = r.erase ∧ Good r.stk
  | [], s, h => ⟨s, rfl, rfl, h⟩
  | .get chg :: l, s, h => by
    obtain ⟨c, r, asked, e1, e2, e3⟩ := getB_spec chg s.stk false s.base s.bfl h
    have e : getsc s.erase = (c, r.erase) := e2
    obtain ⟨q, q1, q2, q3⟩ := runB_spec l r e3
    refine ⟨q, ?_, ?_, q3⟩
    · simp [runB, getscB, e1, runA, e, q1]
    · simp [runA, e, q2]
  | .unget c :: l, s, h => by
    have e : (ungetB c s).erase = unget c s.erase := by
      unfold ungetB unget SB.erase
      cases c with
      | none => rfl
      | some c => cases s.stk <;> rfl
    have g : Good (ungetB c s).stk := by
      unfold ungetB
      cases c with
      | none => exact h
      | some c =>
        cases hs : s.stk with
        | nil => simp [Good]
        | cons a st =>
          intro b hb
          simp only [List.mem_cons] at hb
          rcases hb with rfl | hb
          · exact h a (by simp [hs])
          · exact h b (by simp [hs, hb])
    obtain ⟨q, q1, q2, q3⟩ := runB_spec l _ g
    exact ⟨q, by simp [runB, runA, q1, e], by simp [runA, ← e, q2], q3⟩
  | .push n v :: l, s, h => by
    have g : Good (pushB n v s).stk := by
      intro b hb
      simp only [pushB, List.mem_cons] at hb
      rcases hb with rfl | hb
      · simp
      · exact h b hb
    obtain ⟨q, q1, q2, q3⟩ := runB_spec l _ g
    exact ⟨q, by simp only [runB, runA, q1]; rfl, q2, q3⟩
  | .compile :: l, s, h => by
    obtain ⟨q, q1, q2, q3⟩ := runB_spec l { s with stk := [] } (by simp [Good])
    exact ⟨q, by simp only [runB, runA, q1]; rfl, q2, q3⟩

/-- Whatever aliases are changed and removed by traps while lines are awaited, and by commands between
commands, no freed text is read, and the lexer reads what it would read if every text had been copied
when its alias was found. -/
theorem changed_aliases_harmless (l : List Req) (text : List Char) :
    ∃ r, runB l ⟨[], text, false⟩ = some ((runA l ⟨[], text, false⟩).1, r) := by
  obtain ⟨r, h, _⟩ := runB_spec l ⟨[], text, false⟩ (by simp [Good])
  exact ⟨r, h⟩

/-- Why: when the bottom source has been asked, every alias that is left has come to its end. -/
theorem asked_all_ended (chg) : ∀ (st : List BSrc) (k : Bool) (b : List Char) (f : Bool) (c : Option Char) (r : SB),
    getB chg k st b f = some (c, r, true) → ∀ a ∈ r.stk, a.src.fin = true ∧ a.src.text = []
  | [], k, b, f, c, r, h => by
    cases b <;> simp only [getB, Option.some.injEq, Prod.mk.injEq] at h <;> obtain ⟨_, rfl, _⟩ := h <;> simp
  | s :: st, k, b, f, c, r, h => by
    have ih := fun k' => asked_all_ended chg st k' b f
    unfold getB at h
    split at h
    · cases h
    · split at h
      · simp at h
      · split at h
        · exact ih _ c r h
        · split at h
          · exact ih _ c r h
          · split at h
            · cases h
            · rename_i c' r' asked' e
              simp only [Option.some.injEq, Prod.mk.injEq] at h
              obtain ⟨_, rfl, rfl⟩ := h
              intro a ha
              simp only [List.mem_cons, if_true] at ha
              rcases ha with rfl | ha
              · exact ⟨rfl, rfl⟩
              · exact ih _ _ _ e a ha
            · rename_i r' asked' e
              simp only [Option.some.injEq, Prod.mk.injEq] at h
              obtain ⟨_, rfl, rfl⟩ := h
              exact ih _ _ _ e

/-- `a` stands for `x`; it is removed while the shell waits for what follows it: nothing happens. -/
example : (runB [.push ['a'] ['x'], .get [], .get [['a']], .unget (some 'y'), .get [], .get []] ⟨[], ['y', 'z'], false⟩).map (·.1) =
    some [some 'x', some 'y', some 'y', some 'z'] := by decide

/-- If the text of a source could be freed before its end there would be a fault. -/
example : runB [.get []] ⟨[⟨⟨['a'], ['x'], ['x'], false, false⟩, true⟩], ['y'], false⟩ = none := by decide

end Ksh.Alias
