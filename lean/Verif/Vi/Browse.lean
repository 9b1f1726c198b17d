import Verif.Vi.Lemmas
/-!
# Browsing the history, and coming back
-/

namespace Ksh.Vi

variable {e : Env} {s s' : Ed}

/-! ## What browsing is -/

/-- Towards newer lines. -/
def isDown (c : Char) : Prop := c = 'j' ∨ c = '+' ∨ c = '\x0e'
/-- Towards older lines. -/
def isUp (c : Char) : Prop := c = 'k' ∨ c = '-' ∨ c = '\x10'

instance (c : Char) : Decidable (isDown c) := inferInstanceAs (Decidable (_ ∨ _))
instance (c : Char) : Decidable (isUp c) := inferInstanceAs (Decidable (_ ∨ _))

/-- How far a command goes in the history: a count that is missing is one, a movement in the line stays. -/
def stride (n : Nat) (c : Char) : Int :=
  if isDown c then (max n 1 : Nat) else if isUp c then -((max n 1 : Nat) : Int) else 0

/-- The number of the line lineAt, behind some commands: a command that would leave the history does nothing. -/
def place (last : Int) : Int → List (Nat × List Char) → Int
  | i, [] => i
  | i, (n, cmd) :: rest =>
    let j := i + stride n (cmd.headD '\x00')
    place last (if 0 ≤ j ∧ j ≤ last then j else i) rest

/-- The line lineAt there: the one being typed behind the last of the history. -/
def lineAt (hist : List (List Char)) (t : List Char) (room : Nat) (i : Int) : List Char :=
  if i = hist.length then t else (hist.getD i.toNat []).take room

/-- Commands one after the other, whether or not they fail. -/
def viCmds (e : Env) (s : Ed) : List (Nat × List Char) → Option Ed
  | [] => some s
  | (n, cmd) :: rest =>
    match viCmd e s n cmd with
    | none => none
    | some (_, s1) => viCmds e s1 rest

/-! ## The invariant -/

/-- The line being typed is on the screen or put aside. -/
structure Held (e : Env) (sz : Nat) (t : List Char) (i : Int) (s : Ed) : Prop where
  size : s.es.mem.length = sz
  last : s.hlast = e.hist.length
  num : s.hnum = i
  rng : 0 ≤ i ∧ i ≤ e.hist.length
  text : s.es.text = lineAt e.hist t (sz - 1) i
  held : s.hold = t ∨ (s.modified = true ∧ i = e.hist.length)
  out : i ≠ e.hist.length → s.modified = false

variable {size : Nat} {t : List Char} {i : Int}

theorem Held.cur (h : Held e size t i s) (x : Nat) : Held e size t i (setCur s x) := { h with }

theorem setLine_eq {b b' : Buf} {l : List Char} (h : setLine b l = some b') : b'.text = l ∧ b'.mem.length = b.mem.length := by
  simp only [setLine] at h
  split at h
  · cases h
  · next m hm =>
    cases h
    simp only [Emacs.memput] at hm
    split at hm
    · cases hm
    · cases hm
      constructor
      · simp [Buf.text]
      · simp; omega

theorem histCmd_held {r : Ret} {j : Int} (h : Held e size t i s) (hj : j ≠ i) (hc : histCmd e s j = some (r, s')) :
    Held e size t (if 0 ≤ j ∧ j ≤ e.hist.length then j else i) s' := by
  simp only [histCmd, grabhist] at hc
  have hl := h.last
  by_cases h1 : j < 0 ∨ j > s.hlast
  · rw [if_pos h1] at hc
    cases hc
    rw [if_neg (by omega)]
    exact h
  · rw [if_neg h1] at hc
    rw [if_pos (by omega)]
    by_cases h2 : j = s.hlast
    · rw [if_pos h2] at hc
      simp only [restoreCbuf] at hc
      cases hs : setLine s.es s.hold with
      | none => rw [hs] at hc; cases hc
      | some b =>
        rw [hs] at hc
        cases hc
        obtain ⟨g1, g2⟩ := setLine_eq hs
        have hne : i ≠ e.hist.length := by omega
        have hh : s.hold = t := h.held.resolve_right (fun h => hne h.2)
        refine ⟨g2.trans h.size, hl, rfl, by omega, ?_, .inl hh, fun h => by omega⟩
        rw [lineAt, if_pos (by omega)]
        exact g1.trans hh
    · rw [if_neg h2] at hc
      cases hg : e.hist[j.toNat]? with
      | none => rw [hg] at hc; cases hc
      | some l =>
        rw [hg] at hc
        simp only [grabLine] at hc
        cases hsv : (if s.modified then saveCbuf e s else some s) with
        | none => rw [hsv] at hc; cases hc
        | some s1 =>
          rw [hsv] at hc
          simp only at hc
          have hs1 : ∃ a b, s1 = { s with hold := a, holdS := b } ∧ (s.modified = true → a = s.es.text) ∧ (s.modified = false → a = s.hold) := by
            split at hsv
            · next hm =>
              simp only [saveCbuf] at hsv
              split at hsv
              · cases hsv
              · cases hsv
                exact ⟨_, _, rfl, fun _ => rfl, fun h => absurd hm (by simp [h])⟩
            · next hm =>
              cases hsv
              exact ⟨s.hold, s.holdS, rfl, fun h => absurd h hm, fun _ => rfl⟩
          obtain ⟨a, b, rfl, ha, hb⟩ := hs1
          simp only at hc
          cases hs : setLine s.es (l.take (s.es.mem.length - 1)) with
          | none => rw [hs] at hc; cases hc
          | some b' =>
            rw [hs] at hc
            cases hc
            obtain ⟨g1, g2⟩ := setLine_eq hs
            refine ⟨g2.trans h.size, hl, rfl, by omega, ?_, .inl ?_, fun _ => rfl⟩
            · rw [lineAt, if_neg (by omega), List.getD_eq_getElem?_getD, hg, Option.getD_some]
              rw [h.size] at g1
              exact g1
            · show a = t
              cases hm : s.modified with
              | true =>
                rw [ha hm, h.text]
                have : i = e.hist.length := by
                  by_cases hi : i = e.hist.length
                  · exact hi
                  · have := h.out hi; rw [hm] at this; cases this
                rw [lineAt, if_pos this]
              | false =>
                rw [hb hm]
                exact h.held.resolve_right (fun h => by rw [hm] at h; cases h.1)

theorem setFind_held (h : Held e size t i s) (c a : Char) : Held e size t i (setFind s c a) := by
  have : ∃ f g, setFind s c a = { s with fcmd := f, fch := g } := by
    simp only [setFind]
    split
    · exact ⟨_, _, rfl⟩
    · exact ⟨_, _, rfl⟩
  obtain ⟨f, g, hf⟩ := this
  rw [hf]
  exact { h with }

theorem viCmd_held {r : Ret} {n : Nat} {cmd : List Char} (h : Held e size t i s)
    (hb : isMove (cmd.headD '\x00') = true ∨ isDown (cmd.headD '\x00') ∨ isUp (cmd.headD '\x00'))
    (hc : viCmd e s n cmd = some (r, s')) :
    Held e size t (if 0 ≤ i + stride n (cmd.headD '\x00') ∧ i + stride n (cmd.headD '\x00') ≤ e.hist.length
      then i + stride n (cmd.headD '\x00') else i) s' := by
  simp only [viCmd] at hc
  by_cases hmv : isMove (cmd.headD '\x00') = true
  · rw [if_pos hmv] at hc
    have h0 : stride n (cmd.headD '\x00') = 0 := by
      rw [stride, if_neg, if_neg]
      all_goals
        intro hd
        rcases hd with hd | hd | hd <;> rw [hd] at hmv <;> exact absurd hmv (by decide)
    rw [h0, Int.add_zero, ite_self]
    simp only [moveCmd] at hc
    have h1 := setFind_held h (cmd.headD '\x00') (cmd.getD 1 '\x00')
    generalize setFind s (cmd.headD '\x00') (cmd.getD 1 '\x00') = s1 at *
    repeat' split at hc
    all_goals first
      | (cases hc; done)
      | (cases hc; exact h1)
      | (cases hc; exact h1.cur _)
      | (rw [Option.map_eq_some_iff] at hc; obtain ⟨x, _, hx⟩ := hc; cases hx; exact h1.cur _)
  · have hb := hb.resolve_left hmv
    rw [if_neg hmv] at hc
    simp only [editing] at hc
    have key : ∀ s1, (s1 = s ∨ ∃ u a c, s1 = { s with undo := u, lastac := a, lastcmd := c }) →
        (switch e s1 (count n (cmd.headD '\x00')) cmd).bind (clamp e (cmd.headD '\x00')) = some (r, s') →
        Held e size t (if 0 ≤ i + stride n (cmd.headD '\x00') ∧ i + stride n (cmd.headD '\x00') ≤ e.hist.length
          then i + stride n (cmd.headD '\x00') else i) s' := by
      intro s1 hs1 hc
      have h1 : Held e size t i s1 := by
        rcases hs1 with rfl | ⟨u, a, c, rfl⟩
        · exact h
        · exact { h with }
      cases hsw : switch e s1 (count n (cmd.headD '\x00')) cmd with
      | none => rw [hsw] at hc; cases hc
      | some p =>
        obtain ⟨r2, s2⟩ := p
        rw [hsw, Option.bind_some] at hc
        have hst : stride n (cmd.headD '\x00') ≠ 0 ∧ switch e s1 (count n (cmd.headD '\x00')) cmd = histCmd e s1 (i + stride n (cmd.headD '\x00')) := by
          have hcount : ∀ c, isZero c = false → count n c = max n 1 := by
            intro c hz
            simp only [count, hz]
            by_cases hn : n = 0
            · subst hn; rfl
            · simp [hn]; omega
          have hnum := h1.num
          rcases hb with hb | hb
          · have hk : ckind (cmd.headD '\x00') = .j ∧ isZero (cmd.headD '\x00') = false := by
              rcases hb with h | h | h <;> rw [h] <;> exact ⟨by decide, by decide⟩
            simp only [switch, hk.1, stride, if_pos hb, hcount _ hk.2, hnum]
            exact ⟨by omega, trivial⟩
          · have hk : ckind (cmd.headD '\x00') = .k ∧ isZero (cmd.headD '\x00') = false := by
              rcases hb with h | h | h <;> rw [h] <;> exact ⟨by decide, by decide⟩
            have hnd : ¬ isDown (cmd.headD '\x00') := by
              rcases hb with h | h | h <;> rw [h] <;> decide
            simp only [switch, hk.1, stride, if_neg hnd, if_pos hb, hcount _ hk.2, hnum]
            exact ⟨by omega, rfl⟩
        rw [hst.2] at hsw
        have h2 := histCmd_held h1 (by omega) hsw
        cases r2 <;> simp only [clamp] at hc
        case ok =>
          split at hc
          · rw [Option.map_eq_some_iff] at hc
            obtain ⟨x, _, hx⟩ := hc
            cases hx
            exact h2.cur _
          · cases hc; exact h2
        all_goals (cases hc; exact h2)
    split at hc
    · cases hc
    · next s1 hs1 =>
      refine key s1 ?_ hc
      split at hs1
      · simp only [saveUndo] at hs1
        repeat' split at hs1
        all_goals first | (cases hs1; done) | (cases hs1; exact .inr ⟨_, _, _, rfl⟩)
      · cases hs1; exact .inl rfl

theorem viCmds_held : ∀ {cmds : List (Nat × List Char)} {s : Ed} {i : Int}, Held e size t i s →
    (∀ p ∈ cmds, isMove (p.2.headD '\x00') = true ∨ isDown (p.2.headD '\x00') ∨ isUp (p.2.headD '\x00')) →
    viCmds e s cmds = some s' → Held e size t (place e.hist.length i cmds) s' := by
  intro cmds
  induction cmds with
  | nil => intro s i h _ hr; cases hr; exact h
  | cons p rest ih =>
    intro s i h hb hr
    obtain ⟨n, cmd⟩ := p
    simp only [viCmds] at hr
    cases hv : viCmd e s n cmd with
    | none => rw [hv] at hr; cases hr
    | some q =>
      obtain ⟨r, s1⟩ := q
      rw [hv] at hr
      simp only at hr
      simp only [place]
      exact ih (viCmd_held h (hb _ (List.mem_cons_self ..)) hv) (fun p hp => hb p (List.mem_cons_of_mem _ hp)) hr

end Ksh.Vi
