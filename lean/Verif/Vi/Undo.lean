import Verif.Vi.Run
import Verif.Vi.Frame
/-!
# Undoing
-/

namespace Ksh.Vi

variable {e : Env} {size : Nat} {s s' : Ed}

theorem macroCmd_undo (c : Char) {r : Ret} (h : macroCmd e s c = some (r, s')) : s'.undo = s.undo := by
  simp only [macroCmd] at h
  repeat' split at h
  all_goals (cases h; rfl)

/-- Only `u` touches the undo buffer. -/
theorem switch_undo (n : Nat) {cmd : List Char} {r : Ret} (hu : ckind (cmd.headD '\x00') ≠ .u) (h : switch e s n cmd = some (r, s')) :
    s'.undo = s.undo := by
  by_cases hm : ckind (cmd.headD '\x00') = .macro
  · simp only [switch, hm] at h
    exact macroCmd_undo _ h
  · exact (switch_fr n hu hm _ h).undo

theorem ckind_u {c : Char} (h : ckind c = .u) : c = 'u' := by
  simp only [ckind] at h
  repeat replace h := ite_ne h (by decide)
  by_cases hc : c = 'u'
  · exact hc
  · rw [if_neg hc] at h
    repeat replace h := ite_ne h (by decide)
    cases h

/-- A command that can be undone leaves the line as it was in the undo buffer. -/
theorem viCmd_undo (hb : Base e size s) (hmac : s.mac = none) {n : Nat} {cmd : List Char} (hmv : isMove (cmd.headD '\x00') = false)
    (hun : isUndoable (cmd.headD '\x00') = true) {r : Ret} (h : viCmd e s n cmd = some (r, s')) :
    s'.undo.text = s.es.text ∧ s'.undo.cur = s.es.cur ∧ s'.undo.len = s.es.len ∧ s'.undo.Ok size := by
  simp only [viCmd, hmv, editing] at h
  obtain ⟨b, g1, g2, g3, g4, g5⟩ := saveUndo_spec hb (count n (cmd.headD '\x00')) cmd
  rw [if_neg (by simp), if_pos ⟨hun, hmac⟩, g1] at h
  simp only at h
  cases hsw : switch e { s with undo := b, lastac := count n (cmd.headD '\x00'), lastcmd := cmd } (count n (cmd.headD '\x00')) cmd with
  | none => rw [hsw] at h; cases h
  | some x =>
    obtain ⟨r2, s2⟩ := x
    rw [hsw] at h
    have h2 := switch_undo _ (by intro hk; rw [ckind_u hk] at hun; exact absurd hun (by decide)) hsw
    have h3 := (clamp_fr (e := e) (s := s2) (cmd.headD '\x00') r2 _ h).undo
    simp only at h3 h2
    rw [h3, h2]
    exact ⟨g5, g3, g4, g2⟩

theorem hookLit_undo {ch : Char} {f : Bool} (h : hookLit s ch = some (f, s')) : s'.undo = s.undo := by
  simp only [hookLit] at h
  split at h
  · rw [Option.map_eq_some_iff] at h
    obtain ⟨s1, h1, h2⟩ := h
    cases h2
    exact (del_fr _ _ _ h1).undo
  · split at h
    · cases h
    · cases h; rfl

theorem hookInsert_undo {ch : Char} {f : Bool} (h : hookInsert e s ch = some (f, s')) : s'.undo = s.undo := by
  simp only [hookInsert] at h
  have hf := insert_fr (e := e) (s := if ch = ctrl 'v' then { s with state := .lit } else s) (if ch = ctrl 'v' then '^' else ch)
  have h0 : (if ch = ctrl 'v' then { s with state := .lit } else s).undo = s.undo := by split <;> rfl
  split at h
  · cases h
  · next hi => cases h; exact ((hf _ hi).undo).trans h0
  · next hi =>
    split at h
    · split at h
      · cases h
      · cases h; exact ((hf _ hi).undo).trans h0
    · cases h; exact ((hf _ hi).undo).trans h0
  · next hi => cases h; exact ((hf _ hi).undo).trans h0

/-- Keys typed in insert mode, up to the one that leaves it. -/
inductive Typing (e : Env) : Ed → Ed → Prop where
  | refl (s : Ed) : Typing e s s
  | step {s s1 s2 : Ed} (c : Char) : s.mode ≠ .cmd → s.state = .normal ∨ s.state = .lit → hook e s c = some (false, s1) →
      Typing e s1 s2 → Typing e s s2

theorem Typing.undo {s s' : Ed} (h : Typing e s s') : s'.undo = s.undo := by
  induction h with
  | refl s => rfl
  | step c hm hs hk _ ih =>
    rw [ih]
    rcases hs with hs | hs
    · simp only [hook, hs, if_pos hm] at hk
      exact hookInsert_undo hk
    · simp only [hook, hs] at hk
      exact hookLit_undo hk

/-- What `u` does. -/
theorem hook_u (hs : s.state = .normal) (hm : s.mode = .cmd) (hl : s.cmd.length = 3) (hc : Cm s.undo) (hu : s.undo.cur ≤ s.undo.len) :
    ∃ s', hook e s 'u' = some (false, s') ∧ s'.es = s.undo ∧ s'.undo = s.es ∧ s'.state = .normal ∧ s'.mode = .cmd ∧ s'.cmd.length = 3 := by
  obtain ⟨a, b, c, hcmd⟩ : ∃ a b c, s.cmd = [a, b, c] := by
    match h : s.cmd, hl with
    | [a, b, c], _ => exact ⟨a, b, c, rfl⟩
  have hcl : ∀ s1 : Ed, s1.mode = .cmd → s1.es = s.undo → clamp e 'u' (.ok, s1) = some (.ok, s1) := by
    intro s1 h1 h2
    simp only [clamp, h1, h2, true_and]
    split
    · next h =>
      have h0 : s.undo.cur = 0 := by rcases hc with hc | hc <;> omega
      simp only [h0, backSafe, Option.map_some, setCur]
      congr 2
      cases s1
      simp only at h2
      subst h2
      simp only [← h0]
    · rfl
  have k1 : isMove 'u' = false := by decide
  have k2 : isUndoable 'u' = false := by decide
  have k3 : ckind 'u' = .u := by decide
  have k4 : nextstate 'u' = .vcmd := by decide
  simp only [hook, hs, hm, ne_eq, not_true, if_false, hookCommand]
  rw [if_neg (by decide), if_neg (by decide), addCmd, if_neg (by rw [hcmd]; simp)]
  simp only [k4, hookEnd, hcmd, List.set_cons_zero, viCmd, List.headD_cons, k1, Bool.false_eq_true, if_false, editing, k2, false_and,
    switch, k3, Option.bind_some]
  rw [if_neg (by simp)]
  rw [hcl _ rfl rfl]
  simp only [ne_eq, not_true, if_false]
  exact ⟨_, rfl, rfl, rfl, rfl, rfl, rfl⟩

/-- Behind a command that can be undone, and what is typed in insert mode then, `u` brings the line
and the cursor back. -/
theorem u_after (hb : Base e size s) (hc : Cm s.es) (hmac : s.mac = none) {n : Nat} {cmd : List Char} (hmv : isMove (cmd.headD '\x00') = false)
    (hun : isUndoable (cmd.headD '\x00') = true) {r : Ret} {s1 s2 s3 : Ed} (h1 : viCmd e s n cmd = some (r, s1)) (h2 : s2.undo = s1.undo)
    (ht : Typing e s2 s3) (hst : s3.state = .normal) (hm : s3.mode = .cmd) (hl : s3.cmd.length = 3) :
    ∃ s4, hook e s3 'u' = some (false, s4) ∧ s4.es.text = s.es.text ∧ s4.es.cur = s.es.cur := by
  obtain ⟨g1, g2, g3, g4⟩ := viCmd_undo hb hmac hmv hun h1
  have hu : s3.undo = s1.undo := ht.undo.trans h2
  obtain ⟨s4, k1, k2, _⟩ := hook_u (e := e) (s := s3) hst hm hl (by rw [hu, Cm, g2, g3]; exact hc) (by rw [hu]; exact g4.cur)
  exact ⟨s4, k1, by rw [k2, hu, g1], by rw [k2, hu, g2]⟩

end Ksh.Vi
