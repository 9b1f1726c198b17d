import Verif.Exec.AndOr

/-!
# `set -e` and the ERR trap (C30)

The specification: a command that fails ends the shell (or triggers ERR) unless it is tested,
or its status is that of a part that was tested (a skipped `&&`, a `!`).  Nothing is carried
from one part of a list or loop to the next; where the code does carry something, and where a
script is run by `.` or `eval`, the specification says `leak` and the theorem is silent.
-/

namespace Ksh.Exec

/-- Spec: how a command ends; `e` says that the status is that of a tested part. -/
inductive Res (σ : Type)
  | done (rv : Nat) (e : Bool) (st : St σ)
  | brk (k : Nat) (st : St σ)
  | cont (k : Nat) (st : St σ)
  | ret (st : St σ)
  | leave (err : Bool) (st : St σ)
  | leak
  | fuel

variable {σ : Type}

/-- Spec: a command has come to its end with status `rv`. -/
def judge (tested child : Bool) : Res σ → Res σ
  | .done rv e st =>
    let st := { st with exstat := rv }
    if child then .leave false st
    else if rv ≠ 0 ∧ tested = false ∧ e = false then
      if st.ee then .leave true { st with pend := true } else .done rv e { st with pend := true }
    else .done rv e st
  | r => r

/-- tree, tested, child, loops around, inside of a function, state -/
abbrev RecS (σ : Type) := Cmd → Bool → Bool → Nat → Bool → St σ → Res σ

def jumpS (mk : Nat → St σ → Res σ) (n : Int) (d : Nat) (st : St σ) : Res σ :=
  if n ≤ 0 then .done 1 false st
  else if d = 0 then .done 0 false st
  else mk (min n.toNat d) st

def comS (O : Oracle σ) (rec : RecS σ) (a : Nat) (tested : Bool) (d : Nat) (inF : Bool) (st0 : St σ) : Res σ :=
  let y := O.step a st0.exstat st0.w
  let st := { st0 with w := y.1, log := st0.log ++ [.com a] }
  match y.2 with
  | .status n => .done n false st
  | .setE b => .done 0 false { st with ee := b }
  | .brk n => jumpS .brk n d st
  | .cont n => jumpS .cont n d st
  | .ret n => if inF then .ret { st with exstat := n.getD st.exstat } else .leave false { st with exstat := n.getD st.exstat }
  | .exit n => .leave false { st with exstat := n.getD st.exstat }
  | .func b =>
    match rec b tested false 0 true st with
    | .done rv e st => .done rv e { st with exstat := rv }
    | .ret st => .done st.exstat false st
    | r => r
  | .dot _ => .leak
  | .eval _ => .leak

def parenS (O : Oracle σ) (rec : RecS σ) (c : Cmd) (tested child : Bool) (d : Nat) (inF : Bool) (st : St σ) : Res σ :=
  if child then rec c tested true d inF st
  else
    let back (s : St σ) : Res σ := .done (s.exstat % 256) false { st with w := O.merge st.w s.w, log := s.log }
    match rec c tested true 0 false { st with pend := false } with
    | .done _ _ s => back s
    | .brk _ s => back s
    | .cont _ s => back s
    | .ret s => back s
    | .leave _ s => back s
    | r => r

def listS (rec : RecS σ) (d : Nat) (inF : Bool) : List Cmd → Cmd → Bool → St σ → Res σ
  | [], last, tested, st => rec last tested false d inF st
  | c :: l, last, tested, st =>
    match rec c tested false d inF st with
    | .done _ _ st => listS rec d inF l last tested st
    | r => r

def loopEndS (again : St σ → Res σ) : Res σ → Res σ
  | .brk 1 st => .done 0 false st
  | .brk k st => .brk (k - 1) st
  | .cont 1 st => again st
  | .cont k st => .cont (k - 1) st
  | r => r

def whileS (rec : RecS σ) (isWhile : Bool) (c b : Cmd) (tested : Bool) (d : Nat) (inF : Bool) : Nat → Nat → Bool → St σ → Res σ
  | 0, _, _, _ => .fuel
  | m + 1, rv, e, st =>
    match rec c true false (d + 1) inF st with
    | .done s _ st =>
      if (s == 0) == isWhile then
        if e then .leak
        else
          match rec b tested false (d + 1) inF st with
          | .done rv e st => whileS rec isWhile c b tested d inF m rv e st
          | r => loopEndS (fun st => whileS rec isWhile c b tested d inF m 0 false st) r
      else .done rv e st
    | r => if e then .leak else loopEndS (fun st => whileS rec isWhile c b tested d inF m 0 false st) r

def forS (rec : RecS σ) (b : Cmd) (tested : Bool) (d : Nat) (inF : Bool) : List (σ → σ) → Nat → Bool → St σ → Res σ
  | [], rv, e, st => .done rv e st
  | f :: l, _, _, st =>
    match rec b tested false (d + 1) inF { st with w := f st.w } with
    | .done rv e st => forS rec b tested d inF l rv e st
    | r => loopEndS (fun st => forS rec b tested d inF l 0 false st) r

def bodyS (O : Oracle σ) (n : Nat) (rec : RecS σ) (c : Cmd) (tested child : Bool) (d : Nat) (inF : Bool) (st : St σ) : Res σ :=
  match c with
  | .nil => .done 0 false st
  | .com a => comS O rec a tested d inF st
  | .paren c => parenS O rec c tested child d inF st
  | .list l last => listS rec d inF l last tested st
  | .andor isAnd l r =>
    match rec l true false d inF st with
    | .done rv e st => if (rv == 0) == isAnd then if e then .leak else rec r tested false d inF st else .done rv true st
    | r => r
  | .bang c =>
    match rec c true false d inF st with
    | .done rv _ st => .done (if rv = 0 then 1 else 0) true st
    | r => r
  | .loop isWhile c b => whileS rec isWhile c b tested d inF n 0 false st
  | .for w b =>
    let y := O.words w st.w
    forS rec b tested d inF y.2 0 false { st with w := y.1 }
  | .ite c t e =>
    match rec c true false d inF st with
    | .done s _ st => if s = 0 then rec t tested false d inF st else rec e tested false d inF st
    | r => r
  | .case w alts =>
    let y := O.pick w st.w
    match alts[y.2]? with
    | some c => rec c tested false d inF { st with w := y.1 }
    | none => .done 0 false { st with w := y.1 }
  | .brace c => rec c tested false d inF st

def spec (O : Oracle σ) : Nat → RecS σ
  | 0, _, _, _, _, _, _ => .fuel
  | n + 1, c, tested, child, d, inF, st =>
    match c with
    | .nil => .done 0 false st
    | c => judge tested child (bodyS O n (spec O n) c tested child d inF (start st))

/-! ## The code agrees -/

/-- the outcome is the one specified -/
def Same : Out σ → Res σ → Prop
  | .done rv x st, .done rv' e st' => rv = rv' ∧ x = e ∧ st = st'
  | .brk k x st, .brk k' st' => k = k' ∧ x = false ∧ st = st'
  | .cont k x st, .cont k' st' => k = k' ∧ x = false ∧ st = st'
  | .ret x st, .ret st' => x = false ∧ st = st'
  | .leave e _ st, .leave e' st' => e = e' ∧ st = st'
  | .fuel, .fuel => True
  | _, .leak => True
  | _, _ => False

def SameR (rec : Rec σ) (recS : RecS σ) : Prop := ∀ c t ch d inF st, Same (rec c t ch false d inF st) (recS c t ch d inF st)

section
variable {O : Oracle σ} {rec : Rec σ} {recS : RecS σ} (h : SameR rec recS)

theorem Same.judge {o : Out σ} {r : Res σ} (t ch) (h : Same o r) : Same (fin t ch o) (judge t ch r) := by
  cases r <;> cases o <;> simp only [Same] at h <;> try exact h.elim
  · obtain ⟨rfl, rfl, rfl⟩ := h
    simp only [fin, Exec.judge]
    split
    · exact ⟨rfl, rfl⟩
    · split
      · split
        · exact ⟨rfl, rfl⟩
        · exact ⟨rfl, rfl, rfl⟩
      · exact ⟨rfl, rfl, rfl⟩
  all_goals first | exact h | simp [fin, Exec.judge, Same]

theorem same_leak (o : Out σ) : Same o .leak := by cases o <;> trivial

theorem Same.setX {o : Out σ} {r : Res σ} (h : Same o r) (hd : ∀ rv x st, o ≠ .done rv x st) : Same (o.setX false) r := by
  cases r <;> cases o <;> simp only [Same] at h <;> try exact h.elim
  · exact absurd rfl (hd _ _ _)
  · obtain ⟨rfl, rfl, rfl⟩ := h; exact ⟨rfl, rfl, rfl⟩
  · obtain ⟨rfl, rfl, rfl⟩ := h; exact ⟨rfl, rfl, rfl⟩
  · obtain ⟨rfl, rfl⟩ := h; exact ⟨rfl, rfl⟩
  · exact h
  all_goals trivial

theorem jump_same {mk : Nat → Bool → St σ → Out σ} {mkS : Nat → St σ → Res σ} (hm : ∀ k st, Same (mk k false st) (mkS k st)) (n d st) :
    Same (jump mk n false d st) (jumpS mkS n d st) := by
  simp only [jump, jumpS]
  split
  · exact ⟨rfl, rfl, rfl⟩
  · split
    · exact ⟨rfl, rfl, rfl⟩
    · exact hm ..

include h

theorem com_same (a t d inF st) : Same (com O rec a t false d inF st) (comS O recS a t d inF st) := by
  simp only [com, comS]
  generalize O.step a st.exstat st.w = y
  cases hy : y.2 with
  | status n => exact ⟨rfl, rfl, rfl⟩
  | setE b => exact ⟨rfl, rfl, rfl⟩
  | brk n => exact jump_same (fun _ _ => by exact ⟨rfl, rfl, rfl⟩) ..
  | cont n => exact jump_same (fun _ _ => by exact ⟨rfl, rfl, rfl⟩) ..
  | ret n =>
    simp only
    split
    · exact ⟨rfl, rfl⟩
    · exact ⟨rfl, rfl⟩
  | exit n => exact ⟨rfl, rfl⟩
  | func b =>
    simp only
    have := h b t false 0 true { st with w := y.1, log := st.log ++ [.com a] }
    generalize rec b t false false 0 true { st with w := y.1, log := st.log ++ [.com a] } = o at this
    generalize recS b t false 0 true { st with w := y.1, log := st.log ++ [.com a] } = r at this
    cases r with
    | leak => exact same_leak _
    | _ =>
      cases o <;> simp only [Same] at this <;> first | exact this.elim | skip
      all_goals first
        | exact this
        | (obtain ⟨rfl, rfl, rfl⟩ := this; exact ⟨rfl, rfl, rfl⟩)
        | (obtain ⟨rfl, rfl⟩ := this; exact ⟨rfl, rfl, rfl⟩)
  | dot l => exact same_leak _
  | eval l => exact same_leak _

theorem paren_same (c t ch d inF st) : Same (paren O rec c t ch false d inF st) (parenS O recS c t ch d inF st) := by
  simp only [paren, parenS]
  split
  · exact h ..
  · have := h c t true 0 false { st with pend := false }
    generalize rec c t true false 0 false { st with pend := false } = o at this
    generalize recS c t true 0 false { st with pend := false } = r at this
    cases r with
    | leak => exact same_leak _
    | _ =>
      cases o <;> simp only [Same] at this <;> first | exact this.elim | skip
      all_goals first
        | trivial
        | (obtain ⟨rfl, rfl, rfl⟩ := this; exact ⟨rfl, rfl, rfl⟩)
        | (obtain ⟨rfl, rfl⟩ := this; exact ⟨rfl, rfl, rfl⟩)

theorem list_same (d inF) : ∀ l last t st, Same (list rec d inF l last t false st) (listS recS d inF l last t st)
  | [], last, t, st => h ..
  | c :: l, last, t, st => by
    simp only [list, listS]
    have := h c t false d inF st
    generalize rec c t false false d inF st = o at this
    generalize recS c t false d inF st = r at this
    cases r with
    | leak => exact same_leak _
    | _ =>
      cases o <;> simp only [Same] at this <;> first | exact this.elim | skip
      all_goals first
        | trivial
        | (obtain ⟨rfl, rfl, rfl⟩ := this; first | exact list_same d inF l last t _ | exact ⟨rfl, rfl, rfl⟩)
        | (obtain ⟨rfl, rfl⟩ := this; exact ⟨rfl, rfl⟩)

omit h in
theorem loopEnd_same {again : Bool → St σ → Out σ} {againS : St σ → Res σ} (ha : ∀ st, Same (again false st) (againS st))
    {o : Out σ} {r : Res σ} (h : Same o r) (hd : ∀ rv x st, o ≠ .done rv x st) : Same (loopEnd again o) (loopEndS againS r) := by
  cases r with
  | leak => exact same_leak _
  | done => cases o <;> simp only [Same] at h <;> first | exact h.elim | exact absurd rfl (hd _ _ _)
  | brk k st =>
    cases o <;> simp only [Same] at h <;> try exact h.elim
    rename_i k' _ _
    obtain ⟨h1, rfl, rfl⟩ := h
    subst h1
    match k' with
    | 0 => exact ⟨rfl, rfl, rfl⟩
    | 1 => exact ⟨rfl, rfl, rfl⟩
    | k + 2 => exact ⟨rfl, rfl, rfl⟩
  | cont k st =>
    cases o <;> simp only [Same] at h <;> try exact h.elim
    rename_i k' _ _
    obtain ⟨h1, rfl, rfl⟩ := h
    subst h1
    match k' with
    | 0 => exact ⟨rfl, rfl, rfl⟩
    | 1 => exact ha _
    | k + 2 => exact ⟨rfl, rfl, rfl⟩
  | _ =>
    cases o <;> simp only [Same] at h <;> first | exact h.elim | exact h

theorem while_same (w c b t d inF) : ∀ m rv e st, Same (while_ rec w c b t d inF m rv e st) (whileS recS w c b t d inF m rv e st)
  | 0, _, _, _ => trivial
  | m + 1, rv, e, st => by
    have ih := while_same w c b t d inF m
    simp only [while_, whileS]
    have h1 := h c true false (d + 1) inF st
    generalize rec c true false false (d + 1) inF st = o at h1
    generalize recS c true false (d + 1) inF st = r at h1
    by_cases hd : ∃ s x st, o = .done s x st
    · obtain ⟨s, x, st', rfl⟩ := hd
      cases r <;> simp only [Same] at h1 <;> try exact h1.elim
      · obtain ⟨rfl, rfl, rfl⟩ := h1
        simp only [Out.setX]
        by_cases hs : ((s == 0) == w) = true
        · rw [if_pos hs, if_pos hs]
          cases e with
          | true => exact same_leak _
          | false =>
            simp only [Bool.false_eq_true, if_false]
            have h2 := h b t false (d + 1) inF st'
            generalize rec b t false false (d + 1) inF st' = o2 at h2
            generalize recS b t false (d + 1) inF st' = r2 at h2
            by_cases hd2 : ∃ s x st, o2 = .done s x st
            · obtain ⟨s2, x2, st2, rfl⟩ := hd2
              cases r2 <;> simp only [Same] at h2 <;> try exact h2.elim
              · obtain ⟨rfl, rfl, rfl⟩ := h2
                exact ih ..
              · exact same_leak _
            · have hd2' : ∀ rv x st, o2 ≠ .done rv x st := fun rv x st g => hd2 ⟨rv, x, st, g⟩
              have hh := loopEnd_same (fun st => ih 0 false st) h2 hd2'
              split
              · exact (hd2' _ _ _ rfl).elim
              · split
                · cases o2 <;> simp only [Same] at h2 <;> first | exact h2.elim | exact (hd2' _ _ _ rfl).elim
                · exact hh
        · rw [if_neg hs, if_neg hs]; exact ⟨rfl, rfl, rfl⟩
      · cases e <;> exact same_leak _
    · have hd' : ∀ rv x st, o ≠ .done rv x st := fun rv x st g => hd ⟨rv, x, st, g⟩
      cases e with
      | true =>
        split
        · rename_i g; cases o <;> simp [Out.setX] at g; exact (hd' _ _ _ rfl).elim
        · split
          · cases o <;> simp only [Same] at h1 <;> first | exact h1.elim | exact (hd' _ _ _ rfl).elim
          · exact same_leak _
      | false =>
        have hds : ∀ rv x st, o.setX false ≠ .done rv x st := by
          intro rv x st g
          cases o <;> simp [Out.setX] at g
          exact hd' _ _ _ rfl
        have hh := loopEnd_same (fun st => ih 0 false st) (h1.setX hd') hds
        split
        · rename_i g; exact (hds _ _ _ g).elim
        · split
          · cases o <;> simp only [Same] at h1 <;> first | exact h1.elim | exact (hd' _ _ _ rfl).elim
          · exact hh

theorem for_same (b t d inF) : ∀ l rv e st, Same (for_ rec b t d inF l rv false e st) (forS recS b t d inF l rv e st)
  | [], _, _, _ => ⟨rfl, rfl, rfl⟩
  | f :: l, rv, e, st => by
    have ih := for_same b t d inF l
    simp only [for_, forS]
    have h2 := h b t false (d + 1) inF { st with w := f st.w }
    generalize rec b t false false (d + 1) inF { st with w := f st.w } = o2 at h2
    generalize recS b t false (d + 1) inF { st with w := f st.w } = r2 at h2
    by_cases hd2 : ∃ s x st, o2 = .done s x st
    · obtain ⟨s2, x2, st2, rfl⟩ := hd2
      cases r2 <;> simp only [Same] at h2 <;> try exact h2.elim
      · obtain ⟨rfl, rfl, rfl⟩ := h2
        exact ih ..
      · exact same_leak _
    · have hd2' : ∀ rv x st, o2 ≠ .done rv x st := fun rv x st g => hd2 ⟨rv, x, st, g⟩
      have hh := loopEnd_same (again := fun x st => for_ rec b t d inF l 0 x x st) (fun st => ih 0 false st) h2 hd2'
      split
      · exact (hd2' _ _ _ rfl).elim
      · split
        · cases o2 <;> simp only [Same] at h2 <;> first | exact h2.elim | exact (hd2' _ _ _ rfl).elim
        · exact hh

theorem body_same (n c t ch d inF st) : Same (body O n rec c t ch false d inF st) (bodyS O n recS c t ch d inF st) := by
  cases c with
  | nil => exact ⟨rfl, rfl, rfl⟩
  | com a => exact com_same h ..
  | paren c => exact paren_same h ..
  | list l last => exact list_same h ..
  | andor a l r =>
    simp only [body, bodyS]
    have := h l true false d inF st
    generalize rec l true false false d inF st = o at this
    generalize recS l true false d inF st = r' at this
    cases r' with
    | leak => exact same_leak _
    | done rv e st' =>
      cases o <;> simp only [Same] at this <;> try exact this.elim
      obtain ⟨h1, h2, h3⟩ := this
      subst h1 h2 h3
      simp only
      split
      · split
        · exact same_leak _
        · rename_i he
          rw [Bool.not_eq_true] at he
          rw [he]
          exact h ..
      · exact ⟨rfl, rfl, rfl⟩
    | _ => cases o <;> simp only [Same] at this <;> first | exact this.elim | exact this
  | bang c =>
    simp only [body, bodyS]
    have := h c true false d inF st
    generalize rec c true false false d inF st = o at this
    generalize recS c true false d inF st = r' at this
    cases r' with
    | leak => exact same_leak _
    | done rv e st' =>
      cases o <;> simp only [Same] at this <;> try exact this.elim
      obtain ⟨rfl, rfl, rfl⟩ := this
      exact ⟨rfl, rfl, rfl⟩
    | _ => cases o <;> simp only [Same] at this <;> first | exact this.elim | exact this
  | loop w c b => exact while_same h ..
  | «for» w b => exact for_same h ..
  | ite c t' e' =>
    simp only [body, bodyS]
    have := h c true false d inF st
    generalize rec c true false false d inF st = o at this
    generalize recS c true false d inF st = r' at this
    cases r' with
    | leak => exact same_leak _
    | done rv e st' =>
      cases o <;> simp only [Same] at this <;> try exact this.elim
      obtain ⟨rfl, rfl, rfl⟩ := this
      simp only [Out.setX]
      split <;> exact h ..
    | _ =>
      cases o <;> simp only [Same] at this <;> first
        | exact this.elim
        | trivial
        | (obtain ⟨rfl, rfl, rfl⟩ := this; exact ⟨rfl, rfl, rfl⟩)
        | (obtain ⟨rfl, rfl⟩ := this; exact ⟨rfl, rfl⟩)
  | case w alts =>
    simp only [body, bodyS]
    cases alts[(O.pick w st.w).2]? with
    | some c => exact h ..
    | none => exact ⟨rfl, rfl, rfl⟩
  | brace c => exact h ..

end

theorem run_same (O : Oracle σ) : ∀ n, SameR (run O n) (spec O n)
  | 0 => fun _ _ _ _ _ _ => trivial
  | n + 1 => fun c t ch d inF st => by
    have hb := body_same (O := O) (run_same O n) n c t ch d inF (start st)
    by_cases hc : c = .nil
    · subst hc; exact ⟨rfl, rfl, rfl⟩
    · rw [run_succ O n hc]
      have : spec O (n + 1) c t ch d inF st = judge t ch (bodyS O n (spec O n) c t ch d inF (start st)) := by
        cases c <;> first | exact absurd rfl hc | rfl
      rw [this]
      exact hb.judge t ch

/-! ## In tested context -/

def errs (l : List Ev) : List Ev := l.filter (· == .err)

/-- no exit by `set -e`, ERR neither triggered nor run -/
def Quiet (k : List Ev) : Out σ → Prop
  | .leave true _ _ => False
  | .fuel => True
  | .done _ _ s | .brk _ _ s | .cont _ _ s | .ret _ s | .leave false _ s => s.pend = false ∧ errs s.log = k

/-- no simple command is `.` or `eval` -/
def NoScripts (O : Oracle σ) : Prop := ∀ a s w l, (O.step a s w).2 ≠ .dot l ∧ (O.step a s w).2 ≠ .eval l

def QuietR (rec : Rec σ) : Prop := ∀ c ch x d inF st, st.pend = false → Quiet (errs st.log) (rec c true ch x d inF st)

theorem Quiet.setX {k} {o : Out σ} {x} (h : Quiet k o) : Quiet k (o.setX x) := by
  cases o with
  | leave b _ _ => cases b <;> exact h
  | _ => exact h

theorem Quiet.fin {k ch} {o : Out σ} (h : Quiet k o) : Quiet k (fin true ch o) := by
  cases o with
  | done rv x st =>
    simp only [Exec.fin]
    split
    · exact h
    · simp only [Bool.true_eq_false, false_and, and_false, if_false]; exact h
  | _ => exact h

theorem Quiet.st {k} {o : Out σ} {s} (h : Quiet k o) (hs : o.st? = some s) : s.pend = false ∧ errs s.log = k := by
  cases o with
  | leave b _ _ => cases b <;> simp only [Out.st?, Option.some.injEq] at hs <;> subst hs <;> first | exact h.elim | exact h
  | fuel => simp [Out.st?] at hs
  | _ => simp only [Out.st?, Option.some.injEq] at hs; subst hs; exact h

section
variable {O : Oracle σ} {rec : Rec σ}

theorem quiet_of {k} {o : Out σ} {st : St σ} (h : Quiet (errs st.log) o) (hk : errs st.log = k) : Quiet k o := hk ▸ h

theorem com_quiet (h : QuietR rec) (hO : NoScripts O) (a x d inF) (st : St σ) (hp : st.pend = false) :
    Quiet (errs st.log) (com O rec a true x d inF st) := by
  have hl : errs (st.log ++ [.com a]) = errs st.log := by simp [errs]
  have hj : ∀ (mk : Nat → Bool → St σ → Out σ), (∀ k x s, s.pend = false ∧ errs s.log = errs st.log → Quiet (errs st.log) (mk k x s)) → ∀ n (s : St σ),
      s.pend = false ∧ errs s.log = errs st.log → Quiet (errs st.log) (jump mk n x d s) := by
    intro mk hmk n s hs
    simp only [jump]
    split
    · exact hs
    · split
      · exact hs
      · exact hmk _ _ _ hs
  simp only [com]
  cases hy : (O.step a st.exstat st.w).2 with
  | status n => exact ⟨hp, hl⟩
  | setE b => exact ⟨hp, hl⟩
  | brk n => exact hj _ (fun _ _ _ hs => by exact hs) _ _ ⟨hp, hl⟩
  | cont n => exact hj _ (fun _ _ _ hs => by exact hs) _ _ ⟨hp, hl⟩
  | ret n => simp only; split <;> exact ⟨hp, hl⟩
  | exit n => exact ⟨hp, hl⟩
  | func b =>
    have := quiet_of (h b false x 0 true { st with w := (O.step a st.exstat st.w).1, log := st.log ++ [.com a] } hp) hl
    simp only
    split
    · rename_i g; rw [g] at this; exact this
    · rename_i g; rw [g] at this; exact this
    · exact this
  | dot l => exact absurd hy (hO _ _ _ l).1
  | eval l => exact absurd hy (hO _ _ _ l).2

theorem list_quiet (h : QuietR rec) (d inF) : ∀ l last x (st : St σ), st.pend = false → Quiet (errs st.log) (list rec d inF l last true x st)
  | [], last, x, st, hp => h _ _ _ _ _ _ hp
  | c :: l, last, x, st, hp => by
    have := (h c false false d inF st hp).setX (x := x)
    simp only [list]
    split
    · rename_i g
      rw [g] at this
      exact quiet_of (list_quiet h d inF l last x _ this.1) this.2
    · exact this

theorem loopEnd_quiet {k} {again : Bool → St σ → Out σ} (ha : ∀ x s, s.pend = false ∧ errs s.log = k → Quiet k (again x s)) {o : Out σ} (h : Quiet k o) :
    Quiet k (loopEnd again o) := by
  cases o with
  | brk j x s =>
    match j with
    | 0 => exact h
    | 1 => exact h
    | j + 2 => exact h
  | cont j x s =>
    match j with
    | 0 => exact h
    | 1 => exact ha x s h
    | j + 2 => exact h
  | _ => exact h

theorem while_quiet (h : QuietR rec) (w c b d inF) : ∀ m rv x (st : St σ), st.pend = false → Quiet (errs st.log) (while_ rec w c b true d inF m rv x st)
  | 0, _, _, _, _ => trivial
  | m + 1, rv, x, st, hp => by
    have ih : ∀ rv x s, s.pend = false ∧ errs s.log = errs st.log → Quiet (errs st.log) (while_ rec w c b true d inF m rv x s) :=
      fun rv x s hs => quiet_of (while_quiet h w c b d inF m rv x s hs.1) hs.2
    have h1 := (h c false false (d + 1) inF st hp).setX (x := x)
    simp only [while_]
    split
    · rename_i s x' st' g
      rw [g] at h1
      split
      · have h2 := quiet_of (h b false x' (d + 1) inF st' h1.1) h1.2
        split
        · rename_i g2; rw [g2] at h2; exact ih _ _ _ h2
        · exact loopEnd_quiet (fun x s hs => ih _ _ _ hs) h2
      · exact h1
    · exact loopEnd_quiet (fun x s hs => ih _ _ _ hs) h1

theorem for_quiet (h : QuietR rec) (b d inF) : ∀ l rv sv x (st : St σ), st.pend = false → Quiet (errs st.log) (for_ rec b true d inF l rv sv x st)
  | [], _, _, _, _, hp => ⟨hp, rfl⟩
  | f :: l, rv, sv, x, st, hp => by
    have h2 := h b false sv (d + 1) inF { st with w := f st.w } hp
    simp only [for_]
    split
    · rename_i g2; rw [g2] at h2; exact quiet_of (for_quiet h b d inF l _ _ _ _ h2.1) h2.2
    · exact loopEnd_quiet (fun x s hs => quiet_of (for_quiet h b d inF l _ _ _ _ hs.1) hs.2) h2

theorem body_quiet (h : QuietR rec) (hO : NoScripts O) (n c ch x d inF) (st : St σ) (hp : st.pend = false) :
    Quiet (errs st.log) (body O n rec c true ch x d inF st) := by
  cases c with
  | nil => exact ⟨hp, rfl⟩
  | com a => exact com_quiet h hO _ _ _ _ _ hp
  | paren c =>
    simp only [body, paren]
    split
    · exact h _ _ _ _ _ _ hp
    · have := h c true false 0 false { st with pend := false } rfl
      split
      · rename_i s g; exact ⟨hp, (this.st g).2⟩
      · trivial
  | list l last => exact list_quiet h _ _ _ _ _ _ hp
  | andor a l r =>
    have := h l false x d inF st hp
    simp only [body]
    split
    · rename_i g
      rw [g] at this
      split
      · exact quiet_of (h _ _ _ _ _ _ this.1) this.2
      · exact this
    · exact this
  | bang c =>
    have := h c false x d inF st hp
    simp only [body]
    split
    · rename_i g; rw [g] at this; exact this
    · exact this
  | loop w c b => exact while_quiet h _ _ _ _ _ _ _ _ _ hp
  | «for» w b => exact for_quiet h _ _ _ _ _ _ _ _ hp
  | ite c t e' =>
    have := (h c false false d inF st hp).setX (x := x)
    simp only [body]
    split
    · rename_i g
      rw [g] at this
      split <;> exact quiet_of (h _ _ _ _ _ _ this.1) this.2
    · exact this
  | case w alts =>
    simp only [body]
    split
    · exact h _ _ _ _ _ _ hp
    · exact ⟨hp, rfl⟩
  | brace c => exact h _ _ _ _ _ _ hp

end

theorem run_quiet (O : Oracle σ) (hO : NoScripts O) : ∀ n, QuietR (run O n)
  | 0 => fun _ _ _ _ _ _ _ => trivial
  | n + 1 => fun c ch x d inF st hp => by
    have hs : start st = st := by simp [start, hp]
    by_cases hc : c = .nil
    · subst hc; exact ⟨hp, rfl⟩
    · rw [run_succ O n hc, hs]
      exact (body_quiet (run_quiet O hO n) hO n c ch x d inF st hp).fin

/-! ## C30 -/

/-- **C30**: in tested context (a condition, the left side of `&&` or `||`, after `!`, however
deep in lists, loops, functions and subshells) `set -e` never ends the shell and ERR is never
triggered.  The exception are scripts run by `.` and `eval`: `dot_in_condition`. -/
theorem tested_never_exits_partial (O : Oracle σ) (hO : NoScripts O) (n : Nat) (c : Cmd) (xe x : Bool) (env : List Env) (hc : Clean env) (st : St σ)
    (hp : st.pend = false) : ∃ o, exec O n c true xe x env st = embed env o ∧ (∀ x s, o ≠ .leave true x s) ∧
      ∀ s, o.st? = some s → s.pend = false ∧ errs s.log = errs st.log := by
  refine ⟨_, jumps_structured O n c true xe x env hc st, ?_, ?_⟩
  · intro y s h
    have := run_quiet O hO n c xe x (loops env) (inFn env) st hp
    rw [h] at this
    exact this
  · exact fun s hs => (run_quiet O hO n c xe x (loops env) (inFn env) st hp).st hs

/-- **C30** (partial: silent where the specification says `leak`, see `exemption_leaks_list`,
`exemption_leaks_loop`, `eval_ignores`): the shell ends by `set -e`, and ERR is triggered,
exactly at the failing commands that are not tested. -/
theorem errexit_exact_partial (O : Oracle σ) (n : Nat) (c : Cmd) (t xe : Bool) (env : List Env) (hc : Clean env) (st : St σ) :
    ∃ o, exec O n c t xe false env st = embed env o ∧ Same o (spec O n c t xe (loops env) (inFn env) st) :=
  ⟨_, jumps_structured O n c t xe false env hc st, run_same O n c t xe (loops env) (inFn env) st⟩

/-! ## Where the code differs -/

private def demo (l : Nat → Option Act) : Oracle Nat where
  step a _ w := match l a with
    | some act => (w, act)
    | none => (w + 1, .status a)
  words k w := (w, List.replicate k id)
  pick _ w := (w, 0)
  merge p _ := p

private def stE : St Nat := ⟨0, 0, true, false, []⟩

/-- the status of the shell, how it ended, and the commands run -/
private def outcome (l : Nat → Option Act) (c : Cmd) : Option (Nat × Bool × List Ev) :=
  match exec (demo l) 30 c false false false [⟨.none, false⟩] stE with
  | .ret rv _ _ st => some (rv, false, st.log)
  | .exited e st => some (st.exstat, e, st.log)
  | _ => none

/-- `set -e; 1 && 0 || 2; 0`: the last command of the list fails, untested, and the shell goes
on. -/
theorem exemption_leaks_list :
    outcome (fun _ => none) (.list [andorTree (.com 1) [(true, .com 0), (false, .com 2)]] (.com 0)) =
      some (0, false, [.com 1, .com 2, .com 0]) := by decide +kernel

/-- Also `! 1 && 2` and `0 || 0 && 2`. -/
theorem exemption_leaks_bang :
    outcome (fun _ => none) (.list [.andor true (.bang (.com 1)) (.com 2)] (.com 0)) = some (0, false, [.com 1, .com 2, .com 0]) ∧
    outcome (fun _ => none) (.list [andorTree (.com 0) [(false, .com 0), (true, .com 2)]] (.com 0)) =
      some (0, false, [.com 0, .com 2, .com 0]) := by decide +kernel

/-- a command whose status depends on how many commands were run -/
private def loopDemo : Oracle Nat where
  step a _ w := match a with
    | 50 => (w + 1, .status (if w < 4 then 0 else 1))
    | 51 => (w + 1, .status (if w < 2 then 1 else 0))
    | a => (w + 1, .status a)
  words k w := (w, List.replicate k id)
  pick _ w := (w, 0)
  merge p _ := p

/-- `while 50; do 51 && 2; done; 0`, where `51` fails the first time: in the second round `2`
fails untested and the shell goes on. -/
theorem exemption_leaks_loop :
    (match exec loopDemo 30 (.list [.loop true (.com 50) (.andor true (.com 51) (.com 2))] (.com 0)) false false false [⟨.none, false⟩] stE with
      | .ret rv _ _ st => some (rv, st.log)
      | _ => none) = some (0, [.com 50, .com 51, .com 50, .com 51, .com 2, .com 50, .com 0]) := by decide +kernel

/-- `if . script; then ..`: a failing command of the script ends the shell although it is
tested. -/
theorem dot_in_condition :
    outcome (fun a => if a = 60 then some (.dot [.com 1, .com 0]) else none) (.ite (.com 60) (.com 0) (.com 0)) =
      some (1, true, [.com 60, .com 1]) := by decide +kernel

/-- `eval '1; 0'`: a failing command does not end the shell. -/
theorem eval_ignores :
    outcome (fun a => if a = 60 then some (.eval [.com 1, .com 0]) else none) (.list [.com 60] (.com 0)) =
      some (0, false, [.com 60, .com 1, .err, .com 0, .com 0]) := by decide +kernel

/-- `f() { eval return; }; set -e; f; 1; 0`: `return` inside `eval` leaves `set -e` off for
good, and `eval 'set -e'` does not set it. -/
theorem eval_loses_errexit :
    outcome (fun a => if a = 60 then some (.func (.com 61)) else if a = 61 then some (.eval [.com 62]) else if a = 62 then some (.ret none) else none)
      (.list [.com 60, .com 1] (.com 0)) = some (0, false, [.com 60, .com 61, .com 62, .com 1, .err, .com 0]) ∧
    outcome (fun a => if a = 60 then some (.eval [.com 61]) else if a = 61 then some (.setE true) else if a = 63 then some (.setE false) else none)
      (.list [.com 63, .com 60, .com 1] (.com 0)) = some (0, false, [.com 63, .com 60, .com 61, .com 1, .err, .com 0]) := by decide +kernel

/-! ## Examples -/

/-- `set -e; if 1; then 0; fi; { 0; 3; }; 4` ends with 3. -/
example : outcome (fun _ => none) (.list [.ite (.com 1) (.com 0) .nil, .brace (.list [.com 0] (.com 3))] (.com 4)) =
    some (3, true, [.com 1, .com 0, .com 3]) := by decide +kernel
/-- `1 || 2` ends the shell, `1 && 2` does not. -/
example : outcome (fun _ => none) (.list [.andor true (.com 1) (.com 2), .andor false (.com 1) (.com 2)] (.com 0)) =
    some (2, true, [.com 1, .com 1, .com 2]) := by decide +kernel
/-- A function called in a condition is tested as a whole. -/
example : outcome (fun a => if a = 60 then some (.func (.list [.com 1] (.com 0))) else none) (.andor true (.com 60) (.com 0)) =
    some (0, false, [.com 60, .com 1, .com 0, .com 0]) := by decide +kernel
/-- The specification has an opinion on the first two. -/
example : (match spec (demo fun _ => none) 30 (.list [.andor true (.com 1) (.com 2), .andor false (.com 1) (.com 2)] (.com 0)) false false 0 false stE with
    | .leave true st => st.exstat
    | _ => 99) = 2 := by decide +kernel

end Ksh.Exec
