import Verif.Syn.Sound
/-! # The parser ends: every chain of calls is bounded by the number of tokens -/

namespace Ksh.Syn

variable {cfg : Cfg} {o : DbOps}

/-- The end of the input counts nothing. -/
def Tok.size : Tok → Nat
  | .eof => 0
  | _ => 1

/-- The tokens that are left, with the one handed back. -/
def St.size (s : St) : Nat := s.rest.length + match s.pk with
  | some t => t.size
  | none => 0

def Call.size : Call → St → Nat
  | .cmd c, s => s.size + c.size
  | _, s => s.size

/-- The order in which calls without progress are made. -/
def Call.rank : Call → Nat
  | .clist .. => 9
  | .andor => 8
  | .pipeline _ => 7
  | .funbody .. => 7
  | .command _ => 6
  | .cmd _ => 5
  | .simple .. => 4
  | .cases .. => 3
  | .pats .. => 2
  | .andorLoop _ => 2
  | .pipeLoop _ => 1
  | .redirs .. => 1
  | .dogroup => 1
  | .thenpart => 1
  | .elsepart => 1

/-- If the answer is a value then no more than `b` tokens are left; it is no lack of fuel unless `d`. -/
def Res.Fit {α : Type} (d : Prop) (b : Nat) : Res α → Prop
  | .ok _ s => s.size ≤ b
  | .err => True
  | .out => d

theorem Res.Fit.mono {α : Type} {d d' : Prop} {b b' : Nat} {x : Res α} (h : x.Fit d b) (hd : d → d') (hb : b ≤ b') : x.Fit d' b' := by
  cases x with
  | ok a s => exact Nat.le_trans h hb
  | err => trivial
  | out => exact hd h

theorem Res.Fit.bind {α β : Type} {d d' : Prop} {b b' : Nat} {x : Res α} {f : α → St → Res β} (h : x.Fit d b) (hd : d → d')
    (hf : ∀ a s, s.size ≤ b → (f a s).Fit d' b') : (x.bind f).Fit d' b' := by
  cases x with
  | ok a s => exact hf a s h
  | err => trivial
  | out => exact hd h

theorem Tok.size_le (t : Tok) : t.size ≤ 1 := by cases t <;> simp [Tok.size]

theorem lex_size (cf : Cf) (l : List Raw) : (lex cf l).2.length + (lex cf l).1.size ≤ l.length := by
  induction l with
  | nil => simp [lex, Tok.size]
  | cons a l ih =>
    cases a <;> simp only [lex, Tok.size, List.length_cons] <;> try omega
    · exact Nat.add_le_add_left (Tok.size_le _) _
    · by_cases hc : cf.contin = true
      · simp only [hc, if_true]; exact Nat.le_succ_of_le ih
      · simp [hc, Tok.size]

theorem token_size (cf : Cf) (s : St) : (token cf s).2.size + (token cf s).1.size ≤ s.size := by
  obtain ⟨pk, l⟩ := s
  cases pk with
  | none => exact lex_size cf l
  | some t => exact Nat.le_refl _

theorem unget_size (t : Tok) (s : St) : (unget t s).size ≤ s.size + t.size := by
  obtain ⟨pk, l⟩ := s
  cases pk <;> simp [unget, St.size]

theorem tpeek_size (cf : Cf) (s : St) : (tpeek cf s).2.size ≤ s.size := by
  have h1 := token_size cf s
  have h2 := unget_size (token cf s).1 (token cf s).2
  simp only [tpeek]
  omega

/-- Taking what was looked at. -/
theorem tpeek_rest (cf : Cf) (s : St) : (St.mk none (tpeek cf s).2.rest).size + (tpeek cf s).1.size ≤ s.size := by
  obtain ⟨pk, l⟩ := s
  cases pk with
  | none => simpa [tpeek, token, unget, St.size] using lex_size cf l
  | some t => simp [tpeek, token, unget, St.size]

theorem mustWord_fit (cf : Cf) (s : St) : (mustWord cf s).Fit False (s.size - 1) := by
  have := token_size cf s
  unfold mustWord
  split
  · rename_i h
    rw [h] at this
    simp only [Tok.size] at this
    simp only [Res.Fit]; omega
  · trivial

theorem musthave_fit (c : Tok) (cf : Cf) (s : St) : (musthave c cf s).Fit False (s.size - c.size) := by
  have := token_size cf s
  unfold musthave
  split
  · rename_i h
    rw [h] at this
    simp only [Res.Fit]; omega
  · trivial

/-- A redirection takes tokens. -/
theorem synio_fit (cf : Cf) (s : St) : (synio cf s).Fit False s.size ∧ ∀ i s', synio cf s = .ok (some i) s' → s'.size < s.size := by
  have h1 := tpeek_rest cf s
  have h2 := tpeek_size cf s
  unfold synio
  split
  · rename_i r h
    rw [h] at h1
    simp only [Tok.size] at h1
    have h3 := mustWord_fit {} ⟨none, (tpeek cf s).2.rest⟩
    cases hm : mustWord {} ⟨none, (tpeek cf s).2.rest⟩ with
    | err => exact ⟨trivial, fun _ _ h => by cases h⟩
    | out => rw [hm] at h3; exact h3.elim
    | ok w s' =>
      rw [hm] at h3
      simp only [Res.Fit] at h3
      refine ⟨by simp only [Res.Fit, Res.bind]; omega, fun i t h => ?_⟩
      cases h
      omega
  · exact ⟨h2, fun _ _ h => by cases h⟩

theorem takeWords_size (l : List Raw) : (takeWords l).2.length ≤ l.length := by
  induction l with
  | nil => simp [takeWords]
  | cons a l ih => cases a <;> simp [takeWords]; omega

theorem wordlist_fit (s : St) : (wordlist s).Fit False s.size := by
  have h1 := token_size { contin := true, keyword := true } s
  unfold wordlist
  generalize hT : token { contin := true, keyword := true } s = tr at *
  obtain ⟨t, s1⟩ := tr
  have h0 : s1.pk = none := by
    have := congrArg (·.2.pk) hT
    simp only [token] at this
    split at this <;> simp_all
  have hs : s1.size = s1.rest.length := by simp [St.size, h0]
  have h2 := takeWords_size s1.rest
  have h3 := unget_size t s1
  simp only at h1
  split
  · rename_i heq
    cases heq
    split
    · rename_i heq; rw [heq] at h2; simp only [List.length_cons] at h2; refine Nat.le_trans (m := s1.size) ?_ (by omega); simp only [St.size, h0]; omega
    · rename_i heq; rw [heq] at h2; simp only [List.length_cons] at h2; refine Nat.le_trans (m := s1.size) ?_ (by omega); simp only [St.size, h0]; omega
    · trivial
  · rename_i heq; cases heq; simp only [Res.Fit]; omega
  · rename_i heq; cases heq; simp only [Res.Fit]; omega

theorem dbIs_size (p : Tok → Option Word) (cf : Cf) (s : St) : (dbIs p cf s).2.size ≤ s.size := by
  have h1 := tpeek_rest cf s
  have h2 := tpeek_size cf s
  unfold dbIs
  split
  · simp only; omega
  · exact h2

theorem dbSimple_size {s s' : St} {ws} (h : dbSimple o s = some (ws, s')) : s'.size ≤ s.size := by
  unfold dbSimple at h
  have h1 := dbIs_size (pUn o) CONTIN s
  cases hu : dbIs (pUn o) CONTIN s with | mk a s1 =>
  rw [hu] at h h1
  have h2 := dbIs_size pOpnd {} s1
  cases a with
  | some w =>
    simp only at h
    cases hp : dbIs pOpnd {} s1 with | mk a s2 =>
    rw [hp] at h h2
    cases a with
    | none => cases h
    | some v => cases h; simp only at h1 h2; omega
  | none =>
    simp only at h
    cases hp : dbIs pOpnd {} s1 with | mk a s2 =>
    rw [hp] at h h2
    cases a with
    | none => cases h
    | some v =>
      simp only at h h1 h2
      have h3 := dbIs_size (pBin o) {} s2
      cases hb : dbIs (pBin o) {} s2 with | mk a s3 =>
      rw [hb] at h h3
      cases a with
      | none => cases h
      | some w =>
        simp only at h h3
        have h4 := dbIs_size pOpnd {} s3
        cases hq : dbIs pOpnd {} s3 with | mk a s4 =>
        rw [hq] at h h4
        cases a with
        | none => cases h
        | some v => cases h; simp only at h4; omega

theorem dbParse_size (n : Nat) : ∀ (c : DbCall) (s s' : St) (ws), dbParse o n c s = some (ws, s') → s'.size ≤ s.size := by
  induction n with
  | zero => intro c s s' ws h; simp [dbParse] at h
  | succ n ih =>
    intro c s s' ws h
    cases c with
    | oexpr =>
      simp only [dbParse] at h
      cases h1 : dbParse o n .aexpr s with
      | none => simp [h1] at h
      | some r =>
        obtain ⟨vs, s1⟩ := r
        have h2 := ih _ _ _ _ h1
        have h3 := dbIs_size pOr CONTIN s1
        simp only [h1] at h
        cases hd : dbIs pOr CONTIN s1 with | mk a s2 =>
        rw [hd] at h h3
        cases a with
        | none => cases h; simp only at h3; omega
        | some w =>
          simp only [Option.map_eq_some_iff] at h
          obtain ⟨⟨us, s4⟩, h4, h5⟩ := h
          cases h5
          have h6 := ih _ _ _ _ h4
          simp only at h3 ⊢; omega
    | aexpr =>
      simp only [dbParse] at h
      cases h1 : dbParse o n .nexpr s with
      | none => simp [h1] at h
      | some r =>
        obtain ⟨vs, s1⟩ := r
        have h2 := ih _ _ _ _ h1
        have h3 := dbIs_size pAnd CONTIN s1
        simp only [h1] at h
        cases hd : dbIs pAnd CONTIN s1 with | mk a s2 =>
        rw [hd] at h h3
        cases a with
        | none => cases h; simp only at h3; omega
        | some w =>
          simp only [Option.map_eq_some_iff] at h
          obtain ⟨⟨us, s4⟩, h4, h5⟩ := h
          cases h5
          have h6 := ih _ _ _ _ h4
          simp only at h3 ⊢; omega
    | nexpr =>
      simp only [dbParse] at h
      have h3 := dbIs_size pNot CONTIN s
      cases hd : dbIs pNot CONTIN s with | mk a s2 =>
      rw [hd] at h h3
      cases a with
      | none => have := ih _ _ _ _ h; simp only at h3; omega
      | some w =>
        simp only [Option.map_eq_some_iff] at h
        obtain ⟨⟨us, s4⟩, h4, h5⟩ := h
        cases h5
        have h6 := ih _ _ _ _ h4
        simp only at h3 ⊢; omega
    | primary =>
      simp only [dbParse] at h
      have h3 := dbIs_size pOpar CONTIN s
      cases hd : dbIs pOpar CONTIN s with | mk a s2 =>
      rw [hd] at h h3
      cases a with
      | none => have := dbSimple_size h; simp only at h3; omega
      | some w =>
        simp only at h
        cases h1 : dbParse o n .oexpr s2 with
        | none => simp [h1] at h
        | some r =>
          obtain ⟨vs, s4⟩ := r
          have h2 := ih _ _ _ _ h1
          have h5 := dbIs_size pCpar CONTIN s4
          simp only [h1] at h
          cases hc : dbIs pCpar CONTIN s4 with | mk a s5 =>
          rw [hc] at h h5
          cases a with
          | none => cases h
          | some v => cases h; simp only at h3 h5; omega

theorem dbracket_fit (s : St) : (dbracket o s).Fit False s.size := by
  unfold dbracket
  cases h1 : dbParse o (4 * s.rest.length + 4) .oexpr s with
  | none => trivial
  | some r =>
    obtain ⟨vs, s1⟩ := r
    have h2 := dbParse_size _ _ _ _ _ h1
    have h3 := dbIs_size pEnd CONTIN s1
    simp only
    cases hd : dbIs pEnd CONTIN s1 with | mk a s2 =>
    rw [hd] at h3
    cases a with
    | none => trivial
    | some w => simp only [Res.Fit] at h3 ⊢; omega

/-- The claim for all calls with fuel `n`. -/
abbrev Fits (n : Nat) (rec : Call → St → Res Op) : Prop := ∀ c s, (rec c s).Fit (n ≤ 12 * c.size s + c.rank) (c.size s)

/-- A call with less to do. -/
theorem Fits.call {n : Nat} {rec : Call → St → Res Op} (h : Fits n rec) {m b : Nat} {c : Call} {s : St}
    (hm : 12 * c.size s + c.rank < m) (hb : c.size s ≤ b) : (rec c s).Fit (n + 1 ≤ m) b :=
  (h c s).mono (fun h => by omega) hb

theorem Fits.bind {n : Nat} {rec : Call → St → Res Op} (h : Fits n rec) {m b : Nat} {c : Call} {s : St} {β : Type} {f : Op → St → Res β}
    (hm : 12 * c.size s + c.rank < m) (hf : ∀ a s', s'.size ≤ c.size s → (f a s').Fit (n + 1 ≤ m) b) : ((rec c s).bind f).Fit (n + 1 ≤ m) b :=
  (h c s).bind (fun h => by omega) hf

theorem fit_false {α : Type} {x : Res α} {b b' : Nat} {d : Prop} (h : x.Fit False b) (hb : b ≤ b') : x.Fit d b' :=
  h.mono False.elim hb

theorem redirs_fit {n : Nat} {rec : Call → St → Res Op} (h : Fits n rec) {m b : Nat} {kw : Bool} {t : Op} {s : St}
    (hm : 12 * s.size + 1 < m) (hb : s.size ≤ b) : (rec (.redirs kw t) s).Fit (n + 1 ≤ m) b :=
  h.call (by simpa [Call.size, Call.rank] using hm) hb

theorem nested_fit {n : Nat} {rec : Call → St → Res Op} (h : Fits n rec) {m b : Nat} {ty : Ty} {close : Tok} {kw : Bool} {io : List IO} {s : St}
    (hm : 12 * s.size + 9 < m) (hb : s.size ≤ b) : (nested rec ty close kw io s).Fit (n + 1 ≤ m) b := by
  unfold nested
  refine h.bind (by simpa [Call.size, Call.rank] using hm) fun t s1 h1 => ?_
  simp only [Call.size] at h1
  refine (musthave_fit close KW s1).bind False.elim fun _ s2 h2 => ?_
  exact redirs_fit h (by omega) (by omega)

theorem simpleBody_fit {n : Nat} {rec : Call → St → Res Op} (h : Fits n rec) (ev vars args io) (s : St) :
    (simpleBody cfg rec ev vars args io s).Fit (n + 1 ≤ 12 * s.size + 4) s.size := by
  have h1 := tpeek_rest {} s
  have h2 := tpeek_size {} s
  unfold simpleBody
  split
  · split
    · trivial
    · have h3 := synio_fit {} s
      cases hs : synio {} s with
      | err => trivial
      | out => rw [hs] at h3; exact h3.1.elim
      | ok i s1 =>
        cases i with
        | none => trivial
        | some i =>
          have := h3.2 i s1 hs
          exact h.call (by simp only [Call.size, Call.rank]; omega) (by simp only [Call.size]; omega)
  · rename_i w heq
    rw [heq] at h1
    simp only [Tok.size] at h1
    simp only
    split
    · exact h.call (by simp only [Call.size, Call.rank]; omega) (by simp only [Call.size]; omega)
    · exact h.call (by simp only [Call.size, Call.rank]; omega) (by simp only [Call.size]; omega)
  · rename_i heq
    rw [heq] at h1
    simp only [Tok.size] at h1
    split
    · exact nested_fit h (by omega) (by omega)
    · split
      · refine (musthave_fit .rpar {} _).bind False.elim fun _ s2 h3 => ?_
        simp only [Tok.size] at h3
        refine h.bind (by simp only [Call.size, Call.rank]; omega) fun t s3 h4 => ?_
        simp only [Call.size] at h4
        exact redirs_fit h (by omega) (by omega)
      · trivial
  · exact redirs_fit h (by omega) (by omega)

theorem forBody_fit {n : Nat} {rec : Call → St → Res Op} (h : Fits n rec) {ty : Ty} {s : St} {m b : Nat} (hm : 12 * s.size + 10 < m) (hb : s.size ≤ b) :
    (forBody rec ty s).Fit (n + 1 ≤ m) b := by
  unfold forBody
  refine (mustWord_fit {} s).bind False.elim fun w s1 h1 => ?_
  split
  · refine (wordlist_fit s1).bind False.elim fun vs s2 h2 => ?_
    refine h.bind (by simp only [Call.size, Call.rank]; omega) fun t s3 h3 => ?_
    simp only [Call.size] at h3
    exact redirs_fit h (by omega) (by omega)
  · trivial

theorem whileBody_fit {n : Nat} {rec : Call → St → Res Op} (h : Fits n rec) {ty : Ty} {s : St} {m b : Nat} (hm : 12 * s.size + 10 < m) (hb : s.size ≤ b) :
    (whileBody rec ty s).Fit (n + 1 ≤ m) b := by
  unfold whileBody
  refine h.bind (by simp only [Call.size, Call.rank]; omega) fun t s1 h1 => ?_
  simp only [Call.size] at h1
  split
  · trivial
  · refine h.bind (by simp only [Call.size, Call.rank]; omega) fun t s3 h3 => ?_
    simp only [Call.size] at h3
    exact redirs_fit h (by omega) (by omega)

theorem cmdBody_fit {n : Nat} {rec : Call → St → Res Op} (h : Fits n rec) (c : Tok) (s : St) :
    (cmdBody cfg o rec c s).Fit (n + 1 ≤ 12 * (s.size + c.size) + 5) (s.size + c.size) := by
  have hu := unget_size c s
  unfold cmdBody
  split <;> simp only [Tok.size] at hu ⊢
  · exact h.call (by simp only [Call.size, Call.rank]; omega) (by simp only [Call.size]; omega)
  · exact h.call (by simp only [Call.size, Call.rank]; omega) (by simp only [Call.size]; omega)
  · exact nested_fit h (by omega) (by omega)
  · exact nested_fit h (by omega) (by omega)
  · refine (mustWord_fit {} s).bind False.elim fun w s1 h1 => ?_
    exact redirs_fit h (by omega) (by omega)
  · refine (dbracket_fit s).bind False.elim fun w s1 h1 => ?_
    exact redirs_fit h (by omega) (by omega)
  · exact forBody_fit h (by omega) (by omega)
  · exact forBody_fit h (by omega) (by omega)
  · exact whileBody_fit h (by omega) (by omega)
  · exact whileBody_fit h (by omega) (by omega)
  · refine (mustWord_fit {} s).bind False.elim fun w s1 h1 => ?_
    have h2 := token_size { contin := true, keyword := true } s1
    split
    · trivial
    · refine h.bind (by simp only [Call.size, Call.rank]; omega) fun t s3 h3 => ?_
      simp only [Call.size] at h3
      exact redirs_fit h (by omega) (by omega)
  · refine h.bind (by simp only [Call.size, Call.rank]; omega) fun t s1 h1 => ?_
    simp only [Call.size] at h1
    refine h.bind (by simp only [Call.size, Call.rank]; omega) fun t s2 h2 => ?_
    simp only [Call.size] at h2
    refine (musthave_fit _ KW s2).bind False.elim fun _ s3 h3 => ?_
    exact redirs_fit h (by omega) (by omega)
  · refine h.bind (by simp only [Call.size, Call.rank]; omega) fun t s1 h1 => ?_
    simp only [Call.size] at h1
    split
    · trivial
    · exact redirs_fit h (by omega) (by omega)
  · refine h.bind (by simp only [Call.size, Call.rank]; omega) fun t s1 h1 => ?_
    simp only [Call.size] at h1
    exact redirs_fit h (by omega) (by omega)
  · refine (mustWord_fit {} s).bind False.elim fun w s1 h1 => ?_
    refine h.bind (by simp only [Call.size, Call.rank]; omega) fun t s2 h2 => ?_
    simp only [Call.size] at h2
    exact redirs_fit h (by omega) (by omega)
  · simp only [Res.Fit]; omega

theorem clistBody_fit {n : Nat} {rec : Call → St → Res Op} (h : Fits n rec) (m : Bool) (acc : List Op) (s : St) :
    (clistBody rec m acc s).Fit (n + 1 ≤ 12 * s.size + 9) s.size := by
  unfold clistBody
  refine h.bind (by simp only [Call.size, Call.rank]; omega) fun p s1 h1 => ?_
  simp only [Call.size] at h1
  have h2 := token_size {} s1
  have hu := unget_size (token {} s1).1 (token {} s1).2
  split
  · rename_i hnl
    rw [hnl.1] at h2
    simp only [Tok.size] at h2
    exact h.call (by simp only [Call.size, Call.rank]; omega) (by simp only [Call.size]; omega)
  · split
    · simp only [Res.Fit]; omega
    · split
      · rename_i heq; rw [heq] at h2; simp only [Tok.size] at h2
        exact h.call (by simp only [Call.size, Call.rank]; omega) (by simp only [Call.size]; omega)
      · rename_i heq; rw [heq] at h2; simp only [Tok.size] at h2
        exact h.call (by simp only [Call.size, Call.rank]; omega) (by simp only [Call.size]; omega)
      · rename_i heq; rw [heq] at h2; simp only [Tok.size] at h2
        exact h.call (by simp only [Call.size, Call.rank]; omega) (by simp only [Call.size]; omega)
      · simp only [Res.Fit]; omega

theorem body_fit {n : Nat} {rec : Call → St → Res Op} (h : Fits n rec) (c : Call) (s : St) :
    (body cfg o rec c s).Fit (n + 1 ≤ 12 * c.size s + c.rank) (c.size s) := by
  have h2 := token_size {} s
  have hu := unget_size (token {} s).1 (token {} s).2
  cases c with
  | clist m acc => exact clistBody_fit h m acc s
  | andor =>
    simp only [body, Call.size, Call.rank]
    refine h.bind (by simp only [Call.size, Call.rank]; omega) fun t s1 h1 => ?_
    simp only [Call.size] at h1
    split
    · exact h1
    · exact h.call (by simp only [Call.size, Call.rank]; omega) (by simp only [Call.size]; omega)
  | andorLoop t =>
    simp only [body, Call.size, Call.rank]
    split
    · rename_i heq
      rw [heq] at h2
      simp only [Tok.size] at h2
      refine h.bind (by simp only [Call.size, Call.rank]; omega) fun t s1 h1 => ?_
      simp only [Call.size] at h1
      split
      · trivial
      · exact h.call (by simp only [Call.size, Call.rank]; omega) (by simp only [Call.size]; omega)
    · rename_i heq
      rw [heq] at h2
      simp only [Tok.size] at h2
      refine h.bind (by simp only [Call.size, Call.rank]; omega) fun t s1 h1 => ?_
      simp only [Call.size] at h1
      split
      · trivial
      · exact h.call (by simp only [Call.size, Call.rank]; omega) (by simp only [Call.size]; omega)
    · simp only [Res.Fit]; omega
  | pipeline c =>
    simp only [body, Call.size, Call.rank]
    refine h.bind (by simp only [Call.size, Call.rank]; omega) fun t s1 h1 => ?_
    simp only [Call.size] at h1
    split
    · exact h1
    · exact h.call (by simp only [Call.size, Call.rank]; omega) (by simp only [Call.size]; omega)
  | pipeLoop acc =>
    simp only [body, Call.size, Call.rank]
    split
    · rename_i heq
      rw [heq] at h2
      simp only [Tok.size] at h2
      refine h.bind (by simp only [Call.size, Call.rank]; omega) fun t s1 h1 => ?_
      simp only [Call.size] at h1
      split
      · trivial
      · exact h.call (by simp only [Call.size, Call.rank]; omega) (by simp only [Call.size]; omega)
    · simp only [Res.Fit]; omega
  | command c =>
    simp only [body, Call.size, Call.rank]
    have h3 := token_size { contin := c, keyword := true } s
    exact h.call (by simp only [Call.size, Call.rank]; omega) (by simp only [Call.size]; omega)
  | cmd c => exact cmdBody_fit (cfg := cfg) h c s
  | simple ev vars args io => exact simpleBody_fit h ev vars args io s
  | redirs kw t =>
    simp only [body, Call.size, Call.rank]
    have h3 := synio_fit { keyword := kw } s
    cases hs : synio { keyword := kw } s with
    | err => trivial
    | out => rw [hs] at h3; exact h3.1.elim
    | ok i s1 =>
      cases i with
      | none => have := h3.1; rw [hs] at this; exact this
      | some i =>
        have := h3.2 i s1 hs
        simp only [Res.bind]
        split
        · trivial
        · exact redirs_fit h (by omega) (by omega)
  | dogroup =>
    simp only [body, Call.size, Call.rank]
    have h3 := token_size { contin := true, keyword := true } s
    cases hc : closeOf .kdo .kdone (token { contin := true, keyword := true } s).1 with
    | none => trivial
    | some k =>
      have h4 : (token { contin := true, keyword := true } s).1.size = 1 := by
        generalize (token { contin := true, keyword := true } s).1 = t at hc
        cases t <;> simp [closeOf] at hc <;> rfl
      simp only
      refine h.bind (by simp only [Call.size, Call.rank]; omega) fun t s1 h1 => ?_
      simp only [Call.size] at h1
      refine (musthave_fit _ KW s1).bind False.elim fun _ s3 h3 => ?_
      simp only [Res.Fit]; omega
  | thenpart =>
    simp only [body, Call.size, Call.rank]
    have h3 := token_size KW s
    cases hm : musthave (.kw .kthen) KW s with
    | err => trivial
    | out => have := musthave_fit (.kw .kthen) KW s; rw [hm] at this; exact this.elim
    | ok u s0 =>
      obtain ⟨ht, rfl⟩ := musthave_inv hm
      rw [ht] at h3
      simp only [Tok.size] at h3
      simp only [Res.bind]
      refine h.bind (by simp only [Call.size, Call.rank]; omega) fun t s1 h1 => ?_
      simp only [Call.size] at h1
      split
      · trivial
      · refine h.bind (by simp only [Call.size, Call.rank]; omega) fun t s4 h4 => ?_
        simp only [Call.size] at h4
        simp only [Res.Fit]; omega
  | elsepart =>
    simp only [body, Call.size, Call.rank]
    have h3 := token_size KW s
    have hu := unget_size (token KW s).1 (token KW s).2
    split
    · rename_i heq
      rw [heq] at h3
      simp only [Tok.size] at h3
      refine h.bind (by simp only [Call.size, Call.rank]; omega) fun t s1 h1 => ?_
      simp only [Call.size] at h1
      split
      · trivial
      · simp only [Res.Fit]; omega
    · rename_i heq
      rw [heq] at h3
      simp only [Tok.size] at h3
      refine h.bind (by simp only [Call.size, Call.rank]; omega) fun t s1 h1 => ?_
      simp only [Call.size] at h1
      refine h.bind (by simp only [Call.size, Call.rank]; omega) fun t s4 h4 => ?_
      simp only [Call.size] at h4
      simp only [Res.Fit]; omega
    · simp only [Res.Fit]; omega
  | cases k acc =>
    simp only [body, Call.size, Call.rank]
    have h3 := tpeek_size { contin := true, keyword := true, esac := true } s
    generalize (tpeek { contin := true, keyword := true, esac := true } s).1 = t0
    generalize (tpeek { contin := true, keyword := true, esac := true } s).2 = s0 at h3
    split
    · refine (musthave_fit _ KW s0).bind False.elim fun _ s3 h3 => ?_
      simp only [Res.Fit]; omega
    · have h4 := token_size { contin := true, keyword := true } s0
      generalize hT : token { contin := true, keyword := true } s0 = tr at h4 ⊢
      obtain ⟨t, s1⟩ := tr
      have hu := unget_size t s1
      simp only at h4
      split
      · rename_i heq
        cases heq
        exact h.call (by simp only [Call.size, Call.rank]; omega) (by simp only [Call.size]; omega)
      · rename_i heq
        cases heq
        exact h.call (by simp only [Call.size, Call.rank]; omega) (by simp only [Call.size]; omega)
  | pats k acc ps =>
    simp only [body, Call.size, Call.rank]
    have h3 := token_size {} s
    cases hm : mustWord {} s with
    | err => trivial
    | out => have := mustWord_fit {} s; rw [hm] at this; exact this.elim
    | ok w s0 =>
      have h5 : s0.size + 1 ≤ s.size := by
        unfold mustWord at hm
        split at hm
        · rename_i heq; cases hm; rw [heq] at h3; exact h3
        · cases hm
      simp only [Res.bind]
      have h4 := token_size {} s0
      have hu := unget_size (token {} s0).1 (token {} s0).2
      split
      · exact h.call (by simp only [Call.size, Call.rank]; omega) (by simp only [Call.size]; omega)
      · refine (musthave_fit _ {} _).bind False.elim fun _ s1 h6 => ?_
        refine h.bind (by simp only [Call.size, Call.rank]; omega) fun t s2 h7 => ?_
        simp only [Call.size] at h7
        have h8 := tpeek_size { contin := true, keyword := true } s2
        split
        · exact h.call (by simp only [Call.size, Call.rank]; omega) (by simp only [Call.size]; omega)
        · refine (musthave_fit _ _ _).bind False.elim fun _ s3 h9 => ?_
          exact h.call (by simp only [Call.size, Call.rank]; omega) (by simp only [Call.size]; omega)
  | funbody w ksh =>
    simp only [body, Call.size, Call.rank]
    split
    · split
      · have h3 := token_size { contin := true, keyword := true } s
        cases hm : musthave (.kw .klbrace) { contin := true, keyword := true } s with
        | err => trivial
        | out => have := musthave_fit (.kw .klbrace) { contin := true, keyword := true } s; rw [hm] at this; exact this.elim
        | ok u s0 =>
          obtain ⟨ht, rfl⟩ := musthave_inv hm
          rw [ht] at h3
          simp only [Tok.size] at h3
          simp only [Res.bind]
          have hu := unget_size (.kw .klbrace) (token { contin := true, keyword := true } s).2
          simp only [Tok.size] at hu
          refine h.bind (by simp only [Call.size, Call.rank]; omega) fun t s1 h1 => ?_
          simp only [Call.size] at h1
          simp only [Res.Fit]; omega
      · refine h.bind (by simp only [Call.size, Call.rank]; omega) fun t s1 h1 => ?_
        simp only [Call.size] at h1
        simp only [Res.Fit]; omega
    · trivial

theorem parse_fit (n : Nat) : Fits n (parse cfg o n) := by
  induction n with
  | zero => intro c s; exact Nat.zero_le _
  | succ n ih => exact body_fit ih

/-- With as much fuel as twelve times the tokens, the parser does not run out of it. -/
theorem parse_ends (n : Nat) (c : Call) (s : St) (h : 12 * c.size s + c.rank < n) : parse cfg o n c s ≠ .out := by
  intro ho
  have := parse_fit (cfg := cfg) (o := o) n c s
  rw [ho] at this
  exact absurd this (by simp only [Res.Fit]; omega)

end Ksh.Syn
