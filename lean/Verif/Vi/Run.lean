import Verif.Vi.Hook
/-!
# Reading a line with the keys the editor can stand
-/

namespace Ksh.Vi

variable {e : Env} {size : Nat} {s s' : Ed}

/-- Every key is one the editor can stand in the state it is typed in: the state it is in when the
keys before have been handled. -/
def PoliteRun (e : Env) (len : Nat) : Nat → Ed → List Char → Prop
  | 0, _, _ => True
  | n+1, s, keys =>
    ∀ c s1 ks, next s keys = some (c, s1, ks) →
      Polite e s1 c ∧ ∀ s2, key e len s1 c = some (.more s2) → PoliteRun e len n s2 ks

theorem next_inv (h : Inv e size s) {keys : List Char} {c : Char} {s1 : Ed} {ks : List Char} (hn : next s keys = some (c, s1, ks)) :
    Inv e size s1 := by
  have hm : ∀ m, Inv e size { s with mac := m } := fun m => ⟨{ h.base with }, h.cm, h.st, h.srch⟩
  simp only [next] at hn
  split at hn
  · split at hn
    · simp only [Option.some.injEq, Prod.mk.injEq] at hn; obtain ⟨_, rfl, _⟩ := hn; exact hm _
    · split at hn
      · cases hn
      · simp only [Option.some.injEq, Prod.mk.injEq] at hn; obtain ⟨_, rfl, _⟩ := hn; exact hm _
  · split at hn
    · cases hn
    · simp only [Option.some.injEq, Prod.mk.injEq] at hn; obtain ⟨_, rfl, _⟩ := hn; exact h

/-- What reading a line may come to. -/
structure OutOk (e : Env) (size : Nat) (o : Out) : Prop where
  line : ∀ l, o = .line l → ∃ t, l = t ++ ['\n'] ∧ t.length < size
  more : ∀ s', o = .more s' → Inv e size s'

theorem key_spec (he : EnvOk e) (h : Inv e size s) {c : Char} (hp : Polite e s c) :
    ∃ o, key e size s c = some o ∧ OutOk e size o := by
  simp only [key]
  split
  · exact ⟨_, rfl, by simp, by simp⟩
  · split
    · split
      · exact ⟨_, rfl, by simp, by simp⟩
      · refine ⟨_, rfl, by simp, ?_⟩
        rintro s' h0; cases h0; exact h
    · obtain ⟨f, s1, g1, g2⟩ := hook_spec he h hp
      simp only [g1]
      cases f with
      | false => refine ⟨_, rfl, by simp, ?_⟩; rintro s' h0; cases h0; exact g2.inv rfl
      | true =>
        obtain ⟨k1, k2⟩ := g2.line rfl
        simp only [finish]
        rw [if_neg (by omega), if_neg (by omega)]
        refine ⟨_, rfl, ?_, by simp⟩
        rintro l h0
        cases h0
        refine ⟨_, rfl, ?_⟩
        rw [Buf.text, List.length_take]
        omega

theorem run_spec (he : EnvOk e) : ∀ (n : Nat) {s : Ed} {keys : List Char}, Inv e size s → PoliteRun e size n s keys →
    ∃ o, run e size n s keys = some o ∧ OutOk e size o := by
  intro n
  induction n with
  | zero => intro s keys h _; refine ⟨_, rfl, by simp, ?_⟩; rintro s' h0; cases h0; exact h
  | succ n ih =>
    intro s keys h hp
    simp only [run]
    cases hn : next s keys with
    | none => refine ⟨_, rfl, by simp, ?_⟩; rintro s' h0; cases h0; exact h
    | some x =>
      obtain ⟨c, s1, ks⟩ := x
      obtain ⟨p1, p2⟩ := hp c s1 ks hn
      obtain ⟨o, g1, g2⟩ := key_spec he (next_inv h hn) p1
      simp only [g1]
      cases o with
      | more s2 => exact ih (g2.more s2 rfl) (p2 s2 g1)
      | line l => exact ⟨_, rfl, g2⟩
      | eof => exact ⟨_, rfl, g2⟩
      | intr => exact ⟨_, rfl, g2⟩

/-- What the editor finds when a line is begun: the buffers have the sizes they are declared with,
and no search was interrupted. -/
structure OldOk (e : Env) (size : Nat) (old : Ed) : Prop where
  undo : size ≤ old.undo.mem.length
  big : 160 ≤ size
  cap : size ≤ e.cap
  ibuf : old.ibuf.length = e.cap
  ins : old.inslen ≤ e.cap
  loc : old.locpat.length = 40
  cmd : old.cmd.length = 3
  last : old.lastcmd.length = 3
  lv : old.lastcmd.headD '\x00' ≠ 'v'
  xb : ∀ b, old.xbuf = some b → b.Ok size
  cb : ∀ b, old.cbuf = some b → b.Ok size
  srch : old.srchlen = 0

theorem reset_inv {old : Ed} {buf : List Char} (h : OldOk e buf.length old) : Inv e buf.length (reset e old buf) := by
  have hb := h.big
  refine Inv.normal ⟨⟨rfl, Nat.le_refl _, by show 0 < _; omega⟩, ⟨?_, Nat.le_refl _, by show 0 < _; omega⟩, h.big, h.cap, h.ibuf, Nat.zero_le _,
    h.ins, h.loc, h.cmd, h.last, h.lv, by show 0 < _; omega, rfl, h.xb, h.cb⟩ (fun h => nomatch h) rfl h.srch
  simp only [reset, List.length_take]
  have := h.undo
  omega

/-- What is left of the editor when a line is done serves for the next one. -/
theorem Inv.old (h : Inv e size s) (hs : s.state ≠ .search) : OldOk e size s :=
  ⟨by rw [h.base.undo.mem]; exact Nat.le_refl _, h.base.big, h.base.cap, h.base.ibuf, h.base.ins, h.base.loc, h.base.cmd, h.base.last, h.base.lv,
    h.base.xb, h.base.cb, h.srch hs⟩

/-! ## Deciding it -/

def headB (e : Env) (m : List Char) : Bool := (m[0]?).all (fun c => !cont e c)

theorem headB_ok {m : List Char} (h : headB e m = true) : HeadOk e m := by
  intro c hc
  simp only [headB, hc, Option.all_some, Bool.not_eq_true'] at h
  exact h

instance (c : Char) : Decidable (isComp c) := by unfold isComp; infer_instance

/-- A check for `Polite`. -/
def politeB (e : Env) (s : Ed) (ch : Char) : Bool :=
  (s.state == .search || headB e s.es.mem) && headB e s.ibuf && (s.mode == .cmd || decide (s.inslen < e.cap)) &&
  !(decide (s.mode = .rep) && decide (some ch = e.erase ∨ ch = '\x08') && decide (s.es.cur ≠ s.undo.cur) && decide (s.es.cur = 0)) &&
  (!(isSrch ch && decide (s.mode = .cmd) && decide (s.state = .normal ∨ s.state = .arg1)) || decide (s.state = .normal ∧ (ch = '/' ∨ ch = '?'))) &&
  (!(decide (s.mode = .cmd) && decide (ch = 'a' ∨ (ch = '.' ∧ s.lastcmd.headD '\x00' = 'a'))) || (s.es.mem[s.es.len]?).any (fun c => !cont e c)) &&
  !(decide (s.mode = .cmd) && decide (s.es.len = 0) &&
    (decide (s.cmd.headD '\x00' = 'c') && decide (s.state = .ext ∨ s.state = .arg2) && decide (ch = 'w' ∨ ch = 'W') ||
     decide (ch = '.') && decide (s.lastcmd.headD '\x00' = 'c') && decide (s.lastcmd.getD 1 '\x00' = 'w' ∨ s.lastcmd.getD 1 '\x00' = 'W'))) &&
  (decide (ch ≠ '.') || e.show8 || decide (¬ isComp (s.lastcmd.headD '\x00')))

theorem politeB_ok {ch : Char} (h : politeB e s ch = true) : Polite e s ch := by
  simp only [politeB, Bool.and_eq_true, Bool.or_eq_true, Bool.not_eq_true', Bool.and_eq_false_iff, Bool.or_eq_false_iff, beq_iff_eq,
    decide_eq_true_eq, decide_eq_false_iff_not, ne_eq, Decidable.not_not] at h
  obtain ⟨⟨⟨⟨⟨⟨⟨h1, h2⟩, h3⟩, h4⟩, h5⟩, h6⟩, h7⟩, h8⟩ := h
  refine ⟨fun hs => headB_ok (h1.resolve_left hs), headB_ok h2, fun hm => h3.resolve_left hm, fun hm hc => ?_, fun hm hs hi => ?_, fun hm hc => ?_, fun hm h0 => ?_, fun hc => ?_⟩
  · by_cases h : s.es.cur = s.undo.cur
    · exact .inl h
    · refine .inr fun h0 => ?_
      rcases h4 with ((h4 | h4) | h4) | h4
      · exact h4 hm
      · exact h4 hc
      · exact h h4
      · exact h4 h0
  · rcases h5 with h5 | h5
    · exfalso
      rcases h5 with (h5 | h5) | h5
      · rw [hi] at h5; cases h5
      · exact h5 hm
      · exact h5 hs
    · exact h5
  · rcases h6 with h6 | h6
    · exfalso
      rcases h6 with h6 | h6
      · exact h6 hm
      · exact h6 hc
    · cases hg : s.es.mem[s.es.len]? with
      | none => rw [hg] at h6; cases h6
      | some d => rw [hg] at h6; exact ⟨d, rfl, by simpa using h6⟩
  · rcases h7 with (h7 | h7) | ⟨h7, h9⟩
    · exact absurd hm h7
    · exact absurd h0 h7
    · refine ⟨fun hc hs => ?_, fun hc hl => ?_⟩
      · rcases h7 with (h7 | h7) | h7
        · exact absurd hc h7
        · exact absurd hs h7
        · exact ⟨fun h => h7 (.inl h), fun h => h7 (.inr h)⟩
      · rcases h9 with (h9 | h9) | h9
        · exact absurd hc h9
        · exact absurd hl h9
        · exact ⟨fun h => h9 (.inl h), fun h => h9 (.inr h)⟩
  · rcases h8 with (h8 | h8) | h8
    · exact absurd hc h8
    · exact .inl h8
    · exact .inr h8

def politeRunB (e : Env) (len : Nat) : Nat → Ed → List Char → Bool
  | 0, _, _ => true
  | n+1, s, keys =>
    match next s keys with
    | none => true
    | some (c, s1, ks) =>
      politeB e s1 c &&
        match key e len s1 c with
        | some (.more s2) => politeRunB e len n s2 ks
        | _ => true

theorem politeRunB_ok {len : Nat} : ∀ (n : Nat) {s : Ed} {keys : List Char}, politeRunB e len n s keys = true → PoliteRun e len n s keys := by
  intro n
  induction n with
  | zero => intro s keys _; trivial
  | succ n ih =>
    intro s keys h c s1 ks hn
    simp only [politeRunB, hn, Bool.and_eq_true] at h
    refine ⟨politeB_ok h.1, fun s2 hk => ih ?_⟩
    have := h.2
    rw [hk] at this
    exact this

end Ksh.Vi
