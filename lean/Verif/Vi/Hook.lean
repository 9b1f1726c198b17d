import Verif.Vi.Step
/-!
# Keys, and a whole line
-/

namespace Ksh.Vi

variable {e : Env} {size : Nat} {s s' : Ed}

/-- The columns a pattern takes. -/
def width (e : Env) (l : List Char) : Nat := (l.map (charLen e)).sum

/-- What is known in each state of the editor. -/
def StOk (e : Env) (s : Ed) : Prop :=
  match s.state with
  | .normal => True
  | .lit => s.mode ≠ .cmd ∧ s.es.cur < s.es.len
  | .arg1 => s.mode = .cmd ∧ s.cmdlen = 0
  | .ext | .arg2 => s.mode = .cmd ∧ s.cmdlen = 1 ∧ isExtend (s.cmd.headD '\x00') = true
  | .xch => s.mode = .cmd ∧ ((s.cmdlen = 1 ∧ isLong (s.cmd.headD '\x00') = true) ∨
      (s.cmdlen = 2 ∧ isExtend (s.cmd.headD '\x00') = true ∧ isLong (s.cmd.getD 1 '\x00') = true))
  | .search => s.mode = .cmd ∧ s.srchlen ≤ 39 ∧ s.es.len = 1 + width e (s.locpat.take s.srchlen) ∧
      (s.cmd.headD '\x00' = '/' ∨ s.cmd.headD '\x00' = '?')
  | _ => False

/-- What holds between two keys. -/
structure Inv (e : Env) (size : Nat) (s : Ed) : Prop where
  base : Base e size s
  cm : s.mode = .cmd → s.state ≠ .search → Cm s.es
  st : StOk e s
  srch : s.state ≠ .search → s.srchlen = 0

/-- The keys the editor can stand, in the state `s`. -/
structure Polite (e : Env) (s : Ed) (ch : Char) : Prop where
  /-- no line that begins in the middle of a character -/
  head : s.state ≠ .search → HeadOk e s.es.mem
  /-- no insertion that begins in the middle of a character -/
  ihead : HeadOk e s.ibuf
  /-- what is inserted fits into the buffer for repeating it -/
  room : s.mode ≠ .cmd → s.inslen < e.cap
  /-- erasing in a replacement stops where the line begins -/
  rep : s.mode = .rep → some ch = e.erase ∨ ch = '\x08' → s.es.cur = s.undo.cur ∨ s.es.cur ≠ 0
  /-- no count in front of a search, and a search begins with `/` or `?` -/
  srch : s.mode = .cmd → s.state = .normal ∨ s.state = .arg1 → isSrch ch = true → s.state = .normal ∧ (ch = '/' ∨ ch = '?')
  /-- behind the line there is no continuation byte when appending -/
  app : s.mode = .cmd → ch = 'a' ∨ (ch = '.' ∧ s.lastcmd.headD '\x00' = 'a') → ∃ d, s.es.mem[s.es.len]? = some d ∧ cont e d = false
  /-- no `cw` on an empty line -/
  cw : s.mode = .cmd → s.es.len = 0 →
    (s.cmd.headD '\x00' = 'c' → s.state = .ext ∨ s.state = .arg2 → ch ≠ 'w' ∧ ch ≠ 'W') ∧
    (ch = '.' → s.lastcmd.headD '\x00' = 'c' → s.lastcmd.getD 1 '\x00' ≠ 'w' ∧ s.lastcmd.getD 1 '\x00' ≠ 'W')
  /-- no repetition of a completion, unless bytes are characters -/
  redo : ch = '.' → e.show8 = true ∨ ¬ isComp (s.lastcmd.headD '\x00')

/-- What one key comes to. -/
structure After (e : Env) (size : Nat) (fin : Bool) (s' : Ed) : Prop where
  line : fin = true → s'.es.mem.length = size ∧ s'.es.len < size
  inv : fin = false → Inv e size s'

theorem Inv.after (h : Inv e size s) (f : Bool) : After e size f s := ⟨fun _ => ⟨h.base.es.mem, h.base.es.len⟩, fun _ => h⟩

theorem Inv.normal (hb : Base e size s) (hc : s.mode = .cmd → Cm s.es) (hs : s.state = .normal) (hr : s.srchlen = 0) : Inv e size s :=
  ⟨hb, fun h _ => hc h, by simp [StOk, hs], fun _ => hr⟩

theorem vcmd_spec (he : EnvOk e) (h : Base e size s) (hm : s.mode = .cmd) (hc : Cm s.es) (hst : s.state = .vcmd)
    (hok : CmdOk e s s.cmd) (hs : s.srchlen = 0 ∨ s.cmd.headD '\x00' = '/' ∨ s.cmd.headD '\x00' = '?') :
    ∃ f s', hookEnd e s = some (f, s') ∧ After e size f s' := by
  obtain ⟨r, s1, g1, g2⟩ := viCmd_spec he (s := { s with state := .normal }) { h with } hm hc s.argc1 h.cmd
    ⟨hok.mv, hok.app, hok.cw⟩
  simp only [hookEnd, hst, g1]
  have hst' : s1.state = .normal := congrArg Prod.fst g2.state
  have hr : s1.srchlen = 0 := by
    rcases hs with hs | hs
    · rcases g2.srch with h | h
      · exact h.trans hs
      · exact h
    · exact g2.srch0 hs
  cases r with
  | fail =>
    exact ⟨_, _, rfl, (Inv.normal (g2.base (.inr (by simp))).err (fun hm => g2.cm hm (.inr (by simp))) hst' hr).after _⟩
  | ok =>
    have hi := Inv.normal (g2.base (.inr (by simp))) (fun hm => g2.cm hm (.inr (by simp))) hst' hr
    simp only
    split
    · next hmd =>
      exact ⟨_, _, rfl, (Inv.normal (s := { s1 with inslen := 0 }) { hi.base with ins := Nat.zero_le _ } (fun hm => absurd hm hmd) hst' hr).after _⟩
    · exact ⟨_, _, rfl, hi.after _⟩
  | done => exact ⟨_, _, rfl, fun _ => ⟨g2.mem, g2.len⟩, by simp⟩
  | edit => exact ⟨_, _, rfl, fun _ => ⟨g2.mem, g2.len⟩, by simp⟩

theorem redo_spec (he : EnvOk e) (h : Base e size s) (hm : s.mode = .cmd) (hc : Cm s.es) (hst : s.state = .redo)
    (hok : CmdOk e s s.lastcmd) (hs : s.srchlen = 0) (hh : HdOk e s (s.lastcmd.headD '\x00')) (hi : HeadOk e s.ibuf) :
    ∃ f s', hookEnd e s = some (f, s') ∧ After e size f s' := by
  obtain ⟨r, s1, g1, g2⟩ := viCmd_spec he
    (s := { s with state := .normal, lastac := if s.argc1 ≠ 0 then s.argc1 else s.lastac }) { h with } hm hc
    (if s.argc1 ≠ 0 then s.argc1 else s.lastac) (cmd := s.lastcmd) h.last ⟨hok.mv, hok.app, hok.cw⟩
  simp only [hookEnd, hst, g1]
  have hb := g2.base (.inl h.lv)
  have hcm := fun hm => g2.cm hm (.inl h.lv)
  have hst' : s1.state = .normal := congrArg Prod.fst g2.state
  have hr : s1.srchlen = 0 := by
    rcases g2.srch with h | h
    · exact h.trans hs
    · exact h
  have hn := Inv.normal hb hcm hst' hr
  cases r with
  | fail => exact ⟨_, _, rfl, (Inv.normal hb.err hcm hst' hr).after _⟩
  | ok =>
    simp only
    split
    · next hmd =>
      obtain ⟨r2, s2, k1, k2, k3, k4, k5, k6⟩ := redoInsert_spec hb (show HeadOk e s1.ibuf by rw [show s1.ibuf = s.ibuf from congrArg Prod.snd g2.state]; exact hi) (fun h0 => g2.head hh hmd h0)
        (if "scC".toList.contains (s1.lastcmd.headD '\x00') then 1 else s1.lastac)
      simp only [k1]
      cases r2 with
      | false =>
        exact ⟨_, _, rfl, (Inv.normal k2.err (fun hm => absurd ((k6 rfl).symm.trans hm) hmd) (k3.trans hst') (k4.trans hr)).after _⟩
      | true => exact ⟨_, _, rfl, (Inv.normal k2 (fun _ => (k5 rfl).2) (k3.trans hst') (k4.trans hr)).after _⟩
    · exact ⟨_, _, rfl, hn.after _⟩
  | done => exact ⟨_, _, rfl, hn.after _⟩
  | edit => exact ⟨_, _, rfl, hn.after _⟩

theorem headD_set (l : List Char) (hl : l.length = 3) (c : Char) : (l.set 0 c).headD '\x00' = c := by
  cases l with
  | nil => simp at hl
  | cons a l => simp

theorem headD_set_succ (l : List Char) (i : Nat) (c : Char) : (l.set (i + 1) c).headD '\x00' = l.headD '\x00' := by
  cases l <;> simp

theorem getD_set (l : List Char) {i : Nat} (hl : i < l.length) (c : Char) : (l.set i c).getD i '\x00' = c := by
  simp [List.getD, hl]

theorem getD_set_ne (l : List Char) {i k : Nat} (h : i ≠ k) (c : Char) : (l.set i c).getD k '\x00' = l.getD k '\x00' := by
  simp [List.getD, h]

theorem addCmd_spec (h : s.cmd.length = 3) (hl : s.cmdlen < 3) (ch : Char) :
    addCmd s ch = some { s with cmd := s.cmd.set s.cmdlen ch, cmdlen := s.cmdlen + 1 } := by
  simp only [addCmd]
  rw [if_neg (by omega)]

theorem isExt {c : Char} (h : isExtend c = true) : low c = 'c' ∨ low c = 'd' ∨ low c = 'y' := by
  simp only [isExtend, List.contains_eq_mem, decide_eq_true_eq] at h
  rw [show "cdy".toList = ['c', 'd', 'y'] by decide] at h
  simpa using h

theorem isExtend_kind {c : Char} (h : isExtend c = true) : ckind c ≠ .a := by
  intro hk; rw [ckind_a hk] at h; exact absurd h (by decide)

theorem isLong_kind {c : Char} (h : isLong c = true) : ckind c ≠ .op ∧ ckind c ≠ .a ∧ ckind c ≠ .Y ∧ c ≠ 'c' := by
  refine ⟨fun hk => ?_, fun hk => ?_, fun hk => ?_, fun hk => ?_⟩
  · rcases ckind_op hk with h' | h' | h' <;> rw [h'] at h <;> exact absurd h (by decide)
  · rw [ckind_a hk] at h; exact absurd h (by decide)
  · rw [ckind_Y hk] at h; exact absurd h (by decide)
  · rw [hk] at h; exact absurd h (by decide)

/-- A key of command mode that ends a command or begins its next part: what `nextstate` leads to. -/
theorem next_spec (he : EnvOk e) (h : Base e size s) (hm : s.mode = .cmd) (hc : Cm s.es) (hr : s.srchlen = 0) (hh : HeadOk e s.es.mem)
    (hi : HeadOk e s.ibuf) {ch : Char} (hst : s.state = nextstate ch) (hcmd : s.cmd.headD '\x00' = ch) (hlen : s.cmdlen = 1)
    (hns : isSrch ch = false)
    (happ : ch = 'a' ∨ (ch = '.' ∧ s.lastcmd.headD '\x00' = 'a') → ∃ d, s.es.mem[s.es.len]? = some d ∧ cont e d = false)
    (hcw : s.es.len = 0 → ch = '.' → s.lastcmd.headD '\x00' = 'c' → s.lastcmd.getD 1 '\x00' ≠ 'w' ∧ s.lastcmd.getD 1 '\x00' ≠ 'W')
    (hredo : ch = '.' → e.show8 = true ∨ ¬ isComp (s.lastcmd.headD '\x00')) :
    ∃ f s', hookEnd e s = some (f, s') ∧ After e size f s' := by
  simp only [nextstate] at hst
  by_cases h1 : isExtend ch = true
  · rw [if_pos h1] at hst
    simp only [hookEnd, hst]
    exact ⟨_, _, rfl, Inv.after ⟨h, fun _ _ => hc, by simp only [StOk, hst]; exact ⟨hm, hlen, by rw [hcmd]; exact h1⟩, fun _ => hr⟩ _⟩
  · rw [if_neg h1, if_neg (by simp [hns])] at hst
    by_cases h2 : isLong ch = true
    · rw [if_pos h2] at hst
      simp only [hookEnd, hst]
      exact ⟨_, _, rfl, Inv.after ⟨h, fun _ _ => hc, by simp only [StOk, hst]; exact ⟨hm, .inl ⟨hlen, by rw [hcmd]; exact h2⟩⟩, fun _ => hr⟩ _⟩
    · rw [if_neg h2] at hst
      by_cases h3 : ch = '.'
      · rw [if_pos h3] at hst
        refine redo_spec he h hm hc hst ⟨fun _ => hh, fun hk => happ (.inr ⟨h3, ckind_a hk⟩), fun h4 h5 h6 => ?_⟩ hr ⟨hh, hredo h3⟩ hi
        have := hcw h6 h3 h4
        rcases h5 with h5 | h5
        · exact this.1 h5
        · exact this.2 h5
      · rw [if_neg h3] at hst
        by_cases h4 : isCmd ch = true
        · rw [if_pos h4] at hst
          refine vcmd_spec he h hm hc hst ⟨fun _ => hh, fun hk => happ (.inl (hcmd ▸ ckind_a hk)), fun h5 => ?_⟩ (.inl hr)
          rw [hcmd] at h5
          rw [h5] at h1
          exact absurd (by decide) h1
        · rw [if_neg h4] at hst
          simp only [hookEnd, hst]
          exact ⟨_, _, rfl, (Inv.normal (s := err { s with state := .normal }) { h with } (fun _ => hc) rfl hr).after _⟩

theorem extKey_spec (he : EnvOk e) (h : Base e size s) (hm : s.mode = .cmd) (hc : Cm s.es) (hr : s.srchlen = 0) (hh : HeadOk e s.es.mem)
    (hlen : s.cmdlen = 1) (hx : isExtend (s.cmd.headD '\x00') = true) {ch : Char}
    (hcw : s.es.len = 0 → s.cmd.headD '\x00' = 'c' → ch ≠ 'w' ∧ ch ≠ 'W') :
    ∃ f s', extKey e s ch = some (f, s') ∧ After e size f s' := by
  simp only [extKey]
  rw [addCmd_spec h.cmd (by omega)]
  simp only [hlen]
  have hhd : (s.cmd.set 1 ch).headD '\x00' = s.cmd.headD '\x00' := headD_set_succ _ _ _
  have hg1 : (s.cmd.set 1 ch).getD 1 '\x00' = ch := getD_set _ (by rw [h.cmd]; omega) _
  rw [hhd]
  have hcl : (s.cmd.set 1 ch).length = 3 := by rw [List.length_set, h.cmd]
  have vc : ∀ s1 : Ed, s1 = { s with cmd := s.cmd.set 1 ch, cmdlen := 1 + 1, state := .vcmd } →
      ∃ f s', hookEnd e s1 = some (f, s') ∧ After e size f s' := by
    rintro s1 rfl
    refine vcmd_spec he { h with cmd := hcl } hm hc rfl ⟨fun _ => hh, fun hk => ?_, fun h4 h5 h6 => ?_⟩ (.inl hr)
    · simp only [hhd] at hk
      exact absurd hk (isExtend_kind hx)
    · simp only [hhd, hg1] at h4 h5
      have := hcw h6 h4
      rcases h5 with h5 | h5
      · exact this.1 h5
      · exact this.2 h5
  split
  · exact vc _ rfl
  · split
    · next hmv =>
      generalize hns : nextstate ch = ns
      simp only [nextstate] at hns
      have hne : isExtend ch = false ∧ isSrch ch = false ∧ ch ≠ '.' := by
        simp only [isMove, isSrch] at hmv ⊢
        refine ⟨?_, ?_, ?_⟩
        · apply Decidable.byContradiction; intro h
          rw [Bool.not_eq_false] at h
          have : low ch = 'c' ∨ low ch = 'd' ∨ low ch = 'y' := isExt h
          rcases this with h | h | h <;> rw [h] at hmv <;> exact absurd hmv (by decide)
        · apply Decidable.byContradiction; intro h
          rw [Bool.not_eq_false] at h
          have : low ch = '/' ∨ low ch = '?' := by simpa only [Bool.or_eq_true, beq_iff_eq] using h
          rcases this with h | h <;> rw [h] at hmv <;> exact absurd hmv (by decide)
        · rintro rfl; exact absurd hmv (by decide)
      rw [if_neg (by simp [hne.1]), if_neg (by simp [hne.2.1])] at hns
      by_cases h2 : isLong ch = true
      · rw [if_pos h2] at hns
        subst hns
        simp only [hookEnd]
        refine ⟨_, _, rfl, ?_⟩
        apply Inv.after
        refine ⟨{ h with cmd := hcl }, fun _ _ => hc, ?_, fun _ => hr⟩
        simp only [StOk]
        exact ⟨hm, .inr ⟨trivial, by rw [hhd]; exact hx, by rw [hg1]; exact h2⟩⟩
      · rw [if_neg h2, if_neg hne.2.2, if_pos (by simp [isCmd, hmv])] at hns
        subst hns
        exact vc _ rfl
    · simp only [hookEnd]
      exact ⟨_, _, rfl, (Inv.normal (s := err { s with cmd := s.cmd.set 1 ch, cmdlen := 1 + 1, state := .normal }) { h with cmd := hcl } (fun _ => hc) rfl hr).after _⟩

theorem insert_spec (he : EnvOk e) (h : Base e size s) (hm : s.mode ≠ .cmd) (hi : HeadOk e s.ibuf) (hh : HeadOk e s.es.mem)
    (hroom : s.inslen < e.cap) {ch : Char} (hrep : s.mode = .rep → some ch = e.erase ∨ ch = '\x08' → s.es.cur = s.undo.cur ∨ s.es.cur ≠ 0) :
    ∃ r s', insert e s ch = some (r, s') ∧ InsPost e size s s' ∧
      (ch = '^' → r = .ok → s'.mode ≠ .cmd ∧ s'.es.cur = s.es.cur + 1) := by
  simp only [insert]
  have hat : ∀ {o : Option Char}, o ≠ some '^' → some ch = o → ch ≠ '^' := by rintro o h rfl rfl; exact h rfl
  split
  · next hc =>
    obtain ⟨s', g1, g2⟩ := insErase_spec h hm (fun hr => hrep hr hc)
    simp only [g1, Option.map_some]
    refine ⟨_, _, rfl, g2, fun h => ?_⟩
    rcases hc with hc | hc
    · exact absurd h (hat he.erase hc)
    · rw [hc] at h; exact absurd h (by decide)
  · split
    · next hc =>
      obtain ⟨s', g1, g2⟩ := insKill_spec h hm
      simp only [g1, Option.map_some]
      exact ⟨_, _, rfl, g2, fun h => absurd h (hat he.kill hc)⟩
    · split
      · next hc =>
        obtain ⟨s', g1, g2⟩ := insWerase_spec h hm
        simp only [g1, Option.map_some]
        exact ⟨_, _, rfl, g2, fun h => absurd h (hat he.werase hc)⟩
      · exact insKey_spec he h hm hi hh hroom ch

theorem hookInsert_spec (he : EnvOk e) (h : Inv e size s) (hst : s.state = .normal) (hm : s.mode ≠ .cmd) {ch : Char} (hp : Polite e s ch) :
    ∃ f s', hookInsert e s ch = some (f, s') ∧ After e size f s' := by
  have hr := h.srch (by simp [hst])
  have hhd := hp.head (by simp [hst])
  simp only [hookInsert]
  by_cases hv : ch = ctrl 'v'
  · simp only [if_pos hv]
    obtain ⟨r, s1, g1, g2, g3⟩ := insert_spec he (s := { s with state := .lit }) { h.base with } hm hp.ihead hhd (hp.room hm) (ch := '^')
      (by rintro _ (h | h)
          · exact absurd h.symm he.erase
          · exact absurd h (by decide))
    have hst1 : s1.state = .lit := g2.keep.state
    have hr1 : s1.srchlen = 0 := g2.keep.srch.trans hr
    simp only [g1]
    have hb := g2.base
    cases r with
    | fail => exact ⟨_, _, rfl, (Inv.normal (s := err { s1 with state := .normal }) { hb with } g2.mode rfl hr1).after _⟩
    | ok =>
      obtain ⟨m1, c1⟩ := g3 rfl rfl
      simp only at c1
      simp only
      rw [if_pos hst1, if_neg (by omega)]
      have := hb.es.cur
      refine ⟨_, _, rfl, ?_⟩
      apply Inv.after
      refine ⟨hb.setCur (by omega), fun hm _ => absurd hm m1, ?_, fun _ => hr1⟩
      simp only [StOk, setCur, hst1]
      exact ⟨m1, by omega⟩
    | done => exact ⟨_, _, rfl, fun _ => ⟨hb.es.mem, hb.es.len⟩, by simp⟩
    | edit => exact ⟨_, _, rfl, fun _ => ⟨hb.es.mem, hb.es.len⟩, by simp⟩
  · simp only [if_neg hv]
    obtain ⟨r, s1, g1, g2, g3⟩ := insert_spec he h.base hm hp.ihead hhd (hp.room hm) (ch := ch) hp.rep
    have hst1 : s1.state = .normal := g2.keep.state.trans hst
    have hr1 : s1.srchlen = 0 := g2.keep.srch.trans hr
    simp only [g1]
    have hb := g2.base
    cases r with
    | fail => exact ⟨_, _, rfl, (Inv.normal (s := err { s1 with state := .normal }) { hb with } g2.mode rfl hr1).after _⟩
    | ok =>
      simp only
      rw [if_neg (by simp [hst1])]
      exact ⟨_, _, rfl, (Inv.normal hb g2.mode hst1 hr1).after _⟩
    | done => exact ⟨_, _, rfl, fun _ => ⟨hb.es.mem, hb.es.len⟩, by simp⟩
    | edit => exact ⟨_, _, rfl, fun _ => ⟨hb.es.mem, hb.es.len⟩, by simp⟩

theorem startSearch_spec (h : Base e size s) (hm : s.mode = .cmd) (hr : s.srchlen = 0) (hst : s.state = .search) {ch : Char}
    (hcmd : s.cmd.headD '\x00' = '/' ∨ s.cmd.headD '\x00' = '?') :
    ∃ f s', startSearch e s ch = some (f, s') ∧ After e size f s' := by
  have hb := h.big
  simp only [startSearch, saveCbuf_spec h]
  obtain ⟨r, b, g1, g2, g3, g4, g5, g6, _⟩ := put_spec (size := size)
    (s := { s with hold := s.es.text, holdS := cstr s.es.text, es := { s.es with cur := 0, len := 0 } }) ⟨h.es.mem, by simp, by simp; omega⟩
    [if ch = '/' then '/' else '?']
  simp only [g1]
  have hr1 : r = true := g4.2 (.inr (by simp; omega))
  subst hr1
  obtain ⟨t1, t2, t3⟩ := g6 rfl
  refine ⟨_, _, rfl, ?_⟩
  apply Inv.after
  refine ⟨{ h with es := g2, hold := by simp only; rw [h.es.text_len]; exact h.es.len }, by simp [hst], ?_, by simp [hst]⟩
  simp only [StOk, hst]
  refine ⟨hm, by omega, ?_, hcmd⟩
  simp only at t3
  simp [hr, width, t3]

theorem hookCommand_spec (he : EnvOk e) (h : Inv e size s) (hst : s.state = .normal) (hm : s.mode = .cmd) {ch : Char} (hp : Polite e s ch) :
    ∃ f s', hookCommand e s ch = some (f, s') ∧ After e size f s' := by
  have hr := h.srch (by simp [hst])
  have hc := h.cm hm (by simp [hst])
  simp only [hookCommand]
  split
  · exact ⟨_, _, rfl, h.after _⟩
  · split
    · refine ⟨_, _, rfl, ?_⟩
      apply Inv.after
      refine ⟨{ h.base with }, fun _ _ => hc, ?_, fun _ => hr⟩
      simp only [StOk]; exact ⟨hm, trivial⟩
    · rw [addCmd_spec (s := { s with cmdlen := 0, argc1 := 0 }) h.base.cmd (by simp)]
      simp only
      have hcl : (s.cmd.set 0 ch).length = 3 := by rw [List.length_set, h.base.cmd]
      have hhd := headD_set s.cmd h.base.cmd ch
      split
      · next hn =>
        have hs : isSrch ch = true := by
          simp only [nextstate] at hn
          by_cases hx : isSrch ch = true
          · exact hx
          · exfalso
            rw [if_neg hx] at hn
            repeat' split at hn
            all_goals cases hn
        have := (hp.srch hm (.inl hst) hs).2
        refine startSearch_spec (s := { s with cmdlen := 0 + 1, argc1 := 0, cmd := s.cmd.set 0 ch, state := .search }) ?_ hm hr rfl ?_
        · exact { h.base with cmd := hcl }
        · simp only [hhd]; exact this
      · next hn =>
        have hs : isSrch ch = false := by
          apply Decidable.byContradiction
          intro hx
          have hx' : isSrch ch = true := by simpa using hx
          have hc := (hp.srch hm (.inl hst) hx').2
          rcases hc with rfl | rfl <;> exact hn (by decide)
        exact next_spec he { h.base with cmd := hcl } hm hc hr (hp.head (by simp [hst])) hp.ihead rfl hhd rfl hs (hp.app hm)
          (fun h0 h1 => (hp.cw hm h0).2 h1) hp.redo

theorem hookLit_spec (h : Inv e size s) (hst : s.state = .lit) (ch : Char) :
    ∃ f s', hookLit s ch = some (f, s') ∧ After e size f s' := by
  have hr := h.srch (by simp [hst])
  have hs := h.st
  simp only [StOk, hst] at hs
  have hb := h.base
  have hl := hb.es.len; have hml := hb.es.mem
  simp only [hookLit]
  split
  · obtain ⟨b, g1, g2, g3, g4, _⟩ := del_spec (s := s) hb.es (x := s.es.cur) (y := s.es.cur + 1) (by omega) (by omega)
    simp only [g1, Option.map_some]
    exact ⟨_, _, rfl, (Inv.normal (s := err { s with es := b, state := .normal })
      { hb with es := ⟨g2, show b.cur ≤ b.len by omega, show b.len < size by omega⟩ } (fun hm => absurd hm hs.1) rfl hr).after _⟩
  · rw [memput_ok (by simp; omega)]
    refine ⟨_, _, rfl, ?_⟩
    apply Inv.after
    refine Inv.normal { hb with es := ⟨?_, show s.es.cur + 1 ≤ s.es.len by omega, hl⟩ } (fun hm => absurd hm hs.1) rfl hr
    simp only
    rw [memput_len (by simp; omega), hml]

/-! ## Searching -/

theorem width_take_succ (pat : List Char) {n : Nat} {c : Char} (h : pat[n]? = some c) :
    width e (pat.take (n + 1)) = width e (pat.take n) + charLen e c := by
  rw [List.take_add_one, h]
  simp [width]

theorem charLen_le (e : Env) (c : Char) : charLen e c ≤ 4 := by
  simp only [charLen]; split <;> split <;> omega

theorem width_le (l : List Char) : width e l ≤ 4 * l.length := by
  induction l with
  | nil => simp [width]
  | cons c l ih =>
    have := charLen_le e c
    simp only [width, List.map_cons, List.sum_cons, List.length_cons] at *
    omega

theorem shown_len (ch : Char) : (shown e ch).length = charLen e ch := by
  simp only [shown, charLen]
  split <;> split <;> simp

theorem srchErase_spec (pat : List Char) (hl : pat.length = 40) : ∀ (n l : Nat), n ≤ 39 → l = 1 + width e (pat.take n) →
    ∃ n' l', srchErase e pat n l = some (n', l') ∧ n' ≤ n ∧ l' = 1 + width e (pat.take n') := by
  intro n
  induction n with
  | zero => intro l _ h; exact ⟨0, l, rfl, by omega, h⟩
  | succ n ih =>
    intro l hn h
    obtain ⟨c, hc⟩ := get_some (l := pat) (i := n) (by omega)
    rw [width_take_succ pat hc] at h
    simp only [srchErase, hc]
    rw [if_neg (by omega)]
    split
    · obtain ⟨n', l', g1, g2, g3⟩ := ih (l - charLen e c) (by omega) (by omega)
      exact ⟨n', l', g1, by omega, g3⟩
    · exact ⟨n, _, rfl, by omega, by omega⟩

theorem srchShrink_spec (pat : List Char) (hl : pat.length = 40) (n : Nat) : ∀ (i l : Nat), n ≤ i → i ≤ 39 → l = 1 + width e (pat.take i) →
    ∃ l', srchShrink e pat n i l = some l' ∧ l' = 1 + width e (pat.take n) := by
  intro i
  induction i with
  | zero =>
    intro l hn _ h
    obtain rfl : n = 0 := by omega
    exact ⟨l, rfl, h⟩
  | succ i ih =>
    intro l hn hi h
    simp only [srchShrink]
    split
    · obtain rfl : n = i + 1 := by omega
      exact ⟨l, rfl, h⟩
    · obtain ⟨c, hc⟩ := get_some (l := pat) (i := i) (by omega)
      rw [width_take_succ pat hc] at h
      simp only [hc]
      rw [if_neg (by omega)]
      exact ih _ (by omega) (by omega) (by omega)

theorem hookSearch_spec (he : EnvOk e) (h : Inv e size s) (hst : s.state = .search) (ch : Char) :
    ∃ f s', hookSearch e s ch = some (f, s') ∧ After e size f s' := by
  have hs := h.st
  simp only [StOk, hst] at hs
  obtain ⟨hm, h39, hlen, hcmd⟩ := hs
  have hb := h.base
  have hloc := hb.loc; have hbig := hb.big; have hml := hb.es.mem
  have hw := fun n => width_le (e := e) (s.locpat.take n)
  have hcm : ∀ s1 : Ed, s1.es.cur = 0 → s1.cmd = s.cmd → CmdOk e s1 s1.cmd := by
    intro s1 _ hc
    rw [hc]
    refine ⟨fun hk => ?_, fun hk => ?_, fun hk => ?_⟩
    · exfalso
      rcases hcmd with hc | hc <;> rw [hc] at hk <;> exact absurd hk (by decide)
    · exfalso
      rcases hcmd with hc | hc <;> rw [hc] at hk <;> exact absurd hk (by decide)
    · exfalso
      rcases hcmd with hc | hc <;> rw [hc] at hk <;> exact absurd hk (by decide)
  have inS : ∀ s1 : Ed, Base e size s1 → s1.state = .search → s1.mode = .cmd → s1.srchlen ≤ 39 →
      s1.es.len = 1 + width e (s1.locpat.take s1.srchlen) → s1.cmd = s.cmd → Inv e size s1 := by
    intro s1 b1 t1 m1 r1 l1 c1
    refine ⟨b1, fun _ h => absurd t1 h, ?_, fun h => absurd t1 h⟩
    simp only [StOk, t1]
    exact ⟨m1, r1, l1, by rw [c1]; exact hcmd⟩
  simp only [hookSearch]
  split
  · obtain ⟨b, g1, g2, g3, _⟩ := restoreCbuf_spec hb
    simp only [g1]
    split
    · next h0 =>
      split
      · exact ⟨_, _, rfl, (Inv.normal (s := err { s with es := b, state := .normal }) { hb with es := g2 } (fun _ => Cm.zero g3) rfl h0).after _⟩
      · exact vcmd_spec he (s := { s with es := b, state := .vcmd }) { hb with es := g2 } hm (Cm.zero g3) rfl (hcm _ g3 rfl) (.inl h0)
    · rw [if_neg (by omega)]
      exact vcmd_spec he (s := { s with es := b, srchpat := cstr (s.locpat.take s.srchlen), locpat := s.locpat.set s.srchlen '\x00', state := .vcmd })
        { hb with es := g2, loc := by simp [hloc] } hm (Cm.zero g3) rfl (hcm _ g3 rfl) (.inr hcmd)
  · split
    · split
      · obtain ⟨n, l, g1, g2, g3⟩ := srchErase_spec s.locpat hloc s.srchlen s.es.len h39 hlen
        have := hw n
        rw [List.length_take] at this
        simp only [g1]
        exact ⟨_, _, rfl, (inS { s with srchlen := n, es := { s.es with len := l, cur := l } }
          { hb with es := ⟨hml, Nat.le_refl _, show l < size by omega⟩ } hst hm (show n ≤ 39 by omega) g3 rfl).after _⟩
      · next h0 =>
        obtain ⟨b, g1, g2, g3, _⟩ := restoreCbuf_spec hb
        simp only [g1, Option.map_some]
        exact ⟨_, _, rfl, (Inv.normal (s := { s with es := b, state := .normal }) { hb with es := g2 } (fun _ => Cm.zero g3) rfl
          (show s.srchlen = 0 by omega)).after _⟩
    · split
      · exact ⟨_, _, rfl, (inS { s with srchlen := 0, es := { s.es with len := 1, cur := 1 } }
          { hb with es := ⟨hml, Nat.le_refl _, show 1 < size by omega⟩ } hst hm (Nat.zero_le _) (by simp [width]) rfl).after _⟩
      · split
        · obtain ⟨n, g1, g2⟩ := backword_spec (m := s.locpat) 1 s.srchlen (by omega)
          obtain ⟨l, k1, k2⟩ := srchShrink_spec s.locpat hloc n s.srchlen s.es.len g2 h39 hlen
          have := hw n
          rw [List.length_take] at this
          simp only [g1, k1]
          exact ⟨_, _, rfl, (inS { s with srchlen := n, es := { s.es with len := l, cur := l } }
            { hb with es := ⟨hml, Nat.le_refl _, show l < size by omega⟩ } hst hm (show n ≤ 39 by omega) k2 rfl).after _⟩
        · simp only [srchChar]
          split
          · exact ⟨_, _, rfl, (inS (err s) hb.err hst hm h39 hlen rfl).after _⟩
          · rw [if_neg (by omega)]
            have h1 := hw s.srchlen
            rw [List.length_take] at h1
            have h2 := charLen_le e ch
            have h3 := shown_len (e := e) ch
            rw [memput_ok (by omega)]
            simp only [Option.map_some]
            refine ⟨_, _, rfl, ?_⟩
            apply Inv.after
            refine inS _ { hb with es := ⟨?_, Nat.le_refl _, ?_⟩, loc := by simp [hloc] } hst hm ?_ ?_ rfl
            · simp only; rw [memput_len (by omega), hml]
            · simp only; omega
            · simp only; omega
            · simp only
              rw [width_take_succ (c := ch) _ (by rw [List.getElem?_set_self (by omega)]), List.take_set_of_le (by omega), h3, hlen]
              omega

/-- One key, in a state between two keys. -/
theorem hook_spec (he : EnvOk e) (h : Inv e size s) {ch : Char} (hp : Polite e s ch) :
    ∃ f s', hook e s ch = some (f, s') ∧ After e size f s' := by
  have hb := h.base
  cases hst : s.state with
  | normal =>
    simp only [hook, hst]
    split
    · next hm => exact hookInsert_spec he h hst hm hp
    · next hm => exact hookCommand_spec he h hst (by simpa using hm) hp
  | lit =>
    simp only [hook, hst]
    exact hookLit_spec h hst ch
  | search =>
    simp only [hook, hst]
    exact hookSearch_spec he h hst ch
  | arg1 =>
    have hs := h.st
    simp only [StOk, hst] at hs
    have hc := h.cm hs.1 (by simp [hst])
    have hr := h.srch (by simp [hst])
    simp only [hook, hst]
    split
    · exact ⟨_, _, rfl, Inv.after (s := { s with argc1 := s.argc1 * 10 + (ch.toNat - '0'.toNat), state := .arg1 }) ⟨{ hb with }, fun _ _ => hc, by simp only [StOk]; exact hs, fun _ => hr⟩ _⟩
    · rw [addCmd_spec hb.cmd (by omega)]
      simp only [hs.2]
      have hcl : (s.cmd.set 0 ch).length = 3 := by rw [List.length_set, hb.cmd]
      refine next_spec he ?_ hs.1 hc hr (hp.head (by simp [hst])) hp.ihead rfl (headD_set s.cmd hb.cmd ch) rfl ?_ (hp.app hs.1)
        (fun h0 h1 => (hp.cw hs.1 h0).2 h1) hp.redo
      · exact { hb with cmd := hcl }
      · apply Decidable.byContradiction
        intro hx
        have := (hp.srch hs.1 (.inr hst) (by simpa using hx)).1
        rw [hst] at this; cases this
  | ext =>
    have hs := h.st
    simp only [StOk, hst] at hs
    have hc := h.cm hs.1 (by simp [hst])
    have hr := h.srch (by simp [hst])
    simp only [hook, hst]
    split
    · exact ⟨_, _, rfl, Inv.after (s := { s with argc2 := ch.toNat - '0'.toNat, state := .arg2 }) ⟨{ hb with }, fun _ _ => hc, by simp only [StOk]; exact hs, fun _ => hr⟩ _⟩
    · refine extKey_spec he (s := { s with argc2 := 0, state := .ext }) ?_ hs.1 hc hr (hp.head (by simp [hst])) hs.2.1 hs.2.2 (fun h0 h1 => (hp.cw hs.1 h0).1 h1 (.inl hst))
      exact { hb with }
  | arg2 =>
    have hs := h.st
    simp only [StOk, hst] at hs
    have hc := h.cm hs.1 (by simp [hst])
    have hr := h.srch (by simp [hst])
    simp only [hook, hst]
    split
    · exact ⟨_, _, rfl, Inv.after (s := { s with argc2 := s.argc2 * 10 + (ch.toNat - '0'.toNat), state := .arg2 }) ⟨{ hb with }, fun _ _ => hc, by simp only [StOk]; exact hs, fun _ => hr⟩ _⟩
    · refine extKey_spec he (s := { s with argc1 := if s.argc1 = 0 then s.argc2 else s.argc1 * s.argc2, state := .arg2 }) ?_ hs.1 hc hr (hp.head (by simp [hst])) hs.2.1 hs.2.2 (fun h0 h1 => (hp.cw hs.1 h0).1 h1 (.inr hst))
      exact { hb with }
  | xch =>
    have hs := h.st
    simp only [StOk, hst] at hs
    have hc := h.cm hs.1 (by simp [hst])
    have hr := h.srch (by simp [hst])
    simp only [hook, hst]
    split
    · exact ⟨_, _, rfl, (Inv.normal (s := { s with state := .normal }) { hb with } (fun _ => hc) rfl hr).after _⟩
    · rw [addCmd_spec hb.cmd (by omega)]
      simp only
      have hcl : (s.cmd.set s.cmdlen ch).length = 3 := by rw [List.length_set, hb.cmd]
      have hhd : (s.cmd.set s.cmdlen ch).headD '\x00' = s.cmd.headD '\x00' := by
        obtain ⟨k, hk⟩ : ∃ k, s.cmdlen = k + 1 := ⟨s.cmdlen - 1, by omega⟩
        rw [hk]; exact headD_set_succ _ _ _
      refine vcmd_spec he (s := { s with cmd := s.cmd.set s.cmdlen ch, cmdlen := s.cmdlen + 1, state := .vcmd }) { hb with cmd := hcl } hs.1 hc rfl
        ⟨fun _ => hp.head (by simp [hst]), fun hk => ?_, fun h4 h5 => ?_⟩ (.inl hr)
      · simp only [hhd] at hk
        rcases hs.2 with h | h
        · exact absurd hk (isLong_kind h.2).2.1
        · exact absurd hk (isExtend_kind h.2.1)
      · simp only [hhd] at h4 h5
        rcases hs.2 with h | h
        · exact absurd h4 (isLong_kind h.2).2.2.2
        · exfalso
          rw [getD_set_ne _ (by omega)] at h5
          rcases h5 with h5 | h5 <;> rw [h5] at h <;> exact absurd h.2.2 (by decide)
  | fail => have := h.st; simp [StOk, hst] at this
  | vcmd => have := h.st; simp [StOk, hst] at this
  | redo => have := h.st; simp [StOk, hst] at this

end Ksh.Vi
