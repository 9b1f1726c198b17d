import Verif.Vi.Cmds
/-!
# The commands of `vi_cmd` stay inside the buffer
-/

namespace Ksh.Vi

variable {e : Env} {size : Nat} {s s' : Ed}

/-- After a command, before the cursor is brought back onto the line. -/
structure Post (e : Env) (size : Nat) (s : Ed) (hd : Prop) (r : Ret) (s' : Ed) : Prop where
  mem : s'.es.mem.length = size
  len : s'.es.len < size
  base : Base e size s'
  state : (s'.state, s'.ibuf) = (s.state, s.ibuf)
  srch : s'.srchlen = s.srchlen ∨ s'.srchlen = 0
  cm : s'.mode = .cmd → r ≠ .ok → Cm s'.es
  head : hd → s'.mode ≠ .cmd → 0 < s'.es.cur → HeadOk e s'.es.mem

theorem Post.of {r : Ret} {hd : Prop} (hb : Base e size s') (hs : (s'.state, s'.ibuf) = (s.state, s.ibuf)) (hr : s'.srchlen = s.srchlen)
    (hc : s'.mode = .cmd → r ≠ .ok → Cm s'.es) (hh : hd → s'.mode ≠ .cmd → 0 < s'.es.cur → HeadOk e s'.es.mem) :
    Post e size s hd r s' :=
  ⟨hb.es.mem, hb.es.len, hb, hs, .inl hr, hc, hh⟩

theorem HeadOk.keep {m m' : List Char} (h : HeadOk e m) (he : m'[0]? = m[0]?) : HeadOk e m' := by
  intro c hc; rw [he] at hc; exact h c hc

theorem setFind_eq (s : Ed) (c a : Char) : ∃ f g, setFind s c a = { s with fcmd := f, fch := g } := by
  simp only [setFind]
  split
  · exact ⟨_, _, rfl⟩
  · exact ⟨s.fcmd, s.fch, rfl⟩

theorem saveUndo_spec (h : Base e size s) (n : Nat) (cmd : List Char) :
    ∃ b, saveUndo s n cmd = some { s with undo := b, lastac := n, lastcmd := cmd } ∧ b.Ok size ∧ b.cur = s.es.cur ∧ b.len = s.es.len ∧
      b.text = s.es.text := by
  simp only [saveUndo]
  have hm := h.es.mem; have hl := h.es.len; have hu := h.undo.mem; have ht := h.es.text_len
  rw [if_neg (by omega), memput_ok (by omega)]
  refine ⟨_, rfl, ⟨by rw [memput_len (by omega), hu], h.es.cur, hl⟩, rfl, rfl, ?_⟩
  simp only [Buf.text, List.take_zero, List.nil_append]
  rw [List.take_left' (by simpa [Buf.text] using ht)]

theorem macroCmd_spec (hd : Prop) (h : Base e size s) (hm : s.mode = .cmd) (hc : Cm s.es) (c : Char) :
    ∃ r s', macroCmd e s c = some (r, s') ∧ Post e size s hd r s' := by
  have hf : Post e size s hd .fail s := .of h rfl rfl (fun _ _ => hc) (fun _ h => absurd hm h)
  simp only [macroCmd]
  split
  · exact ⟨_, _, rfl, hf⟩
  · split
    · exact ⟨_, _, rfl, hf⟩
    · split
      · exact ⟨_, _, rfl, hf⟩
      · exact ⟨_, _, rfl, .of { h with } rfl rfl (by simp) (fun _ h => absurd hm h)⟩

theorem appendCmd_spec (h : Base e size s) (hc : Cm s.es)
    (ha : ∃ c, s.es.mem[s.es.len]? = some c ∧ cont e c = false) :
    ∃ r s', appendCmd e s = some (r, s') ∧ Post e size s (HeadOk e s.es.mem) r s' := by
  simp only [appendCmd]
  split
  · next h0 =>
    have hlt : s.es.cur < s.es.len := hc.resolve_right h0
    obtain ⟨c, h1, h2⟩ := ha
    obtain ⟨x, g1, g2, g3⟩ := skipCont_spec (e := e) (s.es.mem.drop (s.es.cur + 1)) (s.es.cur + 1) (s.es.len - (s.es.cur + 1))
      ⟨c, by rw [List.getElem?_drop, show s.es.cur + 1 + (s.es.len - (s.es.cur + 1)) = s.es.len by omega]; exact h1, h2⟩
    simp only [g1]
    exact ⟨_, _, rfl, .of { h with es := ⟨h.es.mem, by simp [setCur, dirty]; omega, h.es.len⟩ } rfl rfl (by simp) (fun hh _ _ => hh)⟩
  · exact ⟨_, _, rfl, .of { h with } rfl rfl (by simp) (fun hh _ _ => hh)⟩

theorem domove_caret {s : Ed} (h : s.es.Ok size) : ∃ x, domove e s 1 '^' true = some (some x) ∧ x ≤ s.es.len := by
  have := h.mem; have := h.len
  obtain ⟨x, h1, h2, h3⟩ := scanUp_spec (m := s.es.mem) space (len := s.es.len - 1) (by omega) (s.es.len - 1) (by omega)
  refine ⟨x, ?_, by omega⟩
  have : mkind '^' = .caret := by decide
  simp [domove, this, h1]

theorem firstCmd_spec (h : Base e size s) (cut : Bool) :
    ∃ r s', firstCmd e s cut = some (r, s') ∧ Post e size s (HeadOk e s.es.mem) r s' := by
  obtain ⟨x, h1, h2⟩ := domove_caret (e := e) h.es
  simp only [firstCmd, h1]
  cases cut with
  | true =>
    simp only [if_true]
    obtain ⟨b, g1, g2, g3, g4, g5, g6⟩ := del_spec (s := setCur s x) (size := size) ⟨h.es.mem, h2, h.es.len⟩ h2 (Nat.le_refl _)
    rw [show (setCur s x).es.len = s.es.len from rfl] at g3
    simp only [g1, Option.map_some]
    have hl := h.es.len
    rw [show (setCur s x).es.cur = x from rfl] at g4
    refine ⟨_, _, rfl, .of { h with es := ⟨g2, ?_, ?_⟩ } rfl rfl (by simp) ?_⟩
    · simp [dirty]; omega
    · simp [dirty]; omega
    · intro hh _ h0
      simp only [dirty] at h0 ⊢
      exact hh.keep (g6 (by omega))
  | false =>
    simp only [Bool.false_eq_true, if_false]
    exact ⟨_, _, rfl, .of { h with es := ⟨h.es.mem, h2, h.es.len⟩ } rfl rfl (by simp) (fun hh _ _ => hh)⟩

theorem cwTweak_spec (h : s.es.Ok size) (hc : Cm s.es) {o m : Char} {n nc : Nat} (hn : 1 ≤ n)
    (hcw : o = 'c' → (m = 'w' ∨ m = 'W') → s.es.len ≠ 0) (hd : domove e s n m true = some (some nc)) (hnc : nc ≤ s.es.len) :
    ∃ x, cwTweak s o m nc = some x ∧ x ≤ s.es.len := by
  have hm := h.mem; have hl := h.len
  simp only [cwTweak]
  split
  · next hw =>
    have h0 := hcw hw.1 hw.2
    have hlt : s.es.cur < s.es.len := hc.resolve_right h0
    obtain ⟨c, hcc⟩ := get_some (l := s.es.mem) (i := s.es.cur) (by omega)
    simp only [hcc]
    by_cases hsp : space c = true
    · rw [if_pos hsp]; exact ⟨nc, rfl, hnc⟩
    · rw [if_neg hsp]
      have hsp' : space c = false := by simpa using hsp
      have hgt : s.es.cur < nc := by
        rcases hw.2 with rfl | rfl
        · obtain ⟨x, g1, g2, g3, g4⟩ := forwword_spec (m := s.es.mem) (len := s.es.len) (by omega) n s.es.cur h.cur
          have : mkind 'w' = .w := by decide
          simp only [domove, this, guardMove, g1] at hd
          simp at hd
          have := g4 hn hlt
          omega
        · obtain ⟨x, g1, g2, g3⟩ := Forwword_spec (m := s.es.mem) (len := s.es.len) (by omega) n s.es.cur h.cur
          have hk : mkind 'W' = .W := by decide
          simp only [domove, hk, guardMove, g1] at hd
          simp at hd
          have := Forwword_lt (m := s.es.mem) (by omega) hn hlt (fun d hd' => by rw [hcc] at hd'; cases hd'; exact hsp') g1
          omega
      -- the scan stops at the latest behind the cursor
      have key : ∀ n, s.es.cur < n → n ≤ s.es.mem.length → ∃ x, scanDown space s.es.mem n = some x ∧ s.es.cur < x ∧ x ≤ n := by
        intro n
        induction n with
        | zero => intro h; omega
        | succ k ih =>
          intro h1 h2
          obtain ⟨d, hd⟩ := get_some (l := s.es.mem) (i := k) (by omega)
          simp only [scanDown, hd]
          by_cases hsd : space d = true
          · rw [if_pos hsd]
            by_cases hk : k = s.es.cur
            · subst hk; rw [hcc] at hd; cases hd; rw [hsp'] at hsd; cases hsd
            · obtain ⟨x, a, b, c⟩ := ih (by omega) (by omega)
              exact ⟨x, a, b, by omega⟩
          · rw [if_neg hsd]; exact ⟨k+1, rfl, h1, by omega⟩
      obtain ⟨x, a, b, c⟩ := key nc hgt (by omega)
      simp only [a]
      rw [if_neg (by omega)]
      exact ⟨x, rfl, by omega⟩
  · exact ⟨nc, rfl, hnc⟩

theorem opRange_spec (h : s.es.Ok size) (hc : Cm s.es) (hh : HeadOk e s.es.mem) {n : Nat} (hn : 1 ≤ n) (o m : Char)
    (hcw : o = 'c' → (m = 'w' ∨ m = 'W') → s.es.len ≠ 0) :
    ∃ r, opRange e s n o m = some r ∧ ∀ x y, r = some (x, y) → x ≤ y ∧ y ≤ s.es.len ∧ x ≤ s.es.cur ∨
      (x ≤ y ∧ y ≤ s.es.len ∧ o = 'c') := by
  simp only [opRange]
  split
  · split
    · next hoc =>
      obtain ⟨x, h1, h2⟩ := domove_caret (e := e) h
      simp only [h1]
      exact ⟨_, rfl, fun a b hab => by
        simp only [Option.some.injEq, Prod.mk.injEq] at hab
        obtain ⟨rfl, rfl⟩ := hab
        exact .inr ⟨h2, by omega, hoc⟩⟩
    · exact ⟨_, rfl, fun a b hab => by simp only [Option.some.injEq, Prod.mk.injEq] at hab; omega⟩
  · split
    · exact ⟨none, rfl, by simp⟩
    · obtain ⟨r, h1, h2⟩ := domove_spec (e := e) h hc hh (.inl hn) (c := m) true
      simp only [h1]
      cases r with
      | none => exact ⟨none, rfl, by simp⟩
      | some nc =>
        obtain ⟨x, g1, g2⟩ := cwTweak_spec h hc hn hcw h1 (h2 nc rfl)
        simp only [g1]
        have := h.cur
        split
        · exact ⟨_, rfl, fun a b hab => by simp only [Option.some.injEq, Prod.mk.injEq] at hab; omega⟩
        · refine ⟨_, rfl, fun a b hab => ?_⟩
          simp only [Option.some.injEq, Prod.mk.injEq] at hab
          split at hab
          · next hp =>
            left
            refine ⟨by omega, ?_, by omega⟩
            -- `%` finds something only on a line that is not empty
            subst hp
            by_cases h0 : s.es.len = 0
            · exfalso
              have hk : mkind '%' = .pct := by decide
              have hb : scanUp (fun c => bracktype c = 0) s.es.mem s.es.len (s.es.len - s.es.cur) = some 0 := by
                rw [h0]; simp [scanUp]
              simp only [domove, hk, percent, hb] at h1
              rw [if_pos (by omega)] at h1
              simp at h1
            · have := hc.resolve_right h0; omega
          · left; omega

theorem opDo_spec (h : Base e size s) {o : Char} {x y : Nat} (hxy : x ≤ y) (hy : y ≤ s.es.len) :
    ∃ s', opDo e s o x y = some s' ∧ Post e size s (HeadOk e s.es.mem) .ok s' := by
  have hy1 := yankRange_spec (e := e) h.es h.cap hxy hy
  have hl := h.es.len
  have key : ∀ s1 : Ed, Base e size s1 → s1.es = s.es → s1.mode = s.mode → (s1.state, s1.ibuf) = (s.state, s.ibuf) → s1.srchlen = s.srchlen →
      ∃ s', (match (if o ≠ 'y' then (del s1 x y).map (fun s2 => setCur s2 x) else some s1) with
        | none => none
        | some s2 => some (if o = 'c' then { dirty s2 with mode := .ins } else s2)) = some s' ∧ Post e size s (HeadOk e s.es.mem) .ok s' := by
    intro s1 b1 e1 m1 st1 sr1
    by_cases ho : o = 'y'
    · subst ho
      rw [if_neg (by simp)]
      simp only
      rw [if_neg (by decide)]
      exact ⟨_, rfl, .of b1 st1 sr1 (by simp) (fun hh _ _ => by rw [e1]; exact hh)⟩
    · rw [if_pos ho]
      obtain ⟨b, g1, g2, g3, g4, g5, g6⟩ := del_spec (s := s1) b1.es hxy (by rw [e1]; exact hy)
      rw [e1] at g3 g6
      simp only [g1, Option.map_some]
      have hb : Base e size (setCur { s1 with es := b } x) := { b1 with es := ⟨g2, show x ≤ b.len by omega, show b.len < size by omega⟩ }
      split
      · refine ⟨_, rfl, .of { hb with } st1 sr1 (by simp) ?_⟩
        intro hh _ h0
        exact hh.keep (g6 h0)
      · refine ⟨_, rfl, .of hb st1 sr1 (by simp) ?_⟩
        intro hh _ h0
        exact hh.keep (g6 h0)
  simp only [opDo]
  split
  · next hn =>
    split at hn
    · simp [hy1] at hn
    · cases hn
  · next s1 hs =>
    split at hs
    · simp only [hy1, Option.map_some, Option.some.injEq] at hs
      subst hs
      exact key _ { h with } rfl rfl rfl rfl
    · simp only [Option.some.injEq] at hs
      subst hs
      exact key _ h rfl rfl rfl rfl

theorem opCmd_spec (h : Base e size s) (hm : s.mode = .cmd) (hc : Cm s.es) (hh : HeadOk e s.es.mem) {n : Nat} (hn : 1 ≤ n)
    (o m a : Char) (hcw : o = 'c' → (m = 'w' ∨ m = 'W') → s.es.len ≠ 0) :
    ∃ r s', opCmd e s n o m a = some (r, s') ∧ Post e size s (HeadOk e s.es.mem) r s' := by
  simp only [opCmd]
  generalize hs1 : (if o = m ∨ isMove m = false then s else setFind s m a) = s1
  obtain ⟨f, g, hfg⟩ : ∃ f g, s1 = { s with fcmd := f, fch := g } := by
    subst hs1
    split
    · exact ⟨s.fcmd, s.fch, rfl⟩
    · exact setFind_eq s m a
  clear hs1
  subst hfg
  obtain ⟨r, h1, h2⟩ := opRange_spec (e := e) (s := { s with fcmd := f, fch := g }) h.es hc hh hn o m hcw
  simp only [h1]
  cases r with
  | none => exact ⟨_, _, rfl, .of { h with } rfl rfl (fun _ _ => hc) (fun hh _ _ => hh)⟩
  | some p =>
    obtain ⟨x, y⟩ := p
    have hr : x ≤ y ∧ y ≤ s.es.len := by
      rcases h2 x y rfl with h | h <;> exact ⟨h.1, h.2.1⟩
    obtain ⟨s2, g1, g2⟩ := opDo_spec (s := { s with fcmd := f, fch := g }) { h with } (o := o) hr.1 hr.2
    simp only [g1]
    exact ⟨_, _, rfl, ⟨g2.1, g2.2, g2.3, g2.4, g2.5, g2.6, g2.7⟩⟩

theorem putLoop_spec (x : List Char) : ∀ (n : Nat) {s : Ed}, s.es.Ok size →
    ∃ a b, putLoop x n s = some (a, { s with es := b }) ∧ b.Ok size := by
  intro n
  induction n with
  | zero =>
    intro s h
    obtain ⟨r, b, h1, h2, _⟩ := put_spec (s := s) h x
    simp only [putLoop, h1]
    exact ⟨_, _, rfl, h2⟩
  | succ n ih =>
    intro s h
    obtain ⟨r, b, h1, h2, _⟩ := put_spec (s := s) h x
    simp only [putLoop, h1]
    cases r with
    | false => exact ⟨_, _, rfl, h2⟩
    | true =>
      simp only
      split
      · exact ⟨_, _, rfl, h2⟩
      · exact ih (s := { s with es := b }) h2

theorem putCmd_spec (hd : Prop) (h : Base e size s) (hm : s.mode = .cmd) (n : Nat) :
    ∃ r s', putCmd e s n = some (r, s') ∧ Post e size s hd r s' := by
  obtain ⟨a, b, h1, h2⟩ := putLoop_spec s.ybuf n h.es
  simp only [putCmd, h1]
  have := h2.cur; have := h2.len; have := h2.mem
  obtain ⟨x, g1, g2⟩ := backSafe_spec (e := e) (m := b.mem) b.cur (by omega)
  simp only [g1]
  refine ⟨_, _, rfl, .of { h with es := ⟨h2.mem, show x ≤ b.len by omega, h2.len⟩ } rfl rfl (fun _ _ => ?_) (fun _ h => absurd hm h)⟩
  simp only [Cm, setCur]; omega

theorem putAfter_spec (hd : Prop) (h : Base e size s) (hm : s.mode = .cmd) (n : Nat) :
    ∃ r s', putAfter e s n = some (r, s') ∧ Post e size s hd r s' := by
  have := h.es.cur; have := h.es.len; have := h.es.mem
  obtain ⟨x, h1, h2, h3⟩ := fwdSafe_spec (e := e) (m := s.es.mem) (len := s.es.len) (by omega) (s.es.len - s.es.cur) (by omega)
  simp only [putAfter, h1]
  obtain ⟨r, s', g1, g2⟩ := putCmd_spec hd (e := e) (s := setCur (dirty s) (if s.es.cur < s.es.len then x else s.es.cur))
    { h with es := ⟨h.es.mem, by simp only [setCur, dirty]; split <;> omega, h.es.len⟩ } hm n
  exact ⟨r, s', g1, ⟨g2.1, g2.2, g2.3, g2.4, g2.5, g2.6, g2.7⟩⟩

theorem histCmd_spec (hd : Prop) (h : Base e size s) (hm : s.mode = .cmd) (hc : Cm s.es) (n : Int) :
    ∃ r s', histCmd e s n = some (r, s') ∧ Post e size s hd r s' := by
  obtain ⟨r, s1, h1, h2, h3, h4, h5, h6⟩ := grabhist_spec h s.modified n
  simp only [histCmd, h1]
  cases r with
  | false => exact ⟨_, _, rfl, .of h2 h3.1 h3.2 (fun _ _ => by rw [h6 rfl]; exact hc) (fun _ h => absurd (h4.trans hm) h)⟩
  | true => exact ⟨_, _, rfl, .of { h2 with } h3.1 h3.2 (by simp) (fun _ h => absurd (h4.trans hm) h)⟩

theorem replaceCmd_spec (hd : Prop) (h : Base e size s) (hm : s.mode = .cmd) (hc : Cm s.es) (n : Nat) (c : Char) :
    ∃ r s', replaceCmd e s n c = some (r, s') ∧ Post e size s hd r s' := by
  have hcl := h.es.cur; have hl := h.es.len; have hml := h.es.mem
  simp only [replaceCmd]
  split
  · exact ⟨_, _, rfl, .of h rfl rfl (fun _ _ => hc) (fun _ h => absurd hm h)⟩
  · split
    · exact ⟨_, _, rfl, .of { h with } rfl rfl (fun _ _ => hc) (fun _ h => absurd hm h)⟩
    · obtain ⟨x, c2, h1, h2, h3, h4⟩ := repCount_spec (e := e) (m := s.es.mem) (len := s.es.len) (a := n) (by omega)
        (s.es.len - s.es.cur) 0 (by omega) (by omega)
      rw [show (dirty s).es = s.es from rfl]
      simp only [h1]
      split
      · exact ⟨_, _, rfl, .of { h with } rfl rfl (fun _ _ => hc) (fun _ h => absurd hm h)⟩
      · next hn =>
        obtain ⟨b, g1, g2, g3, g4, g5, g6⟩ := del_spec (s := dirty s) (size := size) h.es (x := s.es.cur) (y := x) (by omega) h3
        rw [show (dirty s).es.len = s.es.len from rfl] at g3
        rw [show (dirty s).es.cur = s.es.cur from rfl] at g4
        simp only [g1]
        have hbok : b.Ok size := ⟨g2, by omega, by omega⟩
        obtain ⟨b2, k1, k2, k3, k4, _⟩ := redoLoop_fit c n (s := { dirty s with es := b }) hbok (by simp only; omega)
        simp only at k3 k4
        simp only [k1]
        have := k2.cur; have := k2.len; have := k2.mem
        obtain ⟨y, l1, l2⟩ := backSafe_spec (e := e) (m := b2.mem) b2.cur (by omega)
        simp only [l1]
        rw [memput_ok (by simp; omega)]
        exact ⟨_, _, rfl, .of { h with es := ⟨by simp only; rw [memput_len (by simp; omega)]; exact k2.mem, by simp; omega, k2.len⟩ } rfl rfl
          (by simp) (fun _ h => absurd hm h)⟩

theorem substCmd_spec (h : Base e size s) (hm : s.mode = .cmd) (hc : Cm s.es) (n : Nat) :
    ∃ r s', substCmd e s n = some (r, s') ∧ Post e size s (HeadOk e s.es.mem) r s' := by
  have hcl := h.es.cur; have hl := h.es.len; have hml := h.es.mem
  simp only [substCmd]
  split
  · exact ⟨_, _, rfl, .of h rfl rfl (fun _ _ => hc) (fun _ h => absurd hm h)⟩
  · obtain ⟨x, h1, h2, h3⟩ := cntUp_spec (e := e) (m := s.es.mem) (len := s.es.len) (by omega) (s.es.len - s.es.cur) n (by omega)
    simp only [h1]
    obtain ⟨b, g1, g2, g3, g4, g5, g6⟩ := del_spec (s := dirty s) (size := size) h.es (x := s.es.cur) (y := x) (by omega) h3
    rw [show (dirty s).es.len = s.es.len from rfl] at g3
    rw [show (dirty s).es.cur = s.es.cur from rfl] at g4
    rw [show (dirty s).es = s.es from rfl] at g6
    simp only [g1, Option.map_some]
    exact ⟨_, _, rfl, .of { h with es := ⟨g2, by simp; omega, by simp; omega⟩ } rfl rfl (by simp)
      (fun hh _ h0 => hh.keep (g6 (by simp only at h0; omega)))⟩

theorem xCmd_spec (hd : Prop) (h : Base e size s) (hm : s.mode = .cmd) (hc : Cm s.es) (n : Nat) :
    ∃ r s', xCmd e s n = some (r, s') ∧ Post e size s hd r s' := by
  have hcl := h.es.cur; have hl := h.es.len; have hml := h.es.mem
  simp only [xCmd]
  split
  · exact ⟨_, _, rfl, .of h rfl rfl (fun _ _ => hc) (fun _ h => absurd hm h)⟩
  · obtain ⟨x, h1, h2, h3⟩ := cntUp_spec (e := e) (m := s.es.mem) (len := s.es.len) (by omega) (s.es.len - s.es.cur) n (by omega)
    simp only [h1, yankRange_spec (e := e) h.es h.cap (show s.es.cur ≤ x by omega) h3]
    obtain ⟨b, g1, g2, g3, g4, g5, g6⟩ := del_spec (s := { dirty s with ybuf := (s.es.text.drop s.es.cur).take (x - s.es.cur) })
      (size := size) h.es (x := s.es.cur) (y := x) (by omega) h3
    simp only [g1, Option.map_some]
    rw [show (dirty s).es = s.es from rfl] at g3 g4
    exact ⟨_, _, rfl, .of { h with es := ⟨g2, by simp; omega, by simp; omega⟩ } rfl rfl (by simp) (fun _ h => absurd hm h)⟩

theorem xBackCmd_spec (hd : Prop) (h : Base e size s) (hm : s.mode = .cmd) (hc : Cm s.es) (n : Nat) :
    ∃ r s', xBackCmd e s n = some (r, s') ∧ Post e size s hd r s' := by
  have hcl := h.es.cur; have hl := h.es.len; have hml := h.es.mem
  simp only [xBackCmd]
  split
  · exact ⟨_, _, rfl, .of h rfl rfl (fun _ _ => hc) (fun _ h => absurd hm h)⟩
  · obtain ⟨x, h1, h2⟩ := cntDown_spec (e := e) (m := s.es.mem) s.es.cur n (by omega)
    simp only [h1, yankRange_spec (e := e) h.es h.cap h2 hcl]
    obtain ⟨b, g1, g2, g3, g4, g5, g6⟩ := del_spec (s := { dirty s with ybuf := (s.es.text.drop x).take (s.es.cur - x) })
      (size := size) h.es (x := x) (y := s.es.cur) h2 hcl
    simp only [g1, Option.map_some]
    rw [show (dirty s).es = s.es from rfl] at g3 g4
    exact ⟨_, _, rfl, .of { h with es := ⟨g2, show x ≤ b.len by omega, show b.len < size by omega⟩ } rfl rfl (by simp) (fun _ h => absurd hm h)⟩

theorem editCmd_spec (h : Base e size s) (hc : Cm s.es) (n : Nat) :
    ∃ r s', editCmd e s n = some (r, s') ∧ s'.es.mem.length = size ∧ s'.es.len < size ∧ s'.mode = s.mode ∧ (s'.state, s'.ibuf) = (s.state, s.ibuf) ∧
      s'.srchlen = s.srchlen ∧ (r ≠ .edit → Base e size s' ∧ Cm s'.es) := by
  have hcl := h.es.cur; have hl := h.es.len; have hml := h.es.mem; have hb := h.big
  simp only [editCmd]
  split
  · exact ⟨_, _, rfl, hml, hl, rfl, rfl, rfl, fun _ => ⟨h, hc⟩⟩
  · rw [if_neg (by omega)]
    generalize ("fc -e ${VISUAL:-${EDITOR:-vi}} --".toList ++ _ : List Char) = t
    have ht : (t.take (s.es.mem.length - 1)).length < size := by rw [List.length_take]; omega
    rw [memput_ok (by omega)]
    refine ⟨_, _, rfl, ?_, ht, rfl, rfl, rfl, by simp⟩
    simp only
    rw [memput_len (by omega), hml]

theorem searchCmd_spec (hd : Prop) (h : Base e size s) (hm : s.mode = .cmd) (hc : Cm s.es) (c : Char) :
    ∃ r s', searchCmd e s c = some (r, s') ∧ Post e size s hd r s' ∧ (c = '/' ∨ c = '?' → s'.srchlen = 0) := by
  simp only [searchCmd]
  generalize hs1 : (if c = '?' ∧ s.hnum = s.hlast then { s with hnum := -1 } else s) = s1
  have b1 : Base e size s1 := by subst hs1; split; · exact { h with }
                                 · exact h
  have f1 : s1.es = s.es ∧ s1.mode = s.mode ∧ (s1.state, s1.ibuf) = (s.state, s.ibuf) ∧ s1.srchlen = s.srchlen := by
    subst hs1; split <;> exact ⟨rfl, rfl, rfl, rfl⟩
  generalize hs2 : (if c = '/' ∨ c = '?' then { s1 with srchlen := 0, lastsearch := c } else s1) = s2
  have b2 : Base e size s2 := by subst hs2; split; · exact { b1 with }
                                 · exact b1
  have f2 : s2.es = s.es ∧ s2.mode = s.mode ∧ (s2.state, s2.ibuf) = (s.state, s.ibuf) ∧ (s2.srchlen = s.srchlen ∨ s2.srchlen = 0) ∧
      (c = '/' ∨ c = '?' → s2.srchlen = 0) := by
    subst hs2; split
    · exact ⟨f1.1, f1.2.1, f1.2.2.1, .inr rfl, fun _ => rfl⟩
    · next hn => exact ⟨f1.1, f1.2.1, f1.2.2.1, .inl f1.2.2.2, fun h => absurd h hn⟩
  clear hs1 hs2
  obtain ⟨e2, m2, t2, r2, z2⟩ := f2
  split
  · exact ⟨_, _, rfl, ⟨b2.es.mem, b2.es.len, b2, t2, r2, fun _ _ => by rw [e2]; exact hc, fun _ h => absurd (m2.trans hm) h⟩, z2⟩
  · obtain ⟨r, s3, g1, g2, g3, g4, g5, g6⟩ := grabsearch_spec b2 (decide (s2.lastsearch = '?') != decide (c = 'N'))
    simp only [g1]
    cases r with
    | none =>
      have := g6 rfl; subst this
      simp only
      split
      · obtain ⟨b, k1, k2, k3, _⟩ := restoreCbuf_spec g2
        simp only [k1, Option.map_some]
        exact ⟨_, _, rfl, ⟨k2.mem, k2.len, { g2 with es := k2 }, t2, r2, fun _ _ => Cm.zero k3, fun _ h => absurd (m2.trans hm) h⟩, z2⟩
      · exact ⟨_, _, rfl, ⟨b2.es.mem, b2.es.len, b2, t2, r2, fun _ _ => by rw [e2]; exact hc, fun _ h => absurd (m2.trans hm) h⟩, z2⟩
    | some i =>
      have hr : s3.srchlen = s2.srchlen := g3.2
      exact ⟨_, _, rfl, ⟨g2.es.mem, g2.es.len, { g2 with }, g3.1.trans t2, by simpa [hr] using r2, by simp,
        fun _ h => absurd (g4.trans (m2.trans hm)) h⟩, fun h => hr.trans (z2 h)⟩

theorem underCmd_spec (h : Base e size s) (hm : s.mode = .cmd) (hc : Cm s.es) (n : Nat) :
    ∃ r s', underCmd e s n = some (r, s') ∧ Post e size s (HeadOk e s.es.mem) r s' := by
  have hcl := h.es.cur; have hl := h.es.len; have hb := h.big
  have hf : Post e size s (HeadOk e s.es.mem) .fail s := .of h rfl rfl (fun _ _ => hc) (fun _ h => absurd hm h)
  simp only [underCmd]
  split
  · exact ⟨_, _, rfl, hf⟩
  · next p0 _ =>
    generalize (if n ≠ 0 then dropWords (n - 1) (dropBlank p0) else lastField p0 false p0) = sp
    split
    · exact ⟨_, _, rfl, hf⟩
    · generalize hx : (if s.es.cur ≠ s.es.len then s.es.cur + 1 else s.es.cur) = x
      have hxl : x ≤ s.es.len := by subst hx; split <;> omega
      have hx0 : s.es.len ≠ 0 → 0 < x := by
        intro h0; subst hx; split <;> omega
      obtain ⟨r, b, g1, g2, g3, g4, g5, g6, g7⟩ := put_spec (s := setCur (dirty s) x) (size := size) ⟨h.es.mem, hxl, h.es.len⟩ [' ']
      simp only [g1]
      have fin : ∀ b : Buf, b.Ok size → ∀ r, Post e size s (HeadOk e s.es.mem) r (setCur { dirty s with es := b } (b.cur - 1)) := by
        intro b hb r
        have := hb.cur
        refine .of { h with es := ⟨hb.mem, show b.cur - 1 ≤ b.len by omega, hb.len⟩ } rfl rfl (fun _ _ => ?_) (fun _ h => absurd hm h)
        simp only [Cm, setCur]; omega
      have hdc : ∀ b : Buf, ({ setCur (dirty s) x with es := b } : Ed) = { dirty s with es := b } := fun _ => rfl
      cases r with
      | false =>
        exact ⟨_, _, rfl, fin b g2 _⟩
      | true =>
        simp only
        obtain ⟨r2, b2, k1, k2, k3, k4, k5, k6, k7⟩ := put_spec (s := { setCur (dirty s) x with es := b }) g2 (sp.takeWhile (fun c => !space c))
        simp only [k1]
        cases r2 with
        | false => exact ⟨_, _, rfl, fin b2 k2 _⟩
        | true =>
          simp only
          obtain ⟨t1, t2, t3⟩ := g6 rfl
          refine ⟨_, _, rfl, .of { h with es := k2 } rfl rfl (by simp) ?_⟩
          intro hh _ _
          have hb0 : 0 < b.cur := by rw [t2]; simp
          have hk := k7 hb0
          by_cases h0 : s.es.len = 0
          · have hxz : x = 0 := by omega
            have hps := g1
            have : putbuf (setCur (dirty s) x).es [' '] false = some (true, b) := by
              have := putbuf_spec (size := size) (b := (setCur (dirty s) x).es) ⟨h.es.mem, hxl, h.es.len⟩ [' ']
              obtain ⟨r', b', hp, _⟩ := this
              simp only [put, hp, Option.some.injEq, Prod.mk.injEq] at hps
              obtain ⟨rfl, hbb⟩ := hps
              have : b' = b := congrArg Ed.es hbb
              rw [hp, this]
            have hhead := putbuf_head (e := e) [' '] false this hxz (fun c hcc => by
              simp only [List.getElem?_cons_zero, Option.some.injEq] at hcc
              subst hcc
              simp only [cont]
              cases e.show8 <;> decide) hb0
            exact hhead.keep hk
          · exact hh.keep (hk.trans (g7 (hx0 h0)))

theorem tildeLoop_spec : ∀ (n : Nat) {s : Ed}, Base e size s → s.es.cur < s.es.len →
    ∃ s', tildeLoop n s = some s' ∧ Base e size s' ∧ (s'.state, s'.ibuf) = (s.state, s.ibuf) ∧ s'.srchlen = s.srchlen ∧ s'.mode = s.mode := by
  intro n
  induction n with
  | zero => intro s h _; exact ⟨s, rfl, h, rfl, rfl, rfl⟩
  | succ n ih =>
    intro s h hlt
    have hl := h.es.len; have hml := h.es.mem
    obtain ⟨c, hc⟩ := get_some (l := s.es.mem) (i := s.es.cur) (by omega)
    simp only [tildeLoop, hc]
    generalize hs1 : (if (c.isLower || c.isUpper) = true then dirty s else s) = s1
    have b1 : Base e size s1 := by subst hs1; split; · exact h.dirty
                                   · exact h
    have f1 : (s1.state, s1.ibuf) = (s.state, s.ibuf) ∧ s1.srchlen = s.srchlen ∧ s1.mode = s.mode := by
      subst hs1; split <;> exact ⟨rfl, rfl, rfl⟩
    obtain ⟨s2, g1, g2, g3, g4, g5⟩ := ih (s := { s1 with es := { s.es with
        mem := s.es.mem.set s.es.cur (flipCase c), cur := if s.es.cur + 1 < s.es.len then s.es.cur + 1 else s.es.cur } })
      { b1 with es := ⟨by simp [hml], by simp only; split <;> omega, hl⟩ } (by simp only; split <;> omega)
    exact ⟨s2, g1, g2, g3.trans f1.1, g4.trans f1.2.1, g5.trans f1.2.2⟩

theorem commentCmd_spec (hd : Prop) (h : Base e size s) (hm : s.mode = .cmd) (hc : Cm s.es) :
    ∃ r s', commentCmd s = some (r, s') ∧ Post e size s hd r s' ∧ (r = .ok → s'.es.cur = 0) := by
  have hl := h.es.len; have hml := h.es.mem
  have key : ∃ ret m l, Edit.doComment s.es.mem s.es.mem.length s.es.len = some (ret, m, l) ∧ m.length = size ∧ l < size ∧
      (ret < 0 → m = s.es.mem ∧ l = s.es.len) := by
    by_cases h0 : s.es.len = 0
    · exact ⟨1, s.es.mem, s.es.len, by simp [Edit.doComment, h0], hml, hl, by omega⟩
    · by_cases hh : s.es.mem[0]? = some '#'
      · obtain ⟨b, l, h1, _, h3, h4, h5⟩ := Edit.uncomments s.es.mem s.es.mem.length s.es.len (by omega) (by omega) (by omega) hh
        exact ⟨0, b, l, h1, by omega, by omega, by omega⟩
      · by_cases hr : s.es.len + Edit.nlines (s.es.mem.take s.es.len) < s.es.mem.length
        · obtain ⟨b, l, h1, _, h3, h4, h5⟩ := Edit.comments s.es.mem s.es.mem.length s.es.len (by omega) (by omega) (by omega) hh hr
          exact ⟨1, b, l, h1, by omega, by omega, by omega⟩
        · exact ⟨-1, _, _, Edit.no_room s.es.mem s.es.mem.length s.es.len (by omega) (by omega) (by omega) hh (by omega), hml, hl,
            fun _ => ⟨rfl, rfl⟩⟩
  obtain ⟨ret, m, l, h1, h2, h3, h4⟩ := key
  simp only [commentCmd, h1]
  split
  · next hneg =>
    obtain ⟨rfl, rfl⟩ := h4 hneg
    exact ⟨_, _, rfl, .of h rfl rfl (fun _ _ => hc) (fun _ h => absurd hm h), by simp⟩
  · exact ⟨_, _, rfl, .of { h with es := ⟨h2, by simp, h3⟩ } rfl rfl (fun _ _ => Cm.zero rfl) (fun _ h => absurd hm h), fun _ => rfl⟩

end Ksh.Vi
