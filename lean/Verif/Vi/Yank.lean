import Verif.Vi.Undo
/-!
# Deleting, and putting back
-/

namespace Ksh.Vi

variable {e : Env} {size : Nat} {s s' : Ed}

/-- `x … y` deleted and kept. -/
structure Cut (e : Env) (size : Nat) (s s' : Ed) (x y : Nat) : Prop where
  le : x ≤ y
  len : y ≤ s.es.len
  ok : s'.es.Ok size
  text : s'.es.text = s.es.text.take x ++ s.es.text.drop y
  cur : s'.es.cur = x
  mode : s'.mode = s.mode
  kept : x < y → s'.ybuf = (s.es.text.drop x).take (y - x)

theorem Cut.ln {x y : Nat} (h : Cut e size s s' x y) (hs : s.es.Ok size) : s'.es.len = s.es.len - (y - x) := by
  have h1 := h.ok.text_len
  have h2 := hs.text_len
  rw [h.text, List.length_append, List.length_take, List.length_drop] at h1
  have := h.le; have := h.len
  omega

theorem del_cut {t : List Char} {x y : Nat} (hs : s.es.Ok size) (hxy : x ≤ y) (hy : y ≤ s.es.len) (s1 : Ed) (h1 : s1.es = s.es) (h2 : s1.mode = s.mode)
    (ht : s1.ybuf = t) (hk : x < y → t = (s.es.text.drop x).take (y - x)) :
    ∃ s2, (del s1 x y).map (fun s2 => setCur s2 x) = some s2 ∧ Cut e size s s2 x y := by
  have hs1 : s1.es.Ok size := by rw [h1]; exact hs
  obtain ⟨b, g1, g2, g3, g4, g5, _⟩ := del_spec (s := s1) hs1 hxy (by rw [h1]; exact hy)
  simp only [g1, Option.map_some]
  have hl := hs.len
  rw [h1] at g3 g5
  refine ⟨_, rfl, hxy, hy, ⟨g2, show x ≤ b.len by omega, show b.len < size by omega⟩, g5, rfl, h2, fun h => ?_⟩
  simp only [setCur, ht]
  exact hk h

/-- The commands that delete. -/
def isDel (c : Char) : Prop := c = 'x' ∨ c = 'X' ∨ c = 'D' ∨ c = 'd'

theorem opCmd_cut (hb : Base e size s) (hc : Cm s.es) (hh : HeadOk e s.es.mem) {n : Nat} (hn : 1 ≤ n) (m a : Char)
    (h : opCmd e s n 'd' m a = some (.ok, s')) : ∃ x y, Cut e size s s' x y := by
  simp only [opCmd] at h
  generalize hs1 : (if 'd' = m ∨ isMove m = false then s else setFind s m a) = s1 at h
  obtain ⟨f, g, hfg⟩ : ∃ f g, s1 = { s with fcmd := f, fch := g } := by
    subst hs1
    split
    · exact ⟨s.fcmd, s.fch, rfl⟩
    · exact setFind_eq _ _ _
  have he1 : s1.es = s.es := by rw [hfg]
  obtain ⟨r, g1, g2⟩ := opRange_spec (e := e) (s := s1) (by rw [he1]; exact hb.es) (by rw [he1]; exact hc) (by rw [he1]; exact hh) hn 'd' m
    (by intro h; exact absurd h (by decide))
  rw [g1] at h
  cases r with
  | none => cases h
  | some p =>
    obtain ⟨x, y⟩ := p
    simp only at h
    have hxy : x ≤ y ∧ y ≤ s.es.len := by
      rcases g2 x y rfl with h | h
      · rw [he1] at h; exact ⟨h.1, h.2.1⟩
      · rw [he1] at h; exact ⟨h.1, h.2.1⟩
    have hy1 := yankRange_spec (e := e) hb.es hb.cap hxy.1 hxy.2
    cases ho : opDo e s1 'd' x y with
    | none => rw [ho] at h; cases h
    | some s2 =>
      rw [ho] at h
      cases h
      refine ⟨x, y, ?_⟩
      simp only [opDo, he1] at ho
      by_cases hx : x = y
      · rw [if_neg (by simp [hx])] at ho
        obtain ⟨s3, k1, k2⟩ := del_cut (e := e) (t := s1.ybuf) hb.es hxy.1 hxy.2 s1 he1 (by rw [hfg]) rfl (by omega)
        simp only at ho
        rw [if_pos (by decide), k1] at ho
        simp only at ho
        rw [if_neg (by decide)] at ho
        cases ho
        exact k2
      · rw [if_pos ⟨by decide, hx⟩, hy1] at ho
        obtain ⟨s3, k1, k2⟩ := del_cut (e := e) (t := (s.es.text.drop x).take (y - x)) hb.es hxy.1 hxy.2
          { s1 with ybuf := (s.es.text.drop x).take (y - x) } he1 (by rw [hfg]) rfl (fun _ => rfl)
        simp only [Option.map_some] at ho
        simp only [he1] at k1
        rw [if_pos (by decide), k1] at ho
        simp only at ho
        rw [if_neg (by decide)] at ho
        cases ho
        exact k2

theorem del_nocur {x y : Nat} (hx : s.es.cur = x) : del s x y = (del s x y).map (fun s2 => setCur s2 x) := by
  cases h : del s x y with
  | none => rfl
  | some s2 =>
    have : s2.es.cur = x := by
      simp only [del] at h
      split at h
      · cases h
      · next b hb =>
        cases h
        simp only [delRange] at hb
        repeat' split at hb
        all_goals first | (cases hb; done) | (cases hb; exact hx)
    simp only [Option.map_some, setCur, ← this]

theorem xCmd_cut (hb : Base e size s) {n : Nat} (h : xCmd e s n = some (.ok, s')) : ∃ x y, Cut e size s s' x y := by
  have hcl := hb.es.cur; have hl := hb.es.len; have hml := hb.es.mem
  simp only [xCmd] at h
  split at h
  · cases h
  · obtain ⟨y, h1, h2, h3⟩ := cntUp_spec (e := e) (m := s.es.mem) (len := s.es.len) (by omega) (s.es.len - s.es.cur) n (by omega)
    simp only [h1, yankRange_spec (e := e) hb.es hb.cap (show s.es.cur ≤ y by omega) h3] at h
    obtain ⟨s3, k1, k2⟩ := del_cut (e := e) (t := (s.es.text.drop s.es.cur).take (y - s.es.cur)) hb.es (show s.es.cur ≤ y by omega) h3
      { dirty s with ybuf := (s.es.text.drop s.es.cur).take (y - s.es.cur) } rfl rfl rfl (fun _ => rfl)
    have k3 := del_nocur (s := { dirty s with ybuf := (s.es.text.drop s.es.cur).take (y - s.es.cur) }) (y := y) rfl
    have k4 : Option.map (fun s1 => (Ret.ok, s1)) (some s3) = some (Ret.ok, s') := by rw [← k3.trans k1]; exact h
    cases k4
    exact ⟨_, _, k2⟩

theorem xBackCmd_cut (hb : Base e size s) {n : Nat} (h : xBackCmd e s n = some (.ok, s')) : ∃ x y, Cut e size s s' x y := by
  have hcl := hb.es.cur; have hl := hb.es.len; have hml := hb.es.mem
  simp only [xBackCmd] at h
  split at h
  · cases h
  · obtain ⟨x, h1, h2⟩ := cntDown_spec (e := e) (m := s.es.mem) s.es.cur n (by omega)
    simp only [h1, yankRange_spec (e := e) hb.es hb.cap h2 hcl] at h
    obtain ⟨s3, k1, k2⟩ := del_cut (e := e) (t := (s.es.text.drop x).take (s.es.cur - x)) hb.es h2 hcl
      { dirty s with ybuf := (s.es.text.drop x).take (s.es.cur - x) } rfl rfl rfl (fun _ => rfl)
    rw [Option.map_eq_some_iff] at h k1
    obtain ⟨a, ha, hb⟩ := h
    obtain ⟨a', ha', rfl⟩ := k1
    rw [ha'] at ha
    cases ha
    cases hb
    exact ⟨_, _, k2⟩

theorem switch_cut (hb : Base e size s) (hc : Cm s.es) (hh : HeadOk e s.es.mem) {n : Nat} (hn : 1 ≤ n) {cmd : List Char}
    (hd : isDel (cmd.headD '\x00')) (h : switch e s n cmd = some (.ok, s')) : ∃ x y, Cut e size s s' x y := by
  simp only [switch] at h
  rcases hd with hd | hd | hd | hd <;> rw [hd] at h
  · rw [show ckind 'x' = .x by decide] at h
    exact xCmd_cut hb h
  · rw [show ckind 'X' = .X by decide] at h
    exact xBackCmd_cut hb h
  · rw [show ckind 'D' = .D by decide] at h
    have hl := hb.es.cur
    simp only [yankRange_spec (e := e) hb.es hb.cap hl (Nat.le_refl _)] at h
    obtain ⟨s3, k1, k2⟩ := del_cut (e := e) (t := (s.es.text.drop s.es.cur).take (s.es.len - s.es.cur)) hb.es hl (Nat.le_refl _)
      { s with ybuf := (s.es.text.drop s.es.cur).take (s.es.len - s.es.cur) } rfl rfl rfl (fun _ => rfl)
    have k3 := del_nocur (s := { s with ybuf := (s.es.text.drop s.es.cur).take (s.es.len - s.es.cur) }) (y := s.es.len) rfl
    rw [k3.trans k1] at h
    cases h
    exact ⟨_, _, k2⟩
  · rw [show ckind 'd' = .op by decide] at h
    exact opCmd_cut hb hc hh hn _ _ h

theorem backSafe_cont {m : List Char} : ∀ {n x : Nat}, backSafe e m n = some x →
    ∀ i c, x < i → i < n → m[i]? = some c → cont e c = true := by
  intro n
  induction n with
  | zero => intro x _ i c _ hi; omega
  | succ n ih =>
    intro x h i c hx hi hc
    simp only [backSafe] at h
    split at h
    · cases h
    · next d hd =>
      split at h
      · next hcd =>
        by_cases hin : i = n
        · subst hin; rw [hd] at hc; cases hc; exact hcd
        · exact ih h i c hx (by omega) hc
      · cases h; omega

theorem fwdSafe_cont {m : List Char} {len : Nat} (hl : len < m.length) : ∀ (k : Nat), k ≤ len →
    (∀ i c, len - k < i → i < len → m[i]? = some c → cont e c = true) → fwdSafe e m len k = some len := by
  intro k
  induction k with
  | zero => intro _ _; rfl
  | succ k ih =>
    intro hk h
    simp only [fwdSafe]
    obtain ⟨c, hc⟩ := get_some (l := m) (i := len - k) (by omega)
    simp only [hc]
    by_cases h0 : k = 0
    · subst h0
      split
      · rfl
      · simp
    · rw [if_pos (h (len - k) c (by omega) (by omega) hc)]
      exact ih (by omega) (fun i d h1 h2 h3 => h i d (by omega) h2 h3)

theorem putCmd_text (hb : s.es.Ok size) (hf : s.es.len + s.ybuf.length < size) :
    ∃ s', putCmd e s 1 = some (.ok, s') ∧ s'.mode = s.mode ∧ s'.es.text = s.es.text.take s.es.cur ++ s.ybuf ++ s.es.text.drop s.es.cur ∧
      s'.es.Ok size ∧ Cm s'.es := by
  obtain ⟨r, b, h1, h2, h3, h4, h5, h6, h7⟩ := put_spec hb s.ybuf
  have hr : r = true := h4.2 (.inr hf)
  subst hr
  obtain ⟨t1, t2, t3⟩ := h6 rfl
  simp only [putCmd, putLoop, h1, if_true]
  have := h2.cur; have := h2.len; have := h2.mem
  obtain ⟨x, g1, g2⟩ := backSafe_spec (e := e) (m := b.mem) b.cur (by omega)
  simp only [g1]
  refine ⟨_, rfl, rfl, t1, ⟨h2.mem, show x ≤ b.len by omega, h2.len⟩, ?_⟩
  show x < b.len ∨ b.len = 0
  omega

/-- `P` or `p` at a given place. -/
theorem put_viCmd (hb : Base e size s) (hm : s.mode = .cmd) (hc : Cm s.es) (hmac : s.mac = none) {p : Char} (hp : p = 'P' ∨ p = 'p') {z : Nat}
    (hz : p = 'P' → z = s.es.cur)
    (hz' : p = 'p' → z = s.es.len ∧ (s.es.cur < s.es.len → fwdSafe e s.es.mem s.es.len (s.es.len - s.es.cur) = some s.es.len))
    (hf : s.es.len + s.ybuf.length < size) (a b : Char) :
    ∃ s', viCmd e s 0 [p, a, b] = some (.ok, s') ∧ s'.es.text = s.es.text.take z ++ s.ybuf ++ s.es.text.drop z := by
  obtain ⟨u, g1, g2, g3, g4, g5⟩ := saveUndo_spec hb 1 [p, a, b]
  have k0 : count 0 p = 1 := by rcases hp with rfl | rfl <;> decide
  have k1 : isMove p = false := by rcases hp with rfl | rfl <;> decide
  have k2 : isUndoable p = true := by rcases hp with rfl | rfl <;> decide
  simp only [viCmd, List.headD_cons, k0, k1, Bool.false_eq_true, if_false, editing, k2, hmac, true_and, if_true]
  have hg1 : saveUndo s 1 [p, a, b] = some { s with undo := u, lastac := 1, lastcmd := [p, a, b] } := g1
  rw [hg1]
  simp only
  have hsw : ∃ s2, switch e { s with undo := u, lastac := 1, lastcmd := [p, a, b] } 1 [p, a, b] = some (.ok, s2) ∧
      s2.mode = .cmd ∧ s2.es.text = s.es.text.take z ++ s.ybuf ++ s.es.text.drop z ∧ s2.es.Ok size ∧ Cm s2.es := by
    rcases hp with rfl | rfl
    · simp only [switch, List.headD_cons, show ckind 'P' = .P by decide]
      obtain ⟨s2, q1, q2, q3, q4, q5⟩ := putCmd_text (e := e) (s := dirty { s with undo := u, lastac := 1, lastcmd := ['P', a, b] }) hb.es hf
      rw [hz rfl]
      exact ⟨s2, q1, q2.trans hm, q3, q4, q5⟩
    · simp only [switch, List.headD_cons, show ckind 'p' = .p by decide, putAfter]
      obtain ⟨z1, z2⟩ := hz' rfl
      have hcur : (if s.es.cur < s.es.len then s.es.len else s.es.cur) = s.es.len := by
        have := hb.es.cur
        split <;> omega
      have hfw : fwdSafe e s.es.mem s.es.len (s.es.len - s.es.cur) = some s.es.len := by
        by_cases hlt : s.es.cur < s.es.len
        · exact z2 hlt
        · rw [show s.es.len - s.es.cur = 0 by omega]; rfl
      simp only [hfw, hcur]
      obtain ⟨s2, q1, q2, q3, q4, q5⟩ := putCmd_text (e := e) (size := size)
        (s := setCur (dirty { s with undo := u, lastac := 1, lastcmd := ['p', a, b] }) s.es.len)
        ⟨hb.es.mem, Nat.le_refl _, hb.es.len⟩ hf
      rw [z1]
      exact ⟨s2, q1, q2.trans hm, q3, q4, q5⟩
  obtain ⟨s2, q1, q2, q3, q4, q5⟩ := hsw
  rw [q1, Option.bind_some]
  simp only [clamp]
  split
  · next h =>
    have := q4.cur
    have h0 : s2.es.cur = 0 := by rcases q5 with q5 | q5 <;> omega
    simp only [h0, backSafe, Option.map_some]
    exact ⟨_, rfl, q3⟩
  · exact ⟨_, rfl, q3⟩

/-- What a command that deletes leaves. -/
theorem viCmd_cut (hb : Base e size s) (hc : Cm s.es) (hh : HeadOk e s.es.mem) (hmac : s.mac = none)
    {n : Nat} {cmd : List Char} (hl : cmd.length = 3) (hd : isDel (cmd.headD '\x00')) (h : viCmd e s n cmd = some (.ok, s')) :
    ∃ x y s2, Cut e size s s2 x y ∧ clamp e (cmd.headD '\x00') (.ok, s2) = some (.ok, s') ∧ s2.mac = none := by
  have k1 : isMove (cmd.headD '\x00') = false := by rcases hd with h | h | h | h <;> rw [h] <;> decide
  have k2 : isUndoable (cmd.headD '\x00') = true := by rcases hd with h | h | h | h <;> rw [h] <;> decide
  have k3 : ckind (cmd.headD '\x00') ≠ .u ∧ ckind (cmd.headD '\x00') ≠ .macro := by
    rcases hd with h | h | h | h <;> rw [h] <;> decide
  have k4 : 1 ≤ count n (cmd.headD '\x00') := count_pos (by rcases hd with h | h | h | h <;> rw [h] <;> decide)
  simp only [viCmd, k1, Bool.false_eq_true, if_false, editing, k2, hmac, true_and, if_true] at h
  obtain ⟨u, g1, g2, _⟩ := saveUndo_spec hb (count n (cmd.headD '\x00')) cmd
  rw [g1] at h
  simp only at h
  generalize hs1 : ({ s with undo := u, lastac := count n (cmd.headD '\x00'), lastcmd := cmd } : Ed) = s1 at *
  have he : s1.es = s.es := by rw [← hs1]
  have hmm : s1.mode = s.mode := by rw [← hs1]
  have hma : s1.mac = none := by rw [← hs1]; exact hmac
  cases hsw : switch e s1 (count n (cmd.headD '\x00')) cmd with
  | none => rw [hsw] at h; cases h
  | some p =>
    obtain ⟨r, s2⟩ := p
    rw [hsw, Option.bind_some] at h
    have hr : r = .ok := by
      cases r <;> simp only [clamp, Option.some.injEq, Prod.mk.injEq] at h
      all_goals first | rfl | exact absurd h.1 (by decide)
    subst hr
    have hfr := switch_fr (e := e) (s := s1) (count n (cmd.headD '\x00')) k3.1 k3.2 _ hsw
    have hbb : Base e size s1 := by
      rw [← hs1]
      refine { hb with undo := g2, last := hl, lv := ?_ }
      rcases hd with h | h | h | h <;> rw [h] <;> decide
    obtain ⟨x, y, hcut⟩ := switch_cut (e := e) hbb (by rw [he]; exact hc) (by rw [he]; exact hh) k4 hd hsw
    refine ⟨x, y, s2, ⟨hcut.le, by rw [← he]; exact hcut.len, hcut.ok, by rw [← he]; exact hcut.text, hcut.cur, hcut.mode.trans hmm,
      fun hlt => by rw [← he]; exact hcut.kept hlt⟩, h, ?_⟩
    rcases hfr.2 with h | h
    · exact h.trans hma
    · exact h

/-- Deleting, then putting back. -/
theorem cut_put (he : EnvOk e) (hb : Base e size s) (hm : s.mode = .cmd) (hc : Cm s.es) (hh : HeadOk e s.es.mem) (hmac : s.mac = none)
    {n : Nat} {cmd : List Char} (hl : cmd.length = 3) (hd : isDel (cmd.headD '\x00')) (h : viCmd e s n cmd = some (.ok, s')) :
    ∃ x y, x ≤ y ∧ y ≤ s.es.len ∧ s'.es.text = s.es.text.take x ++ s.es.text.drop y ∧
      (x < y → s'.ybuf = (s.es.text.drop x).take (y - x) ∧
        ∀ a b, ∃ s2, viCmd e s' 0 [if y < s.es.len then 'P' else 'p', a, b] = some (.ok, s2) ∧ s2.es.text = s.es.text) := by
  have hok : CmdOk e s cmd := ⟨fun _ => hh, fun h => absurd h (by rcases hd with h | h | h | h <;> rw [h] <;> decide),
    fun h => absurd h (by rcases hd with h | h | h | h <;> rw [h] <;> decide)⟩
  obtain ⟨r0, s0, hv, hdone⟩ := viCmd_spec he hb hm hc n hl hok
  rw [h] at hv
  cases hv
  have hnv : cmd.headD '\x00' ≠ 'v' ∨ Ret.ok ≠ Ret.edit := .inr (by decide)
  have hb' := hdone.base hnv
  obtain ⟨x, y, s2, hcut, hcl, hma⟩ := viCmd_cut hb hc hh hmac hl hd h
  have hln := hcut.ln hb.es
  have hxy := hcut.le
  have hy := hcut.len
  have hm2 := hcut.mode.trans hm
  have hkh : ckind (cmd.headD '\x00') ≠ .hash := by rcases hd with h | h | h | h <;> rw [h] <;> decide
  -- the clamp changes only the cursor
  have hs' : ∃ z, s' = setCur s2 z ∧ (y < s.es.len → z = x) ∧ (y = s.es.len → backSafe e s2.es.mem x = some z) := by
    simp only [clamp, hm2, true_and] at hcl
    have hcu := hcut.cur
    by_cases hlt : y < s.es.len
    · rw [if_neg (by omega)] at hcl
      cases hcl
      refine ⟨x, ?_, fun _ => rfl, by omega⟩
      simp only [setCur, ← hcu]
    · rw [if_pos ⟨by omega, hkh⟩, hcu, Option.map_eq_some_iff] at hcl
      obtain ⟨z, hz, hz2⟩ := hcl
      cases hz2
      exact ⟨z, rfl, by omega, fun _ => hz⟩
  obtain ⟨z, rfl, hz1, hz2⟩ := hs'
  have hmode : (setCur s2 z).mode = .cmd := hm2
  have hcm := hdone.cm hmode hnv
  refine ⟨x, y, hxy, hy, hcut.text, fun hlt => ?_⟩
  have hkept := hcut.kept hlt
  refine ⟨hkept, fun a b => ?_⟩
  have htl := hb.es.text_len
  have hll := hb.es.len
  have hyl : (setCur s2 z).ybuf.length = y - x := by
    show s2.ybuf.length = _
    rw [hkept, List.length_take, List.length_drop]
    omega
  have hfit : (setCur s2 z).es.len + (setCur s2 z).ybuf.length < size := by
    rw [hyl]
    show s2.es.len + _ < _
    omega
  have htake : s2.es.text.take x = s.es.text.take x := by
    rw [hcut.text, List.take_append_of_le_length (by rw [List.length_take]; omega), List.take_take, Nat.min_self]
  have hdrop : s2.es.text.drop x = s.es.text.drop y := by
    rw [hcut.text, List.drop_append, List.length_take, List.drop_eq_nil_of_le (by rw [List.length_take]; omega)]
    rw [show x - min x s.es.text.length = 0 by omega]
    simp
  have hfin : s.es.text.take x ++ (s.es.text.drop x).take (y - x) ++ s.es.text.drop y = s.es.text := by
    have : s.es.text.drop y = (s.es.text.drop x).drop (y - x) := by rw [List.drop_drop]; congr 1; omega
    rw [this, List.append_assoc, List.take_append_drop, List.take_append_drop]
  by_cases hlast : y < s.es.len
  · rw [if_pos hlast]
    obtain ⟨s3, q1, q2⟩ := put_viCmd (p := 'P') hb' hmode hcm hma (.inl rfl) (z := z) (fun _ => rfl) (fun h => absurd h (by decide)) hfit a b
    refine ⟨s3, q1, ?_⟩
    rw [q2, hz1 hlast]
    show s2.es.text.take x ++ s2.ybuf ++ s2.es.text.drop x = _
    rw [htake, hdrop, hkept, hfin]
  · rw [if_neg hlast]
    have hyy : y = s.es.len := by omega
    have hbs := hz2 hyy
    have hx : x = s2.es.len := by omega
    obtain ⟨s3, q1, q2⟩ := put_viCmd (p := 'p') hb' hmode hcm hma (.inr rfl) (z := x) (fun h => absurd h (by decide))
      (fun _ => ⟨hx, fun hlt => by
        have h1 := hcut.ok.mem; have h2 := hcut.ok.len
        refine fwdSafe_cont (len := s2.es.len) (by show s2.es.len < s2.es.mem.length; omega) _ (Nat.sub_le _ _) ?_
        intro i c hi1 hi2 hi3
        have hi1 : s2.es.len - (s2.es.len - z) < i := hi1
        have hlt : z < s2.es.len := hlt
        exact backSafe_cont hbs i c (by omega) (by omega) hi3⟩) hfit a b
    refine ⟨s3, q1, ?_⟩
    rw [q2]
    show s2.es.text.take x ++ s2.ybuf ++ s2.es.text.drop x = _
    rw [htake, hdrop, hkept, hfin]

end Ksh.Vi
