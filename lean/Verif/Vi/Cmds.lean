import Verif.Vi.Lemmas
import Verif.Edit.Comment
import Verif.Edit.Complete
/-!
# The commands of vi mode stay inside the buffer
-/

namespace Ksh.Vi

/-- What holds of the statics at all times, with a buffer of `size` bytes. -/
structure Base (e : Env) (size : Nat) (s : Ed) : Prop where
  es : s.es.Ok size
  undo : s.undo.Ok size
  big : 160 ≤ size
  cap : size ≤ e.cap
  ibuf : s.ibuf.length = e.cap
  ins : s.inslen ≤ e.cap
  saved : s.saved ≤ e.cap
  loc : s.locpat.length = 40
  cmd : s.cmd.length = 3
  last : s.lastcmd.length = 3
  lv : s.lastcmd.headD '\x00' ≠ 'v'
  hold : s.hold.length < size
  hl : s.hlast = e.hist.length
  xb : ∀ b, s.xbuf = some b → b.Ok size
  cb : ∀ b, s.cbuf = some b → b.Ok size

/-- The cursor is on a character of the line, unless there is none. -/
def Cm (b : Buf) : Prop := b.cur < b.len ∨ b.len = 0

theorem Cm.zero {b : Buf} (h : b.cur = 0) : Cm b := by simp only [Cm]; omega

/-- What the surroundings promise. -/
structure EnvOk (e : Env) : Prop where
  range : ∀ f t c, c ≤ t.length → (e.glob f t c).1 ≤ (e.glob f t c).2.1 ∧ (e.glob f t c).2.1 ≤ t.length
  nonul : ∀ f t c, ∀ w ∈ (e.glob f t c).2.2.2, Edit.NoNul w
  erase : e.erase ≠ some '^'
  kill : e.kill ≠ some '^'
  werase : e.werase ≠ some '^'

variable {e : Env} {size : Nat} {s : Ed}

theorem Base.setEs (h : Base e size s) {b : Buf} (hb : b.Ok size) : Base e size { s with es := b } :=
  { h with es := hb }

theorem Base.setCur (h : Base e size s) {x : Nat} (hx : x ≤ s.es.len) : Base e size (Vi.setCur s x) :=
  { h with es := ⟨h.es.mem, hx, h.es.len⟩ }

theorem Base.dirty (h : Base e size s) : Base e size (dirty s) := { h with }

theorem Base.err (h : Base e size s) : Base e size (err s) := { h with }

/-! ## Putting and deleting -/

theorem put_spec (h : s.es.Ok size) (x : List Char) :
    ∃ r b, put s x false = some (r, { s with es := b }) ∧ b.Ok size ∧ b.len + s.es.cur = s.es.len + b.cur ∧
      (r = true ↔ x = [] ∨ s.es.len + x.length < size) ∧ (r = false → b = s.es) ∧
      (r = true → b.text = s.es.text.take s.es.cur ++ x ++ s.es.text.drop s.es.cur ∧ b.cur = s.es.cur + x.length ∧
        b.len = s.es.len + x.length) ∧
      (0 < s.es.cur → b.mem[0]? = s.es.mem[0]?) := by
  obtain ⟨r, b, h1, h2, h3, h4, h5, h6⟩ := putbuf_spec h x
  refine ⟨r, b, by simp [put, h1], h2, ?_, h3, h4, h5, h6⟩
  cases r with
  | true => have := h5 rfl; omega
  | false => rw [h4 rfl]

theorem put_ok (h : s.es.Ok size) (x : List Char) (repl : Bool) :
    ∃ r b, put s x repl = some (r, { s with es := b }) ∧ b.Ok size ∧
      ((∀ c, x[0]? = some c → cont e c = false) → (0 < s.es.cur → HeadOk e s.es.mem) → 0 < b.cur → HeadOk e b.mem) := by
  have key : ∀ r b, putbuf s.es x repl = some (r, b) → (0 < s.es.cur → b.mem[0]? = s.es.mem[0]?) →
      ((∀ c, x[0]? = some c → cont e c = false) → (0 < s.es.cur → HeadOk e s.es.mem) → 0 < b.cur → HeadOk e b.mem) := by
    intro r b hp h0 hx hh hb
    by_cases hc : s.es.cur = 0
    · exact putbuf_head x repl hp hc hx hb
    · intro c hc'
      rw [h0 (by omega)] at hc'
      exact hh (by omega) c hc'
  cases repl with
  | false =>
    obtain ⟨r, b, h1, h2, h3, h4, h5, h6⟩ := putbuf_spec h x
    exact ⟨r, b, by simp [put, h1], h2, key r b h1 h6⟩
  | true =>
    obtain ⟨r, b, h1, h2, _, _, h6⟩ := putbuf_repl h x
    exact ⟨r, b, by simp [put, h1], h2, key r b h1 h6⟩

theorem redoLoop_spec (x : List Char) (repl : Bool) (hx : ∀ c, x[0]? = some c → cont e c = false) :
    ∀ (n : Nat) {s : Ed}, s.es.Ok size →
    ∃ r b, redoLoop x repl n s = some (r, { s with es := b }) ∧ b.Ok size ∧
      ((0 < s.es.cur → HeadOk e s.es.mem) → 0 < b.cur → HeadOk e b.mem) := by
  intro n
  induction n with
  | zero => intro s h; exact ⟨true, s.es, rfl, h, fun h => h⟩
  | succ n ih =>
    intro s h
    obtain ⟨r, b, h1, h2, h3⟩ := put_ok (e := e) h x repl
    simp only [redoLoop, h1]
    cases r with
    | false => exact ⟨false, b, rfl, h2, h3 hx⟩
    | true =>
      obtain ⟨r', b', g1, g2, g3⟩ := ih (s := { s with es := b }) h2
      exact ⟨r', b', g1, g2, fun hh hb => g3 (h3 hx hh) hb⟩

/-- `redoLoop` when only the length matters. -/
theorem redoLoop_fit (c : Char) : ∀ (n : Nat) {s : Ed}, s.es.Ok size → s.es.len + n < size →
    ∃ b, redoLoop [c] false n s = some (true, { s with es := b }) ∧ b.Ok size ∧ b.len = s.es.len + n ∧ b.cur = s.es.cur + n ∧
      b.text = s.es.text.take s.es.cur ++ List.replicate n c ++ s.es.text.drop s.es.cur := by
  intro n
  induction n with
  | zero => intro s h _; exact ⟨s.es, rfl, h, by omega, by omega, by simp⟩
  | succ n ih =>
    intro s h hl
    obtain ⟨r, b, h1, h2, h3, h4, h5, h6, _⟩ := put_spec (s := s) h [c]
    have hr : r = true := h4.2 (.inr (by simp; omega))
    subst hr
    obtain ⟨t1, t2, t3⟩ := h6 rfl
    simp only [List.length_singleton] at t2 t3
    obtain ⟨b', g1, g2, g3, g4, g5⟩ := ih (s := { s with es := b }) h2 (by simp only [t3]; omega)
    simp only [redoLoop, h1]
    refine ⟨b', g1, g2, by simp only [g3, t3]; omega, by simp only [g4, t2]; omega, ?_⟩
    rw [g5]
    simp only [t1, t2]
    have hlen : (s.es.text.take s.es.cur).length = s.es.cur := by
      rw [List.length_take, h.text_len]; have := h.cur; omega
    rw [List.take_left' (by simp [hlen]), List.drop_left' (by simp [hlen]), List.replicate_succ]
    simp

theorem redoInsert_spec (h : Base e size s) (hi : HeadOk e s.ibuf) (hh : 0 < s.es.cur → HeadOk e s.es.mem) (n : Nat) :
    ∃ r s', redoInsert e s n = some (r, s') ∧ Base e size s' ∧ s'.state = s.state ∧ s'.srchlen = s.srchlen ∧
      (r = true → s'.mode = .cmd ∧ Cm s'.es) ∧ (r = false → s'.mode = s.mode) := by
  simp only [redoInsert]
  have := h.ins; have := h.ibuf
  rw [if_neg (by omega)]
  have hx : ∀ c, (s.ibuf.take s.inslen)[0]? = some c → cont e c = false := by
    intro c hc
    by_cases h0 : s.inslen = 0
    · rw [h0] at hc; simp at hc
    · rw [List.getElem?_take_of_lt (by omega)] at hc
      exact hi c hc
  obtain ⟨r, b, h1, h2, h3⟩ := redoLoop_spec (e := e) (size := size) (s.ibuf.take s.inslen) (decide (s.mode = .rep)) hx n h.es
  simp only [h1]
  cases r with
  | false => exact ⟨false, _, rfl, h.setEs h2, rfl, rfl, by simp, fun _ => rfl⟩
  | true =>
    simp only
    by_cases h0 : 0 < b.cur
    · rw [if_pos h0]
      have := h2.cur; have := h2.len; have := h2.mem
      obtain ⟨x, g1, g2⟩ := backCont_spec (h3 hh h0) h0 (by omega)
      simp only [g1]
      refine ⟨true, _, rfl, { h with es := ⟨h2.mem, by simp; omega, h2.len⟩ }, rfl, rfl, fun _ => ⟨rfl, .inl ?_⟩, by simp⟩
      simp; omega
    · rw [if_neg h0]
      exact ⟨true, _, rfl, { h with es := h2 }, rfl, rfl, fun _ => ⟨rfl, Cm.zero (by simp; omega)⟩, by simp⟩

theorem escape_spec (ifs : List Char) : ∀ (w pre : List Char) {s : Ed}, s.es.Ok size →
    ∃ r b, escape ifs pre w s = some (r, { s with es := b }) ∧ b.Ok size ∧ b.len + s.es.cur = s.es.len + b.cur := by
  intro w
  induction w with
  | nil =>
    intro pre s h
    obtain ⟨r, b, h1, h2, h3, _⟩ := put_spec (s := s) h pre
    exact ⟨r, b, h1, h2, h3⟩
  | cons c l ih =>
    intro pre s h
    simp only [escape]
    split
    · obtain ⟨r, b, h1, h2, h3, _⟩ := put_spec (s := s) h pre
      simp only [h1]
      cases r with
      | false => exact ⟨false, b, rfl, h2, h3⟩
      | true =>
        obtain ⟨r1, b1, g1, g2, g3, _⟩ := put_spec (s := { s with es := b }) h2 ['\\']
        obtain ⟨r2, b2, k1, k2, k3, _⟩ := put_spec (s := { s with es := b1 }) g2 [c]
        obtain ⟨r3, b3, l1, l2, l3⟩ := ih [] (s := { s with es := b2 }) k2
        simp only at g3 k3 l3
        simp only [g1, k1]
        exact ⟨r3, b3, l1, l2, by omega⟩
    · exact ih _ h

theorem expandLoop_spec (ifs : List Char) : ∀ (ws : List (List Char)) {s : Ed}, s.es.Ok size →
    ∃ r b, expandLoop ifs ws s = some (r, { s with es := b }) ∧ b.Ok size ∧ b.len + s.es.cur = s.es.len + b.cur := by
  intro ws
  induction ws with
  | nil => intro s h; exact ⟨true, s.es, rfl, h, by omega⟩
  | cons w ws ih =>
    intro s h
    obtain ⟨r, b, h1, h2, h3⟩ := escape_spec ifs w [] h
    simp only [expandLoop, h1]
    cases r with
    | false => exact ⟨false, b, rfl, h2, h3⟩
    | true =>
      simp only
      split
      · exact ⟨true, b, rfl, h2, h3⟩
      · obtain ⟨r1, b1, g1, g2, g3, _⟩ := put_spec (s := { s with es := b }) h2 [' ']
        simp only at g3
        simp only [g1]
        cases r1 with
        | false => exact ⟨false, b1, rfl, g2, by omega⟩
        | true =>
          obtain ⟨r2, b2, k1, k2, k3⟩ := ih (s := { s with es := b1 }) g2
          simp only at k3
          exact ⟨r2, b2, k1, k2, by omega⟩

theorem del_spec (h : s.es.Ok size) {x y : Nat} (hxy : x ≤ y) (hy : y ≤ s.es.len) :
    ∃ b, del s x y = some { s with es := b } ∧ b.mem.length = size ∧ b.len = s.es.len - (y - x) ∧ b.cur = s.es.cur ∧
      b.text = s.es.text.take x ++ s.es.text.drop y ∧ (0 < x → b.mem[0]? = s.es.mem[0]?) := by
  obtain ⟨b, h1, h2⟩ := delRange_spec h hxy hy
  exact ⟨b, by simp [del, h1], h2⟩

theorem cutWord_spec (h : s.es.Ok size) {x y : Nat} (hxy : x ≤ y) (hy : y ≤ s.es.len) :
    ∃ b, cutWord s x y = some { s with es := b } ∧ b.Ok size ∧ b.cur = x ∧ b.len = s.es.len - (y - x) := by
  obtain ⟨b, h1, h2, h3, h4, h5, h6⟩ := delRange_spec h hxy hy
  refine ⟨{ b with cur := x }, by simp [cutWord, h1], ⟨h2, ?_, ?_⟩, rfl, h3⟩
  · simp only; omega
  · have := h.len; simp only; omega

theorem restoreEd_spec {b old : Buf} (hb : b.Ok size) (ho : old.Ok size) :
    ∃ b', restoreEd b old = some b' ∧ b'.Ok size := by
  simp only [restoreEd]
  have := hb.mem; have := ho.len; have := ho.text_len
  rw [memput_ok (by omega)]
  exact ⟨_, rfl, ⟨by rw [memput_len (by omega), hb.mem], ho.cur, ho.len⟩⟩

theorem setLine_spec {b : Buf} (hb : b.Ok size) {l : List Char} (hl : l.length < size) :
    ∃ b', setLine b l = some b' ∧ b'.Ok size ∧ b'.cur = 0 ∧ b'.text = l := by
  simp only [setLine]
  have := hb.mem
  rw [memput_ok (by omega)]
  refine ⟨_, rfl, ⟨by rw [memput_len (by omega), hb.mem], by simp, hl⟩, rfl, ?_⟩
  simp [Buf.text]

/-! ## Completion -/

/-- What a command keeps of the surroundings of the line. -/
structure Keep (s s' : Ed) : Prop where
  state : (s'.state, s'.ibuf) = (s.state, s.ibuf)
  srch : s'.srchlen = s.srchlen

/-- What an insertion keeps. -/
structure KeepS (s s' : Ed) : Prop where
  state : s'.state = s.state
  srch : s'.srchlen = s.srchlen

theorem Keep.toS {s s' : Ed} (h : Keep s s') : KeepS s s' := ⟨congrArg Prod.fst h.1, h.2⟩

theorem toInsert_base (h : Base e size s) : Base e size (toInsert s) := { h with }

theorem expandNew_spec (he : EnvOk e) (h : Base e size s) :
    ∃ s', expandNew e s = some s' ∧ Base e size s' ∧ Keep s s' ∧ (s'.mode = .ins ∨ (s'.mode = s.mode ∧ s'.es = s.es)) := by
  simp only [expandNew]
  have hr := he.range true s.es.text s.es.cur (by rw [h.es.text_len]; exact h.es.cur)
  rw [h.es.text_len] at hr
  rcases hg : e.glob true s.es.text s.es.cur with ⟨start, stop, isc, words⟩
  rw [hg] at hr
  cases words with
  | nil =>
    refine ⟨_, rfl, { h with xb := ?_ }, ⟨rfl, rfl⟩, .inr ⟨rfl, rfl⟩⟩
    simp [err]
  | cons w ws =>
    simp only
    obtain ⟨b, h1, h2, h3, h4⟩ := cutWord_spec (size := size) (s := { s with xbuf := some s.es, expanded := .expand }) h.es hr.1 hr.2
    obtain ⟨r, b', g1, g2, g3⟩ := expandLoop_spec e.ifs (w :: ws) (s := { s with xbuf := some s.es, expanded := .expand, es := b }) h2
    simp only at h4 g3
    simp only [h1, g1]
    refine ⟨_, rfl, toInsert_base { h with es := ⟨g2.mem, ?_, g2.len⟩, xb := ?_ }, ⟨rfl, rfl⟩, .inl rfl⟩
    · have := h.es.cur
      have := g2.cur
      simp only at hr
      cases r <;> simp <;> omega
    · intro b' hb'
      simp only [Option.some.injEq] at hb'
      subst hb'; exact h.es

theorem expandWord_spec (he : EnvOk e) (h : Base e size s) (command : Bool) :
    ∃ s', expandWord e s command = some s' ∧ Base e size s' ∧ Keep s s' ∧
      (s'.mode = .ins ∨ (s'.mode = s.mode ∧ (command = true → s'.es = s.es))) := by
  have hnew : ∃ s', expandNew e s = some s' ∧ Base e size s' ∧ Keep s s' ∧
      (s'.mode = .ins ∨ (s'.mode = s.mode ∧ (command = true → s'.es = s.es))) := by
    obtain ⟨s', h1, h2, h3, h4⟩ := expandNew_spec he h
    exact ⟨s', h1, h2, h3, h4.elim .inl (fun h => .inr ⟨h.1, fun _ => h.2⟩)⟩
  simp only [expandWord]
  cases hx : s.xbuf with
  | none => exact hnew
  | some old =>
    simp only
    split
    · next hc =>
      obtain ⟨b, h1, h2⟩ := restoreEd_spec h.es (h.xb old hx)
      simp only [h1]
      refine ⟨_, rfl, { h with es := h2, xb := ?_ }, ⟨rfl, rfl⟩, .inr ⟨rfl, fun h => by rw [hc.1] at h; cases h⟩⟩
      simp
    · exact hnew

theorem completePut_spec (h : Base e size s) {start stop : Nat} (h1 : start ≤ stop) (h2 : stop ≤ s.es.len) (m : List Char) (uniq : Bool) :
    ∃ s', completePut e s start stop m uniq = some s' ∧ Base e size s' ∧ Keep s s' ∧ s'.mode = .ins := by
  obtain ⟨b, c1, c2, c3, c4⟩ := cutWord_spec (size := size) (s := { s with cbuf := some s.es }) h.es h1 h2
  obtain ⟨r, b', g1, g2, g3⟩ := escape_spec e.ifs m [] (s := { s with cbuf := some s.es, es := b }) c2
  simp only [completePut, c1, g1]
  have hb : ∀ x, (some s.es : Option Buf) = some x → x.Ok size := by
    intro x hx; simp only [Option.some.injEq] at hx; subst hx; exact h.es
  split
  · split
    · obtain ⟨r2, b2, k1, k2, _⟩ := put_spec (s := { s with cbuf := some s.es, es := b', expanded := .none }) g2 [' ']
      simp only [k1]
      exact ⟨_, rfl, toInsert_base { h with es := k2, cb := hb }, ⟨rfl, rfl⟩, rfl⟩
    · exact ⟨_, rfl, toInsert_base { h with es := g2, cb := hb }, ⟨rfl, rfl⟩, rfl⟩
  · exact ⟨_, rfl, toInsert_base { h with es := g2, cb := hb }, ⟨rfl, rfl⟩, rfl⟩

theorem completeNew_spec (he : EnvOk e) (h : Base e size s) (n : Nat) :
    ∃ s', completeNew e s n = some s' ∧ Base e size s' ∧ Keep s s' ∧ (s'.mode = .ins ∨ (s'.mode = s.mode ∧ s'.es = s.es)) := by
  simp only [completeNew]
  have hr := he.range (decide (n ≠ 0)) s.es.text s.es.cur (by rw [h.es.text_len]; exact h.es.cur)
  have hn := he.nonul (decide (n ≠ 0)) s.es.text s.es.cur
  rw [h.es.text_len] at hr
  rcases hg : e.glob (decide (n ≠ 0)) s.es.text s.es.cur with ⟨start, stop, isc, words⟩
  rw [hg] at hr hn
  have h' : Base e size { s with cbuf := none } := { h with cb := by simp }
  cases words with
  | nil => exact ⟨_, rfl, h'.err, ⟨rfl, rfl⟩, .inr ⟨rfl, rfl⟩⟩
  | cons w ws =>
    simp only
    cases n with
    | zero =>
      obtain ⟨k, hk, _⟩ := Edit.longestPrefix_spec (w :: ws) (by simp) hn
      simp only [hk]
      obtain ⟨s', g1, g2, g3, g4⟩ := completePut_spec (e := e) (s := { s with cbuf := none, expanded := .complete })
        { h with cb := by simp } hr.1 hr.2 (w.take k) (decide (ws = []))
      exact ⟨s', g1, g2, ⟨g3.1, g3.2⟩, .inl g4⟩
    | succ n =>
      simp only
      cases hw : (w :: ws)[n]? with
      | none => exact ⟨_, rfl, h'.err, ⟨rfl, rfl⟩, .inr ⟨rfl, rfl⟩⟩
      | some v =>
        obtain ⟨s', g1, g2, g3, g4⟩ := completePut_spec (e := e) h' hr.1 hr.2 (pick isc (w :: ws) n v) true
        exact ⟨s', g1, g2, ⟨g3.1, g3.2⟩, .inl g4⟩

theorem printExp_eq (e : Env) (s : Ed) (b : Buf) : ∃ m, printExp e s b = { s with mac := m } := by
  simp only [printExp]
  split
  · exact ⟨none, rfl⟩
  · exact ⟨s.mac, rfl⟩

theorem completeWord_spec (he : EnvOk e) (h : Base e size s) (command : Bool) (n : Nat) :
    ∃ s', completeWord e s command n = some s' ∧ Base e size s' ∧ Keep s s' ∧
      (s'.mode = .ins ∨ (s'.mode = s.mode ∧ (command = true → s'.es = s.es))) := by
  have hnew : ∃ s', completeNew e s n = some s' ∧ Base e size s' ∧ Keep s s' ∧
      (s'.mode = .ins ∨ (s'.mode = s.mode ∧ (command = true → s'.es = s.es))) := by
    obtain ⟨s', h1, h2, h3, h4⟩ := completeNew_spec he h n
    exact ⟨s', h1, h2, h3, h4.elim .inl (fun h => .inr ⟨h.1, fun _ => h.2⟩)⟩
  simp only [completeWord]
  cases hx : s.cbuf with
  | none => exact hnew
  | some old =>
    simp only
    split
    · next hc =>
      obtain ⟨m, hm⟩ := printExp_eq e s old
      rw [hm]
      exact ⟨_, rfl, { h with }, ⟨rfl, rfl⟩, .inr ⟨rfl, fun _ => rfl⟩⟩
    · split
      · next hc =>
        obtain ⟨b, h1, h2⟩ := restoreEd_spec h.es (h.cb old hx)
        simp only [h1]
        refine ⟨_, rfl, { h with es := h2, cb := ?_ }, ⟨rfl, rfl⟩, .inr ⟨rfl, fun h => by rw [hc.1] at h; cases h⟩⟩
        simp
      · exact hnew

/-! ## History -/

theorem saveCbuf_spec (h : Base e size s) :
    saveCbuf e s = some { s with hold := s.es.text, holdS := cstr s.es.text } := by
  simp only [saveCbuf]
  have := h.es.len; have := h.es.mem; have := h.cap
  rw [if_neg (by omega)]

theorem restoreCbuf_spec (h : Base e size s) :
    ∃ b, restoreCbuf s = some { s with es := b } ∧ b.Ok size ∧ b.cur = 0 ∧ b.text = s.hold := by
  obtain ⟨b, h1, h2, h3⟩ := setLine_spec h.es h.hold
  exact ⟨b, by simp [restoreCbuf, h1], h2, h3⟩

theorem grabLine_spec (h : Base e size s) (save : Bool) (l : List Char) :
    ∃ b, grabLine e s save l = some { s with es := b, hold := if save then s.es.text else s.hold,
                                             holdS := if save then cstr s.es.text else s.holdS } ∧
      b.Ok size ∧ b.cur = 0 ∧ b.text = l.take (size - 1) := by
  simp only [grabLine]
  have hb := h.big
  obtain ⟨b, h1, h2, h3, h4⟩ := setLine_spec (l := l.take (size - 1)) h.es (by rw [List.length_take]; omega)
  refine ⟨b, ?_, h2, h3, h4⟩
  cases save with
  | true =>
    simp only [if_true, saveCbuf_spec h, h.es.mem, h1]
  | false =>
    simp only [Bool.false_eq_true, if_false, h.es.mem, h1]

theorem hold_ok (h : Base e size s) (save : Bool) : (if save then s.es.text else s.hold).length < size := by
  cases save with
  | true => simp only [if_true, h.es.text_len]; exact h.es.len
  | false => exact h.hold

theorem grabhist_spec (h : Base e size s) (save : Bool) (n : Int) :
    ∃ r s', grabhist e s save n = some (r, s') ∧ Base e size s' ∧ Keep s s' ∧ s'.mode = s.mode ∧
      (r = true → s'.es.cur = 0) ∧ (r = false → s' = s) := by
  simp only [grabhist]
  split
  · exact ⟨false, s, rfl, h, ⟨rfl, rfl⟩, rfl, by simp, fun _ => rfl⟩
  · split
    · obtain ⟨b, h1, h2, h3, _⟩ := restoreCbuf_spec h
      simp only [h1]
      exact ⟨true, _, rfl, { h with es := h2 }, ⟨rfl, rfl⟩, rfl, fun _ => h3, by simp⟩
    · next h1 h2 =>
      have := h.hl
      have hlt : n.toNat < e.hist.length := by omega
      simp only [List.getElem?_eq_getElem hlt]
      obtain ⟨b, g1, g2, g3, _⟩ := grabLine_spec h save e.hist[n.toNat]
      simp only [g1]
      exact ⟨true, _, rfl, { h with es := g2, hold := hold_ok h save }, ⟨rfl, rfl⟩, rfl, fun _ => g3, by simp⟩

theorem findFwd_lt (a : Bool) (pat : List Char) : ∀ (ls : List (List Char)) (i x : Nat),
    findFwd a pat ls i = some x → i ≤ x ∧ x < i + ls.length := by
  intro ls
  induction ls with
  | nil => intro i x h; simp [findFwd] at h
  | cons l ls ih =>
    intro i x h
    simp only [findFwd] at h
    split at h
    · simp only [Option.some.injEq] at h; simp; omega
    · have := ih _ _ h; simp; omega

theorem findBwd_lt (hs : List (List Char)) (a : Bool) (pat : List Char) : ∀ (n x : Nat),
    findBwd hs a pat n = some x → x < n := by
  intro n
  induction n with
  | zero => intro x h; simp [findBwd] at h
  | succ n ih =>
    intro x h
    simp only [findBwd] at h
    split at h
    · simp only [Option.some.injEq] at h; omega
    · have := ih _ h; omega

theorem findhist_lt {hs : List (List Char)} {start : Int} {fwd a : Bool} {pat : List Char} {x : Nat}
    (h : findhist hs start fwd pat a = some x) : x < hs.length := by
  simp only [findhist] at h
  generalize hst : (if start < 0 ∨ start ≥ (hs.length : Int) - 1 then (hs.length : Int) - 1 else start) = st at h
  have hle : st ≤ (hs.length : Int) - 1 := by rw [← hst]; split <;> omega
  clear hst
  split at h
  · cases h
  · next h0 =>
    split at h
    · have := findFwd_lt _ _ _ _ _ h
      rw [List.length_drop] at this
      omega
    · have := findBwd_lt _ _ _ _ _ h
      omega

theorem grabsearch_spec (h : Base e size s) (fwd : Bool) :
    ∃ r s', grabsearch e s fwd = some (r, s') ∧ Base e size s' ∧ Keep s s' ∧ s'.mode = s.mode ∧
      (r ≠ none → s'.es.cur = 0) ∧ (r = none → s' = s) := by
  simp only [grabsearch]
  split
  · exact ⟨none, s, rfl, h, ⟨rfl, rfl⟩, rfl, by simp, fun _ => rfl⟩
  · generalize (if s.srchpat.head? = some '^' then s.srchpat.tail else s.srchpat) = pat
    generalize (if fwd = true then s.hnum + 1 else s.hnum - 1) = start
    split
    · split
      · obtain ⟨b, h1, h2, h3, _⟩ := restoreCbuf_spec h
        simp only [h1]
        exact ⟨some 0, _, rfl, { h with es := h2 }, ⟨rfl, rfl⟩, rfl, fun _ => h3, by simp⟩
      · exact ⟨none, s, rfl, h, ⟨rfl, rfl⟩, rfl, by simp, fun _ => rfl⟩
    · next x hf =>
      have hlt := findhist_lt hf
      simp only [List.getElem?_eq_getElem hlt]
      obtain ⟨b, g1, g2, g3, _⟩ := grabLine_spec h s.modified e.hist[x]
      simp only [g1]
      exact ⟨some x, _, rfl, { h with es := g2, hold := hold_ok h s.modified }, ⟨rfl, rfl⟩, rfl, fun _ => g3, by simp⟩

/-! ## Inserting -/

/-- After a key in insert mode. -/
structure InsPost (e : Env) (size : Nat) (s s' : Ed) : Prop where
  base : Base e size s'
  keep : KeepS s s'
  mode : s'.mode = .cmd → Cm s'.es

theorem eraseChar_spec (h : Base e size s) (h0 : s.es.cur ≠ 0) (hm : s.mode ≠ .cmd) :
    ∃ s', eraseChar e s = some s' ∧ InsPost e size s s' := by
  obtain ⟨n, hn⟩ : ∃ n, s.es.cur = n + 1 := ⟨s.es.cur - 1, by omega⟩
  have hc := h.es.cur; have hl := h.es.len; have hml := h.es.mem
  have hul := h.undo.len; have hum := h.undo.mem
  have hi := h.ins
  obtain ⟨t, h1, h2⟩ := backFrom_spec (e := e) (m := s.es.mem) n (by omega)
  simp only [eraseChar]
  split
  · omega
  · next k hk =>
    have hkn : k = n := by omega
    subst hkn
    simp only [h1]
    by_cases hr : s.mode = .rep
    · rw [if_pos hr]
      by_cases hu : s.es.cur < s.undo.len
      · rw [if_pos hu, if_neg (by omega)]
        rw [memput_ok (by simp only [List.length_take, List.length_drop]; omega)]
        refine ⟨_, rfl, { h with es := ⟨?_, by simp; omega, hl⟩, ins := by simp [shorten]; omega }, ⟨rfl, rfl⟩, fun hx => absurd hx hm⟩
        rw [memput_len (by simp only [List.length_take, List.length_drop]; omega), hml]
      · rw [if_neg hu, if_neg (by omega)]
        exact ⟨_, rfl, { h with es := ⟨hml, by simp; omega, by simp; omega⟩, ins := by simp [shorten]; omega }, ⟨rfl, rfl⟩,
          fun hx => absurd hx hm⟩
    · rw [if_neg hr, show (s.es.len : Int) - s.es.cur = ((s.es.len - s.es.cur : Nat) : Int) by omega,
        memmove_ok (by omega) (by omega)]
      refine ⟨_, rfl, { h with es := ⟨?_, by simp; omega, by simp; omega⟩, ins := by simp [shorten]; omega }, ⟨rfl, rfl⟩,
        fun hx => absurd hx hm⟩
      rw [memmove_len (by omega) (by omega), hml]

theorem insErase_spec (h : Base e size s) (hm : s.mode ≠ .cmd)
    (hr : s.mode = .rep → s.es.cur = s.undo.cur ∨ s.es.cur ≠ 0) :
    ∃ s', insErase e s = some s' ∧ InsPost e size s s' := by
  simp only [insErase]
  split
  · next hrep =>
    split
    · exact ⟨_, rfl, h.err, ⟨rfl, rfl⟩, fun hx => absurd hx hm⟩
    · next hc => exact eraseChar_spec h ((hr hrep).resolve_left hc) hm
  · split
    · exact ⟨_, rfl, h, ⟨rfl, rfl⟩, fun hx => absurd hx hm⟩
    · next hc => exact eraseChar_spec h hc hm

theorem insKill_spec (h : Base e size s) (hm : s.mode ≠ .cmd) : ∃ s', insKill s = some s' ∧ InsPost e size s s' := by
  have hc := h.es.cur; have hl := h.es.len; have hml := h.es.mem
  simp only [insKill]
  split
  · rw [show (s.es.len : Int) - s.es.cur = ((s.es.len - s.es.cur : Nat) : Int) by omega, memmove_ok (by omega) (by omega)]
    refine ⟨_, rfl, { h with es := ⟨?_, by simp, by simp; omega⟩, ins := by simp }, ⟨rfl, rfl⟩, fun hx => absurd hx hm⟩
    rw [memmove_len (by omega) (by omega), hml]
  · exact ⟨_, rfl, { h with }, ⟨rfl, rfl⟩, fun hx => absurd hx hm⟩

theorem insWerase_spec (h : Base e size s) (hm : s.mode ≠ .cmd) : ∃ s', insWerase s = some s' ∧ InsPost e size s s' := by
  have hc := h.es.cur; have hl := h.es.len; have hml := h.es.mem
  have hi := h.ins
  simp only [insWerase]
  split
  · obtain ⟨t, h1, h2⟩ := backword_spec (m := s.es.mem) 1 s.es.cur (by omega)
    simp only [h1]
    rw [show (s.es.len : Int) - s.es.cur = ((s.es.len - s.es.cur : Nat) : Int) by omega, memmove_ok (by omega) (by omega)]
    refine ⟨_, rfl, { h with es := ⟨?_, by simp; omega, by simp; omega⟩, ins := by simp [shorten]; omega }, ⟨rfl, rfl⟩,
      fun hx => absurd hx hm⟩
    rw [memmove_len (by omega) (by omega), hml]
  · exact ⟨_, rfl, { h with }, ⟨rfl, rfl⟩, fun hx => absurd hx hm⟩

theorem insChar_spec (h : Base e size s) (hm : s.mode ≠ .cmd) (hi : s.inslen < e.cap) (ch : Char) :
    ∃ r s', insChar e s ch = some (r, s') ∧ InsPost e size s s' ∧ s'.mode = s.mode ∧ (r = true → s'.es.cur = s.es.cur + 1) := by
  have hc := h.es.cur; have hl := h.es.len; have hml := h.es.mem
  have hib := h.ibuf
  simp only [insChar]
  split
  · exact ⟨false, _, rfl, ⟨h, ⟨rfl, rfl⟩, fun hx => absurd hx hm⟩, rfl, by simp⟩
  · rw [if_neg (by omega)]
    by_cases hins : s.mode = .ins
    · rw [if_pos hins]
      rw [show (s.es.len : Int) - s.es.cur = ((s.es.len - s.es.cur : Nat) : Int) by omega, memmove_ok (by omega) (by omega)]
      simp only
      rw [memput_ok (by rw [memmove_len (by omega) (by omega)]; simp; omega)]
      refine ⟨true, _, rfl, ⟨{ h with es := ⟨?_, by simp; omega, by simp; omega⟩, ins := by simp; omega, ibuf := by simp [hib] }, ⟨rfl, rfl⟩,
        fun hx => absurd hx hm⟩, rfl, fun _ => rfl⟩
      rw [memput_len (by rw [memmove_len (by omega) (by omega)]; simp; omega), memmove_len (by omega) (by omega), hml]
    · rw [if_neg hins, memput_ok (by simp; omega)]
      refine ⟨true, _, rfl, ⟨{ h with es := ⟨?_, by simp; omega, by simp; omega⟩, ins := by simp; omega, ibuf := by simp [hib] }, ⟨rfl, rfl⟩,
        fun hx => absurd hx hm⟩, rfl, fun _ => rfl⟩
      rw [memput_len (by simp; omega), hml]

theorem insEsc_spec (h : Base e size s) (hm : s.mode ≠ .cmd) (hi : HeadOk e s.ibuf) (hh : HeadOk e s.es.mem) :
    ∃ r s', insEsc e s = some (r, s') ∧ InsPost e size s s' := by
  have key : ∀ (s1 : Ed) (n : Nat), Base e size s1 → KeepS s s1 → s1.mode ≠ .cmd → HeadOk e s1.ibuf → HeadOk e s1.es.mem →
      ∃ r s', redoInsert e s1 n = some (r, s') ∧ InsPost e size s s' := by
    intro s1 n b1 k1 m1 i1 h1
    obtain ⟨r, s', g1, g2, g3, g4, g5, g6⟩ := redoInsert_spec b1 i1 (fun _ => h1) n
    refine ⟨r, s', g1, g2, ⟨g3.trans k1.1, g4.trans k1.2⟩, fun hx => ?_⟩
    cases r with
    | true => exact (g5 rfl).2
    | false => rw [g6 rfl] at hx; exact absurd hx m1
  simp only [insEsc]
  split
  · split
    · exact key _ _ { h with ins := h.saved } ⟨rfl, rfl⟩ hm hi hh
    · refine key _ _ { h with last := ?_, lv := ?_ } ⟨rfl, rfl⟩ hm hi hh
      · simp [h.last]
      · have := h.last
        cases hl : s.lastcmd with
        | nil => simp
        | cons x l => simp
  · split
    · exact key _ _ { h with } ⟨rfl, rfl⟩ hm hi hh
    · exact key _ _ { h with } ⟨rfl, rfl⟩ hm hi hh

theorem ikind_hat (e : Env) : ikind e '^' = .char := by
  simp only [ikind]
  rw [if_neg (by decide), if_neg (by decide), if_neg (by decide), if_neg (by decide), if_neg, if_neg (by decide)]
  rintro (h | h)
  · exact absurd h (by decide)
  · exact absurd h.1 (by decide)

theorem insKey_spec (he : EnvOk e) (h : Base e size s) (hm : s.mode ≠ .cmd) (hi : HeadOk e s.ibuf) (hh : HeadOk e s.es.mem)
    (hroom : s.inslen < e.cap) (ch : Char) :
    ∃ r s', insKey e s ch = some (r, s') ∧ InsPost e size s s' ∧
      (ch = '^' → r = .ok → s'.mode ≠ .cmd ∧ s'.es.cur = s.es.cur + 1) := by
  simp only [insKey]
  generalize hs1 : (if s.first = true ∧ ch ≠ '\x1b' then { s with saved := 0 } else s) = s1
  have b1 : Base e size s1 := by subst hs1; split; · exact { h with saved := by simp }
                                 · exact h
  have f1 : s1.es = s.es ∧ s1.mode = s.mode ∧ s1.ibuf = s.ibuf ∧ s1.inslen = s.inslen ∧ KeepS s s1 := by
    subst hs1; split <;> exact ⟨rfl, rfl, rfl, rfl, rfl, rfl⟩
  obtain ⟨fe, fm, fi, fl, fk⟩ := f1
  have hm1 : s1.mode ≠ .cmd := by rw [fm]; exact hm
  have up : ∀ {s'}, InsPost e size s1 s' → InsPost e size s s' := fun h => ⟨h.1, ⟨h.2.1.trans fk.1, h.2.2.trans fk.2⟩, h.3⟩
  have self : InsPost e size s s1 := ⟨b1, fk, fun hx => absurd hx hm1⟩
  split
  · next hce =>
    obtain ⟨m, hp⟩ := printExp_eq e s1 s1.es
    rw [hp]
    exact ⟨_, _, rfl, up ⟨{ b1 with }, ⟨rfl, rfl⟩, fun hx => absurd hx hm1⟩, fun h _ => by rw [h] at hce; exact absurd hce (by decide)⟩
  · cases hk : ikind e ch with
    | nul => exact ⟨_, _, rfl, self, fun _ h => by cases h⟩
    | nl => exact ⟨_, _, rfl, self, fun _ h => by cases h⟩
    | esc =>
      obtain ⟨r, s', g1, g2⟩ := insEsc_spec b1 hm1 (by rw [fi]; exact hi) (by rw [fe]; exact hh)
      simp only [g1]
      refine ⟨_, _, rfl, up g2, fun hch => ?_⟩
      subst hch; rw [ikind_hat] at hk; cases hk
    | expand =>
      obtain ⟨s', g1, g2, g3, g4⟩ := expandWord_spec he b1 false
      simp only [g1, Option.map_some]
      refine ⟨_, _, rfl, up ⟨g2, g3.toS, fun hx => ?_⟩, fun hch => ?_⟩
      · rcases g4 with g4 | g4
        · rw [g4] at hx; cases hx
        · rw [g4.1] at hx; exact absurd hx hm1
      · subst hch; rw [ikind_hat] at hk; cases hk
    | complete =>
      obtain ⟨s', g1, g2, g3, g4⟩ := completeWord_spec he b1 false 0
      simp only [g1, Option.map_some]
      refine ⟨_, _, rfl, up ⟨g2, g3.toS, fun hx => ?_⟩, fun hch => ?_⟩
      · rcases g4 with g4 | g4
        · rw [g4] at hx; cases hx
        · rw [g4.1] at hx; exact absurd hx hm1
      · subst hch; rw [ikind_hat] at hk; cases hk
    | skip =>
      refine ⟨_, _, rfl, self, fun hch => ?_⟩
      subst hch; rw [ikind_hat] at hk; cases hk
    | char =>
      obtain ⟨r, s', g1, g2, g3, g4⟩ := insChar_spec b1 hm1 (by rw [fl]; exact hroom) ch
      simp only [g1]
      refine ⟨_, _, rfl, up g2, fun _ hr => ?_⟩
      cases r with
      | false => simp at hr
      | true => exact ⟨by rw [g3]; exact hm1, by rw [g4 rfl, fe]⟩

end Ksh.Vi
