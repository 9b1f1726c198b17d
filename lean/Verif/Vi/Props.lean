import Verif.Vi.Macro
import Verif.Vi.Yank
import Verif.Vi.Browse
import Verif.Vi.Type
import Verif.Vi.Words
/-!
# Vi editing mode: the claims

C83-C89. A byte is a character of the model; `run e len n s keys` reads at most `n` keys and is
`none` when a byte outside of a buffer is read or written.
-/

namespace Ksh.Vi

variable {e : Env} {size : Nat} {s s' : Ed}

/-! ## Surroundings for examples -/

/-- Two lines of history and one macro, `_q`. -/
def exEnv : Env :=
  { cap := 200, show8 := false, tab := true, esc := false, erase := some '\x7f', kill := some '\x15', werase := some '\x17'
    intr := some '\x03', quit := some '\x1c', eof := some '\x04'
    hist := [['o', 'n', 'e'], ['t', 'w', 'o', ' ', 'w', 'o', 'r', 'd', 's']], line := 2, ifs := [' ', '\t', '\n']
    glob := fun _ _ _ => (0, 0, false, []), alias := fun c => if c = 'q' then some ['x', '@', 'q', 'x'] else none }

/-- The statics at the start. -/
def exOld : Ed :=
  { es := ⟨[], 0, 0⟩, undo := ⟨List.replicate 200 '\x00', 0, 0⟩, ibuf := List.replicate 200 '\x00', inslen := 0, first := true
    saved := 0, srchlen := 0, locpat := List.replicate 40 '\x00', srchpat := [], ybuf := [], fcmd := ' ', fch := '\x00'
    lastcmd := ['\x00', '\x00', '\x00'], lastac := 0, lastsearch := ' ', mode := .cmd, hnum := 0, ohnum := 0, hlast := 0
    modified := false, state := .normal, cmd := ['\x00', '\x00', '\x00'], cmdlen := 0, argc1 := 0, argc2 := 0, expanded := .none
    xbuf := none, cbuf := none, hold := [], holdS := [], mac := none }

/-- A new line. -/
def exStart : Ed := reset exEnv exOld (List.replicate 200 '\x00')

/-- The editor behind some keys; only for keys that do not end the line. -/
def exAfter (keys : List Char) : Ed :=
  match run exEnv 200 100 exStart keys with
  | some (.more s) => s
  | _ => exStart

theorem exEnvOk : EnvOk exEnv := ⟨fun _ _ _ _ => ⟨Nat.le_refl _, Nat.zero_le _⟩, fun _ _ _ _ h => by simp [exEnv] at h, by decide, by decide, by decide⟩

theorem exOldOk : OldOk exEnv 200 exOld :=
  ⟨by decide +kernel, by decide, by decide, by decide +kernel, by decide, by decide +kernel, by decide, by decide, by decide,
    fun _ h => (nomatch h), fun _ h => (nomatch h), rfl⟩

/-! ## C83: no key makes the editor leave its buffers -/

/-- Reading a line with keys the editor can stand: no byte outside of a buffer is touched, and the
line fits. -/
theorem vi_stays_inside_partial {old : Ed} {buf keys : List Char} (he : EnvOk e) (ho : OldOk e buf.length old) (n : Nat)
    (hp : PoliteRun e buf.length n (reset e old buf) keys) :
    ∃ o, run e buf.length n (reset e old buf) keys = some o ∧ ∀ l, o = .line l → ∃ t, l = t ++ ['\n'] ∧ t.length < buf.length := by
  obtain ⟨o, h1, h2⟩ := run_spec he n (reset_inv ho) hp
  exact ⟨o, h1, h2.line⟩

/-- And so again with the next line: the statics it leaves serve. -/
theorem vi_next_line {n : Nat} {keys : List Char} {o : Ed} (he : EnvOk e) (h : Inv e size s) (hp : PoliteRun e size n s keys)
    (hr : run e size n s keys = some (.more o)) (hs : o.state ≠ .search) : OldOk e size o := by
  obtain ⟨o', h1, h2⟩ := run_spec he n h hp
  rw [hr] at h1
  cases h1
  exact (h2.more o rfl).old hs

-- `echo hi`, ESC, `b`, `dw`, `u`, `k`, `j`, `/on` RETURN, `R`, `x`, RETURN
example : politeRunB exEnv 200 40 exStart
    ['e', 'c', 'h', 'o', ' ', 'h', 'i', '\x1b', 'b', 'd', 'w', 'u', 'k', 'j', '/', 'o', 'n', '\r', 'R', 'x', '\r'] = true := by decide +kernel
example : run exEnv 200 40 exStart
    ['e', 'c', 'h', 'o', ' ', 'h', 'i', '\x1b', 'b', 'd', 'w', 'u', 'k', 'j', '/', 'o', 'n', '\r', 'R', 'x', '\r'] =
    some (.line ['x', 'n', 'e', '\n']) := by decide +kernel

/-- `a` behind a line that was longer, with continuation bytes left behind its end: the cursor
passes the end of the line, and inserting moves a negative number of bytes. -/
theorem vi_append_outside :
    run exEnv 200 40 exStart ['a', 'Ã', '©', 'Ã', '©', '\x1b', '0', 'x', '$', 'a', 'z'] = none := by decide +kernel

/-- `R`, kill, erase: the cursor goes before the line. -/
theorem vi_replace_outside : run exEnv 200 40 exStart ['a', 'b', 'c', '\x1b', 'R', '\x15', '\x08'] = none := by decide +kernel

/-- A line that begins with a continuation byte, and ESC: the byte before the buffer is read. -/
theorem vi_esc_outside : run exEnv 200 40 exStart ['©', '\x1b'] = none := by decide +kernel

/-- `cw` on an empty line: the byte before the buffer is read. -/
theorem vi_cw_outside : run exEnv 200 40 exStart ['\x1b', 'c', 'w'] = none := by decide +kernel

/-- `^V` and a NUL puts a byte into the insert buffer and none into the line: it overflows. -/
theorem vi_ibuf_overflow : run { exEnv with cap := 4 } 200 40 { exStart with ibuf := List.replicate 4 '\x00' }
    ['\x16', '\x00', '\x16', '\x00', '\x16', '\x00', '\x16', '\x00', '\x16', '\x00'] = none := by decide +kernel

/-- With `^` as the erase character, `^V` at the beginning of the line sets the cursor to -1. -/
theorem vi_caret_outside : run { exEnv with erase := some '^' } 200 40 exStart ['\x16'] = none := by decide +kernel

/-! ## C84: `u` undoes the last command -/

theorem hookEnd_undo (hs : s.state = .vcmd) {f : Bool} (h : hookEnd e s = some (f, s')) :
    ∃ r s1, viCmd e { s with state := .normal } s.argc1 s.cmd = some (r, s1) ∧ s'.undo = s1.undo := by
  simp only [hookEnd, hs] at h
  cases hv : viCmd e { s with state := .normal } s.argc1 s.cmd with
  | none => rw [hv] at h; cases h
  | some p =>
    obtain ⟨r, s1⟩ := p
    rw [hv] at h
    refine ⟨r, s1, rfl, ?_⟩
    cases r <;> simp only at h
    all_goals
      cases h
      first | rfl | (split <;> rfl)

/-- The command in the buffer runs, something is typed if it began an insertion, and `u`: the line
and the cursor are as before the command. -/
theorem undo_restores_partial (hb : Base e size s) (hc : Cm s.es) (hmac : s.mac = none) (hs : s.state = .vcmd)
    (hmv : isMove (s.cmd.headD '\x00') = false) (hun : isUndoable (s.cmd.headD '\x00') = true) {f : Bool} {s1 s2 : Ed}
    (h1 : hookEnd e s = some (f, s1)) (ht : Typing e s1 s2) (hst : s2.state = .normal) (hm : s2.mode = .cmd) (hl : s2.cmd.length = 3) :
    ∃ s3, hook e s2 'u' = some (false, s3) ∧ s3.es.text = s.es.text ∧ s3.es.cur = s.es.cur := by
  obtain ⟨r, sv, hv, hu⟩ := hookEnd_undo hs h1
  exact u_after (s := { s with state := .normal }) { hb with } hc hmac hmv hun hv hu ht hst hm hl

/-- `u` twice: nothing. -/
theorem undo_twice (hs : s.state = .normal) (hm : s.mode = .cmd) (hl : s.cmd.length = 3) (hc : Cm s.es) (hle : s.es.cur ≤ s.es.len)
    (hcu : Cm s.undo) (hu : s.undo.cur ≤ s.undo.len) :
    ∃ s1 s2, hook e s 'u' = some (false, s1) ∧ hook e s1 'u' = some (false, s2) ∧ s1.es = s.undo ∧ s2.es = s.es ∧ s2.undo = s.undo := by
  obtain ⟨s1, h1, h2, h3, h4, h5, h6⟩ := hook_u (e := e) hs hm hl hcu hu
  obtain ⟨s2, g1, g2, g3, _⟩ := hook_u (e := e) h4 h5 h6 (by rw [h3]; exact hc) (by rw [h3]; exact hle)
  exact ⟨s1, s2, h1, g1, h2, by rw [g2, h3], by rw [g3, h2]⟩

-- `cw`, typing, ESC, `u`
example : (exAfter ['a', 'b', ' ', 'c', 'd', '\x1b', 'c', 'w', 'x', 'y', 'z', '\x1b']).es.text = ['a', 'b', ' ', 'c', 'x', 'y', 'z'] := by
  decide +kernel
example : (exAfter ['a', 'b', ' ', 'c', 'd', '\x1b', 'c', 'w', 'x', 'y', 'z', '\x1b', 'u']).es.text = ['a', 'b', ' ', 'c', 'd'] := by
  decide +kernel

/-- ESC in command mode is a command for undoing too: behind `x`, ESC, `u`, the character is lost. -/
theorem undo_lost_by_esc :
    (exAfter ['a', 'b', 'c', '\x1b', 'x']).es.text = ['a', 'b'] ∧
    (exAfter ['a', 'b', 'c', '\x1b', 'x', 'u']).es.text = ['a', 'b', 'c'] ∧
    (exAfter ['a', 'b', 'c', '\x1b', 'x', '\x1b', 'u']).es.text = ['a', 'b'] ∧
    (exAfter ['a', 'b', 'c', '\x1b', 'x', '\x1b', 'u', 'u']).es.text = ['a', 'b'] := by decide +kernel

/-! ## C85: what is deleted can be put back -/

/-- `x`, `X`, `D` and `d` with any motion: a stretch `x … y` of the line is gone, and is in the yank
buffer; `P`, or `p` when the stretch was the end of the line, gives the line back. -/
theorem delete_then_put (he : EnvOk e) (hb : Base e size s) (hm : s.mode = .cmd) (hc : Cm s.es) (hh : HeadOk e s.es.mem)
    (hmac : s.mac = none) {n : Nat} {cmd : List Char} (hl : cmd.length = 3)
    (hd : cmd.headD '\x00' = 'x' ∨ cmd.headD '\x00' = 'X' ∨ cmd.headD '\x00' = 'D' ∨ cmd.headD '\x00' = 'd')
    (h : viCmd e s n cmd = some (.ok, s')) :
    ∃ x y, x ≤ y ∧ y ≤ s.es.len ∧ s'.es.text = s.es.text.take x ++ s.es.text.drop y ∧
      (x < y → s'.ybuf = (s.es.text.drop x).take (y - x) ∧
        ∀ a b, ∃ s2, viCmd e s' 0 [if y < s.es.len then 'P' else 'p', a, b] = some (.ok, s2) ∧ s2.es.text = s.es.text) :=
  cut_put he hb hm hc hh hmac hl hd h

example : (exAfter ['a', 'b', ' ', 'c', 'd', '\x1b', '0', 'd', 'w']).es.text = ['c', 'd'] ∧
    (exAfter ['a', 'b', ' ', 'c', 'd', '\x1b', '0', 'd', 'w', 'P']).es.text = ['a', 'b', ' ', 'c', 'd'] := by decide +kernel
example : (exAfter ['a', 'b', ' ', 'c', 'd', '\x1b', 'b', 'D']).es.text = ['a', 'b', ' '] ∧
    (exAfter ['a', 'b', ' ', 'c', 'd', '\x1b', 'b', 'D', 'p']).es.text = ['a', 'b', ' ', 'c', 'd'] := by decide +kernel

/-! ## C86: word motions -/

/-- The line has no byte with the high bit. -/
def Ascii (b : Buf) : Prop := ∀ c ∈ b.text, high c = false

/-- `w`, with a count: the beginning of the next word, so many times; the last character without
one. -/
theorem word_forward (h : s.es.Ok size) (ha : Ascii s.es) (hc : s.es.cur + 1 < s.es.len) (n : Nat) (a b : Char) :
    ∃ s', viCmd e s n ['w', a, b] = some (.ok, s') ∧ s'.es.text = s.es.text ∧
      s'.es.cur = min (times (nextIdx (starts small s.es.text) s.es.len) (max n 1) s.es.cur) (s.es.len - 1) := by
  have hl := h.len; have hml := h.mem
  have hlow := low_of_text ha
  refine move_to h hlow (by decide) (by decide) rfl (times_nextIdx_le _ _ _ _ h.cur) ?_
  simp only [domove, show mkind 'w' = .w by decide]
  rw [guard_off (by simp; omega), forwword_eq (by omega) hlow _ _ h.cur]
  rfl

theorem big_word_forward (h : s.es.Ok size) (ha : Ascii s.es) (hc : s.es.cur + 1 < s.es.len) (n : Nat) (a b : Char) :
    ∃ s', viCmd e s n ['W', a, b] = some (.ok, s') ∧ s'.es.text = s.es.text ∧
      s'.es.cur = min (times (nextIdx (starts big s.es.text) s.es.len) (max n 1) s.es.cur) (s.es.len - 1) := by
  have hl := h.len; have hml := h.mem
  have hlow := low_of_text ha
  refine move_to h hlow (by decide) (by decide) rfl (times_nextIdx_le _ _ _ _ h.cur) ?_
  simp only [domove, show mkind 'W' = .W by decide]
  rw [guard_off (by simp; omega), Forwword_eq (by omega) _ _ h.cur]
  rfl

/-- `b`: the beginning of the word before. -/
theorem word_back (h : s.es.Ok size) (ha : Ascii s.es) (hc : Cm s.es) (h0 : s.es.cur ≠ 0) (n : Nat) (a b : Char) :
    ∃ s', viCmd e s n ['b', a, b] = some (.ok, s') ∧ s'.es.text = s.es.text ∧
      s'.es.cur = times (prevIdx (starts small s.es.text)) (max n 1) s.es.cur := by
  have hl := h.len; have hml := h.mem; have hcl := h.cur
  have hlow := low_of_text ha
  have hle := times_prevIdx_le (starts small s.es.text) (max n 1) s.es.cur
  obtain ⟨s', h1, h2, h3⟩ := move_to (e := e) (n := n) (c := 'b') (a := a) (b := b) h hlow (by decide) (by decide) rfl
    (x := times (prevIdx (starts small s.es.text)) (max n 1) s.es.cur) (by omega) (by
      simp only [domove, show mkind 'b' = .b by decide]
      rw [guard_off (by simpa using h0), backword_eq (len := s.es.len) (by omega) hlow _ _ hcl]
      rfl)
  refine ⟨s', h1, h2, ?_⟩
  rw [h3]
  rcases hc with hc | hc <;> omega

theorem big_word_back (h : s.es.Ok size) (ha : Ascii s.es) (hc : Cm s.es) (h0 : s.es.cur ≠ 0) (n : Nat) (a b : Char) :
    ∃ s', viCmd e s n ['B', a, b] = some (.ok, s') ∧ s'.es.text = s.es.text ∧
      s'.es.cur = times (prevIdx (starts big s.es.text)) (max n 1) s.es.cur := by
  have hl := h.len; have hml := h.mem; have hcl := h.cur
  have hlow := low_of_text ha
  have hle := times_prevIdx_le (starts big s.es.text) (max n 1) s.es.cur
  obtain ⟨s', h1, h2, h3⟩ := move_to (e := e) (n := n) (c := 'B') (a := a) (b := b) h hlow (by decide) (by decide) rfl
    (x := times (prevIdx (starts big s.es.text)) (max n 1) s.es.cur) (by omega) (by
      simp only [domove, show mkind 'B' = .B by decide]
      rw [guard_off (by simpa using h0), Backword_eq (len := s.es.len) (by omega) _ _ hcl]
      rfl)
  refine ⟨s', h1, h2, ?_⟩
  rw [h3]
  rcases hc with hc | hc <;> omega

/-- `e` without a count: the end of a word behind the cursor. -/
theorem word_end_partial (h : s.es.Ok size) (ha : Ascii s.es) (hc : s.es.cur + 1 < s.es.len) (n : Nat) (hn : n ≤ 1) (a b : Char) :
    ∃ s', viCmd e s n ['e', a, b] = some (.ok, s') ∧ s'.es.text = s.es.text ∧
      s'.es.cur = min (nextIdx (ends small s.es.text) s.es.len s.es.cur) (s.es.len - 1) := by
  have hl := h.len; have hml := h.mem
  have hlow := low_of_text ha
  obtain ⟨x, h1, h2, h3, h4⟩ := endword_one (m := s.es.mem) (len := s.es.len) (by omega) hlow hc
  obtain ⟨s', g1, g2, g3⟩ := move_to (e := e) (n := n) (c := 'e') (a := a) (b := b) h hlow (by decide) (by decide) rfl
    (x := x - 1) (by omega) (by
      simp only [domove, show mkind 'e' = .e by decide]
      rw [guard_off (by simp; omega), show max n 1 = 1 by omega, h1]
      simp only [Option.bind_some, Bool.false_eq_true, if_false, backCont_low (e := e) hlow (by omega) (show x ≠ 0 by omega) h4]
      rfl)
  exact ⟨s', g1, g2, by rw [g3, Buf.text, h2]; omega⟩

theorem big_word_end_partial (h : s.es.Ok size) (ha : Ascii s.es) (hc : s.es.cur + 1 < s.es.len) (n : Nat) (hn : n ≤ 1) (a b : Char) :
    ∃ s', viCmd e s n ['E', a, b] = some (.ok, s') ∧ s'.es.text = s.es.text ∧
      s'.es.cur = min (nextIdx (ends big s.es.text) s.es.len s.es.cur) (s.es.len - 1) := by
  have hl := h.len; have hml := h.mem
  have hlow := low_of_text ha
  obtain ⟨x, h1, h2, h3, h4⟩ := Endword_one (m := s.es.mem) (len := s.es.len) (by omega) hc
  obtain ⟨s', g1, g2, g3⟩ := move_to (e := e) (n := n) (c := 'E') (a := a) (b := b) h hlow (by decide) (by decide) rfl
    (x := x - 1) (by omega) (by
      simp only [domove, show mkind 'E' = .E by decide]
      rw [guard_off (by simp; omega), show max n 1 = 1 by omega, h1]
      simp only [Option.bind_some, Bool.false_eq_true, if_false, backCont_low (e := e) hlow (by omega) (show x ≠ 0 by omega) h4]
      rfl)
  exact ⟨s', g1, g2, by rw [g3, Buf.text, h2]; omega⟩

-- `foo.bar  baz`
example : (exAfter ['f', 'o', 'o', '.', 'b', 'a', 'r', ' ', ' ', 'b', 'a', 'z', '\x1b', '0', 'w']).es.cur = 3 ∧
    (exAfter ['f', 'o', 'o', '.', 'b', 'a', 'r', ' ', ' ', 'b', 'a', 'z', '\x1b', '0', '3', 'w']).es.cur = 9 ∧
    (exAfter ['f', 'o', 'o', '.', 'b', 'a', 'r', ' ', ' ', 'b', 'a', 'z', '\x1b', '0', 'W']).es.cur = 9 ∧
    (exAfter ['f', 'o', 'o', '.', 'b', 'a', 'r', ' ', ' ', 'b', 'a', 'z', '\x1b', '2', 'b']).es.cur = 4 ∧
    (exAfter ['f', 'o', 'o', '.', 'b', 'a', 'r', ' ', ' ', 'b', 'a', 'z', '\x1b', '0', 'e']).es.cur = 2 := by decide +kernel

/-- `2e` is not `e` twice: on `ab;c` it passes over the `;`. -/
theorem counted_e_skips :
    (exAfter ['a', 'b', ';', 'c', '\x1b', '0', 'e', 'e']).es.cur = 2 ∧ (exAfter ['a', 'b', ';', 'c', '\x1b', '0', '2', 'e']).es.cur = 3 := by
  decide +kernel

/-- With a multibyte letter under the cursor the word that ends behind it is not seen: `w` from the
`é` of `aé;b` passes over the `;`, from the `a` it does not. -/
theorem word_after_multibyte :
    (exAfter ['a', 'Ã', '©', ';', 'b', '\x1b', '0', 'w']).es.cur = 3 ∧ (exAfter ['a', 'Ã', '©', ';', 'b', '\x1b', '0', 'l', 'w']).es.cur = 4 := by
  decide +kernel

/-! ## C87: the history can be browsed without losing the line -/

/-- Any moves up and down in the history and within the lines: the line shown is the one at the
place where the moves lead, cut to the size of the buffer, and the typed line again at the end. -/
theorem browsing_keeps_line_partial {t : List Char} (hs : s.es.mem.length = size) (hl : s.hlast = e.hist.length) (hm : s.modified = true)
    (hn : s.hnum = s.hlast) (ht : s.es.text = t) {cmds : List (Nat × List Char)}
    (hc : ∀ p ∈ cmds, isMove (p.2.headD '\x00') = true ∨ isDown (p.2.headD '\x00') ∨ isUp (p.2.headD '\x00'))
    (hr : viCmds e s cmds = some s') :
    s'.hnum = place e.hist.length e.hist.length cmds ∧ s'.es.text = lineAt e.hist t (size - 1) (place e.hist.length e.hist.length cmds) ∧
      (s'.hnum = e.hist.length → s'.es.text = t) := by
  have h0 : Held e size t e.hist.length s :=
    ⟨hs, hl, hn.trans hl, ⟨by omega, by omega⟩, by rw [lineAt, if_pos rfl, ht], .inr ⟨hm, rfl⟩, fun h => absurd rfl h⟩
  have h1 := viCmds_held h0 hc hr
  refine ⟨h1.num, h1.text, fun h => ?_⟩
  rw [h1.text, lineAt, if_pos (by rw [← h1.num, h])]

-- up twice, down twice
example : (exAfter ['a', 'b', 'c', '\x1b', 'k', 'k']).es.text = ['o', 'n', 'e'] ∧
    (exAfter ['a', 'b', 'c', '\x1b', 'k', 'k', 'l', 'j', 'j']).es.text = ['a', 'b', 'c'] := by decide +kernel

/-- Going to a line by its number, the number of the line that is being typed: the line is lost. -/
theorem goto_loses_line : (exAfter ['a', 'b', 'c', '\x1b', '3', 'G']).es.text = [] := by decide +kernel

/-- A search puts the line of the history away in place of the typed one: coming back shows it. -/
theorem search_loses_line :
    (exAfter ['a', 'b', 'c', '\x1b', '/', 'o', 'n', '\r']).es.text = ['o', 'n', 'e'] ∧
    (exAfter ['a', 'b', 'c', '\x1b', 'k', 'k', '/', 'z', '\r', 'j', 'j']).es.text = ['o', 'n', 'e'] := by decide +kernel

/-- `d` and `D` do not mark the line as changed: a deletion made behind a visit to the history is
forgotten by the next one. -/
theorem deletion_forgotten :
    (exAfter ['a', 'b', 'c', '\x1b', 'k', 'j', 'd', 'l']).es.text = ['b', 'c'] ∧
    (exAfter ['a', 'b', 'c', '\x1b', 'k', 'j', 'd', 'l', 'k', 'j']).es.text = ['a', 'b', 'c'] ∧
    (exAfter ['a', 'b', 'c', '\x1b', 'k', 'j', 'x', 'k', 'j']).es.text = ['b', 'c'] := by decide +kernel

/-- A count in front of a search that fails: the line is lost. -/
theorem counted_search_loses_line : (exAfter ['a', 'b', 'c', '\x1b', '5', '/', 'x', '\r']).es.text = [] := by decide +kernel

/-! ## C88: macros end -/

/-- Running macros, `@` with a letter, ends: with finitely many aliases there is a number of keys
behind which the keyboard is read again, the line is done, or it was interrupted. -/
theorem macros_end (e : Env) (len : Nat) (names : List Char) (hn : ∀ c v, e.alias c = some v → c ∈ names) (s : Ed)
    (hd : ((s.mac.getD []).map Prod.snd).Nodup) (hk : ∀ c ∈ (s.mac.getD []).map Prod.snd, c ∈ names) :
    ∃ n, ∀ s', run e len n s [] = some (.more s') → next s' [] = none := by
  obtain ⟨M, hM⟩ : ∃ M, ∀ c ∈ names, ∀ v, e.alias c = some v → v.length ≤ M := by
    clear hn hk
    induction names with
    | nil => exact ⟨0, fun c hc => by cases hc⟩
    | cons c names ih =>
      obtain ⟨M, hM⟩ := ih
      refine ⟨max M (((e.alias c).getD []).length), fun d hd v hv => ?_⟩
      rcases List.mem_cons.1 hd with rfl | hd
      · rw [hv, Option.getD_some]; omega
      · have := hM d hd v hv; omega
  exact ⟨_, run_macros len (fun c v h => ⟨hn c v h, hM c (hn c v h) v h⟩) _ ⟨hd, hk⟩ (Nat.le_refl _)⟩

-- a macro that names itself
example : (exAfter ['a', 'b', 'c', 'd', 'e', '\x1b', '@', 'q']).es.text = ['a', 'b', 'c', 'd'] := by decide +kernel

/-! ## C89: what is typed is what is read -/

/-- Keys that stand for themselves, those that erase a character and the one that erases all: the
line read is what they spell. Characters that do not fit are left out. -/
theorem typed_line_is_read {old : Ed} {buf keys : List Char} (hb : 0 < buf.length) (hcap : buf.length ≤ e.cap)
    (hk : ∀ c ∈ keys, Plain e c ∨ Rub e c ∨ Kill e c) {c : Char} (hr : c = '\r' ∨ c = '\n') (hi : e.intr ≠ some c) (hq : e.quit ≠ some c)
    (he : e.eof ≠ some c) (hx : ¬ Rubs e c) (hkl : e.kill ≠ some c) (hw : e.werase ≠ some c) (rest : List Char) :
    run e buf.length (keys.length + 1) (reset e old buf) (keys ++ c :: rest) =
      some (.line (keys.foldl (typed e (buf.length - 1)) [] ++ ['\n'])) := by
  have h0 : Ins e buf.length [] [] (reset e old buf) :=
    ⟨rfl, hcap, rfl, hb, rfl, rfl, rfl, rfl, rfl, Nat.le_refl _⟩
  obtain ⟨s', h1, h2⟩ := run_ins buf.length 1 keys (c :: rest) [] _ h0 hk
  rw [h1, run_return 0 h2 hr hi hq he hx hkl hw]
  simp

theorem foldl_plain {keys : List Char} (hp : ∀ c ∈ keys, Plain e c) {room : Nat} : ∀ (A : List Char), A.length ≤ room →
    keys.foldl (typed e room) A = (A ++ keys).take room := by
  induction keys with
  | nil => intro A hA; simp [List.take_of_length_le hA]
  | cons c ks ih =>
    intro A hA
    have hc := hp c (List.mem_cons_self ..)
    simp only [List.foldl_cons, typed, if_neg hc.erase, if_neg hc.kill]
    by_cases hlt : A.length < room
    · rw [if_pos hlt, ih (fun d hd => hp d (List.mem_cons_of_mem _ hd)) _ (by simp; omega)]
      simp
    · rw [if_neg hlt, ih (fun d hd => hp d (List.mem_cons_of_mem _ hd)) _ hA]
      have : A.length = room := by omega
      rw [← this]; simp

/-- Without erasing: the line is the keys. -/
theorem plain_line_is_read {old : Ed} {buf keys : List Char} (hcap : buf.length ≤ e.cap) (hfit : keys.length < buf.length)
    (hk : ∀ c ∈ keys, Plain e c) (hi : e.intr ≠ some '\r') (hq : e.quit ≠ some '\r')
    (he : e.eof ≠ some '\r') (hx : ¬ Rubs e '\r') (hkl : e.kill ≠ some '\r') (hw : e.werase ≠ some '\r') :
    run e buf.length (keys.length + 1) (reset e old buf) (keys ++ ['\r']) = some (.line (keys ++ ['\n'])) := by
  rw [typed_line_is_read (by omega) hcap (fun c hc => .inl (hk c hc)) (.inl rfl) hi hq he hx hkl hw,
    foldl_plain hk [] (Nat.zero_le _), List.nil_append, List.take_of_length_le (by omega)]

/-- Typing in the middle of a line, in insert mode: what is before and behind the cursor stays. -/
theorem typed_in_place {A B keys : List Char} (hm : s.es.mem.length = size) (hcap : size ≤ e.cap) (hlen : s.es.len = A.length + B.length)
    (hlt : s.es.len < size) (ht : s.es.text = A ++ B) (hc : s.es.cur = A.length) (hmode : s.mode = .ins) (hst : s.state = .normal)
    (hmac : s.mac = none) (hi : s.inslen ≤ s.es.len) (hk : ∀ c ∈ keys, Plain e c) (hfit : s.es.len + keys.length < size) :
    ∃ s', run e size keys.length s keys = some (.more s') ∧ s'.es.text = A ++ keys ++ B ∧ s'.es.cur = A.length + keys.length := by
  obtain ⟨s', h1, h2⟩ := run_ins (e := e) (size := size) (B := B) size 0 keys [] A s ⟨hm, hcap, hlen, hlt, ht, hc, hmode, hst, hmac, hi⟩ (fun c hc => .inl (hk c hc))
  simp only [Nat.add_zero, List.append_nil, run] at h1
  rw [foldl_plain hk _ (by omega), List.take_of_length_le (by simp; omega)] at h2
  exact ⟨s', h1, h2.text, by rw [h2.cur]; simp⟩

-- `ab`, erase, `cé`, erase, `d`, RETURN
example : run exEnv 200 20 exStart ['a', 'b', '\x7f', 'c', 'Ã', '©', '\x08', 'd', '\r'] = some (.line ['a', 'c', 'd', '\n']) := by
  decide +kernel

end Ksh.Vi
