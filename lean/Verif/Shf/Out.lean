import Verif.Shf.Model

/-!
# Buffered output to a file (C43)
-/

namespace Ksh.Shf

/-- what the shell does with an output file -/
inductive Op
  | putc (c : Byte)
  | write (bs : Bytes)
  | flush
  | clearerr
  deriving DecidableEq, Repr

def step : Op → Shf → W → Shf × W × St
  | .putc c => putc c
  | .write bs => write bs
  | .flush => flush
  | .clearerr => fun s w => (clearerr s, w, .ok)

/-- A sequence of operations and what they answered; a call that does not return is the last one. -/
def run : List Op → Shf → W → Shf × W × List St
  | [], s, w => (s, w, [])
  | o :: os, s, w =>
    let r := step o s w
    if r.2.2 = .ok ∨ r.2.2 = .eof then
      let t := run os r.1 r.2.1
      (t.1, t.2.1, r.2.2 :: t.2.2)
    else (r.1, r.2.1, [r.2.2])

/-! ## Specification -/

/-- Spec: the bytes an operation is to output -/
def given : Op → Bytes
  | .putc c => [c]
  | .write bs => bs
  | _ => []

/-- Spec: the bytes a sequence of operations is to output -/
def givenAll (os : List Op) : Bytes := os.flatMap given

/-! ## Invariant -/

/-- the bytes in the buffer -/
def pend (s : Shf) : Bytes := s.buf.take s.wp

structure Inv (s : Shf) : Prop where
  wr : s.wr = true
  str : s.str = false
  reading : s.reading = false
  size : s.wbsize = s.buf.length
  unbuf : s.unbuf = true ↔ s.wbsize = 0
  left : s.wnleft = 0 ∨ s.wp + s.wnleft = s.wbsize
  wp : s.wp ≤ s.wbsize
  idle : s.writing = false → s.wp = 0 ∧ s.wnleft = 0
  err : s.err = true → s.wnleft = 0

theorem openW_inv (unbuf intr : Bool) (buf : Bytes) (h : buf ≠ []) : Inv (openW unbuf intr buf) := by
  cases unbuf <;> constructor <;> simp [openW, h]

theorem openW_pend (unbuf intr : Bool) (buf : Bytes) : pend (openW unbuf intr buf) = [] := by
  simp [pend, openW]

theorem writeLoop_spec (intr : Bool) (ws : List WR) (bs : Bytes) :
    (writeLoop intr ws bs).1 ++ (writeLoop intr ws bs).2.1 = bs ∧
    ((writeLoop intr ws bs).2.2.2 = .ok ∨ (writeLoop intr ws bs).2.2.2 = .eof ∨ (writeLoop intr ws bs).2.2.2 = .stuck) ∧
    ((writeLoop intr ws bs).2.2.2 = .ok → (writeLoop intr ws bs).2.1 = []) := by
  induction ws generalizing bs with
  | nil => cases bs <;> simp [writeLoop]
  | cons x ws ih =>
    cases bs with
    | nil => simp [writeLoop]
    | cons b bs =>
      cases x with
      | n k =>
        obtain ⟨h1, h2, h3⟩ := ih ((b :: bs).drop k)
        simp only [writeLoop]
        refine ⟨?_, h2, h3⟩
        rw [List.append_assoc, h1, List.take_append_drop]
      | err => simp [writeLoop]
      | intr =>
        simp only [writeLoop]
        split
        · simp
        · exact ih _

/-- What an operation does: the bytes `t` go to the file or to the buffer. -/
structure Did (s : Shf) (w : W) (bs : Bytes) (r : Shf × W × St) : Prop where
  inv : r.2.2 = .ok ∨ r.2.2 = .eof → Inv r.1
  st : r.2.2 = .ok ∨ r.2.2 = .eof ∨ r.2.2 = .stuck
  err : r.2.2 = .eof → r.1.err = true
  took : ∃ t, t <+: bs ∧ (r.2.2 = .ok → t = bs) ∧ r.2.1.sent ++ pend r.1 = w.sent ++ pend s ++ t ∧
    (s.err = true → t = [])

theorem put_spec {s : Shf} {bs : Bytes} (h : s.wp + bs.length ≤ s.buf.length) :
    ∃ g, put s bs = some g ∧ pend g = pend s ++ bs ∧ g.wp = s.wp + bs.length ∧ g.wnleft = s.wnleft - bs.length ∧
      g.buf.length = s.buf.length ∧ g.wr = s.wr ∧ g.str = s.str ∧ g.reading = s.reading ∧ g.wbsize = s.wbsize ∧
      g.unbuf = s.unbuf ∧ g.writing = s.writing ∧ g.err = s.err ∧ g.intr = s.intr ∧ g.dyn = s.dyn ∧ g.allocB = s.allocB := by
  refine ⟨_, if_pos h, ?_, rfl, rfl, ?_, rfl, rfl, rfl, rfl, rfl, rfl, rfl, rfl, rfl, rfl⟩
  · simp only [pend]
    rw [List.take_append_of_le_length (by simp; omega), List.take_of_length_le (by simp; omega)]
  · simp; omega

theorem emptybuf_spec {s : Shf} {w : W} (h : Inv s) (grow : Bool) :
    Did s w [] (emptybuf false grow s w) ∧
    ((emptybuf false grow s w).2.2 = .ok → (emptybuf false grow s w).1.wp = 0 ∧
      (emptybuf false grow s w).1.wnleft = (emptybuf false grow s w).1.wbsize ∧ (emptybuf false grow s w).1.writing = true ∧
      (emptybuf false grow s w).1.err = false ∧ (emptybuf false grow s w).1.wbsize = s.wbsize ∧
      (emptybuf false grow s w).1.intr = s.intr ∧ s.err = false) := by
  by_cases he : s.err = true
  · have : emptybuf false grow s w = (s, w, .eof) := by simp [emptybuf, he]
    rw [this]
    exact ⟨⟨fun _ => h, by simp, fun _ => he, [], by simp⟩, by simp⟩
  · have he : s.err = false := by simpa using he
    by_cases hw : s.writing = true
    · obtain ⟨h1, h2, h3⟩ := writeLoop_spec s.intr w.ws (s.buf.take s.wp)
      have e : emptybuf false grow s w = (emptied false s (writeLoop s.intr w.ws (s.buf.take s.wp)).2.2.2 (writeLoop s.intr w.ws (s.buf.take s.wp)).2.1,
          { w with sent := w.sent ++ (writeLoop s.intr w.ws (s.buf.take s.wp)).1, ws := (writeLoop s.intr w.ws (s.buf.take s.wp)).2.2.1 },
          (writeLoop s.intr w.ws (s.buf.take s.wp)).2.2.2) := by
        simp [emptybuf, he, h.reading, h.str, hw]
      rw [e]
      generalize writeLoop s.intr w.ws (s.buf.take s.wp) = r at h1 h2 h3
      obtain ⟨a, b, ws, st⟩ := r
      simp only at h1 h2 h3 ⊢
      have hl : b.length ≤ s.buf.length := by
        have := congrArg List.length h1
        simp at this
        omega
      have hl2 : b.length ≤ s.wp := by
        have := congrArg List.length h1
        simp at this
        omega
      rcases h2 with rfl | rfl | rfl
      · obtain rfl := h3 rfl
        refine ⟨⟨fun _ => ?_, by simp, by simp, [], by simp, by simp, ?_, by simp⟩, ?_⟩
        · exact ⟨h.wr, h.str, h.reading, h.size, h.unbuf, by simp [emptied], by simp [emptied], by simp [emptied], by simp [emptied, he]⟩
        · simp only [List.append_nil] at h1
          simp [pend, emptied, ← h1]
        · simp [emptied, he]
      · refine ⟨⟨fun _ => ?_, by simp, by simp [emptied], [], by simp, by simp, ?_, by simp⟩, by simp⟩
        · refine ⟨h.wr, h.str, h.reading, ?_, h.unbuf, by simp [emptied], ?_, by simp [emptied, hw], by simp [emptied]⟩
          · simp only [emptied, List.length_append, List.length_drop, h.size]
            omega
          · simp only [emptied, h.size]; omega
        · simp only [pend, emptied]
          rw [List.take_left, ← h1]
          simp
      · refine ⟨⟨by simp, by simp, by simp, [], by simp, by simp, ?_, by simp⟩, by simp⟩
        simp only [pend, emptied]
        rw [List.take_left, ← h1]
        simp
    · have hw : s.writing = false := by simpa using hw
      have e : emptybuf false grow s w = (emptied false s .ok [], w, .ok) := by
        simp [emptybuf, he, h.reading, h.str, hw]
      rw [e]
      refine ⟨⟨fun _ => ?_, by simp, by simp, [], by simp, by simp, ?_, by simp⟩, ?_⟩
      · exact ⟨h.wr, h.str, h.reading, h.size, h.unbuf, by simp [emptied], by simp [emptied], by simp [emptied], by simp [emptied, he]⟩
      · simp [pend, emptied, (h.idle hw).1]
      · simp [emptied, he]

theorem putc_spec {s : Shf} {w : W} (h : Inv s) (c : Byte) : Did s w [c] (putc c s w) := by
  by_cases h0 : s.wnleft = 0
  · by_cases hu : s.unbuf = true
    · by_cases he : s.err = true
      · have : putc c s w = (s, w, .eof) := by simp [putc, putchar, h0, h.wr, hu, h.str, he]
        rw [this]
        exact ⟨fun _ => h, by simp, fun _ => he, [], by simp⟩
      · have he : s.err = false := by simpa using he
        obtain ⟨h1, h2, h3⟩ := writeLoop_spec s.intr w.ws [c]
        have e : putc c s w = ((if (writeLoop s.intr w.ws [c]).2.2.2 = .eof then { s with err := true } else s),
          { w with sent := w.sent ++ (writeLoop s.intr w.ws [c]).1, ws := (writeLoop s.intr w.ws [c]).2.2.1 }, (writeLoop s.intr w.ws [c]).2.2.2) := by
          simp [putc, putchar, h0, h.wr, hu, h.str, he]
        rw [e]
        generalize writeLoop s.intr w.ws [c] = r at h1 h2 h3
        obtain ⟨a, b, ws, st⟩ := r
        simp only at h1 h2 h3 ⊢
        have hp : pend s = [] := by
          have := h.wp
          rw [h.unbuf.1 hu] at this
          simp [pend, Nat.le_zero.1 this]
        have hp' : pend { s with err := true } = [] := hp
        rcases h2 with rfl | rfl | rfl
        · obtain rfl := h3 rfl
          refine ⟨fun _ => by simpa using h, by simp, by simp, a, ?_, ?_, ?_, by simp [he]⟩
          · simp at h1; simp [h1]
          · simpa using h1
          · simp [hp]
        · refine ⟨fun _ => ?_, by simp, by simp, a, ⟨b, h1⟩, by simp, ?_, by simp [he]⟩
          · exact ⟨h.wr, h.str, h.reading, h.size, h.unbuf, h.left, h.wp, h.idle, fun _ => h0⟩
          · simp [hp, hp']
        · refine ⟨by simp, by simp, by simp, a, ⟨b, h1⟩, by simp, ?_, by simp [he]⟩
          simp [hp]
    · have hu' : s.unbuf = false := by simpa using hu
      have hb : s.wbsize ≠ 0 := fun g => hu (h.unbuf.2 g)
      obtain ⟨d, q⟩ := emptybuf_spec (w := w) h true
      have e : putc c s w = if (emptybuf false true s w).2.2 = .ok then
            (match put (emptybuf false true s w).1 [c] with
            | some s' => (s', (emptybuf false true s w).2.1, .ok)
            | none => ((emptybuf false true s w).1, (emptybuf false true s w).2.1, .fault))
          else emptybuf false true s w := by
        simp only [putc, putchar, h0, h.wr, hu']
        simp only [if_true, Bool.not_true, Bool.false_eq_true, if_false]
        rfl
      rw [e]
      generalize emptybuf false true s w = r at d q ⊢
      obtain ⟨s1, w1, st⟩ := r
      simp only at q ⊢
      obtain ⟨t, t1, t2, t3, t4⟩ := d.took
      obtain rfl : t = [] := List.prefix_nil.1 t1
      by_cases ho : st = .ok
      · subst ho
        obtain ⟨q1, q2, q3, q4, q5, q6, q7⟩ := q rfl
        have i := d.inv (Or.inl rfl)
        simp only at i t3
        obtain ⟨g, g1, g2, g3, g4, g5, g6, g7, g8, g9, g10, g11, g12, _⟩ := put_spec (s := s1) (bs := [c]) (by rw [q1, ← i.size, q5]; simp; omega)
        rw [if_pos rfl, g1]
        simp only
        have hlen : ([c] : Bytes).length = 1 := rfl
        refine ⟨fun _ => ⟨by rw [g6, i.wr], by rw [g7, i.str], by rw [g8, i.reading], by rw [g9, g5, i.size], by rw [g10, g9]; exact i.unbuf, Or.inr ?_, ?_, by rw [g11, q3]; simp, by rw [g12, q4]; simp⟩,
          by simp, by simp, [c], by simp, by simp, ?_, by simp [q7]⟩
        · rw [g3, g4, g9, q1, q2, hlen]; omega
        · rw [g3, g9, q1, hlen, q5]; omega
        · rw [g2, ← List.append_assoc, t3, List.append_nil]
      · rw [if_neg ho]
        refine ⟨d.inv, d.st, d.err, [], by simp, fun g => absurd g ho, t3, by simp⟩
  · rcases h.left with g | hl
    · exact absurd g h0
    have he : s.err = false := by
      cases g : s.err with
      | false => rfl
      | true => exact absurd (h.err g) h0
    have hw : s.writing = true := by
      cases g : s.writing with
      | true => rfl
      | false => exact absurd (h.idle g).2 h0
    have hpos : s.wp + 1 ≤ s.wbsize := by
      have := h.wp
      omega
    obtain ⟨g, g1, g2, g3, g4, g5, g6, g7, g8, g9, g10, g11, g12, _⟩ := put_spec (s := s) (bs := [c]) (by rw [← h.size]; exact hpos)
    have e : putc c s w = (g, w, .ok) := by simp only [putc, if_neg h0, g1]
    rw [e]
    refine ⟨fun _ => ⟨by rw [g6, h.wr], by rw [g7, h.str], by rw [g8, h.reading], by rw [g9, g5, h.size], by rw [g10, g9]; exact h.unbuf, Or.inr ?_, ?_, by rw [g11, hw]; simp, by rw [g12, he]; simp⟩,
      by simp, by simp, [c], by simp, by simp, ?_, by simp [he]⟩
    · rw [g3, g4, g9]; simp only [List.length_singleton]; omega
    · rw [g3, g9]; exact hpos
    · simp only [g2]
      rw [List.append_assoc]

theorem writeRest_spec {s : Shf} {w : W} {bs : Bytes} (h : Inv s) (h1 : s.wp = 0) (h2 : s.wnleft = s.wbsize)
    (h3 : s.writing = true) (h4 : s.err = false) : Did s w bs (writeRest bs s w) := by
  have hu : s.wbsize = 0 → s.buf = [] := fun g => by
    have := h.size; rw [g] at this; exact List.length_eq_zero_iff.1 this.symm
  have hp : pend s = [] := by simp [pend, h1]
  simp only [writeRest]
  generalize hn : (if bs.length > s.wbsize then bs.length - (if s.wbsize = 0 then 0 else bs.length % s.wbsize) else 0) = n
  have hrest : (bs.drop n).length ≤ s.wbsize := by
    simp only [List.length_drop]
    subst hn
    split
    · split
      · omega
      · have := Nat.mod_lt bs.length (show s.wbsize > 0 by omega)
        omega
    · omega
  obtain ⟨a1, a2, a3⟩ := writeLoop_spec s.intr w.ws (bs.take n)
  generalize writeLoop s.intr w.ws (bs.take n) = r at a1 a2 a3 ⊢
  rw [if_neg (by simp [h.str])]
  obtain ⟨a, b, ws, st⟩ := r
  simp only at a1 a2 a3 ⊢
  have hpre : a <+: bs := by
    have : a <+: bs.take n := ⟨b, a1⟩
    exact this.trans (List.take_prefix _ _)
  rcases a2 with rfl | rfl | rfl
  · obtain rfl := a3 rfl
    rw [List.append_nil] at a1
    subst a1
    rw [if_pos rfl]
    obtain ⟨g, g1, g2, g3, g4, g5, g6, g7, g8, g9, g10, g11, g12, _⟩ := put_spec (s := s) (bs := bs.drop n) (by rw [h1, ← h.size]; omega)
    rw [g1]
    simp only
    refine ⟨fun _ => ⟨by rw [g6, h.wr], by rw [g7, h.str], by rw [g8, h.reading], by rw [g9, g5, h.size], by rw [g10, g9]; exact h.unbuf, Or.inr ?_, ?_, by rw [g11, h3]; simp, by rw [g12, h4]; simp⟩,
      by simp, by simp, bs, by simp, by simp, ?_, by simp [h4]⟩
    · rw [g3, g4, g9, h1, h2]; omega
    · rw [g3, g9, h1]; omega
    · simp only [g2, hp, List.nil_append, List.append_nil, List.append_assoc, List.take_append_drop]
  · rw [if_neg (by simp)]
    refine ⟨fun _ => ?_, by simp, by simp, a, hpre, by simp, ?_, by simp [h4]⟩
    · exact ⟨h.wr, h.str, h.reading, h.size, h.unbuf, by simp, h.wp, by simp [h3], by simp⟩
    · have : pend { s with err := true, wnleft := 0 } = [] := hp
      simp [hp, this]
  · rw [if_neg (by simp)]
    refine ⟨by simp, by simp, by simp, a, hpre, by simp, ?_, by simp [h4]⟩
    simp [hp]

theorem write_spec {s : Shf} {w : W} (h : Inv s) (bs : Bytes) : Did s w bs (write bs s w) := by
  have hneg : ¬ s.wnleft < 0 := by
    have := h.wp
    rcases h.left with g | g <;> omega
  have hwp := h.wp
  have hsz := h.size
  have hf : firstPart s bs.length ≤ bs.length ∧ (firstPart s bs.length ≠ 0 → (s.wp : Int) + s.wnleft = s.wbsize ∧ (firstPart s bs.length : Int) ≤ s.wnleft) := by
    simp only [firstPart]
    split
    · rename_i g
      refine ⟨Nat.min_le_right _ _, fun _ => ⟨?_, ?_⟩⟩
      · rcases h.left with g' | g'
        · exact absurd g' g.1
        · exact g'
      · omega
    · simp
  have hlen : (bs.take (firstPart s bs.length)).length = firstPart s bs.length := by
    rw [List.length_take]; omega
  have e : ∀ g, put s (bs.take (firstPart s bs.length)) = some g →
      write bs s w = if bs.drop (firstPart s bs.length) = [] then (g, w, .ok) else
        if (emptybuf false true g w).2.2 = .ok then
          writeRest (bs.drop (firstPart s bs.length)) (emptybuf false true g w).1 (emptybuf false true g w).2.1
        else emptybuf false true g w := by
    intro g hg
    simp only [write, h.wr, Bool.not_true, Bool.false_eq_true, if_false, if_neg hneg, hg]
  generalize firstPart s bs.length = n at hf hlen e
  have hroom : s.wp + (bs.take n).length ≤ s.buf.length := by
    rw [hlen]
    by_cases hn : n = 0
    · omega
    · have := hf.2 hn; omega
  obtain ⟨g, g1, g2, g3, g4, g5, g6, g7, g8, g9, g10, g11, g12, g13, _⟩ := put_spec hroom
  rw [hlen] at g3 g4
  have hnz : n ≠ 0 → s.wnleft ≠ 0 := fun hn => by have := hf.2 hn; omega
  have hg : Inv g := by
    refine ⟨by rw [g6, h.wr], by rw [g7, h.str], by rw [g8, h.reading], by rw [g9, g5, h.size], by rw [g10, g9]; exact h.unbuf, ?_, ?_, ?_, ?_⟩
    · by_cases hn : n = 0
      · rcases h.left with l | l
        · left; omega
        · right; omega
      · right
        have := hf.2 hn; omega
    · by_cases hn : n = 0
      · omega
      · have := hf.2 hn; omega
    · intro i
      rw [g11] at i
      have j := h.idle i
      by_cases hn : n = 0
      · omega
      · exact absurd j.2 (hnz hn)
    · intro i
      rw [g12] at i
      have j := h.err i
      by_cases hn : n = 0
      · omega
      · exact absurd j (hnz hn)
  have hn0 : s.err = true → n = 0 := fun i => by
    by_cases hn : n = 0
    · exact hn
    · exact absurd (h.err i) (hnz hn)
  rw [e g g1]
  by_cases hd : bs.drop n = []
  · rw [if_pos hd]
    have hbs : bs.take n = bs := by
      have := List.take_append_drop n bs
      rwa [hd, List.append_nil] at this
    refine ⟨fun _ => hg, by simp, by simp, bs, by simp, by simp, ?_, fun i => ?_⟩
    · simp only [g2, hbs, List.append_assoc]
    · rw [← hbs, hn0 i, List.take_zero]
  · rw [if_neg hd]
    obtain ⟨d, q⟩ := emptybuf_spec (w := w) hg true
    generalize emptybuf false true g w = r at d q ⊢
    obtain ⟨s1, w1, st⟩ := r
    simp only at q ⊢
    obtain ⟨t, t1, t2, t3, t4⟩ := d.took
    obtain rfl : t = [] := List.prefix_nil.1 t1
    simp only [List.append_nil] at t3
    by_cases ho : st = .ok
    · subst ho
      rw [if_pos rfl]
      obtain ⟨q1, q2, q3, q4, q5, q6, q7⟩ := q rfl
      have z := writeRest_spec (w := w1) (d.inv (Or.inl rfl)) q1 q2 q3 q4 (bs := bs.drop n)
      obtain ⟨u, u1, u2, u3, u4⟩ := z.took
      refine ⟨z.inv, z.st, z.err, bs.take n ++ u, ?_, fun i => ?_, ?_, fun i => ?_⟩
      · obtain ⟨v, hv⟩ := u1
        exact ⟨v, by rw [List.append_assoc, hv, List.take_append_drop]⟩
      · rw [u2 i, List.take_append_drop]
      · rw [u3, t3, g2]
        simp only [List.append_assoc]
      · rw [g12, i] at q7
        exact absurd q7 (by simp)
    · rw [if_neg ho]
      refine ⟨d.inv, d.st, d.err, bs.take n, List.take_prefix _ _, fun i => absurd i ho, ?_, fun i => ?_⟩
      · simp only [t3, g2, List.append_assoc]
      · rw [hn0 i, List.take_zero]

theorem flush_spec {s : Shf} {w : W} (h : Inv s) : Did s w [] (flush s w) ∧ ((flush s w).2.2 = .ok → pend (flush s w).1 = []) := by
  by_cases he : s.err = true
  · have e : flush s w = (s, w, .eof) := by simp [flush, h.str, he]
    rw [e]
    exact ⟨⟨fun _ => h, by simp, fun _ => he, [], by simp⟩, by simp⟩
  · by_cases hw : s.writing = true
    · have e : flush s w = emptybuf false false s w := by simp [flush, h.str, he, h.reading, hw]
      rw [e]
      obtain ⟨d, q⟩ := emptybuf_spec (w := w) h false
      exact ⟨d, fun i => by simp [pend, (q i).1]⟩
    · have e : flush s w = (s, w, .ok) := by simp [flush, h.str, he, h.reading, hw]
      rw [e]
      have hw : s.writing = false := by simpa using hw
      exact ⟨⟨fun _ => h, by simp, by simp, [], by simp⟩, fun _ => by simp [pend, (h.idle hw).1]⟩

theorem step_spec {s : Shf} {w : W} (h : Inv s) (o : Op) (ho : o ≠ .clearerr) : Did s w (given o) (step o s w) := by
  cases o with
  | putc c => exact putc_spec h c
  | write bs => exact write_spec h bs
  | flush => exact (flush_spec h).1
  | clearerr => exact absurd rfl ho

theorem clearerr_inv {s : Shf} (h : Inv s) : Inv (clearerr s) :=
  ⟨h.wr, h.str, h.reading, h.size, h.unbuf, h.left, h.wp, h.idle, by simp [clearerr]⟩

/-- each operation takes all of its bytes, or a prefix when it fails -/
inductive Took : List Op → List St → Bytes → Prop
  | nil : Took [] [] []
  | cons {o os st sts t u} : t <+: given o → (st = .ok → t = given o) → Took os sts u → Took (o :: os) (st :: sts) (t ++ u)
  | stuck {o os t} : t <+: given o → Took (o :: os) [.stuck] t

/-- **C43**, with errors that are cleared: no fault, and what has reached the file together with
what is in the buffer is, in order, the bytes of the operations that worked and a prefix of the
bytes of each one that failed. -/
theorem output_took (os : List Op) (s : Shf) (w : W) (h : Inv s) :
    ∃ t, Took os (run os s w).2.2 t ∧ (run os s w).2.1.sent ++ pend (run os s w).1 = w.sent ++ pend s ++ t := by
  induction os generalizing s w with
  | nil => exact ⟨[], .nil, by simp [run]⟩
  | cons o os ih =>
    by_cases ho : o = .clearerr
    · subst ho
      obtain ⟨t, t1, t2⟩ := ih (clearerr s) w (clearerr_inv h)
      have e : run (.clearerr :: os) s w = ((run os (clearerr s) w).1, (run os (clearerr s) w).2.1, .ok :: (run os (clearerr s) w).2.2) := by
        simp [run, step]
      rw [e]
      exact ⟨[] ++ t, .cons (by simp [given]) (by simp [given]) t1, by simpa [pend, clearerr] using t2⟩
    · have d := step_spec (w := w) h o ho
      obtain ⟨t, t1, t2, t3, _⟩ := d.took
      simp only [run]
      split
      · rename_i hs
        obtain ⟨u, u1, u2⟩ := ih (step o s w).1 (step o s w).2.1 (d.inv hs)
        exact ⟨t ++ u, .cons t1 t2 u1, by simp only [u2, t3, List.append_assoc]⟩
      · rename_i hs
        have : (step o s w).2.2 = .stuck := by
          rcases d.st with g | g | g
          · exact absurd (Or.inl g) hs
          · exact absurd (Or.inr g) hs
          · exact g
        rw [this]
        exact ⟨t, .stuck t1, t3⟩

theorem took_ok {os : List Op} {sts : List St} {t : Bytes} (h : Took os sts t) (ok : ∀ x ∈ sts, x = .ok) : t = givenAll os := by
  induction h with
  | nil => rfl
  | cons h1 h2 _ ih => rw [h2 (ok _ (by simp)), ih (fun x hx => ok x (by simp [hx]))]; rfl
  | stuck _ => exact absurd (ok .stuck (by simp)) (by simp)

/-- an error stays until it is cleared -/
theorem step_sticky {s : Shf} {w : W} (h : Inv s) (he : s.err = true) (o : Op) (ho : o ≠ .clearerr) :
    (step o s w).1.err = true := by
  have h0 := h.err he
  cases o with
  | clearerr => exact absurd rfl ho
  | putc c =>
    cases hu : s.unbuf <;> simp [step, putc, putchar, emptybuf, h0, h.wr, he, hu, h.str]
  | flush => simp [step, flush, h.str, he]
  | write bs =>
    have hf : firstPart s bs.length = 0 := by simp [firstPart, h0]
    obtain ⟨g, g1, _, _, _, _, _, _, _, _, _, _, g12, _⟩ := put_spec (s := s) (bs := bs.take 0) (by simpa [← h.size] using h.wp)
    have : ¬ s.wnleft < 0 := by omega
    simp only [step, write, h.wr, Bool.not_true, Bool.false_eq_true, if_false, if_neg this, hf, g1]
    split
    · rw [g12, he]
    · have e : emptybuf false true g w = (g, w, .eof) := by simp [emptybuf, g12, he]
      simp [e, g12, he]

theorem run_err (os : List Op) (s : Shf) (w : W) (h : Inv s) (he : s.err = true) (hc : .clearerr ∉ os) :
    (run os s w).2.1.sent ++ pend (run os s w).1 = w.sent ++ pend s := by
  induction os generalizing s w with
  | nil => rfl
  | cons o os ih =>
    have hne : o ≠ .clearerr := fun g => hc (by simp [g])
    have d := step_spec (w := w) h o hne
    obtain ⟨t, t1, t2, t3, t4⟩ := d.took
    rw [t4 he, List.append_nil] at t3
    simp only [run]
    split
    · rename_i hs
      rw [← t3]
      exact ih _ _ (d.inv hs) (step_sticky h he o hne) (fun g => hc (by simp [g]))
    · exact t3

theorem output_prefix_inv (os : List Op) (s : Shf) (w : W) (h : Inv s) (hc : .clearerr ∉ os) :
    (run os s w).2.1.sent ++ pend (run os s w).1 <+: w.sent ++ pend s ++ givenAll os := by
  induction os generalizing s w with
  | nil => simp [run, givenAll]
  | cons o os ih =>
    have d := step_spec (w := w) h o (fun g => hc (by simp [g]))
    obtain ⟨t, t1, t2, t3, t4⟩ := d.took
    have hc' : .clearerr ∉ os := fun g => hc (by simp [g])
    have hp : w.sent ++ pend s ++ t <+: w.sent ++ pend s ++ givenAll (o :: os) := by
      obtain ⟨u, hu⟩ := t1
      exact ⟨u ++ givenAll os, by simp [givenAll, ← hu]⟩
    simp only [run]
    split
    · rename_i hs
      by_cases hok : (step o s w).2.2 = .ok
      · have := ih (step o s w).1 (step o s w).2.1 (d.inv hs) hc'
        rw [t3, t2 hok] at this
        simpa [givenAll] using this
      · have := run_err os (step o s w).1 (step o s w).2.1 (d.inv hs) (d.err (hs.resolve_left hok)) hc'
        rw [show (_ : Bytes) ++ _ = _ from this, t3]
        exact hp
    · simp only [t3]
      exact hp

/-- **C43**: the file gets a prefix of the bytes that were output since it was opened, in order,
whatever the calls of `write` answer, until an error is cleared. -/
theorem output_prefix (os : List Op) (unbuf intr : Bool) (buf : Bytes) (w : W) (hw : w.sent = []) (hb : buf ≠ [])
    (hc : .clearerr ∉ os) : (run os (openW unbuf intr buf) w).2.1.sent <+: givenAll os := by
  have h := output_prefix_inv os _ w (openW_inv unbuf intr buf hb) hc
  rw [openW_pend, hw] at h
  exact (List.prefix_append _ _).trans h

/-- **C43**: when all operations work the file has, with what is in the buffer, all the bytes. -/
theorem output_complete (os : List Op) (unbuf intr : Bool) (buf : Bytes) (w : W) (hw : w.sent = []) (hb : buf ≠ [])
    (ok : ∀ x ∈ (run os (openW unbuf intr buf) w).2.2, x = .ok) :
    (run os (openW unbuf intr buf) w).2.1.sent ++ pend (run os (openW unbuf intr buf) w).1 = givenAll os := by
  obtain ⟨t, t1, t2⟩ := output_took os _ w (openW_inv unbuf intr buf hb)
  rw [t2, openW_pend, took_ok t1 ok, hw, List.append_nil, List.nil_append]

theorem run_append (os : List Op) (o : Op) (s : Shf) (w : W) (ok : ∀ x ∈ (run (os ++ [o]) s w).2.2, x = .ok) :
    (run (os ++ [o]) s w).1 = (step o (run os s w).1 (run os s w).2.1).1 ∧
    (run (os ++ [o]) s w).2.1 = (step o (run os s w).1 (run os s w).2.1).2.1 ∧
    (step o (run os s w).1 (run os s w).2.1).2.2 = .ok ∧ (∀ x ∈ (run os s w).2.2, x = .ok) := by
  induction os generalizing s w with
  | nil =>
    simp only [List.nil_append, run] at ok ⊢
    split at ok <;> simp_all
  | cons p os ih =>
    simp only [List.cons_append, run] at ok ⊢
    split
    · rename_i hs
      rw [if_pos hs] at ok
      simp only [List.mem_cons, forall_eq_or_imp] at ok
      obtain ⟨a, b, c, d⟩ := ih _ _ ok.2
      exact ⟨a, b, c, by simpa [ok.1] using d⟩
    · rename_i hs
      rw [if_neg hs] at ok
      simp only [List.mem_singleton, forall_eq] at ok
      exact absurd (Or.inl ok) hs

theorem run_inv (os : List Op) (s : Shf) (w : W) (h : Inv s) (ok : ∀ x ∈ (run os s w).2.2, x = .ok) : Inv (run os s w).1 := by
  induction os generalizing s w with
  | nil => exact h
  | cons o os ih =>
    have hs : (step o s w).2.2 = .ok := by
      apply ok
      simp only [run]
      split <;> simp
    have e : run (o :: os) s w = ((run os (step o s w).1 (step o s w).2.1).1, (run os (step o s w).1 (step o s w).2.1).2.1,
        .ok :: (run os (step o s w).1 (step o s w).2.1).2.2) := by
      simp only [run]
      rw [if_pos (Or.inl hs), hs]
    rw [e] at ok ⊢
    refine ih _ _ ?_ (fun x hx => ok x (by simp [hx]))
    by_cases ho : o = .clearerr
    · subst ho; exact clearerr_inv h
    · exact (step_spec h o ho).inv (Or.inl hs)

/-- **C43**: after a flush the file has all the bytes. -/
theorem output_flushed (os : List Op) (unbuf intr : Bool) (buf : Bytes) (w : W) (hw : w.sent = []) (hb : buf ≠ [])
    (ok : ∀ x ∈ (run (os ++ [.flush]) (openW unbuf intr buf) w).2.2, x = .ok) :
    (run (os ++ [.flush]) (openW unbuf intr buf) w).2.1.sent = givenAll os := by
  have h := output_complete _ unbuf intr buf w hw hb ok
  obtain ⟨a, b, c, d⟩ := run_append _ _ _ _ ok
  have f := (flush_spec (w := (run os (openW unbuf intr buf) w).2.1) (run_inv _ _ _ (openW_inv unbuf intr buf hb) d)).2 c
  rw [a] at h
  simp only [step, f, List.append_nil] at h
  rw [h]
  simp [givenAll, given]

/-! ## Interruptions are no errors -/

/-- no failing call: an interruption fails only with `SHF_INTERRUPT` -/
def Calm (intr : Bool) (ws : List WR) : Prop := ∀ x ∈ ws, x ≠ .err ∧ (x = .intr → intr = false)

theorem writeLoop_calm (intr : Bool) (ws : List WR) (bs : Bytes) (h : Calm intr ws) :
    (writeLoop intr ws bs).2.2.2 ≠ .eof ∧ Calm intr (writeLoop intr ws bs).2.2.1 := by
  induction ws generalizing bs with
  | nil => cases bs <;> simp [writeLoop, Calm]
  | cons x ws ih =>
    have h' : Calm intr ws := fun y hy => h y (by simp [hy])
    cases bs with
    | nil => simpa [writeLoop] using h
    | cons b bs =>
      cases x with
      | n k => simpa only [writeLoop] using ih _ h'
      | err => exact absurd rfl (h .err (by simp)).1
      | intr =>
        have : intr = false := (h .intr (by simp)).2 rfl
        subst this
        simpa [writeLoop] using ih _ h'

/-- nothing has failed -/
def Good (s : Shf) (w : W) : Prop := s.err = false ∧ Calm s.intr w.ws

theorem emptybuf_calm {s : Shf} {w : W} (hr : s.reading = false) (hs : s.str = false) (g : Good s w) (grow : Bool) :
    (emptybuf false grow s w).2.2 ≠ .eof ∧ Good (emptybuf false grow s w).1 (emptybuf false grow s w).2.1 ∧
    (emptybuf false grow s w).1.str = false := by
  by_cases hw : s.writing = true
  · obtain ⟨h1, h2⟩ := writeLoop_calm s.intr w.ws (s.buf.take s.wp) g.2
    simp only [emptybuf, g.1, hr, hs, hw, Bool.false_eq_true, if_false, Bool.false_and, if_true]
    generalize writeLoop s.intr w.ws (s.buf.take s.wp) = r at h1 h2
    obtain ⟨a, b, ws, st⟩ := r
    refine ⟨h1, ?_⟩
    cases st <;> simp_all [emptied, Good]
  · simp only [emptybuf, g.1, hr, hs, hw, Bool.false_eq_true, if_false, Bool.false_and]
    exact ⟨by simp, ⟨g.1, g.2⟩, hs⟩

theorem put_good {s g : Shf} {bs : Bytes} (h : put s bs = some g) {w : W} (q : Good s w) : Good g w := by
  simp only [put] at h
  split at h
  · simp only [Option.some.injEq] at h
    subst h
    exact q
  · exact absurd h (by simp)

theorem step_calm {s : Shf} {w : W} (h : Inv s) (g : Good s w) (o : Op) :
    (step o s w).2.2 ≠ .eof ∧ Good (step o s w).1 (step o s w).2.1 := by
  cases o with
  | clearerr => exact ⟨by simp [step], rfl, g.2⟩
  | flush =>
    simp only [step, flush, h.str, g.1, h.reading, Bool.false_eq_true, if_false]
    split
    · exact ⟨(emptybuf_calm h.reading h.str g false).1, (emptybuf_calm h.reading h.str g false).2.1⟩
    · exact ⟨by simp, g⟩
  | putc c =>
    simp only [step, putc]
    split
    · simp only [putchar, h.wr, h.str, g.1, Bool.not_true, Bool.false_eq_true, if_false]
      split
      · obtain ⟨h1, h2⟩ := writeLoop_calm s.intr w.ws [c] g.2
        exact ⟨h1, by rw [if_neg h1]; exact ⟨g.1, h2⟩⟩
      · obtain ⟨h1, h2, _⟩ := emptybuf_calm h.reading h.str g true
        split
        · split
          · rename_i hp
            exact ⟨by simp, put_good hp h2⟩
          · exact ⟨by simp, h2⟩
        · exact ⟨h1, h2⟩
    · split
      · rename_i hp
        exact ⟨by simp, put_good hp g⟩
      · exact ⟨by simp, g⟩
  | write bs =>
    simp only [step, write, h.wr, Bool.not_true, Bool.false_eq_true, if_false]
    split
    · exact ⟨by simp, g⟩
    · split
      · exact ⟨by simp, g⟩
      · rename_i s' hp
        have g' := put_good hp g
        split
        · exact ⟨by simp, g'⟩
        · have hq : s'.reading = false ∧ s'.str = false := by
            simp only [put] at hp
            split at hp
            · simp only [Option.some.injEq] at hp
              subst hp
              exact ⟨h.reading, h.str⟩
            · exact absurd hp (by simp)
          obtain ⟨h1, h2, h3⟩ := emptybuf_calm hq.1 hq.2 g' true
          split
          · generalize emptybuf false true s' w = r at h1 h2 h3
            simp only [writeRest]
            rw [if_neg (by simp [h3])]
            generalize hn : List.take _ (List.drop _ bs) = piece
            obtain ⟨h4, h5⟩ := writeLoop_calm r.1.intr r.2.1.ws piece h2.2
            split
            · split
              · rename_i hp2
                exact ⟨by simp, put_good hp2 ⟨h2.1, h5⟩⟩
              · exact ⟨by simp, ⟨h2.1, h5⟩⟩
            · exact ⟨h4, h2.1, h5⟩
          · exact ⟨h1, h2⟩

/-- **C43**: an interruption (without `SHF_INTERRUPT`) or a partial write is not seen: every
operation works, or waits for `write`. -/
theorem output_interrupted (os : List Op) (unbuf intr : Bool) (buf : Bytes) (w : W) (hb : buf ≠ []) (hw : Calm intr w.ws) :
    ∀ x ∈ (run os (openW unbuf intr buf) w).2.2, x = .ok ∨ x = .stuck := by
  have key : ∀ (os : List Op) (s : Shf) (w : W), Inv s → Good s w → ∀ x ∈ (run os s w).2.2, x = .ok ∨ x = .stuck := by
    intro os
    induction os with
    | nil => simp [run]
    | cons o os ih =>
      intro s w h g x hx
      obtain ⟨c1, c2⟩ := step_calm h g o
      have hst : (step o s w).2.2 = .ok ∨ (step o s w).2.2 = .stuck := by
        by_cases ho : o = .clearerr
        · subst ho; left; rfl
        · rcases (step_spec (w := w) h o ho).st with q | q | q
          · exact Or.inl q
          · exact absurd q c1
          · exact Or.inr q
      simp only [run] at hx
      split at hx
      · rename_i hs
        rcases List.mem_cons.1 hx with rfl | hx
        · exact hst
        · refine ih _ _ ?_ c2 x hx
          by_cases ho : o = .clearerr
          · subst ho; exact clearerr_inv h
          · exact (step_spec h o ho).inv hs
      · rw [List.mem_singleton.1 hx]
        exact hst
  exact key os _ w (openW_inv unbuf intr buf hb) ⟨rfl, hw⟩

/-! ## Examples -/

/-- a world whose calls of `write` answer `ws` -/
def world (ws : List WR) : W := ⟨[], ws, [], 0, [], true⟩

example : run [.putc 1, .write [2, 3, 4, 5, 6], .putc 7, .flush] (openW false false [0, 0, 0]) (world [.n 1, .intr, .n 5, .n 9, .n 9]) =
    ({ openW false false [7, 5, 6] with wnleft := 3, writing := true }, { world [] with sent := [1, 2, 3, 4, 5, 6, 7] }, [.ok, .ok, .ok, .ok]) := by
  decide

example : (run [.write [1, 2, 3], .write [4, 5, 6, 7], .putc 8, .clearerr, .putc 9, .flush] (openW false false [0, 0, 0, 0]) (world [.n 1, .err, .n 9, .n 9])).2 =
    ({ world [] with sent := [1, 2, 3, 4, 9] }, [.ok, .eof, .eof, .ok, .ok, .ok]) := by decide

end Ksh.Shf
