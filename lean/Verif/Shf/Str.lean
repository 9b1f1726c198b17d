import Verif.Shf.Out

/-!
# Output to a string (C45)
-/

namespace Ksh.Shf

/-- Output of single bytes, the answers ignored, as shf_vfprintf does; `none` is a fault. -/
def putcs : Bytes → Shf → W → Option (Shf × W)
  | [], s, w => some (s, w)
  | c :: bs, s, w =>
    let r := putc c s w
    if r.2.2 = .fault ∨ r.2.2 = .stuck ∨ r.2.2 = .abort then none else putcs bs r.1 r.2.1

/-- A string buffer: a byte is left for the null. -/
structure SInv (d : Bool) (s : Shf) : Prop where
  wr : s.wr = true
  str : s.str = true
  unbuf : s.unbuf = false
  reading : s.reading = false
  err : s.err = false
  dyn : s.dyn = d
  allocB : s.allocB = d
  size : s.wbsize = s.buf.length
  left : (s.wp : Int) + s.wnleft + 1 = s.wbsize
  pos : 0 ≤ s.wnleft

theorem sopenW_inv (dyn : Bool) (buf : Bytes) (h : buf ≠ []) : SInv dyn (sopenW dyn buf) := by
  have := List.length_pos_iff.2 h
  constructor <;> simp [sopenW]
  omega

theorem put_sinv {dyn : Bool} {s : Shf} (h : SInv dyn s) {bs : Bytes} (hb : (bs.length : Int) ≤ s.wnleft) :
    ∃ g, put s bs = some g ∧ SInv dyn g ∧ pend g = pend s ++ bs ∧ g.buf.length = s.buf.length ∧ g.wp = s.wp + bs.length ∧
      g.wnleft = s.wnleft - bs.length := by
  have hl := h.left; have hs := h.size
  obtain ⟨g, g1, g2, g3, g4, g5, g6, g7, g8, g9, g10, g11, g12, g13, g14, g15⟩ := put_spec (s := s) (bs := bs) (by omega)
  refine ⟨g, g1, ⟨by rw [g6, h.wr], by rw [g7, h.str], by rw [g10, h.unbuf], by rw [g8, h.reading], by rw [g12, h.err],
    by rw [g14, h.dyn], by rw [g15, h.allocB], by rw [g9, g5, hs], by rw [g3, g4, g9]; omega, by rw [g4]; omega⟩, g2, g5, g3, g4⟩

theorem grown_sinv {s : Shf} (h : SInv true s) : SInv true (grown s) ∧ pend (grown s) = pend s ∧ (grown s).wnleft = s.wnleft + s.wbsize ∧
    s.buf.length ≤ (grown s).buf.length := by
  have hl := h.left; have hp := h.pos; have hs := h.size
  refine ⟨⟨h.wr, h.str, h.unbuf, h.reading, h.err, h.dyn, h.allocB, ?_, ?_, ?_⟩, ?_, rfl, ?_⟩
  · simp [grown]; omega
  · simp only [grown]; omega
  · simp only [grown]; omega
  · simp only [pend, grown]
    rw [List.take_append_of_le_length (by simp; omega), List.take_take, Nat.min_eq_left (by omega)]
  · simp [grown]; omega

/-- a byte goes to the string if there is room or it can grow -/
theorem sputc_spec {dyn : Bool} {s : Shf} (h : SInv dyn s) (c : Byte) (w : W) :
    ∃ g st, putc c s w = (g, w, st) ∧ SInv dyn g ∧ (st = .ok ∨ st = .eof) ∧
      (dyn = true ∨ 0 < s.wnleft → pend g = pend s ++ [c] ∧ st = .ok) ∧
      (dyn = false → g.buf.length = s.buf.length ∧ (s.wnleft = 0 → g = s)) := by
  have hl := h.left; have hp := h.pos; have hs := h.size
  by_cases h0 : s.wnleft = 0
  · cases dyn with
    | false =>
      have e : putc c s w = (s, w, .eof) := by
        simp [putc, h0, putchar, h.wr, h.unbuf, emptybuf, h.err, h.reading, h.str, h.dyn]
      exact ⟨s, .eof, e, h, by simp, by simp; omega, by simp⟩
    | true =>
      obtain ⟨g1, g2, g3, _⟩ := grown_sinv h
      obtain ⟨g, q1, q2, q3, q4, _⟩ := put_sinv g1 (bs := [c]) (by rw [g3, h0]; simp; omega)
      have e : putc c s w = (g, w, .ok) := by
        simp [putc, h0, putchar, h.wr, h.unbuf, emptybuf, h.err, h.reading, h.str, h.dyn, h.allocB, q1]
      exact ⟨g, .ok, e, q2, by simp, fun _ => ⟨by rw [q3, g2], rfl⟩, by simp⟩
  · obtain ⟨g, q1, q2, q3, q4, _⟩ := put_sinv h (bs := [c]) (by simp; omega)
    have e : putc c s w = (g, w, .ok) := by simp only [putc, if_neg h0, q1]
    exact ⟨g, .ok, e, q2, by simp, fun _ => ⟨q3, rfl⟩, fun _ => ⟨q4, fun k => absurd k h0⟩⟩

theorem pend_length {dyn : Bool} {s : Shf} (h : SInv dyn s) : (pend s).length = s.wp := by
  have hl := h.left; have hp := h.pos; have hs := h.size
  simp [pend]; omega

theorem putcs_fixed {s : Shf} (h : SInv false s) (bs : Bytes) (w : W) :
    ∃ g, putcs bs s w = some (g, w) ∧ SInv false g ∧ pend g = (pend s ++ bs).take (s.buf.length - 1) ∧ g.buf.length = s.buf.length := by
  induction bs generalizing s with
  | nil =>
    have hl := h.left; have hp := h.pos; have hs := h.size; have hq := pend_length h
    exact ⟨s, rfl, h, by rw [List.append_nil, List.take_of_length_le]; omega, rfl⟩
  | cons c bs ih =>
    obtain ⟨g, st, g1, g2, g3, g4, g5⟩ := sputc_spec h c w
    obtain ⟨k, k1, k2, k3, k4⟩ := ih g2
    have hl := h.left; have hp := h.pos; have hs := h.size; have hq := pend_length h
    refine ⟨k, ?_, k2, ?_, k4.trans (g5 rfl).1⟩
    · simp only [putcs, g1]
      rw [if_neg (by rcases g3 with rfl | rfl <;> simp)]
      exact k1
    · rw [k3, (g5 rfl).1]
      by_cases h0 : s.wnleft = 0
      · rw [(g5 rfl).2 h0, List.take_append_of_le_length (by omega), List.take_append_of_le_length (by omega)]
      · rw [(g4 (Or.inr (by omega))).1]
        simp

theorem putcs_dynamic {s : Shf} (h : SInv true s) (bs : Bytes) (w : W) :
    ∃ g, putcs bs s w = some (g, w) ∧ SInv true g ∧ pend g = pend s ++ bs := by
  induction bs generalizing s with
  | nil => exact ⟨s, rfl, h, by simp⟩
  | cons c bs ih =>
    obtain ⟨g, st, g1, g2, g3, g4, g5⟩ := sputc_spec h c w
    obtain ⟨k, k1, k2, k3⟩ := ih g2
    refine ⟨k, ?_, k2, by rw [k3, (g4 (Or.inl rfl)).1]; simp⟩
    simp only [putcs, g1]
    rw [if_neg (by rcases g3 with rfl | rfl <;> simp)]
    exact k1

/-- the null is put behind the bytes, within the buffer -/
theorem sclose_spec {dyn : Bool} {s : Shf} (h : SInv dyn s) (w : W) :
    ∃ g, sclose s w = (g, w, .ok) ∧ g.buf.length = s.buf.length ∧ ∃ rest, g.buf = pend s ++ [0] ++ rest := by
  have hl := h.left; have hp := h.pos; have hs := h.size
  obtain ⟨g, g1, g2, g3, g4, g5, _⟩ := put_spec (s := { s with wnleft := s.wnleft + 1 }) (bs := [0]) (by simp only [List.length_singleton]; omega)
  have h0 : ¬ s.wnleft + 1 = 0 := by omega
  refine ⟨g, ?_, g5, g.buf.drop g.wp, ?_⟩
  · simp only [sclose, putc, if_neg h0, g1]
  · have : pend { s with wnleft := s.wnleft + 1 } = pend s := rfl
    rw [this] at g2
    rw [← g2]
    exact (List.take_append_drop _ _).symm

/-- shf_snprintf (shf.c:703-719) for a format that yields `out`: the memory of the buffer
afterwards; `none` is a fault -/
def snprintf (out buf : Bytes) (w : W) : Option Bytes :=
  (putcs out (sopenW false buf) w).bind fun r =>
    let c := sclose r.1 r.2
    if c.2.2 = .ok then some c.1.buf else none

/-- shf_smprintf (shf.c:721-732), the buffer `buf` is allocated by shf_sopen (64 bytes) -/
def smprintf (out buf : Bytes) (w : W) : Option Bytes :=
  (putcs out (sopenW true buf) w).bind fun r =>
    let c := sclose r.1 r.2
    if c.2.2 = .ok then some c.1.buf else none

/-- **C45**: the buffer of `n` bytes is not exceeded; it holds the first `n - 1` bytes of the
output, and a null. -/
theorem snprintf_bounded (out buf : Bytes) (w : W) (h : buf ≠ []) :
    ∃ m rest, snprintf out buf w = some m ∧ m.length = buf.length ∧ m = out.take (buf.length - 1) ++ [0] ++ rest := by
  obtain ⟨g, g1, g2, g3, g4⟩ := putcs_fixed (sopenW_inv false buf h) out w
  obtain ⟨k, k1, k2, rest, k3⟩ := sclose_spec g2 w
  refine ⟨k.buf, rest, ?_, k2.trans g4, ?_⟩
  · simp [snprintf, g1, k1]
  · rw [k3, g3]
    simp [pend, sopenW]

/-- **C45**: a growing string holds all of the output, and a null. -/
theorem smprintf_complete (out buf : Bytes) (w : W) (h : buf ≠ []) :
    ∃ m rest, smprintf out buf w = some m ∧ m = out ++ [0] ++ rest := by
  obtain ⟨g, g1, g2, g3⟩ := putcs_dynamic (sopenW_inv true buf h) out w
  obtain ⟨k, k1, k2, rest, k3⟩ := sclose_spec g2 w
  refine ⟨k.buf, rest, ?_, ?_⟩
  · simp [smprintf, g1, k1]
  · rw [k3, g3]
    simp [pend, sopenW]

/-- **C45**: writing to a fixed buffer does not exceed it either. -/
theorem swrite_safe {s : Shf} (h : SInv false s) (bs : Bytes) (w : W) :
    ∃ g st, write bs s w = (g, w, st) ∧ SInv false g ∧ g.buf.length = s.buf.length ∧ (st = .ok ∨ st = .eof) ∧
      ∃ t, t <+: bs ∧ pend g = pend s ++ t ∧ (st = .ok → t = bs) := by
  have hl := h.left; have hp := h.pos; have hs := h.size
  have hneg : ¬ s.wnleft < 0 := by omega
  have hf : firstPart s bs.length ≤ bs.length ∧ (firstPart s bs.length : Int) ≤ s.wnleft := by
    simp only [firstPart]
    split <;> omega
  obtain ⟨g, g1, g2, g3, g4, _⟩ := put_sinv h (bs := bs.take (firstPart s bs.length)) (by rw [List.length_take]; omega)
  by_cases hd : bs.drop (firstPart s bs.length) = []
  · refine ⟨g, .ok, by simp [write, h.wr, hneg, g1, hd], g2, g4, by simp, bs.take (firstPart s bs.length), List.take_prefix _ _, g3, fun _ => ?_⟩
    have := List.take_append_drop (firstPart s bs.length) bs
    rwa [hd, List.append_nil] at this
  · refine ⟨g, .eof, ?_, g2, g4, by simp, bs.take (firstPart s bs.length), List.take_prefix _ _, g3, by simp⟩
    have e : emptybuf false true g w = (g, w, .eof) := by simp [emptybuf, g2.err, g2.reading, g2.str, g2.dyn]
    simp only [write, h.wr, Bool.not_true, Bool.false_eq_true, if_false, if_neg hneg, g1, if_neg hd, e]
    simp

/-- shf_write to a growing string doubles the buffer once and then copies whatever is left, up to
the whole new size, although part of it is in use: a write beyond the buffer.  (The shell uses
shf_write for fixed strings and files only.) -/
theorem dynamic_write_overruns :
    let s := (putc 97 (sopenW true [0, 0, 0, 0]) (world [])).1
    (write [1, 2, 3, 4, 5, 6, 7, 8, 9] s (world [])).2.2 = .fault := by decide

/-- shf_write to an empty fixed string takes nothing when there is too much, and what comes next
is taken. -/
theorem fixed_write_drops :
    let r := write [1, 2, 3, 4, 5] (sopenW false [0, 0, 0, 0]) (world [])
    r.2.2 = .eof ∧ pend (putc 6 r.1 r.2.1).1 = [6] := by decide

example : snprintf [1, 2, 3, 4, 5] [9, 9, 9, 9] (world []) = some [1, 2, 3, 0] ∧
    snprintf [1, 2] [9, 9, 9, 9] (world []) = some [1, 2, 0, 9] ∧
    smprintf [1, 2, 3, 4, 5] [9, 9] (world []) = some [1, 2, 3, 4, 5, 0, 0, 0] := by decide

end Ksh.Shf
