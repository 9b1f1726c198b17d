import Verif.Line.Model

/-!
# What one call of shf_getse does when no read fails
-/

namespace Ksh.Line

open Ksh.Shf

/-- No read call fails: interrupted ones are repeated (no `SHF_INTERRUPT`) and there are no errors. -/
structure Quiet (s : Shf) (w : W) : Prop where
  intr : s.intr = false
  err : s.err = false
  rs : RR.err ∉ w.rs

theorem readLoop_quiet {i : Bool} (hi : i = false) (size : Nat) (data : Bytes) (rs : List RR) (h : RR.err ∉ rs) :
    RR.err ∉ (readLoop i size data rs).2.1 ∧ (readLoop i size data rs).2.2 ≠ .eof ∧
    ((readLoop i size data rs).2.2 = .stuck → (readLoop i size data rs).2.1 = []) := by
  subst hi
  induction rs with
  | nil => simp [readLoop]
  | cons x rs ih =>
    simp only [List.mem_cons, not_or] at h
    cases x with
    | n k => simpa [readLoop] using h.2
    | intr => simpa [readLoop] using ih h.2
    | err => exact absurd rfl h.1

theorem need_quiet {s : Shf} {w : W} {cur : Nat} (h : RInv s w cur) (q : Quiet s w) :
    ((need s w).2.2 ≠ .stuck → Quiet (need s w).1 (need s w).2.1) ∧
    ((need s w).2.2 = .stuck → (need s w).2.1.rs = []) := by
  by_cases h0 : s.rnleft = 0
  · have hs : ¬ s.str = true := by simp [h.str]
    have hw : ¬ s.writing = true := by simp [h.writing]
    simp only [need, if_pos h0, fillbuf, if_neg hs, if_neg hw]
    split
    · exact ⟨fun _ => q, by simp⟩
    · obtain ⟨r1, r2, r3⟩ := readLoop_quiet q.intr s.rbsize (w.data.drop w.pos) w.rs q.rs
      rw [if_pos trivial]
      generalize readLoop s.intr s.rbsize (w.data.drop w.pos) w.rs = r at *
      obtain ⟨bs, rs, st⟩ := r
      simp only at *
      by_cases hk : st = .ok
      · rw [if_pos hk]
        split
        · exact ⟨fun _ => ⟨q.intr, q.err, r1⟩, by simp⟩
        · exact ⟨fun _ => ⟨q.intr, q.err, r1⟩, by simp⟩
      · rw [if_neg hk, if_neg r2]
        exact ⟨fun _ => ⟨q.intr, q.err, r1⟩, r3⟩
  · simp only [need, if_neg h0]
    exact ⟨fun _ => q, by simp⟩

/-- Spec: the first line of `d`: up to and with the first newline, or all of it -/
def firstLine : Bytes → Bytes
  | [] => []
  | c :: d => if c = 0x0a then [c] else c :: firstLine d

theorem firstLine_prefix (d : Bytes) : firstLine d <+: d := by
  induction d with
  | nil => simp [firstLine]
  | cons c d ih =>
    simp only [firstLine]
    split
    · exact ⟨d, rfl⟩
    · obtain ⟨t, ht⟩ := ih
      exact ⟨t, by rw [List.cons_append, ht]⟩

/-- A prefix without a newline, except maybe its last byte, is one of the first line. -/
theorem prefix_firstLine {bs d : Bytes} (hp : bs <+: d) (hn : 0x0a ∉ bs.dropLast) : bs <+: firstLine d := by
  induction d generalizing bs with
  | nil => simpa [firstLine] using hp
  | cons c d ih =>
    cases bs with
    | nil => simp
    | cons b bs =>
      obtain ⟨t, ht⟩ := hp
      obtain ⟨rfl, ht2⟩ := List.cons.inj ht
      simp only [firstLine]
      cases bs with
      | nil => split <;> simp
      | cons b' bs =>
        simp only [List.dropLast_cons_cons, List.mem_cons, not_or] at hn
        rw [if_neg (Ne.symm hn.1)]
        exact List.cons_prefix_cons.2 ⟨rfl, ih ⟨t, ht2⟩ hn.2⟩

/-- The first line is the prefix that ends with the first newline. -/
theorem firstLine_unique {bs d : Bytes} (hp : bs <+: d) (hn : 0x0a ∉ bs.dropLast)
    (he : bs.getLast? = some 0x0a ∨ bs = d) : bs = firstLine d := by
  induction d generalizing bs with
  | nil => simpa [firstLine] using hp
  | cons c d ih =>
    cases bs with
    | nil => simp at he
    | cons b bs =>
      obtain ⟨t, ht⟩ := hp
      obtain ⟨rfl, ht2⟩ := List.cons.inj ht
      simp only [firstLine]
      cases bs with
      | nil =>
        rcases he with g | g
        · rw [if_pos (by simpa using g)]
        · obtain rfl : d = [] := (List.cons.inj g).2.symm
          split <;> simp [firstLine]
      | cons b' bs =>
        simp only [List.dropLast_cons_cons, List.mem_cons, not_or] at hn
        rw [if_neg (Ne.symm hn.1), ← ih ⟨t, ht2⟩ hn.2]
        rcases he with g | g
        · left; simpa [List.getLast?_cons_cons] using g
        · right; exact (List.cons.inj g).2

theorem firstLine_ends (d : Bytes) : 0x0a ∉ (firstLine d).dropLast ∧ ((firstLine d).getLast? = some 0x0a ∨ firstLine d = d) := by
  induction d with
  | nil => simp [firstLine]
  | cons c d ih =>
    simp only [firstLine]
    split
    · rename_i h; subst h; simp
    · rename_i h
      cases hf : firstLine d with
      | nil =>
        rw [hf] at ih
        rcases ih.2 with g | g
        · simp at g
        · subst g; simp
      | cons b bs =>
        rw [hf] at ih
        refine ⟨by simpa [List.dropLast_cons_cons, Ne.symm h] using ih.1, ?_⟩
        rcases ih.2 with g | g
        · left; simpa [List.getLast?_cons_cons] using g
        · right; rw [g]

theorem getseLoop_quiet (fuel : Nat) {s : Shf} {w : W} {cur n : Nat} {acc : Bytes} (h : RInv s w (cur + acc.length)) (q : Quiet s w)
    (ha : acc = (w.data.drop cur).take acc.length) (hnl : 0x0a ∉ acc) (hz : 0 ∉ acc) :
    let r := getseLoop fuel n acc s w
    (r.2.2.1 = .ok ∨ r.2.2.1 = .eof → Quiet r.1 r.2.1) ∧ (r.2.2.1 = .stuck → r.2.1.rs = []) ∧
    (r.2.2.1 = .ok → 0 ∉ r.2.2.2) ∧ (r.2.2.1 = .abort → 0 ∈ firstLine (w.data.drop cur)) ∧ r.1.rbsize = s.rbsize ∧
    (s.rbsize = 1 → 0 < n → n < fuel → r.2.2.1 = .ok ∨ r.2.2.1 = .eof → r.1.rnleft = 0) ∧
    (0 < n → n < fuel → r.2.2.1 = .ok → r.2.2.2 ≠ []) ∧ r.2.2.2.length ≤ acc.length + n := by
  induction fuel generalizing s w n acc with
  | zero => exact ⟨fun _ => q, by simp [getseLoop], fun _ => hz, by simp [getseLoop], rfl, by omega, by omega, by simp [getseLoop]⟩
  | succ fuel ih =>
    simp only [getseLoop]
    have f := need_spec h
    obtain ⟨q1, q2⟩ := need_quiet h q
    generalize need s w = r at f q1 q2
    obtain ⟨s1, w1, st⟩ := r
    obtain ⟨f1, f2, f3, f4, f5, f6, f7, f8, f9⟩ := f
    simp only at f1 f2 f3 f4 f5 f6 f7 f8 f9 q1 q2 ⊢
    rcases f1 with rfl | rfl | rfl
    · have i := f2 (by simp)
      have q1 := q1 (by simp)
      rw [if_pos rfl]
      split
      · rename_i h0
        refine ⟨fun _ => q1, ?_, fun _ => hz, ?_, f9, fun _ _ _ _ => h0, fun _ _ => ?_, by simp⟩
        · simp only; split <;> simp
        · simp only; split <;> simp
        · simp only
          split
          · simp
          · rename_i ha0; exact fun _ => ha0
      · rename_i h0
        generalize hav : (s1.buf.drop s1.rp).take s1.rnleft = avail
        have hal : avail.length = s1.rnleft := by
          rw [← hav]; have := i.rp; have := i.size; simp; omega
        have hane : avail ≠ [] := by intro g; rw [g] at hal; simp at hal; omega
        obtain ⟨l1, l2, l3, l4, l5⟩ := lineLen_spec avail hane
        obtain ⟨bs, g, g1, g2, g3, g4, g5, g6, g7, g8⟩ := take_spec i (n := min (lineLen avail) n) (by omega)
        have hbs : bs = avail.take (min (lineLen avail) n) := by
          have hh := i.held
          rw [hav] at hh
          have hk : ∀ k, k ≤ s1.rnleft → (w1.data.drop (cur + acc.length)).take k = avail.take k := by
            intro k hk
            rw [hh, List.take_take, Nat.min_eq_left hk]
          rw [g2, hk _ (by omega)]
        have hnd : 0x0a ∉ bs.dropLast := by
          rw [List.dropLast_eq_take, g3, hbs, List.take_take]
          by_cases hm : min (lineLen avail) n = 0
          · simp [hm]
          · exact l3 _ (by omega)
        have hpre : acc ++ bs <+: firstLine (w.data.drop cur) := by
          apply prefix_firstLine
          · have e := got_acc (data := w.data) ha (by rw [g3, ← f4]; exact g2)
            rw [e]; exact List.take_prefix _ _
          · by_cases hb0 : bs = []
            · subst hb0; rw [List.append_nil]; exact fun x => hnl (List.dropLast_subset _ x)
            · rw [List.dropLast_append_of_ne_nil hb0]
              simp only [List.mem_append, not_or]
              exact ⟨hnl, hnd⟩
        have gq : Quiet g w1 := by
          have : g.intr = s1.intr := by
            simp only [take] at g1
            split at g1
            · cases g1; rfl
            · cases g1
          exact ⟨this.trans q1.intr, g6.trans q1.err, q1.rs⟩
        have grb : g.rbsize = s1.rbsize := by
            simp only [take] at g1
            split at g1
            · cases g1; rfl
            · cases g1
        rw [g1]
        simp only
        split
        · rename_i hz0
          refine ⟨by simp, by simp, by simp, fun _ => ?_, f9, by simp, by simp, by simp⟩
          exact hpre.subset (List.mem_append_right _ hz0)
        · rename_i hz0
          have hz1 : 0 ∉ acc ++ bs := by simp only [List.mem_append, not_or]; exact ⟨hz, hz0⟩
          split
          · refine ⟨fun _ => gq, by simp, fun _ => hz1, by simp, grb.trans f9, fun u v _ _ => ?_, fun v _ _ => ?_, ?_⟩
            · have := i.rp
              simp only
              omega
            · intro x
              have := congrArg List.length x
              simp at this
              simp [this.2] at g3
              omega
            · simp; omega
          · rename_i hc
            simp only [not_or] at hc
            have hnb : 0x0a ∉ bs := by
              rw [hbs]; exact fun x => hc.1 (List.mem_of_mem_take x)
            have e := got_acc (data := w.data) ha (by rw [g3, ← f4]; exact g2)
            have := ih (s := g) (w := w1) (n := n - bs.length) (acc := acc ++ bs)
              (by simpa [g3, Nat.add_assoc] using g4) gq (by rw [f4]; exact e)
              (by simp only [List.mem_append, not_or]; exact ⟨hnl, hnb⟩) hz1
            simp only at this
            obtain ⟨t1, t2, t3, t4, t5, t6, t7, t8⟩ := this
            refine ⟨t1, t2, t3, by rw [f4] at t4; exact t4, t5.trans (grb.trans f9), fun u v x y => ?_, fun v x => ?_, ?_⟩
            · exact t6 (by rw [grb, f9, u]) (by omega) (by omega) y
            · exact t7 (by omega) (by omega)
            · simp only [List.length_append] at t8; omega
    · rw [if_neg (by simp)]
      exact ⟨fun _ => q1 (by simp), by simp, by simp, by simp, f9, fun _ _ _ _ => f7 rfl, by simp, by simp⟩
    · rw [if_neg (by simp)]
      exact ⟨by simp, fun _ => q2 rfl, by simp, by simp, f9, by simp, by simp, by simp⟩

theorem getse_quiet {s : Shf} {w : W} {cur n : Nat} (h : RInv s w cur) (q : Quiet s w) :
    let r := getse (n + 1) s w
    (r.2.2.1 = .ok ∨ r.2.2.1 = .eof → Quiet r.1 r.2.1) ∧ (r.2.2.1 = .stuck → r.2.1.rs = []) ∧
    (r.2.2.1 = .ok → 0 ∉ r.2.2.2) ∧ (r.2.2.1 = .abort → 0 ∈ firstLine (w.data.drop cur)) ∧ r.1.rbsize = s.rbsize ∧
    (s.rbsize = 1 → 0 < n → r.2.2.1 = .ok ∨ r.2.2.1 = .eof → r.1.rnleft = 0) ∧
    (0 < n → r.2.2.1 = .ok → r.2.2.2 ≠ []) ∧ r.2.2.2.length ≤ n := by
  have := getseLoop_quiet (n + 1) (n := n) (acc := []) (s := s) (w := w) (cur := cur) h q (by simp) (by simp) (by simp)
  simp only [getse, h.wr, Bool.false_eq_true, if_false, Nat.add_sub_cancel, Nat.succ_ne_zero]
  simp only at this
  exact ⟨this.1, this.2.1, this.2.2.1, this.2.2.2.1, this.2.2.2.2.1, fun u v => this.2.2.2.2.2.1 u v (by omega),
    fun v => this.2.2.2.2.2.2.1 v (by omega), by simpa using this.2.2.2.2.2.2.2⟩

end Ksh.Line
