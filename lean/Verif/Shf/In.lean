import Verif.Shf.Model

/-!
# Buffered input from a file (C44)
-/

namespace Ksh.Shf

/-- What the shell does with an input file.  The buffer of `getse` and `read` has `n + 1` bytes. -/
inductive IOp
  | getc
  | getse (n : Nat)
  | read (n : Nat)
  | unget (c : Byte)
  | flush
  | clearerr
  deriving DecidableEq, Repr

def istep : IOp → Shf → W → Shf × W × St × Bytes
  | .getc, s, w => getc s w
  | .getse n, s, w => getse (n + 1) s w
  | .read n, s, w => if s.wr then (s, w, .abort, []) else readN (n + 1) (n + 1) [] s w
  | .unget c, s, w => ((ungetc c s w).1, (ungetc c s w).2.1, (ungetc c s w).2.2, [])
  | .flush, s, w => ((flush s w).1, (flush s w).2.1, (flush s w).2.2, [])
  | .clearerr, s, w => (clearerr s, w, .ok, [])

/-! ## Specification -/

/-- Spec: what the reader has: the bytes delivered without those put back. -/
def net (acc : Bytes) : IOp → St → Bytes → Bytes
  | .unget _, .ok, _ => acc.dropLast
  | _, .ok, bs => acc ++ bs
  | _, _, _ => acc

/-- Spec: whether something was read since the last flush -/
def fresh (f : Bool) : IOp → St → Bool
  | .flush, .ok => false
  | .getc, _ | .getse _, _ | .read _, _ => true
  | _, _ => f

/-- Operations that return, and what the reader has in the end.  The reader puts back only what it
read last, and not after a flush; no failing shf_getse loses bytes (see `getse_loses`). -/
inductive Reads : Shf → W → Bytes → Bool → List IOp → Shf → W → Bytes → Bool → Prop
  | nil {s w acc f} : Reads s w acc f [] s w acc f
  | cons {s w acc f o os s1 w1 st bs s2 w2 acc2 f2} :
    istep o s w = (s1, w1, st, bs) → st = .ok ∨ st = .eof →
    (∀ c, o = .unget c → f = true ∧ acc.getLast? = some c) → (st = .eof → bs = []) →
    Reads s1 w1 (net acc o st bs) (fresh f o st) os s2 w2 acc2 f2 → Reads s w acc f (o :: os) s2 w2 acc2 f2

/-! ## Invariant -/

/-- `cur` is the position of the reader: the unread part of the buffer is in front of the file
position. -/
structure RInv (s : Shf) (w : W) (cur : Nat) : Prop where
  wr : s.wr = false
  str : s.str = false
  writing : s.writing = false
  size : 0 < s.rbsize ∧ s.rbsize ≤ s.buf.length
  rp : s.rp + s.rnleft ≤ s.rbsize
  pos : cur + s.rnleft = w.pos
  posle : w.pos ≤ w.data.length
  held : (s.buf.drop s.rp).take s.rnleft = (w.data.drop cur).take s.rnleft
  err : s.err = true → s.rnleft = 0 ∧ s.reading = true
  eof : s.eof = true → s.rnleft = 0 ∧ cur = w.data.length ∧ s.reading = true
  act : 0 < s.rnleft → s.reading = true

theorem openR_inv (unbuf intr : Bool) (buf : Bytes) (w : W) (hb : buf ≠ []) (hp : w.pos ≤ w.data.length) :
    RInv (openR unbuf intr buf) w w.pos := by
  have : 0 < buf.length := List.length_pos_iff.2 hb
  cases unbuf <;> constructor <;> simp [openR, hp] <;> omega

theorem readLoop_spec (intr : Bool) (size : Nat) (data : Bytes) (rs : List RR) (hs : 0 < size) :
    (readLoop intr size data rs).1 <+: data ∧ (readLoop intr size data rs).1.length ≤ size ∧
    ((readLoop intr size data rs).2.2 ≠ .ok → (readLoop intr size data rs).1 = []) ∧
    ((readLoop intr size data rs).2.2 = .ok → ((readLoop intr size data rs).1 = [] ↔ data = [])) ∧
    ((readLoop intr size data rs).2.2 = .ok ∨ (readLoop intr size data rs).2.2 = .eof ∨ (readLoop intr size data rs).2.2 = .stuck) := by
  induction rs with
  | nil => simp [readLoop]
  | cons x rs ih =>
    cases x with
    | err => simp [readLoop]
    | intr =>
      simp only [readLoop]
      split
      · simp
      · exact ih
    | n k =>
      refine ⟨List.take_prefix _ _, by simp [readLoop]; omega, by simp [readLoop], fun _ => ?_, by simp [readLoop]⟩
      simp only [readLoop, List.take_eq_nil_iff]
      constructor
      · rintro (h | h)
        · omega
        · exact h
      · exact Or.inr

/-- what the buffer holds after filling -/
structure Filled (s : Shf) (w : W) (cur : Nat) (r : Shf × W × St) : Prop where
  st : r.2.2 = .ok ∨ r.2.2 = .eof ∨ r.2.2 = .stuck
  inv : r.2.2 ≠ .stuck → RInv r.1 r.2.1 cur
  err : r.2.2 = .eof → r.1.err = true ∨ (r.1.eof = true ∧ s.eof = true)
  data : r.2.1.data = w.data
  seek : r.2.1.seek = w.seek
  some : r.2.2 = .ok → (r.1.rnleft = 0 ↔ cur = w.data.length)
  none : r.2.2 = .eof → r.1.rnleft = 0
  act : r.2.2 ≠ .stuck → r.1.reading = true
  size : r.1.rbsize = s.rbsize

theorem need_spec {s : Shf} {w : W} {cur : Nat} (h : RInv s w cur) : Filled s w cur (need s w) := by
  by_cases h0 : s.rnleft = 0
  · have hs : ¬ s.str = true := by simp [h.str]
    have hw : ¬ s.writing = true := by simp [h.writing]
    simp only [need, if_pos h0, fillbuf, if_neg hs, if_neg hw]
    have hcur : cur = w.pos := by have := h.pos; omega
    split
    · rename_i he
      have hre : s.reading = true := by
        rcases (by simpa using he : s.eof = true ∨ s.err = true) with g | g
        · exact (h.eof g).2.2
        · exact (h.err g).2
      refine ⟨by simp, fun _ => h, fun _ => ?_, rfl, rfl, by simp, fun _ => h0, fun _ => hre, rfl⟩
      rcases hx : s.err with _ | _
      · right; simpa [hx] using he
      · left; rfl
    · rename_i he
      simp only [Bool.or_eq_true, not_or, Bool.not_eq_true] at he
      obtain ⟨r1, r2, r3, r4, r5⟩ := readLoop_spec s.intr s.rbsize (w.data.drop w.pos) w.rs h.size.1
      rw [if_pos trivial]
      generalize readLoop s.intr s.rbsize (w.data.drop w.pos) w.rs = r at *
      obtain ⟨bs, rs, st⟩ := r
      simp only at *
      have hlen : bs.length ≤ w.data.length - w.pos := by
        have := r1.length_le
        simpa using this
      rcases r5 with rfl | rfl | rfl
      · rw [if_pos rfl, if_pos (by have := h.size.2; omega)]
        have hb : bs = (w.data.drop w.pos).take bs.length := by
          obtain ⟨t, ht⟩ := r1
          rw [← ht, List.take_left]
        have hp := h.posle
        refine ⟨by simp, fun _ => ?_, by simp, rfl, rfl, fun _ => ?_, by simp, by simp, rfl⟩
        · refine ⟨h.wr, h.str, h.writing, ⟨h.size.1, ?_⟩, ?_, ?_, ?_, ?_, ?_, ?_, ?_⟩
          · have := h.size.2; simp; omega
          · simpa using r2
          · simp [hcur]
          · simp; omega
          · simp only [List.drop_zero, hcur]
            rw [List.take_left]
            exact hb
          · simp [he.2]
          · simp only [he.1, Bool.false_or, List.isEmpty_iff]
            intro hz
            refine ⟨by simp [hz], ?_, trivial⟩
            have := (r4 rfl).1 hz
            rw [List.drop_eq_nil_iff] at this
            omega
          · simp
        · simp only [List.length_eq_zero_iff, r4, List.drop_eq_nil_iff]
          omega
      · rw [if_neg (by simp), if_pos rfl]
        have hz : bs = [] := r3 (by simp)
        subst hz
        refine ⟨by simp, fun _ => ?_, by simp, rfl, rfl, by simp, by simp, by simp, rfl⟩
        have hp := h.posle
        exact ⟨h.wr, h.str, h.writing, h.size, by simp, by simp [hcur], by simpa using hp, by simp, by simp, by simp [he.1], by simp⟩
      · rw [if_neg (by simp), if_neg (by simp)]
        exact ⟨by simp, by simp, by simp, rfl, rfl, by simp, by simp, by simp, rfl⟩
  · simp only [need, if_neg h0]
    refine ⟨by simp, fun _ => h, by simp, rfl, rfl, fun _ => ?_, by simp, fun _ => h.act (by omega), rfl⟩
    have := h.pos; have := h.posle
    constructor
    · intro g; exact absurd g h0
    · intro g; omega

theorem take_spec {s : Shf} {w : W} {cur n : Nat} (h : RInv s w cur) (hn : n ≤ s.rnleft) :
    ∃ bs g, take s n = some (bs, g) ∧ bs = (w.data.drop cur).take n ∧ bs.length = n ∧ RInv g w (cur + n) ∧
      g.rnleft = s.rnleft - n ∧ g.err = s.err ∧ g.eof = s.eof ∧ g.reading = s.reading := by
  have h1 := h.rp; have h2 := h.size; have h3 := h.pos; have h4 := h.posle
  refine ⟨_, _, if_pos ⟨by omega, hn⟩, ?_, ?_, ?_, rfl, rfl, rfl, rfl⟩
  · have := congrArg (List.take n) h.held
    rwa [List.take_take, List.take_take, Nat.min_eq_left hn] at this
  · simp; omega
  · refine ⟨h.wr, h.str, h.writing, h2, ?_, ?_, h4, ?_, ?_, ?_, ?_⟩
    · simp only; omega
    · simp only; omega
    · simp only
      have := congrArg (List.drop n) h.held
      rwa [List.drop_take, List.drop_take, List.drop_drop, List.drop_drop] at this
    · intro i; have := h.err i; exact ⟨by simp only; omega, this.2⟩
    · intro i
      have := h.eof i
      exact ⟨by simp only; omega, by omega, this.2.2⟩
    · intro i
      exact h.act (Nat.lt_of_lt_of_le i (Nat.sub_le _ _))

/-- The position is `cur'` now and the bytes delivered are those of the file in between. -/
structure Got (w : W) (cur : Nat) (r : Shf × W × St × Bytes) : Prop where
  fault : r.2.2.1 ≠ .fault
  inv : r.2.2.1 = .ok ∨ r.2.2.1 = .eof → RInv r.1 r.2.1 (cur + r.2.2.2.length)
  act : r.2.2.1 = .ok ∨ r.2.2.1 = .eof → r.1.reading = true
  bytes : r.2.2.2 = (w.data.drop cur).take r.2.2.2.length
  data : r.2.1.data = w.data
  seek : r.2.1.seek = w.seek

theorem getc_spec {s : Shf} {w : W} {cur : Nat} (h : RInv s w cur) : Got w cur (getc s w) ∧
    ((getc s w).2.2.1 = .ok → (getc s w).2.2.2.length = 1) ∧
    ((getc s w).2.2.1 = .eof → (getc s w).2.2.2 = [] ∧ ((getc s w).1.err = true ∨ cur = w.data.length)) := by
  have f := need_spec h
  simp only [getc, h.wr, Bool.false_eq_true, if_false]
  generalize need s w = r at f
  obtain ⟨s1, w1, st⟩ := r
  obtain ⟨f1, f2, f3, f4, f5, f6, f7, f8, f9⟩ := f
  simp only at f1 f2 f3 f4 f5 f6 f7 f8 f9 ⊢
  rcases f1 with rfl | rfl | rfl
  · have i := f2 (by simp)
    rw [if_pos rfl]
    split
    · rename_i h0
      exact ⟨⟨by simp, fun _ => by simpa using i, fun _ => f8 (by simp), by simp, f4, f5⟩, by simp, fun _ => ⟨rfl, Or.inr ((f6 rfl).1 h0)⟩⟩
    · obtain ⟨bs, g, g1, g2, g3, g4, _, _, _, g8⟩ := take_spec i (n := 1) (by omega)
      rw [g1]
      simp only
      refine ⟨⟨by simp, fun _ => by simpa [g3] using g4, fun _ => by rw [g8]; exact f8 (by simp), by rw [g3, ← f4]; exact g2, f4, f5⟩, fun _ => g3, by simp⟩
  · have i := f2 (by simp)
    rw [if_neg (by simp)]
    refine ⟨⟨by simp, fun _ => by simpa using i, fun _ => f8 (by simp), by simp, f4, f5⟩, by simp, fun _ => ⟨rfl, ?_⟩⟩
    rcases f3 rfl with g | g
    · exact Or.inl g
    · right; rw [← f4]; exact (i.eof g.1).2.1
  · rw [if_neg (by simp)]
    exact ⟨⟨by simp, by simp, by simp, by simp, f4, f5⟩, by simp, by simp⟩

theorem got_acc {data : Bytes} {cur : Nat} {a b : Bytes} (ha : a = (data.drop cur).take a.length)
    (hb : b = (data.drop (cur + a.length)).take b.length) : a ++ b = (data.drop cur).take (a ++ b).length := by
  rw [List.length_append, List.take_add, List.drop_drop, ← ha, ← hb]

theorem readN_spec (fuel : Nat) {s : Shf} {w : W} {cur n : Nat} {acc : Bytes} (h : RInv s w (cur + acc.length))
    (hr : acc ≠ [] ∨ n ≠ 0) (hr2 : acc ≠ [] → s.reading = true)
    (ha : acc = (w.data.drop cur).take acc.length) (hf : n ≤ fuel) :
    Got w cur (readN fuel n acc s w) ∧ (readN fuel n acc s w).2.2.2.length ≤ acc.length + n ∧
    ((readN fuel n acc s w).2.2.1 = .ok → (readN fuel n acc s w).2.2.2.length < acc.length + n →
      (readN fuel n acc s w).1.err = true ∨ cur + (readN fuel n acc s w).2.2.2.length = w.data.length) ∧
    ((readN fuel n acc s w).2.2.1 = .eof → (readN fuel n acc s w).2.2.2 = [] ∧ (readN fuel n acc s w).1.err = true) := by
  induction fuel generalizing s w n acc with
  | zero =>
    simp only [readN]
    refine ⟨⟨by simp, fun _ => h, fun _ => hr2 (by rcases hr with g | g; exact g; omega), ha, rfl, rfl⟩, by simp, by simp; omega, by simp⟩
  | succ fuel ih =>
    simp only [readN]
    split
    · rename_i hn
      exact ⟨⟨by simp, fun _ => h, fun _ => hr2 (by rcases hr with g | g; exact g; omega), ha, rfl, rfl⟩, by simp, by simp; omega, by simp⟩
    · rename_i hn
      have f := need_spec h
      generalize need s w = r at f
      obtain ⟨s1, w1, st⟩ := r
      obtain ⟨f1, f2, f3, f4, f5, f6, f7, f8, f9⟩ := f
      simp only at f1 f2 f3 f4 f5 f6 f7 f8 f9 ⊢
      split
      · rename_i hc
        have hst : st ≠ .stuck := by rcases hc with g | g <;> simp [g]
        have i : RInv s1 w1 (cur + acc.length) := f2 hst
        refine ⟨⟨by simp only; split <;> simp, fun _ => by simpa using i, fun _ => f8 hst, by simpa using ha, f4, f5⟩, by simp, fun _ _ => ?_, fun o => ?_⟩
        · simp only
          rcases hc with g | ⟨g, h0⟩
          · rcases f3 g with k | k
            · exact Or.inl k
            · right; rw [← f4]; exact (i.eof k.1).2.1
          · exact Or.inr ((f6 g).1 h0)
        · simp only at o
          split at o
          · assumption
          · exact absurd o (by simp)
      · rename_i hc
        split
        · rename_i hok
          subst hok
          have i := f2 (by simp)
          have h0 : s1.rnleft ≠ 0 := fun g => hc (Or.inr ⟨rfl, g⟩)
          obtain ⟨bs, g, g1, g2, g3, g4, _, _, _, g8⟩ := take_spec i (n := min s1.rnleft n) (by omega)
          rw [g1]
          simp only
          split
          · exact ⟨⟨by simp, by simp, by simp, by simpa using ha, f4, f5⟩, by simp, by simp, by simp⟩
          · have hb : bs = (w.data.drop (cur + acc.length)).take bs.length := by rw [g3, ← f4]; exact g2
            have hne : acc ++ bs ≠ [] := by
              intro e
              have := congrArg List.length e
              simp only [List.length_append, List.length_nil] at this
              omega
            have q := ih (s := g) (w := w1) (n := n - bs.length) (acc := acc ++ bs)
              (by rw [List.length_append, ← Nat.add_assoc, g3]; exact g4) (Or.inl hne) (fun _ => by rw [g8]; exact f8 (by simp))
              (by rw [f4]; exact got_acc ha hb) (by rw [g3]; omega)
            obtain ⟨q1, q3, q4, q5⟩ := q
            refine ⟨⟨q1.fault, q1.inv, q1.act, by rw [← f4]; exact q1.bytes, q1.data.trans f4, q1.seek.trans f5⟩, ?_, fun o l => ?_, q5⟩
            · rw [List.length_append] at q3; omega
            · rw [← f4]; refine q4 o ?_
              rw [List.length_append]; omega
        · rename_i hs
          have : st = .stuck := by
            rcases f1 with g | g | g
            · exact absurd g hs
            · exact absurd (Or.inl g) hc
            · exact g
          subst this
          exact ⟨⟨by simp, by simp, by simp, by simpa using ha, f4, f5⟩, by simp, by simp, by simp⟩

/-- Spec: `bs` is what is to be read as a line of at most `n` bytes from `rest`: it stops after
the first newline, after `n` bytes or at the end. -/
def IsLine (n : Nat) (rest bs : Bytes) : Prop :=
  bs.length ≤ n ∧ 0x0a ∉ bs.dropLast ∧ (bs.length = n ∨ bs.getLast? = some 0x0a ∨ bs = rest)

theorem lineLen_spec (bs : Bytes) (h : bs ≠ []) : 0 < lineLen bs ∧ lineLen bs ≤ bs.length ∧
    (∀ k, k < lineLen bs → 0x0a ∉ bs.take k) ∧ (0x0a ∈ bs → (bs.take (lineLen bs)).getLast? = some 0x0a) ∧
    (0x0a ∉ bs → lineLen bs = bs.length) := by
  induction bs with
  | nil => exact absurd rfl h
  | cons c bs ih =>
    simp only [lineLen]
    split
    · rename_i hc
      subst hc
      refine ⟨by omega, by simp, fun k hk => ?_, by simp, by simp⟩
      obtain rfl : k = 0 := by omega
      simp
    · rename_i hc
      by_cases hb : bs = []
      · subst hb
        refine ⟨by omega, by simp [lineLen], fun k hk => ?_, by simp [Ne.symm hc], by simp [lineLen]⟩
        obtain rfl : k = 0 := by simp [lineLen] at hk; omega
        simp
      · obtain ⟨i1, i2, i3, i4, i5⟩ := ih hb
        refine ⟨by omega, by simp only [List.length_cons]; omega, fun k hk => ?_, fun hm => ?_, fun hm => ?_⟩
        · cases k with
          | zero => simp
          | succ k =>
            simp only [List.take_succ_cons, List.mem_cons, not_or]
            exact ⟨Ne.symm hc, i3 k (by omega)⟩
        · have hm' : 0x0a ∈ bs := by
            rcases List.mem_cons.1 hm with g | g
            · exact absurd g.symm hc
            · exact g
          have := i4 hm'
          rw [List.take_succ_cons, List.getLast?_cons, this]
          rfl
        · simp only [List.mem_cons, not_or] at hm
          simp [i5 hm.2]

theorem getseLoop_spec (fuel : Nat) {s : Shf} {w : W} {cur n : Nat} {acc : Bytes} (h : RInv s w (cur + acc.length))
    (he : acc ≠ [] → s.eof = false) (hn : acc ≠ [] → n ≠ 0)
    (ha : acc = (w.data.drop cur).take acc.length) (hnl : 0x0a ∉ acc) (hf : n < fuel) :
    Got w cur (getseLoop fuel n acc s w) ∧
    ((getseLoop fuel n acc s w).2.2.1 = .ok → IsLine (acc.length + n) (w.data.drop cur) (getseLoop fuel n acc s w).2.2.2) ∧
    ((getseLoop fuel n acc s w).2.2.1 = .eof → (getseLoop fuel n acc s w).1.err = true ∨ ((getseLoop fuel n acc s w).2.2.2 = [] ∧ cur = w.data.length)) := by
  induction fuel generalizing s w n acc with
  | zero => omega
  | succ fuel ih =>
    have hdl : 0x0a ∉ acc.dropLast := fun g => hnl (List.dropLast_subset _ g)
    simp only [getseLoop]
    have f := need_spec h
    generalize need s w = r at f
    obtain ⟨s1, w1, st⟩ := r
    obtain ⟨f1, f2, f3, f4, f5, f6, f7, f8, f9⟩ := f
    simp only at f1 f2 f3 f4 f5 f6 f7 f8 f9 ⊢
    rcases f1 with rfl | rfl | rfl
    · have i := f2 (by simp)
      rw [if_pos rfl]
      split
      · rename_i h0
        have hend := (f6 rfl).1 h0
        refine ⟨⟨by simp only; split <;> simp, fun _ => by simpa using i, fun _ => f8 (by simp), by simpa using ha, f4, f5⟩, fun o => ?_, fun o => ?_⟩
        · refine ⟨by simp, hdl, Or.inr (Or.inr ?_)⟩
          simp only
          rw [ha]
          exact List.take_of_length_le (by simp; omega)
        · simp only at o ⊢
          split at o
          · rename_i hz
            subst hz
            exact Or.inr ⟨rfl, hend⟩
          · exact absurd o (by simp)
      · rename_i h0
        have hav : (s1.buf.drop s1.rp).take s1.rnleft = (w.data.drop (cur + acc.length)).take s1.rnleft := by rw [i.held, f4]
        generalize hA : (s1.buf.drop s1.rp).take s1.rnleft = avail at hav ⊢
        have hal : avail.length = s1.rnleft := by
          rw [← hA]
          have := i.rp; have := i.size
          simp; omega
        have hane : avail ≠ [] := fun g => by rw [g] at hal; exact h0 hal.symm
        obtain ⟨l1, l2, l3, l4, l5⟩ := lineLen_spec avail hane
        obtain ⟨bs, g, g1, g2, g3, g4, _, g6, g7, g8⟩ := take_spec i (n := min (lineLen avail) n) (by omega)
        rw [g1]
        simp only
        have hb : bs = (w.data.drop (cur + acc.length)).take bs.length := by rw [g3, ← f4]; exact g2
        have hba : bs = avail.take bs.length := by
          rw [hav, List.take_take, ← hal]
          rw [show min bs.length avail.length = bs.length by omega]
          exact hb
        have hacc := got_acc ha hb
        split
        · exact ⟨⟨by simp, by simp, by simp, by simpa using ha, f4, f5⟩, by simp, by simp⟩
        · split
          · rename_i hc
            refine ⟨⟨by simp, fun _ => ?_, fun _ => by rw [g8]; exact f8 (by simp), hacc, f4, f5⟩, fun _ => ⟨?_, ?_, ?_⟩, by simp⟩
            · simp only [List.length_append]
              rw [← Nat.add_assoc, g3]
              exact g4
            · simp only [List.length_append]; omega
            · simp only
              by_cases hbe : bs = []
              · rw [hbe, List.append_nil]; exact hdl
              · rw [List.dropLast_append_of_ne_nil hbe]
                simp only [List.mem_append, not_or]
                refine ⟨hnl, ?_⟩
                have hpos := List.length_pos_iff.2 hbe
                have := l3 (bs.length - 1) (by omega)
                have e := congrArg (List.take (bs.length - 1)) hba
                rw [List.take_take, Nat.min_eq_left (by omega)] at e
                rw [List.dropLast_eq_take, e]
                exact this
            · simp only
              by_cases hl : bs.length = n
              · left; rw [List.length_append]; omega
              · right; left
                have hm := hc.resolve_right (fun g => hl g.symm)
                have hx : bs.length = lineLen avail := by omega
                have hbe : bs ≠ [] := fun g => by rw [g] at hx; simp at hx; omega
                rw [List.getLast?_append, hba, hx, l4 hm]
                rfl
          · rename_i hc
            simp only [not_or] at hc
            have hlen := l5 hc.1
            have hne : acc ++ bs ≠ [] := by
              intro e
              have := congrArg List.length e
              simp only [List.length_append, List.length_nil] at this
              have := hc.2
              omega
            have hnl2 : 0x0a ∉ acc ++ bs := by
              simp only [List.mem_append, not_or]
              refine ⟨hnl, fun g => hc.1 ?_⟩
              rw [hba] at g
              exact List.mem_of_mem_take g
            have hc2 := hc.2
            have hge : g.eof = false := by
              rw [g7]
              cases hx : s1.eof with
              | false => rfl
              | true => exact absurd (i.eof hx).1 h0
            have q := ih (s := g) (w := w1) (n := n - bs.length) (acc := acc ++ bs)
              (by rw [List.length_append, ← Nat.add_assoc, g3]; exact g4) (fun _ => hge) (fun _ => by omega)
              (by rw [f4]; exact hacc) hnl2 (by omega)
            obtain ⟨q1, q2, q3⟩ := q
            rw [f4] at q2 q3
            refine ⟨⟨q1.fault, q1.inv, q1.act, by rw [← f4]; exact q1.bytes, q1.data.trans f4, q1.seek.trans f5⟩, fun o => ?_, q3⟩
            have := q2 o
            rw [List.length_append] at this
            rwa [show acc.length + n = acc.length + bs.length + (n - bs.length) by omega]
    · have i := f2 (by simp)
      rw [if_neg (by simp)]
      refine ⟨⟨by simp, fun _ => by simpa using i, fun _ => f8 (by simp), by simpa using ha, f4, f5⟩, by simp, fun _ => ?_⟩
      rcases f3 rfl with g | g
      · exact Or.inl g
      · right
        have hz : acc = [] := Decidable.byContradiction fun k => by simpa [he k] using g.2
        subst hz
        refine ⟨rfl, ?_⟩
        have := (i.eof g.1).2.1
        rw [f4] at this
        simpa using this
    · rw [if_neg (by simp)]
      exact ⟨⟨by simp, by simp, by simp, by simpa using ha, f4, f5⟩, by simp, by simp⟩

theorem getse_spec {s : Shf} {w : W} {cur n : Nat} (h : RInv s w cur) :
    Got w cur (getse (n + 1) s w) ∧
    ((getse (n + 1) s w).2.2.1 = .ok → IsLine n (w.data.drop cur) (getse (n + 1) s w).2.2.2) ∧
    ((getse (n + 1) s w).2.2.1 = .eof → (getse (n + 1) s w).1.err = true ∨ ((getse (n + 1) s w).2.2.2 = [] ∧ cur = w.data.length)) := by
  have := getseLoop_spec (n + 1) (n := n) (acc := []) (s := s) (w := w) (cur := cur) h (by simp) (by simp) (by simp) (by simp) (by omega)
  simpa [getse, h.wr] using this

theorem read_spec {s : Shf} {w : W} {cur n : Nat} (h : RInv s w cur) :
    Got w cur (istep (.read n) s w) ∧ (istep (.read n) s w).2.2.2.length ≤ n + 1 ∧
    ((istep (.read n) s w).2.2.1 = .ok → (istep (.read n) s w).2.2.2.length < n + 1 →
      (istep (.read n) s w).1.err = true ∨ cur + (istep (.read n) s w).2.2.2.length = w.data.length) ∧
    ((istep (.read n) s w).2.2.1 = .eof → (istep (.read n) s w).2.2.2 = [] ∧ (istep (.read n) s w).1.err = true) := by
  have := readN_spec (n + 1) (n := n + 1) (acc := []) (s := s) (w := w) (cur := cur) h (by simp) (by simp) (by simp) (by omega)
  simpa [istep, h.wr] using this

theorem ungetc_spec {s : Shf} {w : W} {cur : Nat} {c : Byte} (h : RInv s w cur) (hr : s.reading = true)
    (hc : 0 < cur) (hd : w.data[cur - 1]? = some c) :
    (ungetc c s w).2.1 = w ∧ (ungetc c s w).1.reading = true ∧
    (((ungetc c s w).2.2 = .eof ∧ (ungetc c s w).1 = s) ∨ ((ungetc c s w).2.2 = .ok ∧ RInv (ungetc c s w).1 w (cur - 1))) := by
  have hwr : ¬ s.wr = true := by simp [h.wr]
  simp only [ungetc, if_neg hwr]
  have h1 := h.rp; have h2 := h.size; have h3 := h.pos
  split
  · simp [hr]
  · rename_i hn
    simp only [not_or, not_and, Decidable.not_not] at hn
    have hs : ¬ s.str = true := by simp [h.str]
    generalize hq : (if s.rp = 0 then s.rbsize else s.rp) = q
    have hq0 : q ≠ 0 ∧ q ≤ s.rbsize ∧ (q + s.rnleft ≤ s.rbsize) ∧ (s.rnleft ≠ 0 → q = s.rp) := by
      subst hq
      split
      · rename_i g
        have := hn.2 g
        omega
      · omega
    rw [if_neg (by omega), if_neg hs]
    refine ⟨rfl, hr, Or.inr ⟨rfl, h.wr, h.str, h.writing, ⟨h2.1, by simpa using h2.2⟩, by simp only; omega, by simp only; omega, h.posle, ?_, ?_, by simp, fun _ => hr⟩⟩
    · simp only
      have e1 : (s.buf.set (q - 1) c).drop (q - 1) = c :: s.buf.drop q := by
        rw [List.drop_eq_getElem_cons (by simp; omega)]
        simp only [List.getElem_set_self]
        rw [List.drop_set_of_lt (by omega), show q - 1 + 1 = q by omega]
      have e2 : w.data.drop (cur - 1) = c :: w.data.drop cur := by
        obtain ⟨hlt, he⟩ := List.getElem?_eq_some_iff.1 hd
        rw [List.drop_eq_getElem_cons hlt, he, show cur - 1 + 1 = cur by omega]
      rw [e1, e2, List.take_succ_cons, List.take_succ_cons]
      congr 1
      by_cases hz : s.rnleft = 0
      · simp [hz]
      · rw [hq0.2.2.2 hz]; exact h.held
    · intro g; exact absurd g hn.1

theorem flush_in_spec {s : Shf} {w : W} {cur : Nat} (h : RInv s w cur) :
    (flush s w).2.1.data = w.data ∧ (flush s w).2.1.seek = w.seek ∧
    (((flush s w).2.2 = .eof ∧ (flush s w).1 = s ∧ (flush s w).2.1 = w) ∨
     ((flush s w).2.2 = .ok ∧ (w.seek = true ∨ s.rnleft = 0 → RInv (flush s w).1 (flush s w).2.1 cur ∧ (flush s w).2.1.pos = cur))) := by
  have hs : ¬ s.str = true := by simp [h.str]
  have hw : ¬ s.writing = true := by simp [h.writing]
  have h1 := h.rp; have h2 := h.size; have h3 := h.pos; have h4 := h.posle
  simp only [flush, if_neg hs, if_neg hw]
  split
  · simp
  · rename_i he
    split
    · simp only [unread]
      split
      · split
        · refine ⟨by simp, by simp, Or.inr ⟨by simp, fun _ => ⟨⟨h.wr, h.str, h.writing, h2, by simp, by simp only; omega, by simp only; omega, by simp, fun g => absurd g he, by simp, by simp⟩, by simp only; omega⟩⟩⟩
        · rename_i hk
          refine ⟨by simp, by simp, Or.inr ⟨by simp, ?_⟩⟩
          rintro (g | g)
          · exact absurd g hk
          · omega
      · refine ⟨by simp, by simp, Or.inr ⟨by simp, fun _ => ⟨⟨h.wr, h.str, h.writing, h2, h1, h3, h4, h.held, fun g => absurd g he, by simp, fun g => by simp only at g; omega⟩, by simp only; omega⟩⟩⟩
    · rename_i hr
      have h0 : s.rnleft = 0 := by
        by_cases hz : s.rnleft = 0
        · exact hz
        · exact absurd (h.act (by omega)) hr
      exact ⟨by simp, by simp, Or.inr ⟨by simp, fun _ => ⟨h, by simp only; omega⟩⟩⟩

theorem net_get {data : Bytes} {p : Nat} {acc bs : Bytes} {o : IOp} {st : St} (ho : ∀ c, o ≠ .unget c)
    (ha : acc = (data.drop p).take acc.length) (hb : bs = (data.drop (p + acc.length)).take bs.length)
    (hst : st = .ok ∨ st = .eof) (hl : st = .eof → bs = []) :
    net acc o st bs = (data.drop p).take (net acc o st bs).length ∧ (net acc o st bs).length = acc.length + bs.length := by
  have e : net acc o st bs = acc ++ bs := by
    rcases hst with rfl | rfl
    · cases o <;> first | rfl | exact absurd rfl (ho _)
    · rw [hl rfl]; cases o <;> simp [net]
  rw [e]
  exact ⟨got_acc ha hb, by simp⟩

theorem reads_inv {s w acc f os s2 w2 acc2 f2} (r : Reads s w acc f os s2 w2 acc2 f2) (p : Nat)
    (h : RInv s w (p + acc.length)) (ha : acc = (w.data.drop p).take acc.length) (hf : f = true → s.reading = true) (hs : w.seek = true) :
    RInv s2 w2 (p + acc2.length) ∧ acc2 = (w.data.drop p).take acc2.length ∧ (f2 = true → s2.reading = true) ∧ w2.data = w.data ∧ w2.seek = true := by
  induction r with
  | nil => exact ⟨h, ha, hf, rfl, hs⟩
  | @cons s w acc f o os s1 w1 st bs s2 w2 acc2 f2 e1 e2 e3 e4 r ih =>
    have key : RInv s1 w1 (p + (net acc o st bs).length) ∧ net acc o st bs = (w.data.drop p).take (net acc o st bs).length ∧
        (fresh f o st = true → s1.reading = true) ∧ w1.data = w.data ∧ w1.seek = true := by
      have get : (∀ c, o ≠ .unget c) → Got w (p + acc.length) (istep o s w) →
          RInv s1 w1 (p + (net acc o st bs).length) ∧ net acc o st bs = (w.data.drop p).take (net acc o st bs).length ∧
          (fresh f o st = true → s1.reading = true) ∧ w1.data = w.data ∧ w1.seek = true := by
        intro ho g
        rw [e1] at g
        obtain ⟨n1, n2⟩ := net_get ho ha g.bytes e2 e4
        refine ⟨?_, n1, fun _ => g.act e2, g.data, g.seek.trans hs⟩
        have := g.inv e2
        rw [n2, ← Nat.add_assoc]
        exact this
      cases o with
      | getc => exact get (by simp) (getc_spec h).1
      | getse n => exact get (by simp) (getse_spec h).1
      | read n => exact get (by simp) (read_spec h).1
      | unget c =>
        obtain ⟨q1, q2⟩ := e3 c rfl
        have hne : acc ≠ [] := fun g => by simp [g] at q2
        have hpos := List.length_pos_iff.2 hne
        have hd : w.data[p + acc.length - 1]? = some c := by
          rw [List.getLast?_eq_getElem?, ha] at q2
          have hl : ((w.data.drop p).take acc.length).length = acc.length := by rw [← ha]
          rw [hl, List.getElem?_take_of_lt (by omega), List.getElem?_drop] at q2
          rwa [show p + acc.length - 1 = p + (acc.length - 1) by omega]
        obtain ⟨u1, u2, u3⟩ := ungetc_spec h (hf q1) (by omega) hd
        simp only [istep, Prod.mk.injEq] at e1
        obtain ⟨rfl, rfl, rfl, rfl⟩ := e1
        rw [u1]
        rcases u3 with ⟨v1, v2⟩ | ⟨v1, u4⟩
        · rw [v1, v2]
          exact ⟨h, ha, fun _ => hf q1, rfl, hs⟩
        · rw [v1]
          refine ⟨?_, ?_, fun _ => u2, rfl, hs⟩
          · simp only [net, List.length_dropLast]
            rwa [show p + (acc.length - 1) = p + acc.length - 1 by omega]
          · simp only [net, List.length_dropLast]
            conv => lhs; rw [ha]
            rw [List.dropLast_eq_take, List.take_take, ← ha]
            congr 1; omega
      | flush =>
        obtain ⟨u1, u2, u3⟩ := flush_in_spec h
        simp only [istep, Prod.mk.injEq] at e1
        obtain ⟨rfl, rfl, rfl, rfl⟩ := e1
        rcases u3 with ⟨v1, v2, v3⟩ | ⟨v1, u4⟩
        · rw [v1, v2, v3]
          exact ⟨h, ha, hf, rfl, hs⟩
        · rw [v1]
          refine ⟨?_, ?_, by simp [fresh], u1, u2.trans hs⟩
          · simpa [net] using (u4 (Or.inl hs)).1
          · simpa [net] using ha
      | clearerr =>
        simp only [istep, Prod.mk.injEq] at e1
        obtain ⟨a1, a2, a3, a4⟩ := e1
        subst a1 a2 a3 a4
        refine ⟨?_, by simpa [net] using ha, hf, rfl, hs⟩
        simp only [net, List.append_nil]
        exact ⟨h.wr, h.str, h.writing, h.size, h.rp, h.pos, h.posle, h.held, by simp [clearerr], by simp [clearerr], h.act⟩
    obtain ⟨k1, k2, k3, k4, k5⟩ := key
    have := ih k1 (by rw [k4]; exact k2) k3 k5
    rw [k4] at this
    exact this

/-- **C44**: what the reader has is, in order and complete, what the file has from the position where
reading began; and after a flush the file position is where the reader is. -/
theorem input_order_partial {unbuf intr : Bool} {buf : Bytes} {w : W} (hb : buf ≠ []) (hp : w.pos ≤ w.data.length) (hs : w.seek = true)
    {os s2 w2 acc f} (r : Reads (openR unbuf intr buf) w [] false os s2 w2 acc f) :
    acc = (w.data.drop w.pos).take acc.length ∧ w2.data = w.data ∧
    ((flush s2 w2).2.2 = .ok → (flush s2 w2).2.1.pos = w.pos + acc.length) := by
  obtain ⟨h1, h2, _, h4, h5⟩ := reads_inv r w.pos (by simpa using openR_inv unbuf intr buf w hb hp) (by simp) (by simp) hs
  refine ⟨h2, h4, fun g => ?_⟩
  rcases (flush_in_spec h1).2.2 with u | u
  · rw [u.1] at g; exact absurd g (by simp)
  · exact (u.2 (Or.inl h5)).2

/-- **C44**: end of file is answered only when everything was read, or after a read error; a line is
returned up to and with its newline. -/
theorem input_ends {unbuf intr : Bool} {buf : Bytes} {w : W} (hb : buf ≠ []) (hp : w.pos ≤ w.data.length) (hs : w.seek = true)
    {os s2 w2 acc f} (r : Reads (openR unbuf intr buf) w [] false os s2 w2 acc f) :
    ((getc s2 w2).2.2.1 = .eof → (getc s2 w2).1.err = true ∨ acc = w.data.drop w.pos) ∧
    (∀ n, (getse (n + 1) s2 w2).2.2.1 = .eof → (getse (n + 1) s2 w2).1.err = true ∨ acc = w.data.drop w.pos) ∧
    (∀ n, (getse (n + 1) s2 w2).2.2.1 = .ok → IsLine n (w.data.drop (w.pos + acc.length)) (getse (n + 1) s2 w2).2.2.2) := by
  obtain ⟨h1, h2, _, h4, h5⟩ := reads_inv r w.pos (by simpa using openR_inv unbuf intr buf w hb hp) (by simp) (by simp) hs
  have full : w.pos + acc.length = w2.data.length → acc = w.data.drop w.pos := by
    intro g
    rw [h2]
    exact List.take_of_length_le (by rw [List.length_drop, ← h4]; omega)
  refine ⟨fun g => ?_, fun n g => ?_, fun n g => ?_⟩
  · exact ((getc_spec h1).2.2 g).2.imp id full
  · exact ((getse_spec h1).2.2 g).imp id (fun k => full k.2)
  · rw [← h4]; exact (getse_spec h1).2.1 g

/-- Unbuffered input is not read ahead: the file position is always that of the reader (this is how
the shell reads what cannot be positioned). -/
theorem unbuffered_exact {s : Shf} {w : W} {cur : Nat} (h : RInv s w cur) (hu : s.rbsize = 1)
    (ok : (getc s w).2.2.1 = .ok ∨ (getc s w).2.2.1 = .eof) :
    (getc s w).1.rnleft = 0 ∧ (getc s w).2.1.pos = cur + (getc s w).2.2.2.length := by
  have i := (getc_spec h).1.inv ok
  suffices g : (getc s w).1.rnleft = 0 from ⟨g, by have := i.pos; omega⟩
  have f := need_spec h
  simp only [getc, h.wr, Bool.false_eq_true, if_false] at ok ⊢
  generalize need s w = r at f ok
  obtain ⟨s1, w1, st⟩ := r
  obtain ⟨f1, f2, f3, f4, f5, f6, f7, f8, f9⟩ := f
  simp only at f1 f2 f3 f4 f5 f6 f7 f8 f9 ok ⊢
  rcases f1 with rfl | rfl | rfl
  · have i := f2 (by simp)
    rw [if_pos rfl]
    split
    · assumption
    · obtain ⟨bs, g, g1, g2, g3, g4, g5, _⟩ := take_spec i (n := 1) (by omega)
      rw [g1]
      have := i.rp
      simp only
      omega
  · exact f7 rfl
  · simp at ok

theorem getc_rbsize {s : Shf} {w : W} {cur : Nat} (h : RInv s w cur) : (getc s w).1.rbsize = s.rbsize := by
  have hw : s.writing = false := h.writing
  have hn : (need s w).1.rbsize = s.rbsize := by
    simp only [need, fillbuf, h.str, hw, Bool.false_eq_true, if_false, if_true]
    split
    · split
      · rfl
      · split
        · split <;> rfl
        · split <;> rfl
    · rfl
  simp only [getc, h.wr, Bool.false_eq_true, if_false]
  split
  · split
    · exact hn
    · simp only [take]
      split
      · rename_i heq
        split at heq
        · cases heq; exact hn
        · cases heq
      · exact hn
  · exact hn

/-- Spec: `Chars s w s2 w2 n`: `n` characters are read one after the other -/
inductive Chars : Shf → W → Shf → W → Nat → Prop
  | nil (s w) : Chars s w s w 0
  | next {s w s2 w2 n} (r : Chars s w s2 w2 n) (ok : (getc s2 w2).2.2.1 = .ok) : Chars s w (getc s2 w2).1 (getc s2 w2).2.1 (n + 1)

/-- **C44**: after `n` characters of unbuffered input the position of the file is `n` further, so
that another process continues there. -/
theorem unbuffered_position (intr : Bool) (buf : Bytes) (w : W) (hb : buf ≠ []) (hp : w.pos ≤ w.data.length) {s2 : Shf} {w2 : W} {n : Nat}
    (r : Chars (openR true intr buf) w s2 w2 n) : w2.pos = w.pos + n := by
  suffices g : RInv s2 w2 (w.pos + n) ∧ s2.rbsize = 1 ∧ w2.pos = w.pos + n from g.2.2
  generalize hs : openR true intr buf = s at r
  induction r with
  | nil => subst hs; exact ⟨openR_inv true intr buf _ hb hp, rfl, rfl⟩
  | @next s2 w2 n r ok ih =>
    obtain ⟨h1, h2, h3⟩ := ih
    obtain ⟨u1, u2⟩ := unbuffered_exact h1 h2 (Or.inl ok)
    have hl : (getc s2 w2).2.2.2.length = 1 := (getc_spec h1).2.1 ok
    refine ⟨?_, (getc_rbsize h1).trans h2, by omega⟩
    have := (getc_spec h1).1.inv (Or.inl ok)
    rw [hl] at this
    exact this

/-! ## Disagreements and examples -/

/-- a world with a file to read -/
def input (data : Bytes) (rs : List RR) : W := ⟨[], [], data, 0, rs, true⟩

/-- With `SHF_INTERRUPT` shf_getse answers `NULL` when a read is interrupted although it has taken
bytes of the line already; they are lost (here `ab` of the line `ab`, newline). -/
theorem getse_loses :
    let r := getse 10 (openR false true [0, 0, 0, 0]) (input [97, 98, 10] [.n 1, .intr, .n 9])
    r.2.2 = (.eof, [97, 98]) ∧ (getse 10 (clearerr r.1) r.2.1).2.2 = (.ok, [10]) := by decide

/-- A byte put back after a flush is not accounted for in the file position by the next flush. -/
theorem unget_after_flush :
    let r := getc (openR false false [0, 0, 0, 0]) (input [97, 98] [.n 9])
    let f := flush r.1 r.2.1
    let u := ungetc 97 f.1 f.2.1
    let g := flush u.1 u.2.1
    r.2.2 = (.ok, [97]) ∧ u.2.2 = .ok ∧ g.2.2 = .ok ∧ g.2.1.pos = 1 := by decide

example :
    let r1 := getse 3 (openR false false [0, 0, 0, 0]) (input [97, 98, 99, 10, 100] [.n 0, .intr, .n 9, .n 9])
    let r2 := getse 9 r1.1 r1.2.1
    let r3 := flush r2.1 r2.2.1
    r1.2.2 = (.ok, [97, 98]) ∧ r2.2.2 = (.ok, [99, 10]) ∧ r2.2.1.pos = 5 ∧ r3.2.2 = .ok ∧ r3.2.1.pos = 4 := by decide

end Ksh.Shf
