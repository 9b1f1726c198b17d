import Verif.Line.Lemmas

/-!
# The script is read line by line, whole and in order (C102)
-/

namespace Ksh.Line

open Ksh.Shf

/-! ## strip_nuls removes the NULs -/

def nz (bs : Bytes) : Bytes := bs.filter (· ≠ 0)

theorem skipNuls_spec (m : Bytes) (e : Nat) (he : e ≤ m.length) (fuel p : Nat) (hp : p < e) (hf : e - p < fuel) :
    ∃ p', skipNuls m e fuel p = some p' ∧ p < p' ∧ p' ≤ e ∧ (∀ i, p < i → i < p' → m[i]? = some 0) ∧
      (p' < e → m[p']? ≠ some 0) := by
  induction fuel generalizing p with
  | zero => omega
  | succ fuel ih =>
    simp only [skipNuls]
    split
    · rename_i h1
      have hl : p + 1 < m.length := by omega
      rw [List.getElem?_eq_getElem hl]
      simp only
      split
      · rename_i h0
        obtain ⟨p', i1, i2, i3, i4, i5⟩ := ih (p + 1) h1 (by omega)
        refine ⟨p', i1, by omega, i3, fun i hi hi2 => ?_, i5⟩
        by_cases hx : i = p + 1
        · subst hx; rw [List.getElem?_eq_getElem hl, h0]
        · exact i4 i (by omega) hi2
      · rename_i h0
        refine ⟨p + 1, rfl, by omega, by omega, fun i _ _ => by omega, fun _ => ?_⟩
        rw [List.getElem?_eq_getElem hl]
        simpa using h0
    · exact ⟨p + 1, rfl, by omega, by omega, fun i _ _ => by omega, fun _ => by omega⟩

theorem memchr0_spec (m : Bytes) (p n : Nat) (h : p + n ≤ m.length) :
    (∃ q, memchr0 m p n = some (some q) ∧ p ≤ q ∧ q < p + n ∧ m[q]? = some 0 ∧ ∀ i, p ≤ i → i < q → m[i]? ≠ some 0) ∨
    (memchr0 m p n = some none ∧ ∀ i, p ≤ i → i < p + n → m[i]? ≠ some 0) := by
  have key : ∀ i : Nat, i < n → ((m.drop p).take n)[i]? = m[p + i]? := by
    intro i hi
    rw [List.getElem?_take_of_lt hi, List.getElem?_drop]
  have hl : ((m.drop p).take n).length = n := by simp; omega
  simp only [memchr0, if_pos h]
  cases hx : ((m.drop p).take n).findIdx? (· == 0) with
  | none =>
    right
    refine ⟨rfl, fun i h1 h2 h3 => ?_⟩
    rw [List.findIdx?_eq_none_iff] at hx
    have := key (i - p) (by omega)
    rw [show p + (i - p) = i by omega, h3] at this
    have := hx 0 (List.mem_of_getElem? this)
    simp at this
  | some d =>
    left
    rw [List.findIdx?_eq_some_iff_getElem] at hx
    obtain ⟨x1, x2, x3⟩ := hx
    rw [hl] at x1
    refine ⟨d + p, rfl, by omega, by omega, ?_, fun i h1 h2 h3 => ?_⟩
    · have := key d x1
      rw [List.getElem?_eq_getElem (by omega)] at this
      rw [Nat.add_comm, ← this]
      simpa using x2
    · have := key (i - p) (by omega)
      rw [show p + (i - p) = i by omega, h3, List.getElem?_eq_getElem (by omega)] at this
      have g := x3 (i - p) (by omega)
      simp at this
      simp [this] at g

theorem nz_zeros (m : Bytes) (i j : Nat) (hj : j ≤ m.length) (h : ∀ k, i ≤ k → k < j → m[k]? = some 0) :
    nz ((m.drop i).take (j - i)) = [] := by
  simp only [nz, List.filter_eq_nil_iff]
  intro a ha
  obtain ⟨k, hk⟩ := List.getElem?_of_mem ha
  have hl := (List.getElem?_eq_some_iff.1 hk).1
  simp at hl
  rw [List.getElem?_take_of_lt (by omega), List.getElem?_drop, h _ (by omega) (by omega)] at hk
  simp at hk
  simp [← hk]

theorem nz_none (m : Bytes) (i j : Nat) (h : ∀ k, i ≤ k → k < j → m[k]? ≠ some 0) :
    nz ((m.drop i).take (j - i)) = (m.drop i).take (j - i) := by
  simp only [nz, List.filter_eq_self]
  intro a ha
  obtain ⟨k, hk⟩ := List.getElem?_of_mem ha
  have hl := (List.getElem?_eq_some_iff.1 hk).1
  simp at hl
  rw [List.getElem?_take_of_lt (by omega), List.getElem?_drop] at hk
  have := h (i + k) (by omega) (by omega)
  simp
  intro h0
  exact this (by rw [hk, h0])

theorem take_split (m : Bytes) (i j : Nat) (h : i ≤ j) : m.take j = m.take i ++ (m.drop i).take (j - i) := by
  have := List.take_add (l := m) (i := i) (j := j - i)
  rwa [show i + (j - i) = j by omega] at this

theorem stripLoop_spec (o : Bytes) (e : Nat) (he : e ≤ o.length) (fuel : Nat) (m : Bytes) (dst p : Nat)
    (hf : e - p < fuel) (hdp : dst ≤ p) (hpe : p ≤ e) (hlen : m.length = o.length) (hd : m.drop p = o.drop p)
    (hm : m.take dst = nz (o.take p)) (hz : p < e → o[p]? = some 0) :
    ∃ m' dst', stripLoop e fuel m dst p = some (m', dst') ∧ m'.length = o.length ∧ m'.drop e = o.drop e ∧
      m'.take dst' = nz (o.take e) ∧ dst' ≤ e := by
  induction fuel generalizing m dst p with
  | zero => omega
  | succ fuel ih =>
    simp only [stripLoop]
    split
    · rename_i hp
      have get : ∀ i : Nat, p ≤ i → m[i]? = o[i]? := by
        intro i hi
        have := congrArg (fun l => l[i - p]?) hd
        simp only [List.getElem?_drop] at this
        rwa [show p + (i - p) = i by omega] at this
      obtain ⟨p1, s1, s2, s3, s4, s5⟩ := skipNuls_spec m e (by omega) (e + 1) p hp (by omega)
      rw [s1]
      simp only
      have step : ∀ q : Nat, p1 ≤ q → q ≤ e → (∀ i, p1 ≤ i → i < q → m[i]? ≠ some 0) → (q < e → m[q]? = some 0) →
          ∃ m', memmove m dst p1 (q - p1) = some m' ∧
          ∃ m'' dst', stripLoop e fuel m' (dst + (q - p1)) q = some (m'', dst') ∧ m''.length = o.length ∧ m''.drop e = o.drop e ∧
            m''.take dst' = nz (o.take e) ∧ dst' ≤ e := by
        intro q q1 q2 q3 q4
        have hbl : ((m.drop p1).take (q - p1)).length = q - p1 := by simp; omega
        have htl : (m.take dst).length = dst := by simp; omega
        refine ⟨_, if_pos ⟨by omega, by omega⟩, ?_⟩
        apply ih
        · omega
        · omega
        · omega
        · simp; omega
        · rw [List.drop_append, List.drop_eq_nil_of_le (by rw [List.length_append, htl, hbl]; omega), List.nil_append,
            List.length_append, htl, hbl, List.drop_drop, show dst + (q - p1) + (q - (dst + (q - p1))) = q by omega]
          have := congrArg (List.drop (q - p)) hd
          simpa [List.drop_drop, show p + (q - p) = q by omega] using this
        · rw [List.take_append_of_le_length (by rw [List.length_append, htl, hbl]; omega), List.take_of_length_le (by rw [List.length_append, htl, hbl]; omega), hm,
            take_split o p q (by omega), take_split (o.drop p) (p1 - p) (q - p) (by omega), List.drop_drop, show p + (p1 - p) = p1 by omega,
            show q - p - (p1 - p) = q - p1 by omega]
          have z := nz_zeros o p p1 (by omega) (by
            intro k k1 k2
            by_cases hk : k = p
            · subst hk; exact hz hp
            · rw [← get k k1]; exact s4 k (by omega) k2)
          have n := nz_none o p1 q (by
            intro k k1 k2; rw [← get k (by omega)]; exact q3 k k1 k2)
          have b : (m.drop p1).take (q - p1) = (o.drop p1).take (q - p1) := by
            have := congrArg (List.drop (p1 - p)) hd
            rw [List.drop_drop, List.drop_drop, show p + (p1 - p) = p1 by omega] at this
            rw [this]
          rw [b]
          simp only [nz, List.filter_append] at z n ⊢
          rw [z, n, List.nil_append]
        · intro hq; rw [← get q (by omega)]; exact q4 hq
      rcases memchr0_spec m p1 (e - p1) (by omega) with ⟨q, c1, c2, c3, c4, c5⟩ | ⟨c1, c2⟩
      · obtain ⟨m', k1, k2⟩ := step q c2 (by omega) c5 (fun _ => c4)
        rw [c1]
        simp only [Option.getD_some, k1]
        exact k2
      · obtain ⟨m', k1, k2⟩ := step e s3 (Nat.le_refl _) (fun i x y => c2 i x (by omega)) (by omega)
        rw [c1]
        simp only [Option.getD_none, k1]
        exact k2
    · obtain rfl : p = e := by omega
      exact ⟨m, dst, rfl, hlen, hd, hm, hdp⟩

/-- **C102**: strip_nuls removes the NUL bytes and nothing else, keeps the order, leaves what follows
the buffer alone and ends the text with a NUL if it became shorter. -/
theorem stripNuls_spec (m : Bytes) (n : Nat) (h : n ≤ m.length) :
    ∃ m' k, stripNuls m n = some (m', k) ∧ m'.length = m.length ∧ m'.take k = nz (m.take n) ∧ k = (nz (m.take n)).length ∧
      m'.drop n = m.drop n ∧ (k < n → m'[k]? = some 0) := by
  simp only [stripNuls]
  rcases memchr0_spec m 0 n (by omega) with ⟨d, c1, c2, c3, c4, c5⟩ | ⟨c1, c2⟩
  · rw [c1]
    simp only
    have hn : nz (m.take d) = m.take d := by
      have := nz_none m 0 d (fun k k1 k2 => c5 k k1 k2)
      simpa using this
    obtain ⟨m', k, s1, s2, s3, s4, s5⟩ := stripLoop_spec m n h (n + 1) m d d (by omega) (Nat.le_refl _) (by omega) rfl rfl hn.symm (fun _ => c4)
    have hk : k = (nz (m.take n)).length := by rw [← s4]; simp; omega
    have hlt : k < n := by
      have h0 : (0 : UInt8) ∈ m.take n := by
        apply List.mem_of_getElem? (i := d)
        rw [List.getElem?_take_of_lt (by omega)]; exact c4
      have : (nz (m.take n)).length < (m.take n).length := by
        rw [nz, List.length_filter_lt_length_iff_exists]
        exact ⟨0, h0, by simp⟩
      simp at this
      omega
    rw [s1]
    simp only
    rw [if_pos (by omega)]
    refine ⟨_, _, rfl, by simp [s2], ?_, hk, ?_, fun _ => ?_⟩
    · rw [List.take_set_of_le (Nat.le_refl _), s4]
    · rw [List.drop_set_of_lt hlt, s3]
    · rw [List.getElem?_set_self (by omega)]
  · rw [c1]
    have hn : nz (m.take n) = m.take n := by
      have := nz_none m 0 n (fun k k1 k2 => c2 k k1 (by omega))
      simpa using this
    exact ⟨m, n, rfl, rfl, hn.symm, by rw [hn]; simp; omega, rfl, by omega⟩

example : stripNuls [97, 0, 0, 98, 99, 0, 100, 7] 7 = some ([97, 98, 99, 100, 0, 0, 100, 7], 4) := by decide

/-! ## getsc_line -/

/-- Spec: what is to be delivered next when `d` is unread: nothing at the end, an error if the line
has a NUL byte, or the line with its newline. -/
def next (d : Bytes) : Out :=
  if d = [] then .eof else if 0 ∈ firstLine d then .abort else .line (firstLine d)

theorem firstLine_append {a d : Bytes} (h : 0x0a ∉ a) : firstLine (a ++ d) = a ++ firstLine d := by
  induction a with
  | nil => rfl
  | cons c a ih =>
    simp only [List.mem_cons, not_or] at h
    simp only [List.cons_append, firstLine, if_neg (Ne.symm h.1), ih h.2]

structure Read1 (s : Shf) (w : W) (cur : Nat) (r : LR) : Prop where
  out : r.out = next (w.data.drop cur)
  inv : ∀ bs, r.out = .line bs → RInv r.shf r.w (cur + bs.length) ∧ Quiet r.shf r.w
  stop : r.out = .eof → RInv r.shf r.w cur ∧ Quiet r.shf r.w
  data : r.w.data = w.data
  seek : r.w.seek = w.seek
  size : r.shf.rbsize = s.rbsize
  ahead : s.rbsize = 1 → r.out ≠ .abort → r.shf.rnleft = 0

theorem checkN_room (cap n : Nat) : 2 * n ≤ checkN cap n n := by
  simp only [checkN]
  split <;> omega

theorem lineLoop_spec (fuel : Nat) {s : Shf} {w : W} {cur cap : Nat} {acc : Bytes} (h : RInv s w (cur + acc.length)) (q : Quiet s w)
    (ha : acc = (w.data.drop cur).take acc.length) (hnl : 0x0a ∉ acc) (hz : 0 ∉ acc) (hc : acc.length + 2 ≤ cap)
    (hf : w.data.length - (cur + acc.length) + 1 < fuel) :
    ((lineLoop fuel cap acc true s w).out = .stuck ∧ (lineLoop fuel cap acc true s w).w.rs = []) ∨
    Read1 s w cur (lineLoop fuel cap acc true s w) := by
  induction fuel generalizing s w cap acc with
  | zero => omega
  | succ fuel ih =>
    simp only [lineLoop]
    obtain ⟨n, hn⟩ : ∃ n, cap - acc.length = n + 1 := ⟨cap - acc.length - 1, by omega⟩
    rw [hn]
    obtain ⟨⟨g1, g2, g3, g4, g5, g6⟩, g7, g8⟩ := getse_spec (n := n) h
    obtain ⟨k1, k2, k3, k4, k5, k6, k7, k8⟩ := getse_quiet (n := n) h q
    generalize getse (n + 1) s w = r at *
    obtain ⟨s1, w1, st, bs⟩ := r
    simp only at g1 g2 g3 g4 g5 g6 g7 g8 k1 k2 k3 k4 k5 k6 k7 k8 ⊢
    have hn0 : 0 < n := by omega
    have hdrop : w.data.drop cur = acc ++ w.data.drop (cur + acc.length) := by
      have := List.take_append_drop acc.length (w.data.drop cur)
      rw [← ha, List.drop_drop] at this
      exact this.symm
    rw [if_neg (by omega)]
    cases st with
    | fault => exact absurd rfl g1
    | stuck =>
      rw [if_neg (by simp), if_neg (by simp)]
      left
      exact ⟨rfl, k2 rfl⟩
    | abort =>
      rw [if_neg (by simp), if_neg (by simp)]
      right
      have hm : 0 ∈ firstLine (w.data.drop cur) := by
        rw [hdrop, firstLine_append hnl]
        exact List.mem_append_right _ (k4 rfl)
      refine ⟨?_, by simp [bad], by simp [bad], g5, g6, k5, by simp [bad]⟩
      simp only [next, bad]
      rw [if_neg, if_pos hm]
      intro x; rw [x] at hm; simp [firstLine] at hm
    | eof =>
      have q1 := k1 (Or.inr rfl)
      have i1 := g2 (Or.inr rfl)
      rw [if_pos rfl, q1.err]
      simp only [Bool.false_and, Bool.false_eq_true, if_false]
      rcases g8 rfl with x | ⟨x, y⟩
      · rw [q1.err] at x; cases x
      · subst x
        right
        have hall : w.data.drop cur = acc := by
          rw [hdrop, y, List.drop_length, List.append_nil]
        have hfl : firstLine acc = acc := by
          have := firstLine_append (d := []) hnl
          simpa [firstLine] using this
        by_cases h0 : acc = []
        · subst h0
          refine ⟨?_, by simp [done], fun _ => ⟨by simpa using i1, q1⟩, g5, g6, k5, fun u _ => k6 u hn0 (Or.inr rfl)⟩
          simp [next, hall, done]
        · refine ⟨?_, fun b hb => ?_, by simp [done, h0], g5, g6, k5, fun u _ => k6 u hn0 (Or.inr rfl)⟩
          · simp [next, hall, done, h0, hfl, hz]
          · simp only [done, if_neg h0, if_true, Out.line.injEq] at hb
            subst hb
            exact ⟨by simpa using i1, q1⟩
    | ok =>
      have q1 := k1 (Or.inl rfl)
      have i1 := g2 (Or.inl rfl)
      have hb0 := k7 hn0 rfl
      have hz0 := k3 rfl
      obtain ⟨l1, l2, l3⟩ := g7 rfl
      have hne : acc ++ bs ≠ [] := by simp [hb0]
      have hacc := got_acc (data := w.data) ha g4
      have hpre : acc ++ bs <+: w.data.drop cur := by rw [hacc]; exact List.take_prefix _ _
      have hdl : 0x0a ∉ (acc ++ bs).dropLast := by
        rw [List.dropLast_append_of_ne_nil hb0]
        simp only [List.mem_append, not_or]
        exact ⟨hnl, l2⟩
      have hz1 : 0 ∉ acc ++ bs := by simp only [List.mem_append, not_or]; exact ⟨hz, hz0⟩
      rw [if_neg (by simp), if_pos rfl]
      cases hx : (acc ++ bs).getLast? with
      | none => exact absurd (List.getLast?_eq_none_iff.1 hx) hne
      | some c =>
        simp only
        split
        · rename_i hc10
          subst hc10
          right
          have hfl := firstLine_unique hpre hdl (Or.inl hx)
          refine ⟨?_, fun b hb => ?_, by simp [done, hb0], g5, g6, k5, fun u _ => k6 u hn0 (Or.inl rfl)⟩
          · simp only [done, if_neg hne, if_true, next]
            rw [if_neg (by intro x; rw [x] at hpre; exact hne (List.prefix_nil.1 hpre)), ← hfl, if_neg hz1]
          · simp only [done, if_neg hne, if_true, Out.line.injEq] at hb
            subst hb
            exact ⟨by simpa [Nat.add_assoc] using i1, q1⟩
        · rename_i hc10
          have hnl1 : 0x0a ∉ acc ++ bs := by
            intro hm
            rw [← List.dropLast_concat_getLast hne] at hm
            rcases List.mem_append.1 hm with y | y
            · exact hdl y
            · rw [List.mem_singleton] at y
              rw [List.getLast?_eq_some_getLast hne] at hx
              exact hc10 (by rw [← Option.some.inj hx]; exact y.symm)
          have hle : cur + (acc ++ bs).length ≤ w.data.length := by
            have u1 := i1.pos; have u2 := i1.posle
            rw [g5] at u2
            simp only [List.length_append]; omega
          have hbl : 0 < bs.length := List.length_pos_iff.2 hb0
          have := ih (s := s1) (w := w1) (cap := checkN cap ((acc ++ bs).length + 1) ((acc ++ bs).length + 1)) (acc := acc ++ bs)
            (by simpa [Nat.add_assoc] using i1) q1 (by rw [g5]; exact hacc) hnl1 hz1
            (by have := checkN_room cap ((acc ++ bs).length + 1); omega)
            (by rw [g5]; simp only [List.length_append] at hle ⊢; omega)
          rcases this with x | x
          · exact Or.inl x
          · right
            obtain ⟨x1, x2, x3, x4, x5, x6, x7⟩ := x
            rw [g5] at x1
            exact ⟨x1, x2, x3, x4.trans g5, x5.trans g6, x6.trans k5, by rw [k5] at x7; exact x7⟩

theorem stripped_next (d : Bytes) : stripped (next d) = next d := by
  simp only [next]
  split
  · rfl
  · split
    · rfl
    · rename_i hz
      simp only [stripped]
      obtain ⟨m, k, s1, s2, s3, s4, s5, s6⟩ := stripNuls_spec (firstLine d ++ [0]) (firstLine d).length (by simp)
      rw [s1]
      simp only [s3, Out.line.injEq]
      rw [List.take_left, nz, List.filter_eq_self]
      intro a ha
      simp
      intro h0
      exact hz (h0 ▸ ha)

theorem unread_rs (s : Shf) (w : W) : (unread s w).2.rs = w.rs ∧ (unread s w).2.data = w.data := by
  simp only [unread]
  split
  · simp only
    split <;> exact ⟨rfl, rfl⟩
  · exact ⟨rfl, rfl⟩

theorem emptybuf_rs (a b : Bool) (s : Shf) (w : W) : (emptybuf a b s w).2.1.rs = w.rs ∧ (emptybuf a b s w).2.1.data = w.data := by
  simp only [emptybuf]
  have hx : (if s.reading = true then unread s w else (s, w)).2.rs = w.rs ∧ (if s.reading = true then unread s w else (s, w)).2.data = w.data := by
    split
    · exact unread_rs s w
    · exact ⟨rfl, rfl⟩
  generalize (if s.reading = true then unread s w else (s, w)) = x at hx
  by_cases h1 : s.err = true
  · rw [if_pos h1]; exact ⟨rfl, rfl⟩
  · rw [if_neg h1]
    by_cases h2 : (s.reading && a) = true
    · rw [if_pos h2]; exact ⟨rfl, rfl⟩
    · rw [if_neg h2]
      by_cases h3 : x.1.str = true
      · rw [if_pos h3]
        split <;> exact hx
      · rw [if_neg h3]
        split <;> exact hx

theorem flush_rs (s : Shf) (w : W) : (flush s w).2.1.rs = w.rs ∧ (flush s w).2.1.data = w.data := by
  simp only [flush]
  by_cases h1 : s.str = true
  · rw [if_pos h1]; exact ⟨rfl, rfl⟩
  · rw [if_neg h1]
    by_cases h2 : s.err = true
    · rw [if_pos h2]; exact ⟨rfl, rfl⟩
    · rw [if_neg h2]
      by_cases h3 : s.reading = true
      · rw [if_pos h3]; exact unread_rs s w
      · rw [if_neg h3]
        by_cases h4 : s.writing = true
        · rw [if_pos h4]; exact emptybuf_rs _ _ s w
        · rw [if_neg h4]; exact ⟨rfl, rfl⟩

theorem flush_quiet {s : Shf} {w : W} {cur : Nat} (h : RInv s w cur) (q : Quiet s w) : Quiet (flush s w).1 (flush s w).2.1 ∧
    (flush s w).1.rbsize = s.rbsize ∧ (flush s w).2.2 = .ok ∧ (s.rnleft = 0 → (flush s w).1.rnleft = 0) := by
  have hs : ¬ s.str = true := by simp [h.str]
  have hw : ¬ s.writing = true := by simp [h.writing]
  have he : ¬ s.err = true := by simp [q.err]
  simp only [flush, if_neg hs, if_neg hw, if_neg he, unread]
  split
  · split
    · refine ⟨⟨q.intr, q.err, ?_⟩, rfl, rfl, fun _ => rfl⟩
      simp only
      split
      · exact q.rs
      · exact q.rs
    · exact ⟨⟨q.intr, q.err, q.rs⟩, rfl, rfl, fun x => x⟩
  · exact ⟨q, rfl, rfl, fun x => x⟩

/-- The state between two calls of getsc_line: the reader is at `cur`, no read fails, and standard
input can be positioned or is not read ahead (this is what can_seek makes sure of, misc.c:1128). -/
structure Ready (stdin : Bool) (s : Shf) (w : W) (cur : Nat) : Prop where
  inv : RInv s w cur
  quiet : Quiet s w
  ahead : stdin = true → w.seek = true ∨ (s.rbsize = 1 ∧ s.rnleft = 0)

/-- **C102**: getsc_line delivers the next line of the file, whatever its length and however the
reads split it; a blocked read is the only other outcome. -/
theorem getscLine_spec (stdin : Bool) {fuel cap cur : Nat} {s : Shf} {w : W} (h : Ready stdin s w cur) (hf : w.data.length + 1 < fuel) :
    let r := getscLine stdin fuel cap s w
    (r.out = .stuck ∧ r.w.rs = []) ∨
    (r.out = next (w.data.drop cur) ∧ r.w.data = w.data ∧
      (∀ bs, r.out = .line bs → Ready stdin r.shf r.w (cur + bs.length) ∧ (stdin = true → r.w.pos = cur + bs.length)) ∧
      (r.out = .eof → Ready stdin r.shf r.w cur ∧ (stdin = true → r.w.pos = cur))) := by
  have hc : 2 ≤ checkN cap 0 LINE := by
    have hL : LINE = 4096 := rfl
    simp only [checkN]
    split <;> omega
  have l := lineLoop_spec fuel (s := s) (w := w) (cur := cur) (acc := []) (cap := checkN cap 0 LINE) (by simpa using h.inv) h.quiet (by simp) (by simp) (by simp)
    (by simpa using hc) (by simp; omega)
  simp only [getscLine]
  generalize lineLoop fuel (checkN cap 0 LINE) [] true s w = r at l
  rcases l with ⟨l1, l2⟩ | ⟨l1, l2, l3, l4, l5, l6, l7⟩
  · left
    cases stdin <;> simp [l1, l2, stripped, flush_rs]
  · right
    have good : ∀ n, RInv r.shf r.w (cur + n) ∧ Quiet r.shf r.w → r.out ≠ .abort → stdin = true →
        Ready true (flush r.shf r.w).1 (flush r.shf r.w).2.1 (cur + n) ∧ (flush r.shf r.w).2.1.pos = cur + n := by
      intro n ⟨i, q⟩ na hs
      obtain ⟨f1, f2, f3⟩ := flush_in_spec i
      obtain ⟨z1, z2, z3, z4⟩ := flush_quiet i q
      rcases f3 with f3 | f3
      · rw [f3.1] at z3; cases z3
      · have hd : r.w.seek = true ∨ (r.shf.rbsize = 1 ∧ r.shf.rnleft = 0) := by
          rcases h.ahead hs with x | x
          · left; rw [l5, x]
          · right; exact ⟨l6.trans x.1, l7 x.1 na⟩
        obtain ⟨y1, y2⟩ := f3.2 (hd.imp id And.right)
        refine ⟨⟨y1, z1, fun _ => ?_⟩, y2⟩
        rw [f2, z2]
        exact hd.imp id (fun v => ⟨v.1, z4 v.2⟩)
    cases stdin with
    | false =>
      simp only [Bool.false_eq_true, if_false, l1, stripped_next]
      refine ⟨trivial, l4, fun bs hb => ⟨⟨(l2 bs (l1.trans hb)).1, (l2 bs (l1.trans hb)).2, by simp⟩, by simp⟩, fun hb => ⟨⟨(l3 (l1.trans hb)).1, (l3 (l1.trans hb)).2, by simp⟩, by simp⟩⟩
    | true =>
      simp only [if_true, l1, stripped_next]
      refine ⟨trivial, ?_, fun bs hb => ?_, fun hb => ?_⟩
      · rw [(flush_rs _ _).2, l4]
      · have := good bs.length (l2 bs (l1.trans hb)) (by rw [l1, hb]; simp) rfl
        exact ⟨this.1, fun _ => this.2⟩
      · have := good 0 (by simpa using l3 (l1.trans hb)) (by rw [l1, hb]; simp) rfl
        exact ⟨by simpa using this.1, fun _ => by simpa using this.2⟩

theorem nul_first {d : Bytes} (hz : 0 ∈ firstLine d) : ∃ l t, d = l ++ t ∧ 0x0a ∉ l ∧ t.head? = some 0 := by
  induction d with
  | nil => simp [firstLine] at hz
  | cons c d ih =>
    simp only [firstLine] at hz
    split at hz
    · rename_i hc
      subst hc
      simp at hz
    · rename_i hc
      rcases List.mem_cons.1 hz with x | x
      · exact ⟨[], c :: d, rfl, by simp, by simp [← x]⟩
      · obtain ⟨l, t, y1, y2, y3⟩ := ih x
        exact ⟨c :: l, t, by rw [y1]; rfl, by simp [Ne.symm hc, y2], y3⟩

/-- Spec: successive calls of getsc_line that deliver the lines `ls` -/
inductive Script (stdin : Bool) : Shf → W → Nat → List Bytes → Shf → W → Nat → Prop
  | nil (s w cap) : Script stdin s w cap [] s w cap
  | next {s w cap fuel bs ls s2 w2 cap2} (hf : w.data.length + 1 < fuel) (h : (getscLine stdin fuel cap s w).out = .line bs)
      (r : Script stdin (getscLine stdin fuel cap s w).shf (getscLine stdin fuel cap s w).w (getscLine stdin fuel cap s w).cap ls s2 w2 cap2) :
      Script stdin s w cap (bs :: ls) s2 w2 cap2

/-- Spec: `ls` are the first lines of `d` and `rest` is what follows them: all of them but the last
end with a newline, the last one does if anything follows, there are no other newlines, and no line
is empty or has a NUL. -/
structure Lines (d : Bytes) (ls : List Bytes) (rest : Bytes) : Prop where
  text : d = ls.flatten ++ rest
  one : ∀ l ∈ ls, l ≠ [] ∧ 0x0a ∉ l.dropLast ∧ 0 ∉ l
  nl : ∀ a l b, ls = a ++ l :: b → b ≠ [] ∨ rest ≠ [] → l.getLast? = some 0x0a

theorem script_inv {stdin : Bool} {s w cap ls s2 w2 cap2} (r : Script stdin s w cap ls s2 w2 cap2) {cur : Nat} (h : Ready stdin s w cur) :
    Ready stdin s2 w2 (cur + ls.flatten.length) ∧ w2.data = w.data ∧ Lines (w.data.drop cur) ls (w.data.drop (cur + ls.flatten.length)) ∧
    (stdin = true → ls ≠ [] → w2.pos = cur + ls.flatten.length) := by
  induction r generalizing cur with
  | nil => exact ⟨by simpa using h, rfl, ⟨by simp, by simp, by simp⟩, by simp⟩
  | @next s w cap fuel bs ls s2 w2 cap2 hf ho r ih =>
    have g := getscLine_spec stdin (cap := cap) h hf
    simp only at g
    rcases g with g | ⟨g1, g2, g3, g4⟩
    · rw [ho] at g; cases g.1
    · obtain ⟨k1, k2⟩ := g3 bs ho
      obtain ⟨i1, i2, i3, i4⟩ := ih k1
      have hb : bs = firstLine (w.data.drop cur) ∧ 0 ∉ bs ∧ w.data.drop cur ≠ [] := by
        rw [ho] at g1
        simp only [Line.next] at g1
        split at g1
        · cases g1
        · split at g1
          · cases g1
          · rename_i x y
            obtain rfl := Out.line.inj g1
            exact ⟨rfl, y, x⟩
      obtain ⟨hb1, hb2, hb3⟩ := hb
      obtain ⟨e1, e2⟩ := firstLine_ends (w.data.drop cur)
      have hbn : bs ≠ [] := by
        rw [hb1]
        intro x
        rw [x] at e2
        rcases e2 with y | y
        · simp at y
        · exact hb3 y.symm
      have htake : w.data.drop cur = bs ++ w.data.drop (cur + bs.length) := by
        obtain ⟨t, ht⟩ := firstLine_prefix (w.data.drop cur)
        rw [← hb1] at ht
        have := congrArg (List.drop bs.length) ht
        rw [List.drop_left, List.drop_drop] at this
        rw [← this, ht]
      rw [← hb1] at e1 e2
      have hlen : cur + bs.length + ls.flatten.length = cur + (bs :: ls).flatten.length := by simp; omega
      rw [hlen] at i1 i3 i4
      rw [g2] at i2 i3
      refine ⟨i1, i2, ⟨?_, ?_, ?_⟩, fun hs _ => ?_⟩
      · have e : ∀ x, (bs :: ls).flatten ++ x = bs ++ (ls.flatten ++ x) := by intro x; simp
        rw [e, ← i3.text]; exact htake
      · intro l hl
        rcases List.mem_cons.1 hl with rfl | hl
        · exact ⟨hbn, e1, hb2⟩
        · exact i3.one l hl
      · intro a l b hab hne
        cases a with
        | nil =>
          obtain ⟨rfl, rfl⟩ := List.cons.inj hab
          rcases e2 with y | y
          · exact y
          · exfalso
            have hz : w.data.drop (cur + bs.length) = [] := by
              rw [← y] at htake
              exact List.self_eq_append_right.1 htake
            have ht := i3.text
            rw [hz] at ht
            have ht := List.append_eq_nil_iff.1 ht.symm
            rcases hne with x | x
            · obtain ⟨l, hl⟩ := List.exists_mem_of_ne_nil _ x
              have := List.flatten_eq_nil_iff.1 ht.1 l hl
              exact (i3.one l hl).1 this
            · exact x ht.2
        | cons a0 a =>
          exact i3.nl a l b (List.cons.inj hab).2 hne
      · cases ls with
        | nil => cases r; simpa using k2 hs
        | cons l ls => exact i4 hs (by simp)

/-- **C102**: a script is read as its lines, in order, none split, joined, dropped or read twice, for
every size of the lines and of the buffers and for all ways the reads are answered.  What is left is
read by the next call, and if the script is standard input the file position is after the last line,
where commands of the script go on reading. -/
theorem script_read (stdin : Bool) {unbuf : Bool} {buf : Bytes} {w : W} (hb : buf ≠ []) (hp : w.pos ≤ w.data.length) (he : RR.err ∉ w.rs)
    (hs : stdin = true → w.seek = true ∨ unbuf = true) {cap ls s2 w2 cap2} (r : Script stdin (openR unbuf false buf) w cap ls s2 w2 cap2) :
    ∃ rest, Lines (w.data.drop w.pos) ls rest ∧ (stdin = true → w2.pos = w.pos + ls.flatten.length) ∧
    ∀ fuel, w.data.length + 1 < fuel →
      ((getscLine stdin fuel cap2 s2 w2).out = .stuck ∧ (getscLine stdin fuel cap2 s2 w2).w.rs = []) ∨
      ((getscLine stdin fuel cap2 s2 w2).out = .eof ∧ rest = []) ∨
      ((getscLine stdin fuel cap2 s2 w2).out = .abort ∧ ∃ l t, rest = l ++ t ∧ 0x0a ∉ l ∧ t.head? = some 0) ∨
      ∃ l t, (getscLine stdin fuel cap2 s2 w2).out = .line l ∧ Lines (w.data.drop w.pos) (ls ++ [l]) t := by
  have h0 : Ready stdin (openR unbuf false buf) w w.pos := by
    refine ⟨openR_inv unbuf false buf w hb hp, ⟨rfl, rfl, he⟩, fun g => ?_⟩
    rcases hs g with x | x
    · exact Or.inl x
    · subst x; exact Or.inr ⟨rfl, rfl⟩
  obtain ⟨i1, i2, i3, i4⟩ := script_inv r h0
  refine ⟨_, i3, fun g => ?_, fun fuel hf => ?_⟩
  · by_cases hl : ls = []
    · subst hl; cases r; simp
    · exact i4 g hl
  · have g := getscLine_spec stdin (cap := cap2) (fuel := fuel) i1 (by rw [i2]; exact hf)
    simp only at g
    rcases g with g | ⟨g1, g2, g3, g4⟩
    · exact Or.inl g
    · right
      rw [i2] at g1
      generalize hd : w.data.drop (w.pos + ls.flatten.length) = d at *
      by_cases hd0 : d = []
      · left
        refine ⟨by rw [g1]; simp [Line.next, hd0], hd0⟩
      · right
        by_cases hz : 0 ∈ firstLine d
        · left
          refine ⟨by rw [g1]; simp [Line.next, hd0, hz], ?_⟩
          exact nul_first hz
        · right
          have ho : (getscLine stdin fuel cap2 s2 w2).out = .line (firstLine d) := by rw [g1]; simp [Line.next, hd0, hz]
          have r2 : Script stdin s2 w2 cap2 [firstLine d] _ _ _ := Script.next (by rw [i2]; exact hf) ho (Script.nil _ _ _)
          have happ : ∀ {s w cap ls s2 w2 cap2 l s3 w3 cap3}, Script stdin s w cap ls s2 w2 cap2 → Script stdin s2 w2 cap2 l s3 w3 cap3 →
              Script stdin s w cap (ls ++ l) s3 w3 cap3 := by
            intro s w cap ls s2 w2 cap2 l s3 w3 cap3 a b
            induction a with
            | nil => exact b
            | next hf h r ih => exact Script.next hf h (ih b)
          obtain ⟨_, _, j3, _⟩ := script_inv (happ r r2) h0
          exact ⟨_, _, ho, j3⟩

/-! ## Disagreements and examples -/

def exIn (rs : List RR) : W := input [108, 115, 10, 10, 112, 119, 100] rs

-- `ls`, an empty line and `pwd` without a newline, from standard input; other readers go on after the line
example :
    let r1 := getscLine true 20 0 (openR false false [0, 0, 0, 0]) (exIn [.n 0, .intr, .n 9, .n 9, .n 9, .n 9, .n 9, .n 9])
    let r2 := getscLine true 20 r1.cap r1.shf r1.w
    let r3 := getscLine true 20 r2.cap r2.shf r2.w
    let r4 := getscLine true 20 r3.cap r3.shf r3.w
    [r1.out, r2.out, r3.out, r4.out] = [.line [108, 115, 10], .line [10], .line [112, 119, 100], .eof] ∧
    [r1.w.pos, r2.w.pos, r3.w.pos] = [3, 4, 7] := by decide +kernel

example : (getscLine false 20 0 (openR false false [0, 0, 0, 0]) (input [108, 0, 10] [.n 9, .n 9])).out = .abort := by decide +kernel

/-- On a terminal (`SHF_INTERRUPT`) a signal while a line has been read in part loses this part: of
`ls`, newline the shell reads the line `s`. -/
theorem interrupted_line_lost :
    (getscLine true 20 0 (openR false true [0, 0, 0, 0]) (input [108, 115, 10] [.n 0, .intr, .n 9])).out = .line [115, 10] := by
  decide +kernel

/-- The loop of getsc_line after a read error in a long line: the bytes at `xp` are no longer followed
by a NUL although they are used as a string. -/
theorem long_line_read_error :
    (lineLoop 20 3 [] true (openR false false [0, 0]) (input [97, 98, 99, 100, 101] [.n 1, .n 1, .err])).out = .loose := by
  decide +kernel

end Ksh.Line
