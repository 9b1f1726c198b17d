import Verif.Vi.Model
/-!
# The buffer primitives of vi mode
-/

namespace Ksh.Vi

/-- The line fits the buffer with a byte to spare and the cursor is on it or behind it. -/
structure Buf.Ok (size : Nat) (b : Buf) : Prop where
  mem : b.mem.length = size
  cur : b.cur ≤ b.len
  len : b.len < size

/-- The first byte is not a continuation byte. -/
def HeadOk (e : Env) (m : List Char) : Prop := ∀ c, m[0]? = some c → cont e c = false

variable {e : Env} {size : Nat} {b : Buf} {m : List Char}

theorem get_some {l : List Char} {i : Nat} (h : i < l.length) : ∃ c, l[i]? = some c := ⟨l[i], by simp [h]⟩

theorem memput_ok {m s : List Char} {d : Nat} (h : d + s.length ≤ m.length) :
    Emacs.memput m d s = some (m.take d ++ s ++ m.drop (d + s.length)) := by
  simp only [Emacs.memput]; rw [if_neg (by omega)]

theorem memput_len {m s : List Char} {d : Nat} (h : d + s.length ≤ m.length) :
    (m.take d ++ s ++ m.drop (d + s.length)).length = m.length := by
  simp only [List.length_append, List.length_take, List.length_drop]; omega

theorem memmove_ok {m : List Char} {d s n : Nat} (h1 : d + n ≤ m.length) (h2 : s + n ≤ m.length) :
    Emacs.memmove m d s n = some (m.take d ++ (m.drop s).take n ++ m.drop (d + n)) := by
  simp only [Emacs.memmove]; rw [if_neg (by omega)]; simp

theorem memmove_len {m : List Char} {d s n : Nat} (h1 : d + n ≤ m.length) (h2 : s + n ≤ m.length) :
    (m.take d ++ (m.drop s).take n ++ m.drop (d + n)).length = m.length := by
  simp only [List.length_append, List.length_take, List.length_drop]; omega

theorem Buf.Ok.text_len (h : b.Ok size) : b.text.length = b.len := by
  have := h.mem; have := h.len; simp only [Buf.text, List.length_take]; omega

/-- The memory is the text and what is behind it. -/
theorem Buf.Ok.split (h : b.Ok size) : ∃ j, b.mem = b.text ++ j ∧ j.length = size - b.len := by
  refine ⟨b.mem.drop b.len, by simp [Buf.text], ?_⟩
  rw [List.length_drop, h.mem]

/-- Putting `s` at `d` in the text. -/
theorem take_put {t j s : List Char} {d : Nat} (hd : d ≤ t.length) (hj : s.length ≤ j.length) :
    ∃ m1, Emacs.memmove (t ++ j) (d + s.length) d ((t.length - d : Nat) : Int) = some m1 ∧
      Emacs.memput m1 d s = some (t.take d ++ s ++ t.drop d ++ j.drop s.length) := by
  rw [memmove_ok (by simp only [List.length_append]; omega) (by simp only [List.length_append]; omega)]
  refine ⟨_, rfl, ?_⟩
  rw [memput_ok]
  · congr 1
    have h1 : ((t ++ j).drop d).take (t.length - d) = t.drop d := by
      rw [List.drop_append_of_le_length hd, List.take_left' (by simp)]
    have h2 : (t ++ j).drop (d + s.length + (t.length - d)) = j.drop s.length := by
      rw [show d + s.length + (t.length - d) = t.length + s.length by omega, List.drop_append]; simp
    rw [h1, h2]
    have h3 : ((t ++ j).take (d + s.length) ++ t.drop d ++ j.drop s.length).take d = t.take d := by
      rw [List.append_assoc, List.take_append_of_le_length (by simp only [List.length_take, List.length_append]; omega),
        List.take_take, Nat.min_eq_left (by omega), List.take_append_of_le_length hd]
    have h4 : ((t ++ j).take (d + s.length) ++ t.drop d ++ j.drop s.length).drop (d + s.length)
        = t.drop d ++ j.drop s.length := by
      rw [List.append_assoc, List.drop_left']
      simp only [List.length_take, List.length_append]; omega
    rw [h3, h4]; simp
  · simp only [List.length_append, List.length_take, List.length_drop]; omega

/-- What `putbuf` does without `repl`. -/
theorem putbuf_spec (h : b.Ok size) (s : List Char) :
    ∃ r b', putbuf b s false = some (r, b') ∧ b'.Ok size ∧
      (r = true ↔ s = [] ∨ b.len + s.length < size) ∧
      (r = false → b' = b) ∧
      (r = true → b'.text = b.text.take b.cur ++ s ++ b.text.drop b.cur ∧ b'.cur = b.cur + s.length ∧
        b'.len = b.len + s.length) ∧
      (0 < b.cur → b'.mem[0]? = b.mem[0]?) := by
  simp only [putbuf]
  by_cases hs : s = []
  · subst hs
    exact ⟨true, b, by simp, h, by simp, by simp, fun _ => by simp, fun _ => rfl⟩
  · rw [if_neg hs]
    simp only [Bool.false_eq_true, if_false]
    by_cases hr : b.len + s.length ≥ b.mem.length
    · rw [if_pos hr]
      refine ⟨false, b, rfl, h, ?_, fun _ => rfl, by simp, fun _ => rfl⟩
      rw [h.mem] at hr
      simp only [Bool.false_eq_true, false_iff, not_or]; exact ⟨hs, by omega⟩
    · rw [if_neg hr]
      rw [h.mem] at hr
      obtain ⟨j, hj, hl⟩ := h.split
      have ht := h.text_len
      have hc := h.cur
      obtain ⟨m1, e1, e2⟩ := take_put (t := b.text) (j := j) (s := s) (d := b.cur) (by omega) (by omega)
      rw [ht, ← hj] at e1
      rw [show ((b.len : Int) - b.cur) = ((b.len - b.cur : Nat) : Int) by omega]
      simp only [e1, e2]
      have hlen : (b.text.take b.cur ++ s ++ b.text.drop b.cur ++ j.drop s.length).length = size := by
        simp only [List.length_append, List.length_take, List.length_drop]; omega
      refine ⟨true, _, rfl, ⟨hlen, by simp; omega, by simp; omega⟩, ?_, by simp, ?_, ?_⟩
      · simp; right; omega
      · intro _
        refine ⟨?_, rfl, rfl⟩
        simp only [Buf.text]
        rw [List.take_left']
        simp only [List.length_append, List.length_take, List.length_drop, h.mem]; omega
      · intro h0
        simp only [List.append_assoc]
        rw [List.getElem?_append_left (by simp only [List.length_take]; omega),
          List.getElem?_take_of_lt h0, hj, List.getElem?_append_left (by omega)]

/-- What `putbuf` does with `repl`. -/
theorem putbuf_repl (h : b.Ok size) (s : List Char) :
    ∃ r b', putbuf b s true = some (r, b') ∧ b'.Ok size ∧
      (r = false → b' = b) ∧ (r = true → b'.cur = b.cur + s.length ∧ b'.len = max b.len (b.cur + s.length) ∧
        b'.text = b.text.take b.cur ++ s ++ b.text.drop (b.cur + s.length)) ∧
      (0 < b.cur → b'.mem[0]? = b.mem[0]?) := by
  have hc := h.cur
  have hl := h.len
  simp only [putbuf]
  by_cases hs : s = []
  · subst hs
    exact ⟨true, b, by simp, h, by simp, fun _ => ⟨by simp, by simp; omega, by simp⟩, fun _ => rfl⟩
  · rw [if_neg hs]
    simp only [if_true]
    by_cases hr : b.cur + s.length ≥ b.mem.length
    · rw [if_pos hr]
      exact ⟨false, b, rfl, h, fun _ => rfl, by simp, fun _ => rfl⟩
    · rw [if_neg hr]
      rw [memput_ok (by omega)]
      have hm := h.mem
      refine ⟨true, _, rfl, ⟨by rw [memput_len (by omega), h.mem], by simp; omega, by simp; omega⟩, by simp,
        fun _ => ⟨rfl, rfl, ?_⟩, ?_⟩
      · simp only [Buf.text]
        rw [List.take_take, Nat.min_eq_left hc, List.append_assoc, List.take_append, List.length_take,
          List.take_of_length_le (by simp only [List.length_take]; omega), Nat.min_eq_left (by omega), List.append_assoc]
        congr 1
        rw [List.take_append, List.take_of_length_le (by omega)]
        congr 1
        rw [List.take_drop, Nat.max_def]
        split
        · rw [show b.cur + s.length + (b.cur + s.length - b.cur - s.length) = b.cur + s.length by omega]
          simp only [List.drop_take]
          rw [show b.cur + s.length - (b.cur + s.length) = 0 by omega,
            show b.len - (b.cur + s.length) = 0 by omega]
        · rw [show b.cur + s.length + (b.len - b.cur - s.length) = b.len by omega]
      · intro h0
        simp only [List.append_assoc]
        rw [List.getElem?_append_left (by simp only [List.length_take]; omega), List.getElem?_take_of_lt h0]

/-- The place where `putbuf` at the beginning puts the first byte. -/
theorem putbuf_head (s : List Char) (repl : Bool) {r : Bool} {b' : Buf} (hp : putbuf b s repl = some (r, b'))
    (hc : b.cur = 0) (hs : ∀ c, s[0]? = some c → cont e c = false) (h0 : 0 < b'.cur) : HeadOk e b'.mem := by
  cases s with
  | nil => simp only [putbuf, if_true, Option.some.injEq, Prod.mk.injEq] at hp; rw [← hp.2, hc] at h0; omega
  | cons c s =>
    have key : ∀ m0 m : List Char, Emacs.memput m0 0 (c :: s) = some m → HeadOk e m := by
      intro m0 m hm
      simp only [Emacs.memput] at hm
      split at hm
      · cases hm
      · simp only [Option.some.injEq] at hm
        subst hm
        intro d hd
        simp at hd
        exact hs d (by simp [hd])
    simp only [putbuf, hc] at hp
    rw [if_neg (by simp)] at hp
    cases repl with
    | true =>
      simp only [if_true] at hp
      split at hp
      · simp only [Option.some.injEq, Prod.mk.injEq] at hp; rw [← hp.2, hc] at h0; omega
      · split at hp
        · cases hp
        · next m hm =>
          simp only [Option.some.injEq, Prod.mk.injEq] at hp
          rw [← hp.2]; exact key _ _ hm
    | false =>
      simp only [Bool.false_eq_true, if_false] at hp
      split at hp
      · simp only [Option.some.injEq, Prod.mk.injEq] at hp; rw [← hp.2, hc] at h0; omega
      · split at hp
        · cases hp
        · split at hp
          · cases hp
          · next m hm =>
            simp only [Option.some.injEq, Prod.mk.injEq] at hp
            rw [← hp.2]; exact key _ _ hm

/-- What `del_range` does. -/
theorem delRange_spec (h : b.Ok size) {x y : Nat} (hxy : x ≤ y) (hy : y ≤ b.len) :
    ∃ b', delRange b x y = some b' ∧ b'.mem.length = size ∧ b'.len = b.len - (y - x) ∧ b'.cur = b.cur ∧
      b'.text = b.text.take x ++ b.text.drop y ∧ (0 < x → b'.mem[0]? = b.mem[0]?) := by
  simp only [delRange]
  have hn : ((b.len : Int) - ((y : Int) - x)).toNat = b.len - (y - x) := by omega
  rw [if_neg (by omega), hn]
  obtain ⟨j, hj, hl⟩ := h.split
  have ht := h.text_len
  by_cases he : b.len = y
  · rw [if_pos he]
    refine ⟨_, rfl, h.mem, rfl, rfl, ?_, fun _ => rfl⟩
    simp only [Buf.text]
    rw [List.drop_of_length_le (by simp; omega), List.append_nil, List.take_take]
    congr 1; omega
  · rw [if_neg he]
    have hm := h.mem
    have := h.len
    rw [show (b.len : Int) - y = ((b.len - y : Nat) : Int) by omega, memmove_ok (by omega) (by omega)]
    refine ⟨_, rfl, by rw [memmove_len (by omega) (by omega), hm], rfl, rfl, ?_, ?_⟩
    · simp only [Buf.text]
      rw [List.take_left' (by simp only [List.length_append, List.length_take, List.length_drop]; omega)]
      rw [List.take_take, Nat.min_eq_left (by omega)]
      congr 1
      rw [List.drop_take]
    · intro h0
      simp only [List.append_assoc]
      rw [List.getElem?_append_left (by simp only [List.length_take]; omega), List.getElem?_take_of_lt h0]

theorem yankRange_spec (h : b.Ok size) (hcap : size ≤ e.cap) {x y : Nat} (hxy : x ≤ y) (hy : y ≤ b.len) :
    yankRange e b x y = some ((b.text.drop x).take (y - x)) := by
  simp only [yankRange]
  have := h.len; have := h.mem
  rw [if_neg (by omega), if_neg (by omega)]
  congr 1
  simp only [Buf.text]
  rw [List.drop_take, List.take_take, Nat.min_eq_left (by omega)]

theorem backCont_spec (hh : HeadOk e m) : ∀ {n : Nat}, 0 < n → n ≤ m.length → ∃ x, backCont e m n = some x ∧ x < n := by
  intro n
  induction n with
  | zero => intro h; omega
  | succ n ih =>
    intro _ hn
    obtain ⟨c, hc⟩ := get_some (l := m) (i := n) (by omega)
    simp only [backCont, hc]
    cases n with
    | zero => rw [hh c hc]; exact ⟨0, by simp, by omega⟩
    | succ n =>
      by_cases hcc : cont e c = true
      · rw [if_pos hcc]
        obtain ⟨x, h1, h2⟩ := ih (by omega) (by omega)
        exact ⟨x, h1, by omega⟩
      · rw [if_neg hcc]; exact ⟨_, rfl, by omega⟩

theorem backSafe_spec : ∀ (n : Nat), n ≤ m.length → ∃ x, backSafe e m n = some x ∧ x ≤ n - 1 := by
  intro n
  induction n with
  | zero => intro _; exact ⟨0, rfl, by omega⟩
  | succ n ih =>
    intro hn
    obtain ⟨c, hc⟩ := get_some (l := m) (i := n) (by omega)
    simp only [backSafe, hc]
    by_cases hcc : cont e c = true
    · rw [if_pos hcc]
      obtain ⟨x, h1, h2⟩ := ih (by omega)
      exact ⟨x, h1, by omega⟩
    · rw [if_neg hcc]; exact ⟨_, rfl, by omega⟩

theorem backFrom_spec : ∀ (n : Nat), n < m.length → ∃ x, backFrom e m n = some x ∧ x ≤ n := by
  intro n
  induction n with
  | zero => intro _; exact ⟨0, rfl, by omega⟩
  | succ n ih =>
    intro hn
    obtain ⟨c, hc⟩ := get_some (l := m) (i := n+1) (by omega)
    simp only [backFrom, hc]
    by_cases hcc : cont e c = true
    · rw [if_pos hcc]
      obtain ⟨x, h1, h2⟩ := ih (by omega)
      exact ⟨x, h1, by omega⟩
    · rw [if_neg hcc]; exact ⟨_, rfl, by omega⟩

theorem backBar_spec (hh : HeadOk e m) : ∀ (n : Nat), n < m.length → ∃ x, backBar e m n = some x ∧ x ≤ n := by
  intro n
  induction n with
  | zero =>
    intro hn
    obtain ⟨c, hc⟩ := get_some hn
    simp only [backBar, hc]
    rw [hh c hc]; exact ⟨0, by simp, by omega⟩
  | succ n ih =>
    intro hn
    obtain ⟨c, hc⟩ := get_some (l := m) (i := n+1) (by omega)
    simp only [backBar, hc]
    by_cases hcc : cont e c = true
    · rw [if_pos hcc]
      obtain ⟨x, h1, h2⟩ := ih (by omega)
      exact ⟨x, h1, by omega⟩
    · rw [if_neg hcc]; exact ⟨_, rfl, by omega⟩

/-- The skipping of continuation bytes ends where a byte is none. -/
theorem skipCont_spec : ∀ (l : List Char) (i k : Nat), (∃ c, l[k]? = some c ∧ cont e c = false) →
    ∃ x, skipCont e l i = some x ∧ i ≤ x ∧ x ≤ i + k := by
  intro l
  induction l with
  | nil => intro i k ⟨c, hc, _⟩; simp at hc
  | cons d l ih =>
    intro i k ⟨c, hc, hcc⟩
    simp only [skipCont]
    cases hd : cont e d with
    | false => exact ⟨i, by simp, by omega, by omega⟩
    | true =>
      cases k with
      | zero => simp at hc; subst hc; rw [hd] at hcc; cases hcc
      | succ k =>
        obtain ⟨x, h1, h2, h3⟩ := ih (i+1) k ⟨c, by simpa using hc, hcc⟩
        exact ⟨x, by simpa using h1, by omega, by omega⟩

theorem fwdSafe_spec {len : Nat} (hl : len < m.length) : ∀ (k : Nat), k ≤ len →
    ∃ x, fwdSafe e m len k = some x ∧ x ≤ len ∧ (0 < k → len - k < x) := by
  intro k
  induction k with
  | zero => intro _; exact ⟨len, rfl, by omega, by omega⟩
  | succ k ih =>
    intro hk
    obtain ⟨c, hc⟩ := get_some (l := m) (i := len - k) (by omega)
    simp only [fwdSafe, hc]
    by_cases hcc : cont e c = true
    · rw [if_pos hcc]
      obtain ⟨x, h1, h2, h3⟩ := ih (by omega)
      refine ⟨x, h1, h2, fun _ => ?_⟩
      by_cases h0 : 0 < k
      · have := h3 h0; omega
      · have : k = 0 := by omega
        subst this
        simp only [fwdSafe, Option.some.injEq] at h1; omega
    · rw [if_neg hcc]; exact ⟨_, rfl, by omega, by omega⟩

theorem cntUp_spec {len : Nat} (hl : len ≤ m.length) : ∀ (k a : Nat), k ≤ len →
    ∃ x, cntUp e m len k a = some x ∧ len - k ≤ x ∧ x ≤ len := by
  intro k
  induction k with
  | zero => intro a _; exact ⟨len, rfl, by omega, by omega⟩
  | succ k ih =>
    intro a hk
    obtain ⟨c, hc⟩ := get_some (l := m) (i := len - (k+1)) (by omega)
    simp only [cntUp, hc]
    by_cases hcc : cont e c = true
    · rw [if_pos hcc]
      obtain ⟨x, h1, h2, h3⟩ := ih a (by omega)
      exact ⟨x, h1, by omega, h3⟩
    · rw [if_neg hcc]
      cases a with
      | zero => exact ⟨_, rfl, by omega, by omega⟩
      | succ a =>
        obtain ⟨x, h1, h2, h3⟩ := ih a (by omega)
        exact ⟨x, h1, by omega, h3⟩

theorem right_spec {len cur : Nat} (hl : len ≤ m.length) (hc : cur ≤ len) (a : Nat) :
    ∃ x, right e m len cur a = some x ∧ x ≤ len := by
  cases a with
  | zero => exact ⟨cur, rfl, hc⟩
  | succ a =>
    simp only [right]
    split
    · obtain ⟨x, h1, _, h3⟩ := cntUp_spec (e := e) hl (len - cur - 1) a (by omega)
      exact ⟨x, h1, h3⟩
    · exact ⟨cur, rfl, hc⟩

theorem cntDown_spec : ∀ (n a : Nat), n < m.length → ∃ x, cntDown e m n a = some x ∧ x ≤ n := by
  intro n
  induction n with
  | zero => intro a _; exact ⟨0, rfl, by omega⟩
  | succ n ih =>
    intro a hn
    obtain ⟨c, hc⟩ := get_some (l := m) (i := n+1) (by omega)
    simp only [cntDown, hc]
    by_cases hcc : cont e c = true
    · rw [if_pos hcc]
      obtain ⟨x, h1, h2⟩ := ih a (by omega)
      exact ⟨x, h1, by omega⟩
    · rw [if_neg hcc]
      cases a with
      | zero => exact ⟨_, rfl, by omega⟩
      | succ a =>
        obtain ⟨x, h1, h2⟩ := ih a (by omega)
        exact ⟨x, h1, by omega⟩

/-- At least as many bytes as characters are counted; with enough characters one more than the
count is seen unless the line ends. -/
theorem repCount_spec {len a : Nat} (hl : len ≤ m.length) : ∀ (k c1 : Nat), k ≤ len → c1 ≤ a →
    ∃ x c2, repCount e m len a k c1 = some (x, c2) ∧ len - k ≤ x ∧ x ≤ len ∧ min c2 a - c1 ≤ x - (len - k) := by
  intro k
  induction k with
  | zero => intro c1 _ _; exact ⟨len, c1, rfl, by omega, by omega, by omega⟩
  | succ k ih =>
    intro c1 hk hc1
    obtain ⟨c, hc⟩ := get_some (l := m) (i := len - (k+1)) (by omega)
    simp only [repCount, hc]
    by_cases hcc : cont e c = true
    · simp only [hcc, if_true]
      rw [if_neg (by omega)]
      obtain ⟨x, c2, h1, h2, h3, h4⟩ := ih c1 (by omega) hc1
      exact ⟨x, c2, h1, by omega, h3, by omega⟩
    · simp only [hcc]
      by_cases hg : c1 + 1 > a
      · simp only [Bool.false_eq_true, if_false]
        rw [if_pos hg]; exact ⟨_, _, rfl, by omega, by omega, by omega⟩
      · simp only [Bool.false_eq_true, if_false]
        rw [if_neg hg]
        obtain ⟨x, c2, h1, h2, h3, h4⟩ := ih (c1+1) (by omega) (by omega)
        exact ⟨x, c2, h1, by omega, h3, by omega⟩

/-! ## Words and other moves -/

theorem scanUp_spec (p : Char → Bool) {len : Nat} (hl : len ≤ m.length) : ∀ (k : Nat), k ≤ len →
    ∃ x, scanUp p m len k = some x ∧ len - k ≤ x ∧ x ≤ len := by
  intro k
  induction k with
  | zero => intro _; exact ⟨len, rfl, by omega, by omega⟩
  | succ k ih =>
    intro hk
    obtain ⟨c, hc⟩ := get_some (l := m) (i := len - (k+1)) (by omega)
    simp only [scanUp, hc]
    split
    · obtain ⟨x, h1, h2, h3⟩ := ih (by omega)
      exact ⟨x, h1, by omega, h3⟩
    · exact ⟨_, rfl, by omega, by omega⟩

theorem scanDown_spec (p : Char → Bool) : ∀ (n : Nat), n ≤ m.length → ∃ x, scanDown p m n = some x ∧ x ≤ n := by
  intro n
  induction n with
  | zero => intro _; exact ⟨0, rfl, by omega⟩
  | succ n ih =>
    intro hn
    obtain ⟨c, hc⟩ := get_some (l := m) (i := n) (by omega)
    simp only [scanDown, hc]
    split
    · obtain ⟨x, h1, h2⟩ := ih (by omega)
      exact ⟨x, h1, by omega⟩
    · exact ⟨_, rfl, by omega⟩

theorem fwInner_spec {len : Nat} (hl : len ≤ m.length) : ∀ (k : Nat) (sk : Bool) (w : Option Bool), k ≤ len →
    ∃ x, fwInner m len k sk w = some x ∧ len - k ≤ x ∧ x ≤ len ∧ (sk = false → w = none → 0 < k → len - k < x) := by
  intro k
  induction k with
  | zero => intro sk w _; exact ⟨len, rfl, by omega, by omega, by omega⟩
  | succ k ih =>
    intro sk w hk
    obtain ⟨c, hc⟩ := get_some (l := m) (i := len - (k+1)) (by omega)
    have hrec : ∀ sk' w', ∃ x, fwInner m len k sk' w' = some x ∧ len - (k+1) ≤ x ∧ x ≤ len ∧
        (sk = false → w = none → 0 < k+1 → len - (k+1) < x) := by
      intro sk' w'
      obtain ⟨x, h1, h2, h3, _⟩ := ih sk' w' (by omega)
      exact ⟨x, h1, by omega, h3, fun _ _ _ => by omega⟩
    simp only [fwInner, hc]
    split
    · exact hrec _ _
    · split
      · next h => exact ⟨_, rfl, by omega, by omega, fun h' => by rw [h'] at h; cases h⟩
      · split
        · exact hrec _ _
        · cases w with
          | none => exact hrec _ _
          | some w =>
            simp only
            split
            · exact ⟨_, rfl, by omega, by omega, fun _ h' => by cases h'⟩
            · exact hrec _ _

theorem forwword_spec {len : Nat} (hl : len ≤ m.length) : ∀ (n nc : Nat), nc ≤ len →
    ∃ x, forwword m len n nc = some x ∧ nc ≤ x ∧ x ≤ len ∧ (1 ≤ n → nc < len → nc < x) := by
  intro n
  induction n with
  | zero => intro nc h; exact ⟨nc, rfl, by omega, h, by omega⟩
  | succ n ih =>
    intro nc h
    simp only [forwword]
    split
    · next hlt =>
      obtain ⟨x, h1, h2, h3, h4⟩ := fwInner_spec hl (len - nc) false none (by omega)
      obtain ⟨y, g1, g2, g3, _⟩ := ih x h3
      have := h4 rfl rfl (by omega)
      simp only [h1]
      exact ⟨y, g1, by omega, g3, by omega⟩
    · exact ⟨nc, rfl, by omega, h, by omega⟩

theorem bwInner_spec : ∀ (n : Nat) (sk : Bool) (w : Option Bool), n ≤ m.length →
    ∃ x, bwInner m n sk w = some x ∧ x ≤ n := by
  intro n
  induction n with
  | zero => intro sk w _; exact ⟨0, rfl, by omega⟩
  | succ n ih =>
    intro sk w hn
    obtain ⟨c, hc⟩ := get_some (l := m) (i := n) (by omega)
    have hrec : ∀ sk' w', ∃ x, bwInner m n sk' w' = some x ∧ x ≤ n + 1 := by
      intro sk' w'
      obtain ⟨x, h1, h2⟩ := ih sk' w' (by omega)
      exact ⟨x, h1, by omega⟩
    simp only [bwInner, hc]
    split
    · split
      · exact hrec _ _
      · exact ⟨_, rfl, by omega⟩
    · split
      · exact hrec _ _
      · cases w with
        | none => exact hrec _ _
        | some w =>
          simp only
          split
          · exact ⟨_, rfl, by omega⟩
          · exact hrec _ _

theorem backword_spec : ∀ (n nc : Nat), nc ≤ m.length → ∃ x, backword m n nc = some x ∧ x ≤ nc := by
  intro n
  induction n with
  | zero => intro nc _; exact ⟨nc, rfl, by omega⟩
  | succ n ih =>
    intro nc h
    simp only [backword]
    split
    · obtain ⟨x, h1, h2⟩ := bwInner_spec nc true none h
      obtain ⟨y, g1, g2⟩ := ih x (by omega)
      simp only [h1]
      exact ⟨y, g1, by omega⟩
    · exact ⟨nc, rfl, by omega⟩

theorem ewInner_spec {len : Nat} (hl : len ≤ m.length) : ∀ (k : Nat) (sk : Bool) (w : Option Bool), k ≤ len →
    ∃ x, ewInner m len k sk w = some x ∧ len - k ≤ x ∧ x ≤ len := by
  intro k
  induction k with
  | zero => intro sk w _; exact ⟨len, rfl, by omega, by omega⟩
  | succ k ih =>
    intro sk w hk
    obtain ⟨c, hc⟩ := get_some (l := m) (i := len - (k+1)) (by omega)
    have hrec : ∀ sk' w', ∃ x, ewInner m len k sk' w' = some x ∧ len - (k+1) ≤ x ∧ x ≤ len := by
      intro sk' w'
      obtain ⟨x, h1, h2, h3⟩ := ih sk' w' (by omega)
      exact ⟨x, h1, by omega, h3⟩
    simp only [ewInner, hc]
    split
    · split
      · exact hrec _ _
      · exact ⟨_, rfl, by omega, by omega⟩
    · split
      · exact hrec _ _
      · cases w with
        | none => exact hrec _ _
        | some w =>
          simp only
          split
          · exact ⟨_, rfl, by omega, by omega⟩
          · exact hrec _ _

theorem endword_spec {len : Nat} (hl : len ≤ m.length) : ∀ (n nc : Nat), nc ≤ len →
    ∃ x, endword m len n nc = some x ∧ nc ≤ x ∧ x ≤ len ∧ (1 ≤ n → nc < len → nc < x) := by
  intro n
  induction n with
  | zero => intro nc h; exact ⟨nc, rfl, by omega, h, by omega⟩
  | succ n ih =>
    intro nc h
    simp only [endword]
    split
    · obtain ⟨x, h1, h2, h3⟩ := ewInner_spec hl (len - (nc+1)) true none (by omega)
      obtain ⟨y, g1, g2, g3, _⟩ := ih x h3
      simp only [h1]
      exact ⟨y, g1, by omega, g3, by omega⟩
    · exact ⟨nc, rfl, by omega, h, by omega⟩

theorem Forwword_spec {len : Nat} (hl : len < m.length) : ∀ (n nc : Nat), nc ≤ len →
    ∃ x, Forwword m len n nc = some x ∧ nc ≤ x ∧ x ≤ len := by
  intro n
  induction n with
  | zero => intro nc h; exact ⟨nc, rfl, by omega, h⟩
  | succ n ih =>
    intro nc h
    simp only [Forwword]
    split
    · obtain ⟨c, hc⟩ := get_some hl
      rw [if_neg (by rw [hc]; simp)]
      obtain ⟨x, h1, h2, h3⟩ := scanUp_spec (fun c => !space c) (Nat.le_of_lt hl) (len - nc) (by omega)
      obtain ⟨y, g1, g2, g3⟩ := scanUp_spec space (Nat.le_of_lt hl) (len - x) (by omega)
      obtain ⟨z, k1, k2, k3⟩ := ih y g3
      simp only [h1, g1]
      exact ⟨z, k1, by omega, k3⟩
    · exact ⟨nc, rfl, by omega, h⟩

/-- From a character that is not blank `Forwword` moves. -/
theorem Forwword_lt {len : Nat} (hl : len < m.length) {n nc : Nat} (hn : 1 ≤ n) (hc : nc < len)
    (hs : ∀ c, m[nc]? = some c → space c = false) {x : Nat} (hx : Forwword m len n nc = some x) : nc < x := by
  obtain ⟨n, rfl⟩ : ∃ k, n = k + 1 := ⟨n - 1, by omega⟩
  simp only [Forwword] at hx
  rw [if_pos hc] at hx
  obtain ⟨c, hcl⟩ := get_some hl
  rw [if_neg (by rw [hcl]; simp)] at hx
  obtain ⟨d, hd⟩ := get_some (l := m) (i := nc) (by omega)
  obtain ⟨x1, h1, h2, h3⟩ := scanUp_spec (fun c => !space c) (Nat.le_of_lt hl) (len - nc) (by omega)
  have hlt : nc < x1 := by
    obtain ⟨k, hk⟩ : ∃ k, len - nc = k + 1 := ⟨len - nc - 1, by omega⟩
    rw [hk] at h1
    simp only [scanUp] at h1
    rw [show len - (k+1) = nc by omega, hd] at h1
    simp only [hs d hd, Bool.not_false, if_true] at h1
    obtain ⟨y, g1, g2, g3⟩ := scanUp_spec (fun c => !space c) (Nat.le_of_lt hl) k (by omega)
    rw [g1] at h1
    simp only [Option.some.injEq] at h1
    omega
  obtain ⟨y, g1, g2, g3⟩ := scanUp_spec space (Nat.le_of_lt hl) (len - x1) (by omega)
  obtain ⟨z, k1, k2, k3⟩ := Forwword_spec hl n y g3
  rw [h1] at hx
  simp only [g1] at hx
  rw [k1] at hx
  simp only [Option.some.injEq] at hx
  omega

theorem Backword_spec : ∀ (n nc : Nat), nc ≤ m.length → ∃ x, Backword m n nc = some x ∧ x ≤ nc := by
  intro n
  induction n with
  | zero => intro nc _; exact ⟨nc, rfl, by omega⟩
  | succ n ih =>
    intro nc h
    simp only [Backword]
    split
    · obtain ⟨x, h1, h2⟩ := scanDown_spec space nc h
      obtain ⟨y, g1, g2⟩ := scanDown_spec (m := m) (fun c => !space c) x (by omega)
      obtain ⟨z, k1, k2⟩ := ih y (by omega)
      simp only [h1, g1]
      exact ⟨z, k1, by omega⟩
    · exact ⟨nc, rfl, by omega⟩

theorem Endword_spec {len : Nat} (hl : len ≤ m.length) : ∀ (n nc : Nat), nc ≤ len →
    ∃ x, Endword m len n nc = some x ∧ nc ≤ x ∧ x ≤ len ∧ (1 ≤ n → nc < len → nc < x) := by
  intro n
  induction n with
  | zero => intro nc h; exact ⟨nc, rfl, by omega, h, by omega⟩
  | succ n ih =>
    intro nc h
    simp only [Endword]
    split
    · obtain ⟨x, h1, h2, h3⟩ := scanUp_spec space hl (len - (nc+1)) (by omega)
      obtain ⟨y, g1, g2, g3⟩ := scanUp_spec (fun c => !space c) hl (len - x) (by omega)
      obtain ⟨z, k1, k2, k3, _⟩ := ih y g3
      simp only [h1, g1]
      exact ⟨z, k1, by omega, k3, by omega⟩
    · exact ⟨nc, rfl, by omega, h, by omega⟩

theorem findUp_spec {len : Nat} (ch : Char) (hl : len ≤ m.length) : ∀ (k : Nat), k ≤ len →
    ∃ r, findUp m len ch k = some r ∧ ∀ x, r = some x → len - k ≤ x ∧ x < len := by
  intro k
  induction k with
  | zero => intro _; exact ⟨none, rfl, by simp⟩
  | succ k ih =>
    intro hk
    obtain ⟨c, hc⟩ := get_some (l := m) (i := len - (k+1)) (by omega)
    simp only [findUp, hc]
    split
    · obtain ⟨r, h1, h2⟩ := ih (by omega)
      exact ⟨r, h1, fun x hx => by have := h2 x hx; omega⟩
    · exact ⟨_, rfl, fun x hx => by simp only [Option.some.injEq] at hx; omega⟩

theorem findDown_spec (ch : Char) : ∀ (n : Nat), n ≤ m.length →
    ∃ r, findDown m ch n = some r ∧ ∀ x, r = some x → x < n := by
  intro n
  induction n with
  | zero => intro _; exact ⟨none, rfl, by simp⟩
  | succ n ih =>
    intro hn
    obtain ⟨c, hc⟩ := get_some (l := m) (i := n) (by omega)
    simp only [findDown, hc]
    split
    · obtain ⟨r, h1, h2⟩ := ih (by omega)
      exact ⟨r, h1, fun x hx => by have := h2 x hx; omega⟩
    · exact ⟨_, rfl, fun x hx => by simp only [Option.some.injEq] at hx; omega⟩

theorem findLoop_spec {len : Nat} (ch : Char) (forw : Bool) (hl : len ≤ m.length) : ∀ (n nc : Nat), nc < len →
    ∃ r, findLoop m len ch forw n nc = some r ∧
      ∀ x, r = some x → x < len ∧ (forw = true → nc ≤ x ∧ (1 ≤ n → nc < x)) ∧ (forw = false → x ≤ nc ∧ (1 ≤ n → x < nc)) := by
  intro n
  induction n with
  | zero =>
    intro nc h
    refine ⟨some nc, rfl, fun x hx => ?_⟩
    simp only [Option.some.injEq] at hx
    subst hx
    exact ⟨h, fun _ => ⟨by omega, by omega⟩, fun _ => ⟨by omega, by omega⟩⟩
  | succ n ih =>
    intro nc h
    simp only [findLoop]
    cases forw with
    | true =>
      simp only [if_true]
      rw [if_neg (by omega)]
      obtain ⟨r, h1, h2⟩ := findUp_spec (m := m) ch hl (len - (nc+1)) (by omega)
      simp only [h1]
      cases r with
      | none => exact ⟨none, rfl, by simp⟩
      | some x =>
        have := h2 x rfl
        obtain ⟨r', g1, g2⟩ := ih x (by omega)
        refine ⟨r', g1, fun y hy => ?_⟩
        obtain ⟨a1, a2, _⟩ := g2 y hy
        have := (a2 rfl).1
        exact ⟨a1, fun _ => ⟨by omega, by omega⟩, fun h => by cases h⟩
    | false =>
      simp only [Bool.false_eq_true, if_false]
      obtain ⟨r, h1, h2⟩ := findDown_spec (m := m) ch nc (by omega)
      simp only [h1]
      cases r with
      | none => exact ⟨none, rfl, by simp⟩
      | some x =>
        have := h2 x rfl
        obtain ⟨r', g1, g2⟩ := ih x (by omega)
        refine ⟨r', g1, fun y hy => ?_⟩
        obtain ⟨a1, _, a2⟩ := g2 y hy
        have := (a2 rfl).1
        exact ⟨a1, (fun h => by cases h), fun _ => ⟨by omega, by omega⟩⟩

theorem findch_spec (h : b.Ok size) (hc : b.cur < b.len ∨ b.len = 0) (ch : Char) {n : Nat} (hn : 1 ≤ n) (forw incl : Bool) :
    ∃ r, findch b ch n forw incl = some r ∧ ∀ x, r = some x → x < b.len := by
  have := h.mem; have := h.len
  simp only [findch]
  split
  · exact ⟨none, rfl, by simp⟩
  · obtain ⟨r, h1, h2⟩ := findLoop_spec (m := b.mem) ch forw (len := b.len) (by omega) n b.cur (by omega)
    simp only [h1]
    cases r with
    | none => exact ⟨none, rfl, by simp⟩
    | some x =>
      obtain ⟨a1, a2, a3⟩ := h2 x rfl
      cases incl with
      | true => exact ⟨some x, by simp, fun y hy => by simp only [Option.some.injEq] at hy; omega⟩
      | false =>
        cases forw with
        | true =>
          have := (a2 rfl).2 hn
          simp only [Bool.false_eq_true, if_false, if_true]
          rw [if_neg (by omega)]
          exact ⟨_, rfl, fun y hy => by simp only [Option.some.injEq] at hy; omega⟩
        | false =>
          have := (a3 rfl).2 hn
          exact ⟨some (x+1), by simp, fun y hy => by simp only [Option.some.injEq] at hy; omega⟩

theorem brUp_spec {len : Nat} (i : Int) (hl : len ≤ m.length) : ∀ (k d : Nat), k ≤ len →
    ∃ r, brUp m len i k d = some r ∧ ∀ x, r = some x → x < len := by
  intro k
  induction k with
  | zero => intro d _; exact ⟨none, rfl, by simp⟩
  | succ k ih =>
    intro d hk
    obtain ⟨c, hc⟩ := get_some (l := m) (i := len - (k+1)) (by omega)
    simp only [brUp, hc]
    split
    · exact ih _ (by omega)
    · split
      · split
        · exact ⟨_, rfl, fun x hx => by simp only [Option.some.injEq] at hx; omega⟩
        · exact ih _ (by omega)
      · exact ih _ (by omega)

theorem brDown_spec (i : Int) : ∀ (n d : Nat), n ≤ m.length →
    ∃ r, brDown m i n d = some r ∧ ∀ x, r = some x → x < n := by
  intro n
  induction n with
  | zero => intro d _; exact ⟨none, rfl, by simp⟩
  | succ n ih =>
    intro d hn
    obtain ⟨c, hc⟩ := get_some (l := m) (i := n) (by omega)
    have hrec : ∀ d', ∃ r, brDown m i n d' = some r ∧ ∀ x, r = some x → x < n + 1 := by
      intro d'
      obtain ⟨r, h1, h2⟩ := ih d' (by omega)
      exact ⟨r, h1, fun x hx => by have := h2 x hx; omega⟩
    simp only [brDown, hc]
    split
    · exact hrec _
    · split
      · split
        · exact ⟨_, rfl, fun x hx => by simp only [Option.some.injEq] at hx; omega⟩
        · exact hrec _
      · exact hrec _

theorem percent_spec (h : b.Ok size) (sub : Bool) :
    ∃ r, percent b sub = some r ∧ ∀ x, r = some x → x ≤ b.len ∧ (sub = false → x < b.len) := by
  have hm := h.mem; have hl := h.len; have hc := h.cur
  obtain ⟨x, h1, h2, h3⟩ := scanUp_spec (m := b.mem) (fun c => bracktype c = 0) (len := b.len) (by omega) (b.len - b.cur) (by omega)
  simp only [percent, h1]
  split
  · exact ⟨none, rfl, by simp⟩
  · obtain ⟨c, hc⟩ := get_some (l := b.mem) (i := x) (by omega)
    simp only [hc]
    split
    · obtain ⟨r, g1, g2⟩ := brUp_spec (m := b.mem) (bracktype c) (len := b.len) (by omega) (b.len - (x+1)) 1 (by omega)
      simp only [g1]
      cases r with
      | none => exact ⟨none, rfl, by simp⟩
      | some y =>
        have := g2 y rfl
        refine ⟨_, rfl, fun z hz => ?_⟩
        simp only [Option.some.injEq] at hz
        cases sub
        · simp at hz; exact ⟨by omega, fun _ => by omega⟩
        · simp at hz; exact ⟨by omega, fun h => by cases h⟩
    · obtain ⟨r, g1, g2⟩ := brDown_spec (m := b.mem) (bracktype c) x 1 (by omega)
      exact ⟨r, g1, fun z hz => by have := g2 z hz; exact ⟨by omega, fun _ => by omega⟩⟩

theorem guardMove_spec {P : Nat → Prop} {g : Bool} {r : Option Nat} (h : g = false → ∃ x, r = some x ∧ P x) :
    ∃ q, guardMove g r = some q ∧ ∀ x, q = some x → P x := by
  cases g with
  | true => exact ⟨none, rfl, by simp⟩
  | false =>
    obtain ⟨x, h1, h2⟩ := h rfl
    exact ⟨some x, by simp [guardMove, h1], fun y hy => by simp only [Option.some.injEq] at hy; subst hy; exact h2⟩

/-- Every move stays on the line. -/
theorem domove_spec {s : Ed} (h : s.es.Ok size) (hc : s.es.cur < s.es.len ∨ s.es.len = 0) (hh : HeadOk e s.es.mem)
    {n : Nat} {c : Char} (hn : 1 ≤ n ∨ mkind c = .bar) (sub : Bool) :
    ∃ r, domove e s n c sub = some r ∧ ∀ x, r = some x → x ≤ s.es.len := by
  have hm := h.mem; have hl := h.len; have hcl := h.cur
  have hfind : mkind c = .find ∨ mkind c = .again → ∃ r, findMove s n c sub = some r ∧ ∀ x, r = some x → x ≤ s.es.len := by
    intro hk
    have hn' : 1 ≤ n := by rcases hn with h | h; · exact h
                           · rw [h] at hk; simp at hk
    simp only [findMove]
    split
    · exact ⟨none, rfl, by simp⟩
    · obtain ⟨r, g1, g2⟩ := findch_spec h hc s.fch hn' ((decide (s.fcmd.toNat > 'a'.toNat)) != (decide (c = ','))) (decide (s.fcmd = 'f') || decide (s.fcmd = 'F'))
      simp only [g1]
      cases r with
      | none => exact ⟨none, rfl, by simp⟩
      | some y =>
        have := g2 y rfl
        refine ⟨_, rfl, fun z hz => ?_⟩
        simp only [Option.some.injEq] at hz
        split at hz <;> omega
  simp only [domove]
  have hn1 : mkind c ≠ .bar → 1 ≤ n := fun hk => hn.resolve_right hk
  cases hk : mkind c with
  | b =>
    obtain ⟨x, h1, h2⟩ := backword_spec (m := s.es.mem) n s.es.cur (by omega)
    exact guardMove_spec (fun _ => ⟨x, h1, by omega⟩)
  | B =>
    obtain ⟨x, h1, h2⟩ := Backword_spec (m := s.es.mem) n s.es.cur (by omega)
    exact guardMove_spec (fun _ => ⟨x, h1, by omega⟩)
  | e =>
    obtain ⟨x, h1, h2, h3, h4⟩ := endword_spec (m := s.es.mem) (len := s.es.len) (by omega) n s.es.cur hcl
    refine guardMove_spec (fun hg => ?_)
    simp only [h1, Option.bind_some]
    cases sub with
    | true => exact ⟨x, by simp, h3⟩
    | false =>
      simp only [Bool.not_false, Bool.true_and, decide_eq_false_iff_not] at hg
      have := h4 (hn1 (by rw [hk]; simp)) (by omega)
      obtain ⟨y, g1, g2⟩ := backCont_spec hh (n := x) (by omega) (by omega)
      exact ⟨y, by simpa using g1, by omega⟩
  | E =>
    obtain ⟨x, h1, h2, h3, h4⟩ := Endword_spec (m := s.es.mem) (len := s.es.len) (by omega) n s.es.cur hcl
    refine guardMove_spec (fun hg => ?_)
    simp only [h1, Option.bind_some]
    cases sub with
    | true => exact ⟨x, by simp, h3⟩
    | false =>
      simp only [Bool.not_false, Bool.true_and, decide_eq_false_iff_not] at hg
      have := h4 (hn1 (by rw [hk]; simp)) (by omega)
      obtain ⟨y, g1, g2⟩ := backCont_spec hh (n := x) (by omega) (by omega)
      exact ⟨y, by simpa using g1, by omega⟩
  | find => exact hfind (.inl hk)
  | again => exact hfind (.inr hk)
  | left =>
    obtain ⟨x, h1, h2⟩ := cntDown_spec (e := e) (m := s.es.mem) s.es.cur n (by omega)
    exact guardMove_spec (fun _ => ⟨x, h1, by omega⟩)
  | right =>
    obtain ⟨x, h1, h2⟩ := right_spec (e := e) (m := s.es.mem) (len := s.es.len) (by omega) hcl n
    exact guardMove_spec (fun _ => ⟨x, h1, by omega⟩)
  | w =>
    obtain ⟨x, h1, h2, h3, _⟩ := forwword_spec (m := s.es.mem) (len := s.es.len) (by omega) n s.es.cur hcl
    exact guardMove_spec (fun _ => ⟨x, h1, h3⟩)
  | W =>
    obtain ⟨x, h1, h2, h3⟩ := Forwword_spec (m := s.es.mem) (len := s.es.len) (by omega) n s.es.cur hcl
    exact guardMove_spec (fun _ => ⟨x, h1, h3⟩)
  | zero => exact ⟨some 0, rfl, fun x hx => by simp only [Option.some.injEq] at hx; omega⟩
  | caret =>
    obtain ⟨x, h1, h2, h3⟩ := scanUp_spec (m := s.es.mem) space (len := s.es.len - 1) (by omega) (s.es.len - 1) (by omega)
    exact ⟨some x, by simp [h1], fun y hy => by simp only [Option.some.injEq] at hy; omega⟩
  | bar =>
    obtain ⟨x, h1, h2⟩ := backBar_spec hh (min n s.es.len - 1) (by omega)
    exact ⟨some x, by simp [h1], fun y hy => by simp only [Option.some.injEq] at hy; omega⟩
  | dollar => exact ⟨some s.es.len, rfl, fun x hx => by simp only [Option.some.injEq] at hx; omega⟩
  | pct =>
    obtain ⟨r, h1, h2⟩ := percent_spec h sub
    exact ⟨r, h1, fun x hx => (h2 x hx).1⟩
  | bad => exact ⟨none, rfl, by simp⟩

end Ksh.Vi
