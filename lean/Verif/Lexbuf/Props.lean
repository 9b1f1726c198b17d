import Verif.Lexbuf.Model

/-!
# C152: the lexer writes inside of its buffer
-/
namespace Ksh.Lexbuf

theorem evs_append : ∀ (l m : List Ev) (b : Buf), evs (l ++ m) b = (evs l b).bind (evs m)
  | [], m, b => rfl
  | e :: l, m, b => by
    simp only [List.cons_append, evs]
    cases ev b e with
    | none => rfl
    | some b' => exact evs_append l m b'

/-- At most `k` bytes are in the part behind the length, and the length is not zero. -/
def Over (k : Nat) (b : Buf) : Prop := b.pos ≤ b.len + k ∧ 0 < b.len

/-- From any state with at most `k` bytes behind the length the path does not fault and leaves at most `k'`. -/
def Safe (k : Nat) (l : List Ev) (k' : Nat) : Prop := ∀ b, Over k b → ∃ b', evs l b = some b' ∧ Over k' b'

theorem Safe.nil (k : Nat) : Safe k [] k := fun b h => ⟨b, rfl, h⟩

theorem Safe.mono {j k k' j' : Nat} {l : List Ev} (h : Safe k l k') (a : j ≤ k) (c : k' ≤ j') : Safe j l j' := by
  intro b hb
  obtain ⟨b', e, o⟩ := h b ⟨by have := hb.1; omega, hb.2⟩
  exact ⟨b', e, by have := o.1; omega, o.2⟩

theorem Safe.append {k k' k'' : Nat} {l m : List Ev} (h : Safe k l k') (g : Safe k' m k'') : Safe k (l ++ m) k'' := by
  intro b hb
  obtain ⟨b', e, o⟩ := h b hb
  obtain ⟨b'', e', o'⟩ := g b' o
  exact ⟨b'', by simp [evs_append, e, e'], o'⟩

theorem Safe.cons {k k' k'' : Nat} {a : Ev} {m : List Ev} (h : Safe k [a] k') (g : Safe k' m k'') : Safe k (a :: m) k'' :=
  Safe.append h g

theorem safe_put {k : Nat} (h : k < X_EXTRA) : Safe k [.put] (k + 1) := by
  intro b hb
  obtain ⟨h1, h2⟩ := hb
  refine ⟨{ b with pos := b.pos + 1 }, ?_, ?_, h2⟩
  · simp only [evs, ev]
    rw [if_pos (by omega)]
  · show b.pos + 1 ≤ b.len + (k + 1)
    omega

theorem safe_move {k : Nat} (h : k < X_EXTRA) (s : Nat) : Safe k [.move s] (k + 1) := safe_put h

theorem safe_tmp {k : Nat} (h : k < X_EXTRA) : Safe k [.tmp] k := by
  intro b hb
  obtain ⟨h1, h2⟩ := hb
  refine ⟨b, ?_, h1, h2⟩
  simp only [evs, ev]
  rw [if_pos (by omega)]

/-- After a check there is room for one byte in front of the end: one put leaves nothing behind it. -/
theorem safe_chk_put {k : Nat} : Safe k [.chk, .put] 0 := by
  intro b hb
  obtain ⟨_, h2⟩ := hb
  by_cases h : b.pos + 1 - b.len > 0
  · refine ⟨⟨b.len + (if b.pos + 1 - b.len > b.len then b.pos + 1 - b.len else b.len), b.pos + 1⟩, ?_, ?_, ?_⟩
    · simp only [evs, ev, h, if_true, grow]
      rw [if_pos (by split <;> omega)]
    · show b.pos + 1 ≤ _ + 0
      simp only
      split <;> omega
    · show 0 < _
      simp only
      omega
  · refine ⟨⟨b.len, b.pos + 1⟩, ?_, ?_, h2⟩
    · simp only [evs, ev, h, if_false]
      rw [if_pos (by omega)]
    · show b.pos + 1 ≤ b.len + 0
      omega

theorem safe_chk {k : Nat} : Safe k [.chk] 0 := by
  intro b hb
  obtain ⟨_, h2⟩ := hb
  by_cases h : b.pos + 1 - b.len > 0
  · refine ⟨⟨b.len + (if b.pos + 1 - b.len > b.len then b.pos + 1 - b.len else b.len), b.pos⟩, ?_, ?_, ?_⟩
    · simp only [evs, ev, h, if_true, grow]
    · show b.pos ≤ _ + 0
      simp only
      split <;> omega
    · show 0 < _
      simp only
      omega
  · refine ⟨b, ?_, ?_, h2⟩
    · simp only [evs, ev, h, if_false]
    · show b.pos ≤ b.len + 0
      omega

theorem times_succ (n : Nat) (l : List Ev) : times (n + 1) l = l ++ times n l := by
  simp [times, List.replicate_succ]

theorem safe_times {k : Nat} {l : List Ev} (h : Safe k l k) : ∀ n, Safe k (times n l) k
  | 0 => Safe.nil k
  | n + 1 => by rw [times_succ]; exact h.append (safe_times h n)

theorem safe_puts {k : Nat} : ∀ n, k + n ≤ X_EXTRA → Safe k (List.replicate n .put) (k + n)
  | 0, _ => Safe.nil k
  | n + 1, h => by
    rw [List.replicate_succ]
    exact (Safe.cons (safe_put (by omega)) (safe_puts (k := k + 1) n (by omega))).mono (Nat.le_refl _) (by omega)

/-- Whatever has been written before, each path stays within the allocation; it leaves no more than 6
bytes behind the length. -/
theorem path_safe (p : Path) : Safe 0 p.body 6 := by
  have c : ∀ {k}, k ≤ 3 → ∀ n, Safe k (times n [.chk, .put]) 3 := fun hk n =>
    (safe_times (k := 3) (safe_chk_put.mono (Nat.le_refl _) (by omega)) n).mono hk (Nat.le_refl _)
  cases p with
  | nothing => exact (Safe.nil 0).mono (Nat.le_refl _) (by omega)
  | one => exact (safe_puts 1 (by decide)).mono (Nat.le_refl _) (by omega)
  | two => exact (safe_puts 2 (by decide)).mono (Nat.le_refl _) (by omega)
  | subscript k =>
    refine ((safe_tmp (by decide)).append (safe_puts (k := 0) 2 (by decide))).append (k' := 2) ?_
    have h : Safe 2 [.chk, .put, .put] 2 := (safe_chk_put.append (safe_put (k := 0) (by decide))).mono (Nat.le_refl _) (by omega)
    exact (safe_times h k).mono (Nat.le_refl _) (by omega)
  | bracket => exact ((safe_tmp (by decide)).append (safe_puts (k := 0) 2 (by decide))).mono (Nat.le_refl _) (by omega)
  | keep => exact ((safe_chk (k := 0)).append (safe_puts (k := 0) 4 (by decide))).mono (Nat.le_refl _) (by omega)
  | brace v colon =>
    obtain ⟨n, sub⟩ := v
    have h1 : Safe 0 [.put, .put] 2 := safe_puts 2 (by decide)
    have h2 : Safe 2 (times n [.chk, .put]) 2 := safe_times (safe_chk_put.mono (Nat.le_refl _) (by omega)) n
    have h3 : Safe 2 (match sub with | none => [] | some k => .put :: times k [.chk, .put]) 3 := by
      cases sub with
      | none => exact (Safe.nil 2).mono (Nat.le_refl _) (by omega)
      | some k => exact Safe.cons (safe_put (by decide)) (c (Nat.le_refl _) k)
    have h4 : Safe 3 [.put] 4 := safe_put (by decide)
    have h5 : Safe 4 (if colon then [.put, .put] else []) 6 := by
      cases colon with
      | false => exact (Safe.nil 4).mono (Nat.le_refl _) (by omega)
      | true => exact safe_puts 2 (by decide)
    exact (h1.append ((h2.append h3).append h4)).append h5
  | name n =>
    have h1 : Safe 0 [.put, .put] 2 := safe_puts 2 (by decide)
    exact (h1.append (c (by omega) (n + 1))).append (safe_puts (k := 3) 3 (by decide))
  | special => exact (safe_chk (k := 0)).append (safe_puts (k := 0) 6 (by decide))
  | mismatch s => exact ((safe_move (by decide) s).append (safe_put (k := 1) (by decide))).mono (Nat.le_refl _) (by omega)
  | delim => exact (safe_puts 4 (by decide)).mono (Nat.le_refl _) (by omega)

theorem loop_safe : ∀ l : List Path, Safe 6 (l.flatMap (fun p => .chk :: p.body)) 6
  | [] => Safe.nil 6
  | p :: l => by
    simp only [List.flatMap_cons]
    exact (Safe.cons safe_chk (path_safe p)).append (loop_safe l)

/-- Whatever is read, of whatever length, every byte of the word is written inside of the buffer. -/
theorem lexer_in_bounds (letexpr : Bool) (l : List Path) (last : Bool) :
    ∃ b, yylex letexpr l last = some b ∧ b.pos ≤ b.len := by
  have h1 : Safe 0 (if letexpr then [.put] else []) 6 := by
    cases letexpr with
    | false => exact (Safe.nil 0).mono (Nat.le_refl _) (by omega)
    | true => exact (safe_put (by decide)).mono (Nat.le_refl _) (by omega)
  have h3 : Safe 6 (if last then [.chk, .put] else []) 6 := by
    cases last with
    | false => exact Safe.nil 6
    | true => exact safe_chk_put.mono (Nat.le_refl _) (by omega)
  obtain ⟨b, e, o⟩ := ((h1.append (loop_safe l)).append h3).append (safe_chk_put (k := 6)) start ⟨by decide, by decide⟩
  exact ⟨b, e, by have := o.1; omega⟩

theorem arraysub_in_bounds (n : Nat) : ∃ b, arraysub n = some b ∧ b.pos ≤ b.len + X_EXTRA := by
  have h : Safe 0 (times n [.chk, .put]) 0 := safe_times safe_chk_put n
  obtain ⟨b, e, o⟩ := h.append (safe_put (k := 0) (by decide)) ⟨32, 0⟩ ⟨by decide, by decide⟩
  exact ⟨b, e, by have := o.1; simp only [X_EXTRA]; omega⟩

def bytes : List Ev → Nat
  | [] => 0
  | .put :: l => bytes l + 1
  | .move _ :: l => bytes l + 1
  | .chk :: l => bytes l
  | .tmp :: l => bytes l

/-- Growing keeps what has been written: the offset is the number of bytes put. -/
theorem pos_counts : ∀ (l : List Ev) (b r : Buf), evs l b = some r → r.pos = b.pos + bytes l
  | [], b, r, h => by simp only [evs, Option.some.injEq] at h; simp [bytes, h]
  | e :: l, b, r, h => by
    unfold evs at h
    cases e with
    | chk =>
      simp only [ev] at h
      have := pos_counts l _ r h
      rw [this, bytes]
      split <;> rfl
    | put =>
      simp only [ev] at h
      split at h
      · cases h
      · rename_i b' hb
        split at hb
        · cases hb; rw [pos_counts l _ r h, bytes]; simp only; omega
        · cases hb
    | tmp =>
      simp only [ev] at h
      split at h
      · cases h
      · rename_i b' hb
        split at hb
        · cases hb; rw [pos_counts l _ r h, bytes]
        · cases hb
    | move s =>
      simp only [ev] at h
      split at h
      · cases h
      · rename_i b' hb
        split at hb
        · cases hb; rw [pos_counts l _ r h, bytes]; simp only; omega
        · cases hb

/-- The reserve is needed: `$1` when the buffer is full up to one byte writes 5 bytes behind the length. -/
example : (evs (.chk :: Path.special.body) ⟨64, 63⟩) = some ⟨64, 69⟩ := by decide
/-- And it is not without limit: ten bytes without a check would be a fault. -/
example : evs (List.replicate 10 .put) ⟨64, 63⟩ = none := by decide
example : (yylex false [.two, .name 100, .brace ⟨3, some 70⟩ true] false).map (·.pos) = some (2 + (2 + 101 + 3) + (2 + 3 + 1 + 70 + 1 + 2) + 1) := by
  decide

end Ksh.Lexbuf
