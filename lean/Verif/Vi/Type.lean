import Verif.Vi.Cmds
/-!
# Typing a line
-/

namespace Ksh.Vi

variable {e : Env} {size : Nat} {s s' : Ed} {A B : List Char}

/-! ## What typing is -/

/-- The keys that erase a character. -/
def Rubs (e : Env) (c : Char) : Prop := e.erase = some c ∨ c = '\x08'

/-- The keys that stand for themselves: none of the editing characters of the terminal, none of
the keys that complete a word, redraw the line or end it. -/
structure Plain (e : Env) (c : Char) : Prop where
  erase : ¬ Rubs e c
  kill : e.kill ≠ some c
  werase : e.werase ≠ some c
  intr : e.intr ≠ some c
  quit : e.quit ≠ some c
  eof : e.eof ≠ some c
  other : c ∉ ['\x00', '\r', '\n', '\x1b', '\x18', '\x06', '\x0c', '\x12', '\x16', '\x05']
  tab : c = '\t' → e.tab = false

/-- A key that erases: none of those that interrupt. -/
structure Rub (e : Env) (c : Char) : Prop where
  rubs : Rubs e c
  intr : e.intr ≠ some c
  quit : e.quit ≠ some c
  eof : e.eof ≠ some c
  lit : c ≠ '\x16'

/-- The key that erases all. -/
structure Kill (e : Env) (c : Char) : Prop where
  kill : e.kill = some c
  erase : ¬ Rubs e c
  intr : e.intr ≠ some c
  quit : e.quit ≠ some c
  eof : e.eof ≠ some c
  lit : c ≠ '\x16'

/-- Without the last character: continuation bytes, and the byte before them. -/
def chopRev (e : Env) : List Char → List Char
  | [] => []
  | c :: r => if cont e c then chopRev e r else r

def chop (e : Env) (A : List Char) : List Char := (chopRev e A.reverse).reverse

instance (e : Env) (c : Char) : Decidable (Rubs e c) := inferInstanceAs (Decidable (_ ∨ _))

/-- What a key does to the text before the cursor, with room for `room` more bytes in the line. -/
def typed (e : Env) (room : Nat) (A : List Char) (c : Char) : List Char :=
  if Rubs e c then chop e A
  else if e.kill = some c then []
  else if A.length < room then A ++ [c] else A

/-! ## The state -/

/-- Inserting behind `A` and before `B`. -/
structure Ins (e : Env) (size : Nat) (A B : List Char) (s : Ed) : Prop where
  mem : s.es.mem.length = size
  cap : size ≤ e.cap
  len : s.es.len = A.length + B.length
  lt : s.es.len < size
  text : s.es.text = A ++ B
  cur : s.es.cur = A.length
  mode : s.mode = .ins
  state : s.state = .normal
  mac : s.mac = none
  ins : s.inslen ≤ s.es.len

theorem chopRev_len (e : Env) : ∀ l, (chopRev e l).length ≤ l.length
  | [] => Nat.le_refl _
  | c :: r => by
    simp only [chopRev]
    split
    · have := chopRev_len e r; simp; omega
    · simp

theorem chop_len (e : Env) (A : List Char) : (chop e A).length ≤ A.length := by
  have := chopRev_len e A.reverse
  simpa [chop] using this

theorem chopRev_suffix (e : Env) : ∀ l, ∃ k, l = k ++ chopRev e l
  | [] => ⟨[], rfl⟩
  | c :: r => by
    simp only [chopRev]
    split
    · obtain ⟨k, hk⟩ := chopRev_suffix e r
      exact ⟨c :: k, by rw [List.cons_append, ← hk]⟩
    · exact ⟨[c], rfl⟩

theorem chop_take (e : Env) (A : List Char) : chop e A = A.take (chop e A).length := by
  obtain ⟨k, hk⟩ := chopRev_suffix e A.reverse
  have : A = chop e A ++ k.reverse := by
    rw [chop, ← List.reverse_append, ← hk, List.reverse_reverse]
  have h2 : (chop e A ++ k.reverse).take (chop e A).length = chop e A := List.take_left
  rw [← this] at h2
  exact h2.symm

/-- The loop over continuation bytes finds the character. -/
theorem backFrom_chop {m : List Char} : ∀ (A : List Char) (c : Char), (A ++ [c]) <+: m →
    backFrom e m A.length = some (chop e (A ++ [c])).length := by
  intro A
  induction hn : A.length generalizing A with
  | zero =>
    intro c h
    have : A = [] := List.eq_nil_of_length_eq_zero hn
    subst this
    simp only [backFrom, chop, List.nil_append, List.reverse_singleton, chopRev]
    split <;> rfl
  | succ n ih =>
    intro c h
    obtain ⟨A', d, rfl⟩ : ∃ A' d, A = A' ++ [d] := by
      rcases List.eq_nil_or_concat A with h | ⟨L, b, h⟩
      · subst h; simp at hn
      · exact ⟨L, b, by simpa using h⟩
    have hn' : A'.length = n := by simpa using hn
    have hget : m[n+1]? = some c := by
      obtain ⟨t, rfl⟩ := h
      rw [List.append_assoc, List.getElem?_append_right (by omega), hn]
      simp
    simp only [backFrom, hget]
    by_cases hc : cont e c = true
    · rw [if_pos hc, ih A' hn' d ((List.prefix_append _ _).trans h)]
      simp [chop, chopRev, hc]
    · rw [if_neg hc]
      simp only [chop, List.reverse_append, List.reverse_singleton, List.singleton_append, chopRev, if_neg hc]
      simp [hn']

theorem Ins.pre (h : Ins e size A B s) : A ++ B <+: s.es.mem := by
  rw [← h.text, Buf.text]; exact List.take_prefix _ _

theorem insChar_ins (h : Ins e size A B s) (c : Char) :
    ∃ r s', insChar e s c = some (r, s') ∧ Ins e size (if A.length < size - 1 - B.length then A ++ [c] else A) B s' := by
  have hl := h.len; have hm := h.mem; have hc := h.cur; have hi := h.ins; have hcap := h.cap; have hlt := h.lt
  simp only [insChar]
  by_cases hf : s.es.len ≥ s.es.mem.length - 1
  · rw [if_pos hf, if_neg (by omega)]
    exact ⟨_, _, rfl, h⟩
  · rw [if_neg hf, if_neg (by omega), if_pos h.mode, if_pos (by omega)]
    rw [show (s.es.len : Int) - s.es.cur = ((s.es.len - s.es.cur : Nat) : Int) by omega,
      memmove_ok (by omega) (by omega)]
    have hll := memmove_len (m := s.es.mem) (d := s.es.cur + 1) (s := s.es.cur) (n := s.es.len - s.es.cur) (by omega) (by omega)
    have hput := memput_ok (m := s.es.mem.take (s.es.cur + 1) ++ (s.es.mem.drop s.es.cur).take (s.es.len - s.es.cur) ++
      s.es.mem.drop (s.es.cur + 1 + (s.es.len - s.es.cur))) (s := [c]) (d := s.es.cur) (by rw [hll]; simp; omega)
    simp only [hput]
    have hpl := memput_len (m := s.es.mem.take (s.es.cur + 1) ++ (s.es.mem.drop s.es.cur).take (s.es.len - s.es.cur) ++
      s.es.mem.drop (s.es.cur + 1 + (s.es.len - s.es.cur))) (s := [c]) (d := s.es.cur) (by rw [hll]; simp; omega)
    obtain ⟨rest, hrest⟩ := h.pre
    have hB : (s.es.mem.drop s.es.cur).take (s.es.len - s.es.cur) = B := by
      rw [← hrest, hc, hl, List.append_assoc, List.drop_left]
      rw [show A.length + B.length - A.length = B.length by omega, List.take_left]
    refine ⟨_, _, rfl, ⟨by rw [hpl, hll, hm], hcap, by simp; omega, by simp; omega, ?_, by simp [hc], h.mode, h.state, h.mac, by simp; omega⟩⟩
    simp only [Buf.text, hB]
    have hA : (s.es.mem.take (s.es.cur + 1) ++ B ++ s.es.mem.drop (s.es.cur + 1 + (s.es.len - s.es.cur))).take s.es.cur = A := by
      rw [List.append_assoc, List.take_append_of_le_length (by rw [List.length_take]; omega), List.take_take,
        show min s.es.cur (s.es.cur + 1) = s.es.cur by omega, ← hrest, hc, List.append_assoc, List.take_left]
    have hD : (s.es.mem.take (s.es.cur + 1) ++ B ++ s.es.mem.drop (s.es.cur + 1 + (s.es.len - s.es.cur))).drop (s.es.cur + [c].length) =
        B ++ s.es.mem.drop (s.es.cur + 1 + (s.es.len - s.es.cur)) := by
      rw [List.append_assoc, List.drop_append, List.drop_eq_nil_of_le (by rw [List.length_take]; simp; omega), List.length_take]
      rw [show s.es.cur + [c].length - min (s.es.cur + 1) s.es.mem.length = 0 by simp; omega]
      rfl
    rw [hA, hD, ← List.append_assoc, show s.es.len + 1 = (A ++ [c] ++ B).length by simp; omega, List.take_left]

/-- Cutting between `t` and the cursor. -/
theorem cut_ins (h : Ins e size A B s) {t : Nat} (ht : t ≤ A.length) {i : Nat} (hi : i ≤ t + B.length) (x : Exp) :
    ∃ m, Emacs.memmove s.es.mem t s.es.cur ((s.es.len : Int) - s.es.cur) = some m ∧
      Ins e size (A.take t) B { s with es := { mem := m, len := s.es.len - (s.es.cur - t), cur := t }, inslen := i, expanded := x } := by
  have hl := h.len; have hm := h.mem; have hc := h.cur; have hcap := h.cap; have hlt := h.lt
  rw [show (s.es.len : Int) - s.es.cur = ((s.es.len - s.es.cur : Nat) : Int) by omega, memmove_ok (by omega) (by omega)]
  have hll := memmove_len (m := s.es.mem) (d := t) (s := s.es.cur) (n := s.es.len - s.es.cur) (by omega) (by omega)
  obtain ⟨rest, hrest⟩ := h.pre
  have hB : (s.es.mem.drop s.es.cur).take (s.es.len - s.es.cur) = B := by
    rw [← hrest, hc, hl, List.append_assoc, List.drop_left]
    rw [show A.length + B.length - A.length = B.length by omega, List.take_left]
  have hA : s.es.mem.take t = A.take t := by
    rw [← hrest, List.append_assoc, List.take_append_of_le_length ht]
  refine ⟨_, rfl, ⟨by rw [hll, hm], hcap, ?_, ?_, ?_, ?_, h.mode, h.state, h.mac, ?_⟩⟩
  · simp only [List.length_take]; omega
  · simp only; omega
  · simp only [Buf.text, hB, hA]
    rw [show s.es.len - (s.es.cur - t) = (A.take t ++ B).length by simp only [List.length_append, List.length_take]; omega, List.take_left]
  · simp only [List.length_take]; omega
  · simp only; omega

theorem insErase_ins (h : Ins e size A B s) : ∃ s', insErase e s = some s' ∧ Ins e size (chop e A) B s' := by
  have hl := h.len; have hi := h.ins; have hc := h.cur
  simp only [insErase, h.mode, reduceCtorEq, if_false]
  rcases List.eq_nil_or_concat A with hA | ⟨A', c, hA⟩
  · subst hA
    rw [if_pos (by simpa using h.cur)]
    exact ⟨_, rfl, h⟩
  · rw [List.concat_eq_append] at hA
    have hcur : s.es.cur = A'.length + 1 := by rw [hc, hA]; simp
    rw [if_neg (by omega)]
    have hpre : A' ++ [c] <+: s.es.mem := by rw [← hA]; exact (List.prefix_append _ _).trans h.pre
    have hb := backFrom_chop (e := e) A' c hpre
    rw [← hA] at hb
    have hle := chop_len e A
    simp only [eraseChar, hcur, hb, h.mode, reduceCtorEq, if_false]
    obtain ⟨m, h1, h2⟩ := cut_ins h hle (i := s.inslen - (s.es.cur - (chop e A).length)) (by omega) .none
    rw [hcur] at h1 h2
    simp only [h1]
    rw [← chop_take] at h2
    exact ⟨_, rfl, h2⟩

theorem insKill_ins (h : Ins e size A B s) : ∃ s', insKill s = some s' ∧ Ins e size [] B s' := by
  have hl := h.len; have hc := h.cur
  simp only [insKill]
  by_cases h0 : s.es.cur = 0
  · rw [if_neg (by omega)]
    have : A = [] := List.eq_nil_of_length_eq_zero (by omega)
    subst this
    exact ⟨_, rfl, { h with }⟩
  · rw [if_pos h0]
    obtain ⟨m, h1, h2⟩ := cut_ins h (t := 0) (Nat.zero_le _) (i := 0) (Nat.zero_le _) .none
    simp only [h1]
    exact ⟨_, rfl, h2⟩

theorem ikind_plain {c : Char} (h : Plain e c) : ikind e c = .char := by
  have ho := h.other
  simp only [List.mem_cons, not_or, List.not_mem_nil, not_false_eq_true, and_true] at ho
  obtain ⟨h0, h1, h2, h3, h4, h5, h6, h7, h8, h9⟩ := ho
  simp only [ikind, show ctrl 'x' = '\x18' by decide, show ctrl 'f' = '\x06' by decide, show ctrl 'l' = '\x0c' by decide,
    show ctrl 'r' = '\x12' by decide]
  rw [if_neg h0, if_neg (by rintro (h | h) <;> contradiction), if_neg h3, if_neg h4,
    if_neg (fun hx => hx.elim h5 (fun hx => by rw [h.tab hx.1] at hx; cases hx.2)), if_neg (by rintro (h | h) <;> contradiction)]

/-- A key that types. -/
def Types (e : Env) (c : Char) : Prop := Plain e c ∨ Rub e c ∨ Kill e c

theorem Types.quiet {c : Char} (h : Types e c) : e.intr ≠ some c ∧ e.quit ≠ some c ∧ e.eof ≠ some c ∧ c ≠ '\x16' := by
  rcases h with h | h | h
  · exact ⟨h.intr, h.quit, h.eof, fun hc => h.other (by rw [hc]; simp)⟩
  · exact ⟨h.intr, h.quit, h.eof, h.lit⟩
  · exact ⟨h.intr, h.quit, h.eof, h.lit⟩

theorem insert_ins (h : Ins e size A B s) {c : Char} (hc : Types e c) :
    ∃ r s', insert e s c = some (r, s') ∧ (r = .ok ∨ r = .fail) ∧ Ins e size (typed e (size - 1 - B.length) A c) B s' := by
  rcases hc with hc | hc | hc
  · have hr : ¬ (some c = e.erase ∨ c = '\x08') := fun h => hc.erase (h.imp Eq.symm id)
    simp only [insert, insKey]
    rw [if_neg hr, if_neg (fun h => hc.kill h.symm), if_neg (fun h => hc.werase h.symm),
      if_neg (show ¬ c = ctrl 'e' from fun h => hc.other (by rw [h]; decide))]
    simp only [ikind_plain hc, typed, if_neg hc.erase, if_neg hc.kill]
    have h' : Ins e size A B (if s.first ∧ c ≠ '\x1b' then { s with saved := 0 } else s) := by
      split
      · exact { h with }
      · exact h
    obtain ⟨r, s', h1, h2⟩ := insChar_ins h' c
    have hf : (s.first = true ∧ c ≠ '\x1b') = (s.first ∧ c ≠ '\x1b') := rfl
    simp only [h1]
    refine ⟨_, _, rfl, ?_, h2⟩
    cases r <;> simp
  · simp only [insert]
    rw [if_pos (hc.rubs.imp Eq.symm id)]
    obtain ⟨s', h1, h2⟩ := insErase_ins h
    simp only [h1, Option.map_some, typed, if_pos hc.rubs]
    exact ⟨_, _, rfl, .inl rfl, h2⟩
  · have hr : ¬ (some c = e.erase ∨ c = '\x08') := fun h => hc.erase (h.imp Eq.symm id)
    simp only [insert]
    rw [if_neg hr, if_pos hc.kill.symm]
    obtain ⟨s', h1, h2⟩ := insKill_ins h
    simp only [h1, Option.map_some, typed, if_neg hc.erase, if_pos hc.kill]
    exact ⟨_, _, rfl, .inl rfl, h2⟩

theorem key_ins (n : Nat) (h : Ins e size A B s) {c : Char} (hc : Types e c) :
    ∃ s', key e n s c = some (.more s') ∧ Ins e size (typed e (size - 1 - B.length) A c) B s' := by
  obtain ⟨q1, q2, q3, q4⟩ := hc.quiet
  obtain ⟨r, s', h1, h2, h3⟩ := insert_ins h hc
  simp only [key]
  rw [if_neg (fun hx => hx.2.elim (fun h => q1 h.symm) (fun h => q2 h.symm)), if_neg (fun h => q3 h.2.symm)]
  simp only [hook, h.state, h.mode, hookInsert]
  rw [if_pos (by decide), if_neg (show ¬ c = ctrl 'v' from q4), if_neg (show ¬ c = ctrl 'v' from q4), h1]
  rcases h2 with rfl | rfl
  · simp only [h3.state, reduceCtorEq, if_false]
    exact ⟨_, rfl, h3⟩
  · exact ⟨_, rfl, { h3 with state := rfl, mac := rfl }⟩

theorem run_ins (len n : Nat) : ∀ (keys rest : List Char) (A : List Char) (s : Ed), Ins e size A B s → (∀ c ∈ keys, Types e c) →
    ∃ s', run e len (keys.length + n) s (keys ++ rest) = run e len n s' rest ∧
      Ins e size (keys.foldl (typed e (size - 1 - B.length)) A) B s' := by
  intro keys
  induction keys with
  | nil => intro rest A s h _; exact ⟨s, by simp, h⟩
  | cons c ks ih =>
    intro rest A s h hk
    obtain ⟨s1, h1, h2⟩ := key_ins len h (hk c (List.mem_cons_self ..))
    obtain ⟨s2, h3, h4⟩ := ih rest _ s1 h2 (fun d hd => hk d (List.mem_cons_of_mem _ hd))
    refine ⟨s2, ?_, h4⟩
    rw [show (c :: ks).length + n = (ks.length + n) + 1 by simp; omega]
    simp only [run, next, h.mac, List.cons_append, h1]
    exact h3

/-- RETURN ends the line. -/
theorem run_return (n : Nat) (h : Ins e size A B s) {c : Char} (hr : c = '\r' ∨ c = '\n')
    (hi : e.intr ≠ some c) (hq : e.quit ≠ some c) (he : e.eof ≠ some c) (hx : ¬ Rubs e c) (hk : e.kill ≠ some c) (hw : e.werase ≠ some c)
    (rest : List Char) : run e size (n+1) s (c :: rest) = some (.line (A ++ B ++ ['\n'])) := by
  have hkey : key e size s c = some (.line (A ++ B ++ ['\n'])) := by
    have hlt := h.lt; have hm := h.mem
    simp only [key]
    rw [if_neg (fun hx => hx.2.elim (fun h => hi h.symm) (fun h => hq h.symm)), if_neg (fun h => he h.2.symm)]
    simp only [hook, h.state, h.mode, hookInsert]
    have hv : ¬ c = ctrl 'v' := by rcases hr with h | h <;> rw [h] <;> decide
    have h5 : ¬ c = ctrl 'e' := by rcases hr with h | h <;> rw [h] <;> decide
    have hik : ikind e c = .nl := by
      rcases hr with h | h <;> rw [h] <;> rfl
    rw [if_pos (by decide), if_neg hv, if_neg hv]
    simp only [insert, insKey]
    rw [if_neg (fun h => hx (h.imp Eq.symm id)), if_neg (fun h => hk h.symm), if_neg (fun h => hw h.symm), if_neg h5]
    simp only [hik, finish]
    split
    · rw [if_neg (by simp only; omega), if_neg (by simp only; omega)]
      simp only [h.text]
    · rw [if_neg (by omega), if_neg (by omega), h.text]
  simp only [run, next, h.mac, hkey]

end Ksh.Vi
