import Verif.Histctl.Model

/-!
# C155: HISTCONTROL says which lines are not saved
-/
namespace Ksh.Histctl

/-- Specification: `f` is an entry of the colon separated list `s`: it stands between the ends of `s` or colons. -/
def Entry (s f : List Char) : Prop :=
  ':' ∉ f ∧ ∃ a b, s = a ++ f ++ b ∧ (a = [] ∨ ∃ a', a = a' ++ [':']) ∧ (b = [] ∨ ∃ b', b = ':' :: b')

theorem entry_nocolon {s f : List Char} (hs : ':' ∉ s) : Entry s f ↔ f = s := by
  constructor
  · rintro ⟨_, a, b, e, ha, hb⟩
    rcases ha with rfl | ⟨a', rfl⟩
    · rcases hb with rfl | ⟨b', rfl⟩
      · simpa using e.symm
      · exact absurd (by rw [e]; simp) hs
    · exact absurd (by rw [e]; simp) hs
  · rintro rfl
    exact ⟨hs, [], [], by simp, .inl rfl, .inl rfl⟩

/-- The entries of `t:r` are `t` and those of `r`. -/
theorem entry_cons {t r f : List Char} (ht : ':' ∉ t) : Entry (t ++ ':' :: r) f ↔ f = t ∨ Entry r f := by
  constructor
  · rintro ⟨hf, a, b, e, ha, hb⟩
    rcases ha with rfl | ⟨a', rfl⟩
    · left
      simp only [List.nil_append] at e
      rcases hb with rfl | ⟨b', rfl⟩
      · exact absurd (by rw [← List.append_nil f, ← e]; simp) hf
      · rcases List.append_eq_append_iff.1 e with ⟨c, h1, h2⟩ | ⟨c, h1, h2⟩
        · cases c with
          | nil => simpa using h1
          | cons x y =>
            simp only [List.cons_append, List.cons.injEq] at h2
            exact absurd (by rw [h1, ← h2.1]; simp) hf
        · cases c with
          | nil => simpa using h1.symm
          | cons x y =>
            simp only [List.cons_append, List.cons.injEq] at h2
            exact absurd (by rw [h1, ← h2.1]; simp) ht
    · right
      rw [List.append_assoc, List.append_assoc] at e
      rcases List.append_eq_append_iff.1 e with ⟨c, h1, h2⟩ | ⟨c, h1, h2⟩
      · cases c with
        | nil =>
          simp only [List.nil_append, List.cons_append, List.cons.injEq, true_and] at h2
          exact ⟨hf, [], b, by simpa using h2, .inl rfl, hb⟩
        | cons x y =>
          simp only [List.cons_append, List.nil_append, List.cons.injEq] at h2
          refine ⟨hf, y ++ [':'], b, ?_, .inr ⟨y, rfl⟩, hb⟩
          simpa using h2.2
      · cases c with
        | nil =>
          simp only [List.nil_append, List.cons_append, List.cons.injEq, true_and] at h2
          exact ⟨hf, [], b, by simpa using h2.symm, .inl rfl, hb⟩
        | cons x y =>
          simp only [List.cons_append, List.nil_append, List.cons.injEq] at h2
          exact absurd (by rw [h1, ← h2.1]; simp) ht
  · rintro (rfl | ⟨hf, a, b, e, ha, hb⟩)
    · exact ⟨ht, [], ':' :: r, by simp, .inl rfl, .inr ⟨r, rfl⟩⟩
    · refine ⟨hf, t ++ ':' :: a, b, by simp [e], .inr ?_, hb⟩
      rcases ha with rfl | ⟨a', rfl⟩
      · exact ⟨t, rfl⟩
      · exact ⟨t ++ ':' :: a', by simp⟩

theorem entry_skip (s f : List Char) (hf : f ≠ []) : Entry (s.dropWhile (· == ':')) f ↔ Entry s f := by
  induction s with
  | nil => rfl
  | cons c s ih =>
    by_cases h : c = ':'
    · subst h
      rw [List.dropWhile_cons_of_pos (by simp), ih]
      have := entry_cons (t := []) (r := s) (f := f) (by simp)
      simp only [List.nil_append] at this
      rw [this]
      simp [hf]
    · rw [List.dropWhile_cons_of_neg (by simpa using h)]

/-- `strtok_r` finds the entries that are not empty. -/
theorem toks_spec (s f : List Char) (hf : f ≠ []) : f ∈ toks s ↔ Entry s f := by
  induction hn : s.length using Nat.strongRecOn generalizing s with
  | ind n ih =>
    rw [← entry_skip s f hf, toks]
    have hl : (s.dropWhile (· == ':')).length ≤ s.length := (List.dropWhile_suffix _).length_le
    have hhd := List.head?_dropWhile_not (· == ':') s
    generalize s.dropWhile (· == ':') = d at hl hhd
    split
    · simp [entry_nocolon, hf]
    · rename_i c r
      have hc : c ≠ ':' := by simpa using hhd
      have hsplit := List.takeWhile_append_dropWhile (p := (· != ':')) (l := c :: r)
      have hno : ':' ∉ (c :: r).takeWhile (· != ':') := by
        intro hm
        have := List.all_takeWhile (p := (· != ':')) (l := c :: r)
        rw [List.all_eq_true] at this
        simpa using this _ hm
      have hlen : ((c :: r).dropWhile (· != ':')).length ≤ r.length := by
        rw [List.dropWhile_cons_of_pos (by simpa using hc)]
        exact (List.dropWhile_suffix _).length_le
      have hh2 := List.head?_dropWhile_not (· != ':') (c :: r)
      generalize (c :: r).takeWhile (· != ':') = t at hsplit hno
      generalize (c :: r).dropWhile (· != ':') = e at hsplit hlen hh2
      rw [← hsplit]
      cases e with
      | nil =>
        rw [List.append_nil, entry_nocolon hno]
        simp [toks]
      | cons x y =>
        have hx : x = ':' := by simpa using hh2
        subst hx
        rw [entry_cons hno, List.mem_cons, List.drop_one, List.tail_cons, ih y.length (by simp at hl hlen; omega) y rfl]

theorem fold_spec (l : List (List Char)) (f : Flags) :
    ((l.foldl round f).dups = true ↔ f.dups = true ∨ dupsName ∈ l) ∧
    ((l.foldl round f).space = true ↔ f.space = true ∨ spaceName ∈ l) := by
  induction l generalizing f with
  | nil => simp
  | cons t l ih =>
    have hne : dupsName ≠ spaceName := by decide
    rw [List.foldl_cons, (ih _).1, (ih _).2, List.mem_cons, List.mem_cons]
    by_cases h1 : t = dupsName
    · subst h1
      simp [round, hne.symm]
    · by_cases h2 : t = spaceName
      · subst h2
        simp [round, hne, hne.symm]
      · simp [round, h1, h2, Ne.symm h1, Ne.symm h2]

/-- A setting is on exactly if HISTCONTROL is set and has it as an entry, whatever was on before. -/
theorem settings (f : Flags) (v : Option (List Char)) :
    ((sethistcontrol f v).dups = true ↔ ∃ s, v = some s ∧ Entry s "ignoredups".toList) ∧
    ((sethistcontrol f v).space = true ↔ ∃ s, v = some s ∧ Entry s "ignorespace".toList) := by
  cases v with
  | none => simp [sethistcontrol]
  | some s =>
    have h := fold_spec (toks s) ⟨false, false⟩
    have h1 := toks_spec s dupsName (by decide)
    have h2 := toks_spec s spaceName (by decide)
    simp only [Option.some.injEq, exists_eq_left']
    constructor
    · show (_ = true) ↔ Entry s dupsName
      rw [← h1]
      simpa [sethistcontrol] using h.1
    · show (_ = true) ↔ Entry s spaceName
      rw [← h2]
      simpa [sethistcontrol] using h.2

/-- A line that ends in a newline and has no other is stored without it, but not if HISTCONTROL has the entry
ignorespace and the line starts with a space, or the entry ignoredups and the last line is the same. -/
theorem line_stored (f : Flags) (v : Option (List Char)) (last : Option (List Char)) (line : List Char) :
    (stored (sethistcontrol f v) last (line ++ ['\n']) = none ↔
      (∃ s, v = some s ∧ Entry s "ignorespace".toList) ∧ (∃ r, line = ' ' :: r) ∨
      (∃ s, v = some s ∧ Entry s "ignoredups".toList) ∧ last = some line) ∧
    (stored (sethistcontrol f v) last (line ++ ['\n']) = none ∨ stored (sethistcontrol f v) last (line ++ ['\n']) = some line) := by
  have hcut : cut (line ++ ['\n']) = line := by simp [cut]
  have hd : ((line ++ ['\n']).head? == some ' ') = true ↔ ∃ r, line = ' ' :: r := by
    cases line with
    | nil => simp
    | cons c r => simp
  rw [← (settings f v).1, ← (settings f v).2, ← hd]
  unfold stored
  rw [hcut]
  generalize sethistcontrol f v = g
  constructor
  · split
    · rename_i h
      simpa using .inl (by simpa using h)
    · rename_i h
      rw [Bool.and_eq_true] at h
      split
      · rename_i h'
        simpa using .inr (by simpa using h')
      · rename_i h'
        simp only [reduceCtorEq, false_iff]
        rintro (k | k)
        · exact h k
        · exact h' (by simp [k.1, k.2])
  · split
    · exact .inl rfl
    · split
      · exact .inl rfl
      · exact .inr rfl

/-- A command without a newline (`print -s`) is treated as the line with one. -/
theorem plain_stored (g : Flags) (last : Option (List Char)) (line : List Char) (h : '\n' ∉ line) :
    stored g last line = stored g last (line ++ ['\n']) := by
  have h1 : cut (line ++ ['\n']) = line := by simp [cut]
  have h2 : cut line = line := by simp [cut, h]
  unfold stored
  rw [h1, h2]
  cases line <;> simp

example : Entry "x:ignoredups".toList "ignoredups".toList := 
  ⟨by simp, ['x', ':'], [], by simp, .inr ⟨['x'], rfl⟩, .inl rfl⟩
example : (sethistcontrol ⟨false, false⟩ (some "x:ignoredups".toList)).dups = true :=
  (settings _ _).1.2 ⟨_, rfl, by simp, ['x', ':'], [], by simp, .inr ⟨['x'], rfl⟩, .inl rfl⟩
/-- Part of an entry is not an entry. -/
example : (sethistcontrol ⟨true, true⟩ (some "xignoredups".toList)).dups = false := by
  rw [← Bool.not_eq_true, (settings _ _).1]
  rintro ⟨s, hs, he⟩
  cases hs
  rw [entry_nocolon (by simp)] at he
  simp at he
example : stored ⟨true, true⟩ (some "ls".toList) "ls\n".toList = none := by decide
example : stored ⟨true, true⟩ (some "ls".toList) "ls -l\n".toList = some "ls -l".toList := by decide

end Ksh.Histctl
