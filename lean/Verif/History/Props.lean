import Verif.History.Safe
import Verif.History.Replace
/-!
# Which commands the history holds, and their numbers
-/
namespace Ksh.History

theorem save_nofile {h : H} {items : List Bytes} (w : Holds h items) (hf : h.file = none) (cmd : Bytes) :
    ∃ g, save h cmd = some g ∧ Holds g (added h items cmd) ∧ Same h g ∧ g.line = h.line ∧ g.file = none := by
  obtain ⟨g, g1, g2, g3, g4, g5⟩ := saveMem_spec w cmd
  refine ⟨g, ?_, g2, g3, g4, g5.trans hf⟩
  rw [← g1]
  simp only [save, saveMem, hf]

/-! ### Specification: the list of all commands and how many are kept -/

structure Sp where
  /-- all commands that were saved -/
  all : List Bytes := []
  /-- how many of them are kept -/
  cap : Nat := 0
  /-- HISTSIZE -/
  room : Nat
  dups : Bool := false
  space : Bool := false

/-- A typed line without its newline. -/
def Sp.add (s : Sp) (c : Bytes) : Sp :=
  if s.space = true ∧ c.head? = some 0x20 then s
  else if s.dups = true ∧ s.all.getLast? = some c then s
  else { s with all := s.all ++ [c], cap := min (s.cap + 1) s.room }

/-- Commands of the user, without a history file. -/
inductive Use
  | typed (c : Bytes)
  | control (dups space : Bool)
  | size (n : Nat)

def Sp.use (s : Sp) : Use → Sp
  | .typed c => s.add c
  | .control d p => { s with dups := d, space := p }
  | .size n => if 0 < n then { s with room := n, cap := min s.cap n } else s

def Use.op : Use → Op
  | .typed c => .cmd (c ++ [0x0a])
  | .control d s => .control d s
  | .size n => .resize n true

theorem chop_line (c : Bytes) : chop (c ++ [0x0a]) = c := by
  simp [chop]

theorem lastN_lastN (a b : Nat) (l : List Bytes) : lastN a (lastN b l) = lastN (min a b) l := by
  simp only [lastN, List.drop_drop, List.length_drop]
  congr 1
  omega

theorem lastN_snoc (n k : Nat) (l : List Bytes) (c : Bytes) (hk : k ≤ l.length) :
    lastN n (lastN k l ++ [c]) = lastN (min (k + 1) n) (l ++ [c]) := by
  simp only [lastN, List.length_append, List.length_drop, List.length_cons, List.length_nil]
  have : l.drop (l.length - k) ++ [c] = (l ++ [c]).drop (l.length - k) := by
    rw [List.drop_append_of_le_length (by omega)]
  rw [this, List.drop_drop]
  congr 1
  omega

theorem lastN_getLast? (k : Nat) (l : List Bytes) (hk : 0 < k) : (lastN k l).getLast? = l.getLast? := by
  rcases l.eq_nil_or_concat with e | ⟨l', x, e⟩
  · simp [e, lastN]
  · rw [List.concat_eq_append] at e
    subst e
    have : lastN k (l' ++ [x]) = l'.drop (l'.length + 1 - k) ++ [x] := by
      simp only [lastN, List.length_append, List.length_cons, List.length_nil]
      rw [List.drop_append_of_le_length (by omega)]
    rw [this]
    simp

/-- The state of the model is that of the specification. -/
structure Rel (h : H) (s : Sp) : Prop where
  holds : Holds h (lastN s.cap s.all)
  cap : s.cap ≤ s.all.length
  ne : s.all ≠ [] → 0 < s.cap
  room : s.cap ≤ s.room ∧ s.room = h.size
  flags : s.dups = h.dups ∧ s.space = h.space
  file : h.file = none

theorem rel_init (size : Nat) (hi : Byte → Bool) (hs : 0 < size) : Rel (init size hi) { room := size } :=
  ⟨holds_init size hi hs, Nat.le_refl _, by simp, ⟨Nat.zero_le _, rfl⟩, ⟨rfl, rfl⟩, rfl⟩

theorem Rel.use {h : H} {s : Sp} (r : Rel h s) (u : Use) : ∃ g, step h u.op = some g ∧ Rel g (s.use u) := by
  have hpos := r.holds.pos
  cases u with
  | control d p => exact ⟨_, rfl, ⟨r.holds.pos, r.holds.len, r.holds.le, r.holds.own⟩, r.cap, r.ne, r.room, ⟨rfl, rfl⟩, r.file⟩
  | size n =>
    simp only [Use.op, step, Sp.use]
    by_cases hn : 0 < n
    · rw [if_pos hn, if_pos hn]
      obtain ⟨g, g1, g2, g3, g4, g5, g6, g7⟩ := resize_spec r.holds hn
      refine ⟨g, g1, ?_, ?_, ?_, ⟨Nat.min_le_right _ _, g7.symm⟩, ⟨r.flags.1.trans g5.symm, r.flags.2.trans g6.symm⟩, g4.trans r.file⟩
      · rw [lastN_lastN, Nat.min_comm] at g2
        exact g2
      · exact Nat.le_trans (Nat.min_le_left _ _) r.cap
      · intro e
        have := r.ne e
        simp only
        omega
    · rw [if_neg hn, if_neg hn]
      exact ⟨h, rfl, r⟩
  | typed c =>
    simp only [Use.op, step, Sp.use, Sp.add]
    obtain ⟨g, g1, g2, g3, _, hfile⟩ := save_nofile (r.holds.setLine (h.line + 1)) r.file (c ++ [0x0a])
    have hl : (lastN s.cap s.all).getLast? = s.all.getLast? := by
      by_cases he : s.all = []
      · simp [he, lastN]
      · exact lastN_getLast? _ _ (r.ne he)
    have hh : c = [] ∨ (c ++ [0x0a]).head? = c.head? := by cases c <;> simp
    have hspc : ((c ++ [0x0a]).head? = some 0x20) ↔ c.head? = some 0x20 := by
      rcases hh with e | e
      · subst e; simp
      · rw [e]
    have hkept : kept h.dups h.space (lastN s.cap s.all).getLast? (c ++ [0x0a]) =
        if s.space = true ∧ c.head? = some 0x20 then none else if s.dups = true ∧ s.all.getLast? = some c then none else some c := by
      simp only [kept, chop_line, hspc, hl, r.flags.1, r.flags.2]
    refine ⟨g, g1, ?_⟩
    simp only [added, hkept] at g2
    have hflags : s.dups = g.dups ∧ s.space = g.space := ⟨r.flags.1.trans g3.2.1.symm, r.flags.2.trans g3.2.2.1.symm⟩
    have hroom : s.room = g.size := r.room.2.trans g3.1.symm
    by_cases h1 : s.space = true ∧ c.head? = some 0x20
    · simp only [h1, and_self, if_true] at g2 ⊢
      exact ⟨g2, r.cap, r.ne, ⟨r.room.1, hroom⟩, hflags, hfile⟩
    · by_cases h2 : s.dups = true ∧ s.all.getLast? = some c
      · simp only [if_neg h1, if_pos h2] at g2 ⊢
        exact ⟨g2, r.cap, r.ne, ⟨r.room.1, hroom⟩, hflags, hfile⟩
      · simp only [if_neg h1, if_neg h2] at g2 ⊢
        rw [lastN_snoc _ _ _ _ r.cap, ← r.room.2] at g2
        refine ⟨g2, ?_, ?_, ⟨Nat.min_le_right _ _, hroom⟩, hflags, hfile⟩
        · have := r.cap
          simp only [List.length_append, List.length_cons, List.length_nil]
          omega
        · intro _
          have := r.room.2
          simp only
          omega

/-- **C40** For any sequence of typed lines and changes of HISTSIZE and HISTCONTROL, the history
holds the most recent saved commands in order, as many as were kept: one more with each saved
command up to HISTSIZE, and never more than any HISTSIZE since. -/
theorem keeps_recent (size : Nat) (hi : Byte → Bool) (hs : 0 < size) (l : List Use) :
    ∃ h, run (init size hi) (l.map Use.op) = some h ∧ Holds h (lastN (l.foldl Sp.use { room := size }).cap (l.foldl Sp.use { room := size }).all) := by
  have key : ∀ (l : List Use) (h : H) (s : Sp), Rel h s → ∃ g, run h (l.map Use.op) = some g ∧ Rel g (l.foldl Sp.use s) := by
    intro l
    induction l with
    | nil => exact fun h s r => ⟨h, rfl, r⟩
    | cons u l ih =>
      intro h s r
      obtain ⟨g, g1, g2⟩ := r.use u
      obtain ⟨k, k1, k2⟩ := ih g _ g2
      exact ⟨k, by simp only [List.map_cons, run, g1, Option.bind_some, k1], k2⟩
  obtain ⟨h, h1, h2⟩ := key l _ _ (rel_init size hi hs)
  exact ⟨h, h1, h2.holds⟩

/-- **C40** With HISTSIZE as it is, these are the last `min n HISTSIZE` of the `n` lines. -/
theorem keeps_lines (size : Nat) (hi : Byte → Bool) (hs : 0 < size) (l : List Bytes) :
    ∃ h, run (init size hi) (l.map (fun c => Op.cmd (c ++ [0x0a]))) = some h ∧ Holds h (lastN size l) ∧ h.n = min l.length size := by
  obtain ⟨h, h1, h2⟩ := keeps_recent size hi hs (l.map Use.typed)
  have e : ∀ (l : List Bytes) (s : Sp), s.dups = false → s.space = false → s.cap ≤ s.room →
      ((l.map Use.typed).foldl Sp.use s).all = s.all ++ l ∧ ((l.map Use.typed).foldl Sp.use s).cap = min (s.cap + l.length) s.room := by
    intro l
    induction l with
    | nil => intro s _ _ h3; simp; omega
    | cons c l ih =>
      intro s h1 h2 h3
      have ea : s.use (.typed c) = { s with all := s.all ++ [c], cap := min (s.cap + 1) s.room } := by simp [Sp.use, Sp.add, h1, h2]
      simp only [List.map_cons, List.foldl_cons, ea]
      obtain ⟨i1, i2⟩ := ih { s with all := s.all ++ [c], cap := min (s.cap + 1) s.room } h1 h2 (Nat.min_le_right _ _)
      refine ⟨by rw [i1]; simp, ?_⟩
      rw [i2]
      simp only [List.length_cons]
      omega
  obtain ⟨e1, e2⟩ := e l { room := size } rfl rfl (Nat.zero_le _)
  rw [e1, e2] at h2
  have hl : lastN (min (0 + l.length) size) ([] ++ l) = lastN size l := by
    simp only [lastN, List.nil_append]
    congr 1
    omega
  rw [hl] at h2
  refine ⟨h, ?_, h2, ?_⟩
  · rw [← h1, List.map_map]
    rfl
  · rw [← h2.length]
    simp only [lastN, List.length_drop]
    omega

/-! ### Numbers -/

/-- **C40** The number `fc -l` shows for an entry is not negative: then `fc` with that number
finds this entry (the current command only for `fc -l`). -/
theorem number_gets {h : H} {i : Nat} (hi : i < h.n) (hk : 0 ≤ number h i) (approx allowCur : Bool) (hc : allowCur = true ∨ i + 1 < h.n) :
    getNum h (number h i) approx allowCur = .entry i := by
  simp only [getNum]
  have hk' : ¬ number h i < 0 := by omega
  rw [if_neg hk']
  have hp : (h.n : Int) - 1 + (number h i - h.line) = (i : Int) := by simp only [number]; omega
  rw [hp, if_neg (by omega), if_neg (by omega)]
  have : ¬ ((!allowCur && (i : Int) == (h.n : Int) - 1) = true) := by
    rcases hc with e | e
    · simp [e]
    · have : ¬ (i : Int) = (h.n : Int) - 1 := by omega
      simp [this]
  rw [if_neg this]
  simp

/-- **C40** When all lines were typed and none was ignored, the number of an entry is the number of
the command among all that were typed, whatever HISTSIZE has been: it does not change while the
command is in the history.

Partial: see `ignored_shifts`, `dot_shifts` and `file_negative` for what changes the numbers. -/
theorem numbers_partial (size : Nat) (hi : Byte → Bool) (hs : 0 < size) (l : List Use) (hl : ∀ d s, Use.control d s ∉ l) :
    ∃ h items, run (init size hi) (l.map Use.op) = some h ∧ Holds h items ∧
      ∀ i < h.n, 0 < number h i ∧ items[i]? = (l.filterMap (fun | .typed c => some c | _ => none))[(number h i).toNat - 1]? ∧
        getNum h (number h i) false true = .entry i := by
  have key : ∀ (l : List Use) (h : H) (s : Sp), Rel h s → s.dups = false → s.space = false → h.line = s.all.length →
      (∀ d s, Use.control d s ∉ l) → ∃ g t, run h (l.map Use.op) = some g ∧ Rel g t ∧ g.line = t.all.length ∧
        t.all = s.all ++ l.filterMap (fun | .typed c => some c | _ => none) := by
    intro l
    induction l with
    | nil => exact fun h s r _ _ e _ => ⟨h, s, rfl, r, e, by simp⟩
    | cons u l ih =>
      intro h s r e1 e2 e3 hl
      obtain ⟨g, g1, g2⟩ := r.use u
      have hl' : ∀ d s, Use.control d s ∉ l := fun d s hm => hl d s (List.mem_cons_of_mem _ hm)
      cases u with
      | control d p => exact absurd List.mem_cons_self (hl d p)
      | size n =>
        have hline : g.line = h.line := by
          simp only [Use.op, step] at g1
          split at g1
          · rename_i hn
            obtain ⟨g', a1, _, a3, _⟩ := resize_spec r.holds hn
            rw [a1] at g1
            cases g1
            exact a3
          · cases g1; rfl
        have hall : (s.use (.size n)).all = s.all ∧ (s.use (.size n)).dups = s.dups ∧ (s.use (.size n)).space = s.space := by
          simp only [Sp.use]
          split <;> exact ⟨rfl, rfl, rfl⟩
        obtain ⟨k, t, k1, k2, k3, k4⟩ := ih g _ g2 (hall.2.1.trans e1) (hall.2.2.trans e2) (by rw [hline, hall.1, e3]) hl'
        exact ⟨k, t, by simp only [List.map_cons, run, g1, Option.bind_some, k1], k2, k3, by rw [k4, hall.1]; simp⟩
      | typed c =>
        have ea : s.use (.typed c) = { s with all := s.all ++ [c], cap := min (s.cap + 1) s.room } := by simp [Sp.use, Sp.add, e1, e2]
        have hline : g.line = h.line + 1 := by
          obtain ⟨g', a1, _, _, a4, _⟩ := save_nofile (r.holds.setLine (h.line + 1)) r.file (c ++ [0x0a])
          simp only [Use.op, step] at g1
          rw [a1] at g1
          cases g1
          exact a4
        rw [ea] at g2
        obtain ⟨k, t, k1, k2, k3, k4⟩ := ih g _ g2 e1 e2 (by rw [hline, e3]; simp) hl'
        exact ⟨k, t, by simp only [List.map_cons, run, g1, Option.bind_some, k1], k2, k3, by rw [k4]; simp⟩
  obtain ⟨h, t, h1, h2, h3, h4⟩ := key l _ _ (rel_init size hi hs) rfl rfl rfl hl
  refine ⟨h, _, h1, h2.holds, ?_⟩
  simp only [List.nil_append] at h4
  intro i hi
  have hn := h2.holds.length
  have hc := h2.cap
  simp only [lastN, List.length_drop] at hn
  have hnum : number h i = (t.all.length - h.n + 1 + i : Nat) := by
    simp only [number, h3]
    omega
  refine ⟨by rw [hnum]; omega, ?_, number_gets hi (by rw [hnum]; omega) _ _ (Or.inl rfl)⟩
  rw [hnum, ← h4]
  simp only [lastN, List.getElem?_drop, Int.toNat_natCast]
  congr 1
  omega

/-! ### What goes wrong -/

/-- **C40** With HISTCONTROL=ignorespace an ignored line is counted, so the numbers of all entries
grow by one: `a`, ` x`, `b`: before, `a` had number 1, afterwards 2. -/
theorem ignored_shifts : ∃ h g, run (init 4 (fun _ => false)) [.control false true, .cmd [0x61]] = some h ∧ get h 0 = some [0x61] ∧ number h 0 = 1 ∧
    run h [.cmd [0x20, 0x78], .cmd [0x62]] = some g ∧ get g 0 = some [0x61] ∧ number g 0 = 2 := by
  refine ⟨_, _, rfl, ?_, ?_, rfl, ?_, ?_⟩ <;> decide +kernel

/-- **C40** `print -s` in a file read by `.` does not count, so the numbers of the older entries
become smaller. -/
theorem dot_shifts : ∃ h g, run (init 4 (fun _ => false)) [.cmd [0x61]] = some h ∧ number h 0 = 1 ∧
    run h [.other [0x62]] = some g ∧ get g 0 = some [0x61] ∧ number g 0 = 0 := by
  refine ⟨_, _, rfl, ?_, rfl, ?_, ?_⟩ <;> decide +kernel

/-- **C40** When HISTFILE is set for the first time after some commands, the count starts again
with the lines of the file and the older commands get negative numbers; with such a number `fc`
finds another entry (it counts back from the end). -/
theorem file_negative : ∃ h, run (init 9 (fun _ => false)) [.cmd [0x61], .cmd [0x62], .cmd [0x63], .setFile (some [0x64, 0x0a])] = some h ∧
    get h 0 = some [0x61] ∧ number h 0 = -2 ∧ getNum h (-2) false false = .entry 1 := by
  refine ⟨_, rfl, ?_, ?_, ?_⟩ <;> decide +kernel

/-- **C40** With HISTCONTROL=ignorespace, ` fc -s` is not saved, but hist_execute takes away the
last entry as if it had been: the command `b` is lost, and `a` is the one executed. -/
theorem ignored_fc_loses : ∃ h g, run (init 9 (fun _ => false)) [.control false true, .cmd [0x61], .cmd [0x62], .cmd [0x20, 0x66, 0x63]] = some h ∧
    newest h false = .entry 0 ∧ get h 0 = some [0x61] ∧ get h 1 = some [0x62] ∧
    run h [.execute [0x61]] = some g ∧ g.n = 2 ∧ get g 0 = some [0x61] ∧ get g 1 = some [0x61] := by
  refine ⟨_, _, rfl, ?_, ?_, ?_, rfl, ?_, ?_, ?_⟩ <;> decide +kernel

/-- **C41** A command with a newline in it is written to the file, and decoded, in full, but
histsave cuts it at its last newline when the file is loaded: `a<newline>b` becomes `a`. -/
theorem load_loses_line : ∃ h g f, run (init 9 (fun _ => false)) [.setFile (some []), .cmd [0x61, 0x0a, 0x62, 0x0a]] = some h ∧
    get h 0 = some [0x61, 0x0a, 0x62] ∧ h.file = some f ∧ decode f.text = [[0x61, 0x0a, 0x62]] ∧
    run h [.setFile (some f.text)] = some g ∧ get g 0 = some [0x61] := by
  refine ⟨_, _, _, rfl, ?_, rfl, ?_, rfl, ?_⟩ <;> decide +kernel

/-! ### `fc -s` and `fc -e` -/

/-- **C65** The `fc` command that is the last entry is replaced by the lines it executes, each of
them saved as if it had been typed.  (`lastLine ≠ line` as long as no `fc` was executed since the
line was read.) -/
theorem fc_replaces {h : H} {items : List Bytes} {fc : Bytes} (w : Holds h (items ++ [fc])) (hf : h.file = none) (hl : h.lastLine ≠ h.line) (cmd : Bytes) :
    ∃ g, execute h cmd = some g ∧ Holds g ((cmdLines cmd).foldl (added h) items) ∧ g.line = h.line - 1 + (cmdLines cmd).length := by
  have hn : 0 < h.n := by have := w.length; simp at this; omega
  obtain ⟨g, g1, ⟨s1, s2, s3, s4⟩, g2, g3⟩ := backup_spec w
  rw [if_pos ⟨hn, hl⟩, List.dropLast_concat] at g2
  have key : ∀ (ls : List Bytes) {k : H} {it : List Bytes}, Holds k it → k.file = none → k.size = h.size → k.dups = h.dups → k.space = h.space →
      ∃ r, saveAll k ls = some r ∧ Holds r (ls.foldl (added h) it) ∧ r.line = k.line + ls.length := by
    intro ls
    induction ls with
    | nil => intro k it wk _ _ _ _; exact ⟨k, rfl, wk, by simp⟩
    | cons l ls ih =>
      intro k it wk kf ks kd kp
      obtain ⟨r, r1, r2, r3, r4, r5⟩ := save_nofile (wk.setLine (k.line + 1)) kf l
      have e : added { k with line := k.line + 1 } it l = added h it l := by simp only [added, ks, kd, kp]
      rw [e] at r2
      obtain ⟨q, q1, q2, q3⟩ := ih r2 r5 (r3.1.trans ks) (r3.2.1.trans kd) (r3.2.2.1.trans kp)
      refine ⟨q, by simp only [saveAll, r1, Option.bind_some, q1], q2, ?_⟩
      rw [q3, r4]
      simp only [List.length_cons]
      omega
  obtain ⟨r, r1, r2, r3⟩ := key (cmdLines cmd) g2 (s4.trans hf) s1 s2 s3
  exact ⟨r, by simp only [execute, g1, Option.bind_some, r1], r2, by rw [r3, (g3 ⟨hn, hl⟩).1]⟩

/-- The lines of hist_execute: joined by newlines they are the text, but for one newline at its end. -/
theorem cmdLines_spec (cmd : Bytes) : (∀ l ∈ cmdLines cmd, 0x0a ∉ l) ∧ cmdLines cmd ≠ [] ∧
    (join [0x0a] (cmdLines cmd) = cmd ∨ join [0x0a] (cmdLines cmd) ++ [0x0a] = cmd) := by
  have key : ∀ (s acc : Bytes), 0x0a ∉ acc → (∀ l ∈ cmdLines.go s acc, 0x0a ∉ l) ∧ cmdLines.go s acc ≠ [] ∧
      (join [0x0a] (cmdLines.go s acc) = acc ++ s ∨ join [0x0a] (cmdLines.go s acc) ++ [0x0a] = acc ++ s) := by
    intro s
    induction s with
    | nil => intro acc h; simp [cmdLines.go, join, h]
    | cons c s ih =>
      intro acc h
      simp only [cmdLines.go]
      by_cases hc : c = 0x0a
      · subst hc
        simp only [beq_self_eq_true, if_true]
        by_cases hs : s = []
        · subst hs
          simp [join, h]
        · rw [if_neg hs]
          obtain ⟨i1, i2, i3⟩ := ih [] (by simp)
          refine ⟨?_, by simp, ?_⟩
          · intro l hl
            rcases List.mem_cons.1 hl with e | e
            · rw [e]; exact h
            · exact i1 l e
          · cases hg : cmdLines.go s [] with
            | nil => exact absurd hg i2
            | cons q m =>
              rw [hg] at i3
              simp only [List.nil_append] at i3
              simp only [join]
              rcases i3 with e | e
              · left; rw [e]; simp
              · right; rw [← e]; simp
      · have : (c == 0x0a) = false := by simpa using hc
        simp only [this, Bool.false_eq_true, if_false]
        obtain ⟨i1, i2, i3⟩ := ih (acc ++ [c]) (by simp [h, Ne.symm hc])
        refine ⟨i1, i2, ?_⟩
        simpa using i3
  simpa [cmdLines] using key cmd [] (by simp)

/-! ### The file -/

/-- **C64** A saved command is appended to the file as one line; what other shells have written in the
meantime is still there.  (Fewer than 125% of HISTSIZE lines; else see `file_rewritten`.) -/
theorem file_appended {h : H} {items : List Bytes} (w : Holds h items) {f : F} (hf : h.file = some f) {cmd c : Bytes}
    (hk : kept h.dups h.space items.getLast? cmd = some c)
    (hs : (if f.stale then (decode f.text).length + 2 else f.lineCo + 1) < h.size + h.size / 4) :
    ∃ g k, save h cmd = some g ∧ g.file = some { text := f.text ++ strvis h.hi c ++ [0x0a], stale := false, lineCo := k } ∧
      Holds g (lastN h.size ((if f.stale then loaded h [] (decode f.text) else items) ++ [c])) := by
  have tail : ∀ (g : H) (it : List Bytes) (f' : F), Holds g it → Same h g → g.file = some f' → f'.text = f.text → f'.lineCo + 1 < h.size + h.size / 4 →
      ∃ r k, ((push g c).bind fun h =>
          match h.file with
          | none => some h
          | some f => write h { text := f.text ++ (strvis h.hi c ++ [0x0a]), stale := false, lineCo := f.lineCo + 1 }) = some r ∧
        r.file = some { text := f.text ++ strvis h.hi c ++ [0x0a], stale := false, lineCo := k } ∧ Holds r (lastN h.size (it ++ [c])) := by
    intro g it f' wg sg gf ft fl
    obtain ⟨r, g1, g2, g3, _, g5⟩ := push_ok wg c
    rw [sg.1] at g2
    have sr := Same.trans sg g3
    rw [g1, Option.bind_some]
    rw [gf] at g5
    simp only [g5]
    rw [write_spec g2]
    refine ⟨_, f'.lineCo + 1, rfl, ?_, g2.setF _⟩
    simp only [sr.1, fl, if_true, ft, sr.2.2.2.2.1, List.append_assoc]
  simp only [save, accept_spec w, Option.bind_some, hk, hf]
  by_cases hst : f.stale = true
  · simp only [hst, if_true] at hs ⊢
    obtain ⟨hp, e1, e2⟩ := reset_spec w
    obtain ⟨g, l1, l2, l3, l4, l5⟩ := loadLines_spec (decode f.text) 1 e2
    have hld : ∃ b, load { h with heap := hp, n := 0, line := 0 } f = some { g with file := some { f with lineCo := b } } ∧ b = 1 + (decode f.text).length := by
      refine ⟨_, ?_, rfl⟩
      simp only [load]
      rw [show (lines f.text.length f.text).map strunvis = decode f.text from rfl, l1]
      simp only [Option.bind_some]
      split
      · rw [write_spec l2]
        have : 1 + (decode f.text).length < g.size + g.size / 4 := by
          have := l3.1
          simp only at this
          rw [this]
          omega
        simp only [this, if_true]
      · rfl
    obtain ⟨b, hld, hb⟩ := hld
    rw [e1, Option.bind_some, hld, Option.bind_some]
    exact tail _ _ { f with lineCo := b } (l2.setF _) l3 rfl rfl (by simp only; omega)
  · simp only [hst, Bool.false_eq_true, if_false, Option.bind_some] at hs ⊢
    exact tail h items f w (Same.refl h) hf rfl hs

/-- **C64** When the file has grown too long it is rewritten: then it holds the entries, encoded one
on a line. -/
theorem file_rewritten {h : H} {items : List Bytes} (w : Holds h items) {f : F} (hf : h.file = some f) {cmd c : Bytes}
    (hk : kept h.dups h.space items.getLast? cmd = some c) (hs : f.stale = false) (hl : h.size + h.size / 4 ≤ f.lineCo + 1) :
    ∃ g, save h cmd = some g ∧ g.file = some { text := fileOf h.hi (lastN h.size (items ++ [c])), stale := false, lineCo := h.size } ∧
      Holds g (lastN h.size (items ++ [c])) := by
  simp only [save, accept_spec w, Option.bind_some, hk, hf, hs, Bool.false_eq_true, if_false]
  obtain ⟨r, g1, g2, g3, _, g5⟩ := push_ok w c
  rw [g1, Option.bind_some]
  rw [hf] at g5
  simp only [g5]
  rw [write_spec g2]
  refine ⟨_, rfl, ?_, g2.setF _⟩
  simp only [g3.1, g3.2.2.2.2.1]
  rw [if_neg (by omega)]

/-- Two shells with one file: the commands of the other shell are found after the next command. -/
example : ∃ h f, run (init 9 (fun _ => false)) [.setFile (some []), .cmd [0x61, 0x0a], .ext [0x61, 0x0a, 0x62, 0x0a], .cmd [0x63, 0x0a]] = some h ∧
    h.n = 3 ∧ get h 1 = some [0x62] ∧ h.file = some f ∧ f.text = [0x61, 0x0a, 0x62, 0x0a, 0x63, 0x0a] := by
  refine ⟨_, _, rfl, ?_, ?_, rfl, ?_⟩ <;> decide +kernel

/-- HISTSIZE 3, five lines, HISTSIZE 2, HISTSIZE 4, one line: `d`, `e`, `f`, numbers 4 to 6. -/
example : ∃ h, run (init 3 (fun _ => false)) (List.map Use.op
      [.typed [0x61], .typed [0x62], .typed [0x63], .typed [0x64], .typed [0x65], .size 2, .size 4, .typed [0x66]]) = some h ∧
    h.n = 3 ∧ get h 0 = some [0x64] ∧ get h 2 = some [0x66] ∧ number h 0 = 4 ∧ getNum h 5 false false = .entry 1 := by
  refine ⟨_, rfl, ?_, ?_, ?_, ?_, ?_⟩ <;> decide +kernel

end Ksh.History
