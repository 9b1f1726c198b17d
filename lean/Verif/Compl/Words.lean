import Verif.Compl.Model
import Verif.Edit.Complete
/-! # Which words completion offers, and in which order -/

namespace Ksh.Compl

/-! ## Arrays -/

/-- `ws` are the words of a text: it consists of them and of blanks between them. -/
inductive Split : List Char → List (List Char) → Prop
  | nil : Split [] []
  | blank {c t ws} : space c = true → Split t ws → Split (c :: t) ws
  | word {w t ws} : w ≠ [] → (∀ c ∈ w, space c = false) → (t = [] ∨ ∃ c r, t = c :: r ∧ space c = true) → Split t ws → Split (w ++ t) (w :: ws)

/-- The words do not depend on how the text is split. -/
theorem Split.unique {t ws} (h : Split t ws) : ∀ {ws'}, Split t ws' → ws = ws' := by
  induction h with
  | nil =>
    intro ws' h'
    generalize ht : ([] : List Char) = t at h'
    cases h' with
    | nil => rfl
    | blank => cases ht
    | word hw => simp at ht; exact absurd ht.1 hw
  | @blank c t ws hc _ ih =>
    intro ws' h'
    generalize ht : c :: t = x at h'
    cases h' with
    | nil => cases ht
    | blank _ h2 => simp only [List.cons.injEq] at ht; exact ih (ht.2 ▸ h2)
    | @word w t' ws' hw h1 =>
      cases w with
      | nil => exact absurd rfl hw
      | cons d w =>
        simp only [List.cons_append, List.cons.injEq] at ht
        rw [← ht.1] at h1
        rw [h1 c (by simp)] at hc
        cases hc
  | @word w t ws hw h1 h2 _ ih =>
    intro ws' h'
    generalize ht : w ++ t = x at h'
    cases h' with
    | nil => simp at ht; exact absurd ht.1 hw
    | @blank c t' ws' hc h3 =>
      cases w with
      | nil => exact absurd rfl hw
      | cons d w =>
        simp only [List.cons_append, List.cons.injEq] at ht
        rw [ht.1] at h1
        rw [h1 c (by simp)] at hc
        cases hc
    | @word w' t' ws' hw' h1' h2' h3 =>
      have key : ∀ (w w' : List Char), (∀ c ∈ w, space c = false) → (∀ c ∈ w', space c = false) → w ++ t = w' ++ t' → w = w' ∧ t = t' := by
        intro w
        induction w with
        | nil =>
          intro w' _ hb e
          cases w' with
          | nil => exact ⟨rfl, e⟩
          | cons d w' =>
            rcases h2 with rfl | ⟨c, r, rfl, hc⟩
            · simp at e
            · simp only [List.nil_append, List.cons_append, List.cons.injEq] at e
              rw [e.1, hb d (by simp)] at hc; cases hc
        | cons d w ihw =>
          intro w' ha hb e
          cases w' with
          | nil =>
            rcases h2' with rfl | ⟨c, r, rfl, hc⟩
            · simp at e
            · simp only [List.nil_append, List.cons_append, List.cons.injEq] at e
              rw [← e.1, ha d (by simp)] at hc; cases hc
          | cons d' w' =>
            simp only [List.cons_append, List.cons.injEq] at e
            obtain ⟨e1, e2⟩ := ihw w' (fun c hc => ha c (List.mem_cons_of_mem _ hc)) (fun c hc => hb c (List.mem_cons_of_mem _ hc)) e.2
            exact ⟨by rw [e.1, e1], e2⟩
      obtain ⟨rfl, rfl⟩ := key w w' h1 h1' ht
      rw [ih h3]

/-- The number of the argument that begins behind the text: after a blank it is the number of words, the command's name
included; else it is one with the last of them. -/
def argNo (t : List Char) (ws : List (List Char)) : Nat :=
  match t.getLast? with
  | none => 1
  | some c => if space c then ws.length else ws.length - 1

theorem split_total : ∀ t, ∃ ws, Split t ws := by
  intro t
  generalize hn : t.length = n
  induction n using Nat.strongRecOn generalizing t with
  | ind n ih =>
    cases t with
    | nil => exact ⟨[], .nil⟩
    | cons c t =>
      by_cases hc : space c = true
      · obtain ⟨ws, h⟩ := ih t.length (by subst hn; simp) t rfl
        exact ⟨ws, .blank hc h⟩
      · have e : c :: t = (c :: t).takeWhile (!space ·) ++ (c :: t).dropWhile (!space ·) := List.takeWhile_append_dropWhile.symm
        have h1 : (c :: t).takeWhile (!space ·) = c :: t.takeWhile (!space ·) := by simp [hc]
        have h2 : (c :: t).dropWhile (!space ·) = t.dropWhile (!space ·) := by simp [hc]
        obtain ⟨ws, h⟩ := ih (t.dropWhile (!space ·)).length (by
          subst hn
          have := (List.dropWhile_sublist (!space ·) (l := t)).length_le
          simp only [List.length_cons]; omega) _ rfl
        rw [e, h1, h2]
        refine ⟨_ :: ws, .word (by simp) ?_ ?_ h⟩
        · intro d hd
          rcases List.mem_cons.mp hd with rfl | hd
          · simpa using hc
          · have hall : (t.takeWhile (!space ·)).all (!space ·) = true := List.all_takeWhile
            simpa using List.all_eq_true.mp hall d hd
        · cases hd : t.dropWhile (!space ·) with
          | nil => exact .inl rfl
          | cons d r =>
            right
            refine ⟨d, r, rfl, ?_⟩
            have := List.head_dropWhile_not (l := t) (!space ·) (by rw [hd]; simp)
            simp only [hd, List.head_cons] at this
            simpa using this

/-- 1 for a text that ends within a word -/
def unfinished (t : List Char) : Nat := match t.getLast? with
  | some c => if space c then 0 else 1
  | none => 0

theorem split_nil {ws} (h : Split [] ws) : ws = [] := Split.unique h .nil

/-- behind a character that is not a blank, in the middle of a word -/
theorem argLoop_word (p : Char) (hp : space p = false) : ∀ (w : List Char) (t : List Char) (n : Nat), (∀ c ∈ w, space c = false) →
    ∃ p', space p' = false ∧ argLoop p (w ++ t) n = argLoop p' t n := by
  intro w
  induction w generalizing p with
  | nil => intro t n _; exact ⟨p, hp, rfl⟩
  | cons c w ih =>
    intro t n h
    have hc := h c (by simp)
    obtain ⟨p', h1, h2⟩ := ih c hc t n (fun d hd => h d (List.mem_cons_of_mem _ hd))
    refine ⟨p', h1, ?_⟩
    rw [List.cons_append, argLoop, hc, ← h2]
    simp

theorem argLoop_split {t ws} (h : Split t ws) : ∀ (p : Char) (n : Nat),
    (space p = true → argLoop p t n = n + ws.length - unfinished t) ∧
    (space p = false → (t = [] ∨ ∃ c r, t = c :: r ∧ space c = true) →
      argLoop p t n = (match t with | [] => n | _ :: _ => n + 1) + ws.length - unfinished t) := by
  induction h with
  | nil => intro p n; simp [argLoop, unfinished]
  | @blank c t ws hc _ ih =>
    intro p n
    have hl : unfinished (c :: t) =
        unfinished t := by
      cases t with
      | nil => simp [unfinished, hc]
      | cons d t => simp [unfinished, List.getLast?_cons_cons]
    rw [hl]
    constructor
    · intro hp
      rw [argLoop, hp, hc]
      exact (ih c n).1 hc
    · intro hp _
      rw [argLoop, hp, hc]
      simpa using (ih c (n + 1)).1 hc
  | @word w t ws hw h1 h2 _ ih =>
    intro p n
    constructor
    · intro hp
      cases w with
      | nil => exact absurd rfl hw
      | cons c w =>
        have hc := h1 c (by simp)
        rw [List.cons_append, argLoop, hp, hc]
        obtain ⟨p', e1, e2⟩ := argLoop_word c hc w t n (fun d hd => h1 d (List.mem_cons_of_mem _ hd))
        simp only [Bool.not_true, Bool.false_and, if_false, Bool.false_eq_true]
        rw [e2, (ih p' n).2 e1 h2]
        rcases h2 with rfl | ⟨d, r, rfl, hd⟩
        · have : ∃ z, (c :: (w ++ [])).getLast? = some z ∧ space z = false := by
            refine ⟨(c :: w).getLast (by simp), by rw [List.append_nil, List.getLast?_eq_some_getLast], h1 _ (List.getLast_mem _)⟩
          obtain ⟨z, hz, hz'⟩ := this
          rw [List.append_nil] at hz
          simp [unfinished, hz, hz', split_nil ‹_›]
        · have : (c :: (w ++ d :: r)).getLast? = (d :: r).getLast? := by
            rw [← List.cons_append, List.getLast?_append]
            simp [List.getLast?_cons]
          simp only [unfinished, this, List.length_cons]
          omega
    · intro hp h
      rcases h with h | ⟨c, r, h, hc⟩
      · simp at h; exact absurd h.1 hw
      · cases w with
        | nil => exact absurd rfl hw
        | cons d w =>
          simp only [List.cons_append, List.cons.injEq] at h
          rw [← h.1, h1 d (by simp)] at hc; cases hc

theorem argCount_spec {t ws} (h : Split t ws) (ht : ∀ c ∈ t.head?, space c = false) (hsp : ws.length = 1 → t ≠ ws.flatten) :
    argCount t (t.takeWhile (!space ·)).length = argNo t ws ∧ (t.takeWhile (!space ·)) = ws.headD [] := by
  cases h with
  | nil => simp [argCount, argNo]
  | blank hc _ => rw [ht _ rfl] at hc; cases hc
  | @word w t ws hw h1 h2 h3 =>
    have htw : (w ++ t).takeWhile (!space ·) = w := by
      rw [List.takeWhile_append_of_pos (by intro c hc; simp [h1 c hc])]
      rcases h2 with rfl | ⟨d, r, rfl, hd⟩
      · simp
      · simp [hd]
    refine ⟨?_, by simpa using htw⟩
    rw [htw, argCount, List.drop_left]
    rcases h2 with rfl | ⟨d, r, rfl, hd⟩
    · have := split_nil h3
      subst this
      exact absurd (by simp) (hsp rfl)
    · dsimp only
      generalize hdr : d :: r = x at h3
      cases h3 with
      | nil => cases hdr
      | @blank d' r' ws' _ h4 =>
        simp only [List.cons.injEq] at hdr
        obtain ⟨rfl, rfl⟩ := hdr
        rw [(argLoop_split h4 d 1).1 hd, argNo]
        have hl : (w ++ d :: r).getLast? = (d :: r).getLast? := by
          rw [List.getLast?_append]; simp [List.getLast?_cons]
        rw [hl]
        cases r with
        | nil => simp [split_nil h4, hd, unfinished]
        | cons e r =>
          rw [List.getLast?_cons_cons]
          simp only [unfinished, List.getLast?_eq_some_getLast (show e :: r ≠ [] by simp), List.length_cons]
          split <;> omega
      | @word w' t' ws' hw' h5 =>
        cases w' with
        | nil => exact absurd rfl hw'
        | cons y w' =>
          simp only [List.cons_append, List.cons.injEq] at hdr
          rw [hdr.1, h5 y (by simp)] at hd; cases hd

/-- The text of the command before position `start`: from behind the last separator. -/
structure Before (buf : List Char) (start : Nat) (t : List Char) : Prop where
  ends : ∃ pre, buf.take start = pre ++ t ∧ (pre = [] ∨ ∃ p c, pre = p ++ [c] ∧ sep c = true)
  none : ∀ c ∈ t, sep c = false

theorem cmdStart_spec (buf : List Char) : ∀ start, start ≤ buf.length → ∃ p, cmdStart buf start = some p ∧ p ≤ start ∧ Before buf start ((buf.take start).drop p)
  | 0, _ => ⟨0, rfl, Nat.le_refl _, ⟨⟨[], by simp⟩, by simp⟩⟩
  | s + 1, h => by
    have hs : buf[s]? = some (buf[s]'(by omega)) := List.getElem?_eq_getElem (by omega)
    generalize buf[s]'(by omega) = c at hs
    have e : buf.take (s + 1) = buf.take s ++ [c] := by rw [List.take_add_one, hs]; rfl
    rw [cmdStart, hs]
    dsimp only
    by_cases hc : sep c = true
    · rw [if_pos hc]
      refine ⟨s + 1, rfl, Nat.le_refl _, ⟨⟨buf.take (s + 1), ?_, .inr ⟨_, c, e, hc⟩⟩, ?_⟩⟩
      · simp
      · intro d hd; simp at hd
    · rw [if_neg hc]
      obtain ⟨p, h1, h2, ⟨⟨pre, h3, h4⟩, h5⟩⟩ := cmdStart_spec buf s (by omega)
      have e' : (buf.take (s + 1)).drop p = (buf.take s).drop p ++ [c] := by
        rw [e, List.drop_append_of_le_length (by rw [List.length_take]; omega)]
      refine ⟨p, h1, by omega, ⟨⟨pre, ?_, h4⟩, ?_⟩⟩
      · rw [e', e, ← List.append_assoc, ← h3]
      · intro d hd
        rw [e'] at hd
        rcases List.mem_append.mp hd with hd | hd
        · exact h5 d hd
        · simp only [List.mem_singleton] at hd; subst hd; simpa using hc

theorem nil_or_snoc (l : List Char) : l = [] ∨ ∃ y c, l = y ++ [c] := by
  rcases List.eq_nil_or_concat l with h | ⟨y, c, h⟩
  · exact .inl h
  · exact .inr ⟨y, c, by simpa using h⟩

theorem Before.unique {buf start t t'} (h : Before buf start t) (h' : Before buf start t') : t = t' := by
  obtain ⟨⟨pre, e, hp⟩, hn⟩ := h
  obtain ⟨⟨pre', e', hp'⟩, hn'⟩ := h'
  rw [e] at e'
  rcases List.append_eq_append_iff.mp e' with ⟨x, rfl, rfl⟩ | ⟨x, rfl, rfl⟩
  · rcases nil_or_snoc x with rfl | ⟨y, c, rfl⟩
    · rfl
    · rcases hp' with hp' | ⟨p, d, hp', hd⟩
      · simp at hp'
      · rw [← List.append_assoc] at hp'
        obtain ⟨-, hcd⟩ := List.append_inj' hp' rfl
        simp only [List.cons.injEq, and_true] at hcd
        have := hn c (by simp)
        rw [hcd, hd] at this; cases this
  · rcases nil_or_snoc x with rfl | ⟨y, c, rfl⟩
    · rfl
    · rcases hp with hp | ⟨p, d, hp, hd⟩
      · simp at hp
      · rw [← List.append_assoc] at hp
        obtain ⟨-, hcd⟩ := List.append_inj' hp rfl
        simp only [List.cons.injEq, and_true] at hcd
        have := hn' c (by simp)
        rw [hcd, hd] at this; cases this

theorem split_drop {t ws} (h : Split t ws) : Split (t.dropWhile space) ws := by
  induction h with
  | nil => exact .nil
  | blank hc _ ih => simpa [hc] using ih
  | @word w t ws hw h1 h2 h3 ih =>
    cases w with
    | nil => exact absurd rfl hw
    | cons c w =>
      have : ((c :: w) ++ t).dropWhile space = (c :: w) ++ t := by simp [h1 c (by simp)]
      rw [this]
      exact .word hw h1 h2 h3

theorem argNo_drop {t ws} (h : Split t ws) (hne : ws ≠ []) : argNo (t.dropWhile space) ws = argNo t ws := by
  induction h with
  | nil => rfl
  | @blank c t ws hc ht ih =>
    rw [List.dropWhile_cons, if_pos hc, ih hne, argNo, argNo]
    cases t with
    | nil => exact absurd (split_nil ht) hne
    | cons d t => rw [List.getLast?_cons_cons]
  | @word w t ws hw h1 h2 h3 ih =>
    cases w with
    | nil => exact absurd rfl hw
    | cons c w =>
      have : ((c :: w) ++ t).dropWhile space = (c :: w) ++ t := by simp [h1 c (by simp)]
      rw [this]

/-- An array with a word in it. -/
def HasWords (v : Var) : Prop := v.array = true ∧ ∃ e, some e ∈ v.elems

/-- The words a variable offers for what was typed. -/
def Var.offering (v : Var) (typed : List Char) : List (List Char) := (v.elems.filterMap id).filter typed.isPrefixOf

theorem offers_eq (want : List Char) (l : List (Option (List Char))) :
    l.filterMap (offers want) = (l.filterMap id).filter want.isPrefixOf := by
  induction l with
  | nil => rfl
  | cons e l ih =>
    cases e with
    | none => simp only [List.filterMap_cons, offers, id_eq]; exact ih
    | some s =>
      simp only [List.filterMap_cons, offers, id_eq, List.filter_cons]
      have hp : (want.isPrefixOf s = true) ↔ s.take want.length = want := by
        rw [List.isPrefixOf_iff_prefix, List.prefix_iff_eq_take]; exact eq_comm
      by_cases h1 : s.length < want.length
      · rw [if_pos h1, if_neg]
        · exact ih
        · intro h2
          have h3 := congrArg List.length (hp.mp h2)
          rw [List.length_take] at h3; omega
      · rw [if_neg h1]
        by_cases h2 : s.take want.length = want
        · rw [if_pos h2, if_pos (hp.mpr h2)]; simp [ih]
        · rw [if_neg h2, if_neg (fun h => h2 (hp.mp h))]; exact ih

/-- **C113** Programmable completion: for the `n`-th argument of a command the words of `complete_CMD_n` that begin with
what was typed are offered, or of `complete_CMD` if the former has no words.  The text of the command is taken from behind
the last separator and split at blanks, so quotes are not understood; an array must have an element 0. -/
theorem array_offers_partial (global : List Char → Var) (buf : List Char) (start len : Nat) (h0 : 0 < start) (hl : start ≤ buf.length)
    (hprev : ∃ c, buf[start - 1]? = some c ∧ nameChar c = false)
    (helem : ∀ x, HasWords (global x) → ∃ e, (global x).elems.head? = some (some e))
    {t : List Char} {cmd : List Char} {ws : List (List Char)} (hb : Before buf start t) (hs : Split t (cmd :: ws)) (hname : ∀ c ∈ cmd, nameChar c = true) :
    ∃ out, tryArray global buf start len = some out ∧
      (HasWords (global (complete_ ++ cmd ++ '_' :: decimal (argNo t (cmd :: ws)))) →
        out = (global (complete_ ++ cmd ++ '_' :: decimal (argNo t (cmd :: ws)))).offering ((buf.drop start).take len)) ∧
      (¬ HasWords (global (complete_ ++ cmd ++ '_' :: decimal (argNo t (cmd :: ws)))) →
        HasWords (global (complete_ ++ cmd)) → out = (global (complete_ ++ cmd)).offering ((buf.drop start).take len)) ∧
      (¬ HasWords (global (complete_ ++ cmd ++ '_' :: decimal (argNo t (cmd :: ws)))) → ¬ HasWords (global (complete_ ++ cmd)) → out = []) := by
  obtain ⟨p, h1, h2, h3⟩ := cmdStart_spec buf start hl
  have e := hb.unique h3
  have hu : ∀ x, (global x).usable = true ↔ HasWords (global x) := by
    intro x
    constructor
    · intro h
      simp only [Var.usable, Bool.and_eq_true] at h
      refine ⟨h.1, ?_⟩
      cases hx : (global x).elems with
      | nil => rw [hx] at h; simp at h
      | cons y l =>
        rw [hx] at h
        cases y with
        | none => simp at h
        | some y => exact ⟨y, by simp⟩
    · intro h
      obtain ⟨y, hy⟩ := helem x h
      simp only [Var.usable, h.1, Bool.true_and]
      cases hx : (global x).elems with
      | nil => rw [hx] at hy; simp at hy
      | cons z l => rw [hx] at hy; simp only [List.head?_cons, Option.some.injEq] at hy; subst hy; rfl
  have hd := split_drop hs
  have hlast : ∃ q c, t = q ++ [c] ∧ nameChar c = false := by
    obtain ⟨c, hc, hc'⟩ := hprev
    have hx : buf.take start = buf.take (start - 1) ++ [c] := by
      rw [show start = start - 1 + 1 by omega, List.take_add_one, hc]; simp
    obtain ⟨pre, hpre, hsep⟩ := hb.ends
    rcases nil_or_snoc t with rfl | ⟨q, d, rfl⟩
    · exact absurd (split_nil hs) (by simp)
    · rw [hx, ← List.append_assoc] at hpre
      obtain ⟨-, hcd⟩ := List.append_inj' hpre rfl
      simp only [List.cons.injEq, and_true] at hcd
      exact ⟨q, d, rfl, by rw [← hcd]; exact hc'⟩
  have hargs := argCount_spec hd (by
    intro c hc
    have hne : t.dropWhile space ≠ [] := by intro h; rw [h] at hc; simp at hc
    have := List.head_dropWhile_not space hne
    rw [List.head?_eq_some_head hne] at hc
    simp only [Option.mem_def, Option.some.injEq] at hc
    rw [hc] at this; exact this) (by
    intro hlen heq
    have hws : ws = [] := by simpa using hlen
    subst hws
    obtain ⟨q, c, rfl, hc⟩ := hlast
    simp only [List.flatten_cons, List.flatten_nil, List.append_nil] at heq
    have hm : c ∈ cmd := by
      have hx : (q ++ [c]).dropWhile space ≠ [] := by
        intro h
        rw [h] at hd; exact absurd (split_nil hd) (by simp)
      have hsub : (q ++ [c]).dropWhile space <:+ q ++ [c] := List.dropWhile_suffix _
      obtain ⟨pre, hpre⟩ := hsub
      rcases nil_or_snoc ((q ++ [c]).dropWhile space) with h | ⟨y, d, h⟩
      · exact absurd h hx
      · rw [h, ← List.append_assoc] at hpre
        obtain ⟨-, hcd⟩ := List.append_inj' hpre rfl
        simp only [List.cons.injEq, and_true] at hcd
        rw [← heq, h, hcd]; simp
    rw [hname c hm] at hc; cases hc)
  rw [argNo_drop hs (by simp)] at hargs
  simp only [List.headD_cons] at hargs
  have hall : cmd.all nameChar = true := List.all_eq_true.mpr hname
  have hta : tryArray global buf start len = match array global cmd (argNo t (cmd :: ws)) with
        | none => some []
        | some v => some (v.elems.filterMap (offers ((buf.drop start).take len))) := by
    rw [tryArray, if_neg (by omega), h1]
    simp only [cmdName, ← e, hargs.2, hall, if_true]
    have := hargs.1
    rw [hargs.2] at this
    rw [this]
    cases array global cmd (argNo t (cmd :: ws)) <;> rfl
  rw [hta]
  generalize argNo t (cmd :: ws) = k
  simp only [array]
  by_cases hA : HasWords (global (complete_ ++ cmd ++ '_' :: decimal k))
  · rw [if_pos ((hu _).mpr hA)]
    exact ⟨_, rfl, fun _ => offers_eq _ _, fun h => absurd hA h, fun h => absurd hA h⟩
  · rw [if_neg (fun h => hA ((hu _).mp h))]
    by_cases hB : HasWords (global (complete_ ++ cmd))
    · rw [if_pos ((hu _).mpr hB)]
      exact ⟨_, rfl, fun h => absurd h hA, fun _ _ => offers_eq _ _, fun _ h => absurd hB h⟩
    · rw [if_neg (fun h => hB ((hu _).mp h))]
      exact ⟨_, rfl, fun h => absurd h hA, fun _ h => absurd h hB, fun _ _ => rfl⟩

def empty : Var := ⟨false, []⟩
/-- `set -A complete_k_1 start stop`, `complete_k_2[1]=x` -/
def sampleVars (x : List Char) : Var :=
  if x = complete_ ++ ['k', '_', '1'] then ⟨true, [some ['s', 't', 'a', 'r', 't'], none, some ['s', 't', 'o', 'p'], some ['l']]⟩
  else if x = complete_ ++ ['k', '_', '2'] then ⟨true, [none, some ['x']]⟩
  else empty

example : tryArray sampleVars ['a', ';', 'k', ' ', 's', 't'] 4 2 = some [['s', 't', 'a', 'r', 't'], ['s', 't', 'o', 'p']] := by decide +kernel

/-- An array without an element 0 is not used. -/
theorem no_element_0 : tryArray sampleVars ['k', ' ', 'a', ' ', 'x'] 4 1 = some [] ∧ HasWords (sampleVars (complete_ ++ ['k', '_', '2'])) := by
  refine ⟨by decide +kernel, by decide +kernel, ['x'], by decide +kernel⟩

/-- A quoted blank counts as the end of an argument: here the second argument is taken for the third. -/
theorem quoted_blank_counts (global : List Char → Var) :
    tryArray global ['k', ' ', 'a', '\\', ' ', 'b', ' ', 's'] 7 1 =
      (match array global ['k'] 3 with
        | none => some []
        | some v => some (v.elems.filterMap (offers ['s']))) := rfl

end Ksh.Compl
