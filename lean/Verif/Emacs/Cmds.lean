import Verif.Emacs.Search
/-!
# The other commands
-/

namespace Ksh.Emacs

variable {size : Nat} {s : Ed} {a : Line} {env : Env}

/-- What is assumed of the history and of completion: strings have no NUL, `x_cf_glob` answers a
part of the line. -/
structure EnvOk (env : Env) : Prop where
  hist : ∀ h ∈ env.hist, NoNul h
  range : ∀ t p, p ≤ t.length → (env.glob t p).1 ≤ (env.glob t p).2.1 ∧ (env.glob t p).2.1 ≤ t.length
  words : ∀ t p, ∀ w ∈ (env.glob t p).2.2, NoNul w

theorem insLoop_spec (x : List Char) (hx : NoNul x) : ∀ (n : Nat) {s : Ed} {a : Line}, R size s a →
    ∃ s', insLoop x n s = some s' ∧ R size s' (Nat.repeat (fun a => a.ins size x) n a) := by
  intro n
  induction n with
  | zero => intro s a h; exact ⟨s, rfl, h⟩
  | succ n ih =>
    intro s a h
    obtain ⟨s1, h1, r1⟩ := ins_spec h x hx
    obtain ⟨s2, h2, r2⟩ := ih r1
    refine ⟨s2, by simp [insLoop, h1, h2], ?_⟩
    have : ∀ (m : Nat) (b : Line), Nat.repeat (fun a => a.ins size x) m (b.ins size x) =
        Nat.repeat (fun a => a.ins size x) (m+1) b := by
      intro m
      induction m with
      | zero => intro b; rfl
      | succ m ihm => intro b; simp only [Nat.repeat] at ihm ⊢; rw [ihm]
    rw [← this]; exact r2

/-- Insert `n` copies, as many as there is room for. -/
def Line.insN (size : Nat) (a : Line) (c : Char) (n : Nat) : Line :=
  { a with left := a.left ++ List.replicate (min n (size - 1 - a.text.length)) c,
           fit := if n = 0 then a.fit else decide (a.text.length + n < size) }

theorem repeat_ins (c : Char) : ∀ (n : Nat) (a : Line), a.text.length < size →
    Nat.repeat (fun a => a.ins size [c]) n a = a.insN size c n := by
  intro n
  induction n with
  | zero => intro a _; simp [Nat.repeat, Line.insN]
  | succ n ih =>
    intro a ha
    simp only [Nat.repeat, ih a ha]
    simp only [Line.insN, Line.ins, Line.text, List.length_append, List.length_replicate, List.length_cons, List.length_nil] at *
    by_cases hr : a.left.length + a.right.length + (n + 1) < size
    · rw [if_pos (by omega)]
      simp only [Line.mk.injEq, true_and]
      refine ⟨?_, ?_⟩
      · rw [Nat.min_eq_left (by omega), Nat.min_eq_left (by omega), List.append_assoc, List.replicate_succ']
      · simp [hr]
    · rw [if_neg (by omega)]
      simp only [Line.mk.injEq, true_and]
      refine ⟨?_, ?_⟩
      · congr 2; omega
      · simp [hr]

theorem insert_spec (h : R size s a) (c : Char) (n : Nat) :
    ∃ s', insert s c n = some s' ∧ R size s' (if c = '\x00' then a else a.insN size c n) := by
  simp only [insert]
  by_cases hc : c = '\x00'
  · rw [if_pos hc, if_pos hc]; exact ⟨s, rfl, h⟩
  · rw [if_neg hc, if_neg hc, ← repeat_ins c n a h.text_lt]
    exact insLoop_spec [c] (by simp [NoNul, Ne.symm hc]) n h

theorem loadHist_spec (he : EnvOk env) (h : R size s a) (hp : Int) :
    ∃ s', loadHist env s hp = some s' ∧ R size s' (a.load size env.hist hp) := by
  simp only [loadHist, Line.load]
  by_cases hb : hp < 0 ∨ hp > (env.hist.length : Int) - 1
  · rw [if_pos hb, if_neg (by omega)]; exact ⟨s, rfl, h⟩
  · rw [if_neg hb, if_pos (by omega)]
    have hlt : hp.toNat < env.hist.length := by omega
    rw [List.getElem?_eq_getElem hlt]
    simp only [List.getD, List.getElem?_eq_getElem hlt, Option.getD_some]
    have hn := he.hist _ (List.getElem_mem hlt)
    generalize env.hist[hp.toNat] = l at hn
    have hs := h.ep_lt
    have hm : memput s.mem 0 (l.take (s.mem.length - 1) ++ ['\x00']) =
        some (l.take (size - 1) ++ ([] ++ '\x00' :: s.mem.drop ((l.take (size - 1)).length + 1))) := by
      simp only [memput, h.size]
      rw [if_neg (by simp; omega)]
      simp
    rw [hm]
    refine ⟨_, rfl, ?_⟩
    refine { h with mem := ⟨_, rfl⟩, size := ?_, cp := ?_, ep := ?_, nl := ?_, nr := ?_, histp := rfl }
    · simp only [List.length_append, List.length_cons, List.length_nil, List.length_drop, h.size]
      have : (l.take (size - 1)).length ≤ size - 1 := List.length_take_le _ _
      omega
    · simp only [h.size]
    · simp only [h.size]; rfl
    · exact fun hm => hn (List.mem_of_mem_take hm)
    · simp [NoNul]

/-- All of the line is killed. -/
def Line.killLine (a : Line) : Line :=
  { (a.remember a.text) with left := [], right := [], mark := none }

theorem delLine_spec (h : R size s a) : ∃ s', delLine s = some s' ∧ R size s' a.killLine := by
  simp only [delLine]
  rw [if_pos (by rw [h.size]; exact h.ep_lt), h.set_ep]
  obtain ⟨s0, g, r0⟩ := goto_spec h 0 (by omega)
  have hs0 : { s with cp := 0 } = s0 := by
    simp only [goto] at g
    rw [if_neg (by omega)] at g
    injection g
  have hright : (a.moveTo 0).right = a.text := by simp [Line.moveTo]
  obtain ⟨s1, h1, r1⟩ := push_spec r0 s.ep (by rw [hright, h.ep']; exact Nat.le_refl _)
  rw [hright, h.ep', List.take_length] at r1
  rw [hs0, h1]
  refine ⟨_, rfl, ?_⟩
  obtain ⟨j, hj⟩ := r1.mem
  have hl : 0 < s1.mem.length := by rw [r1.size]; have := h.ep_lt; omega
  refine { r1 with mem := ⟨s1.mem.drop 1, ?_⟩, size := ?_, cp := ?_, ep := rfl, nl := ?_, nr := ?_, mark := rfl }
  · simp only [Line.killLine]
    cases hm : s1.mem with
    | nil => rw [hm] at hl; simp at hl
    | cons c l => simp
  · simp [r1.size]
  · rw [r1.cp]; simp [Line.remember, Line.moveTo, Line.killLine]
  · simp [NoNul, Line.killLine]
  · simp [NoNul, Line.killLine]

theorem swap_spec (pre z : List Char) (x y : Char) :
    swap (pre ++ x :: y :: z) pre.length (pre.length + 1) = some (pre ++ y :: x :: z) ∧
    swap (pre ++ x :: y :: z) (pre.length + 1) pre.length = some (pre ++ y :: x :: z) := by
  have e1 : (pre ++ x :: y :: z)[pre.length]? = some x := by simp
  have e2 : (pre ++ x :: y :: z)[pre.length + 1]? = some y := by
    rw [List.getElem?_append_right (by omega)]; simp
  have s1 : ∀ u v w : Char, (pre ++ u :: v :: z).set pre.length w = pre ++ w :: v :: z := by intro u v w; simp
  have s2 : ∀ u v w : Char, (pre ++ u :: v :: z).set (pre.length + 1) w = pre ++ u :: w :: z := by
    intro u v w
    rw [List.set_append_right _ _ (by omega)]; simp
  constructor
  · simp only [swap, e1, e2, s1, s2]
  · simp only [swap, e1, e2, s1, s2]

theorem rev_cons {l l' : List Char} {x : Char} (h : l.reverse = x :: l') : l = l'.reverse ++ [x] := by
  have := congrArg List.reverse h
  simpa using this

theorem transpose_spec (h : R size s a) : ∃ s', transpose env s = some s' ∧ R size s' (a.transpose env.gmacs) := by
  obtain ⟨j, hj⟩ := h.mem
  have hs := h.ep_lt
  simp only [transpose, Line.transpose]
  by_cases h0 : s.cp = 0
  · rw [if_pos h0]
    have hl : a.left = [] := by have := h.cp; rw [h0] at this; exact List.length_eq_zero_iff.1 this.symm
    refine ⟨s, rfl, ?_⟩
    simp only [hl, List.reverse_nil]
    split <;> exact h
  · rw [if_neg h0]
    have hcond : (s.cp = s.ep ∨ env.gmacs = true) ↔ (a.right = [] ∨ env.gmacs = true) := by
      rw [h.cp, h.ep]
      constructor
      · rintro (hh | hh)
        · left; exact List.length_eq_zero_iff.1 (by omega)
        · right; exact hh
      · rintro (hh | hh)
        · left; rw [hh]; simp
        · right; exact hh
    cases hrev : a.left.reverse with
    | nil =>
      have : a.left = [] := by simpa using hrev
      rw [h.cp, this] at h0; simp at h0
    | cons x l =>
      have hleft := rev_cons hrev
      have hcp : s.cp = l.length + 1 := by rw [h.cp, hleft]; simp
      by_cases hg : a.right = [] ∨ env.gmacs = true
      · rw [if_pos (hcond.2 hg), if_pos hg]
        cases l with
        | nil => rw [if_pos (by simpa using hcp)]; exact ⟨s, rfl, h⟩
        | cons y l =>
          rw [if_neg (by rw [hcp]; simp)]
          have hmem : s.mem = l.reverse ++ y :: x :: (a.right ++ '\x00' :: j) := by rw [hj, hleft]; simp
          have he : swap s.mem (s.cp - 1) (s.cp - 2) = some (l.reverse ++ x :: y :: (a.right ++ '\x00' :: j)) := by
            rw [hmem, hcp, show (y :: l).length + 1 - 1 = l.reverse.length + 1 by simp,
              show (y :: l).length + 1 - 2 = l.reverse.length by simp]
            exact (swap_spec _ _ _ _).2
          rw [he]
          refine ⟨_, rfl, ?_⟩
          refine { h with mem := ⟨j, ?_⟩, size := ?_, cp := ?_, ep := ?_, nl := ?_ }
          · simp
          · rw [← h.size, hmem]; simp
          · rw [hcp]; simp
          · rw [h.ep, hleft]; simp
          · intro hm; apply h.nl; rw [hleft]; simp at hm ⊢; grind
      · rw [if_neg (fun hh => hg (hcond.1 hh)), if_neg hg]
        cases hr : a.right with
        | nil => exact absurd (Or.inl hr) hg
        | cons y r =>
          have hmem : s.mem = l.reverse ++ x :: y :: (r ++ '\x00' :: j) := by rw [hj, hleft, hr]; simp
          have he : swap s.mem (s.cp - 1) s.cp = some (l.reverse ++ y :: x :: (r ++ '\x00' :: j)) := by
            rw [hmem, hcp, show l.length + 1 - 1 = l.reverse.length by simp,
              show l.length + 1 = l.reverse.length + 1 by simp]
            exact (swap_spec _ _ _ _).1
          rw [he]
          simp only
          have hsz := h.size
          rw [hmem] at hsz
          refine ⟨{ s with mem := l.reverse ++ y :: x :: (r ++ '\x00' :: j), cp := s.cp + 1 }, ?_, ?_⟩
          · simp only [goto]
            rw [if_neg (by simp only [List.length_append, List.length_cons, List.length_reverse]; omega)]
            rfl
          · refine { h with mem := ⟨j, ?_⟩, size := ?_, cp := ?_, ep := ?_, nl := ?_, nr := ?_ }
            · simp
            · rw [← hsz]; simp
            · rw [hcp]; simp
            · rw [h.ep, hleft, hr]; simp; omega
            · intro hm
              have h1 := h.nl; have h2 := h.nr
              rw [hleft] at h1; rw [hr] at h2
              simp only [NoNul, List.mem_append, List.mem_cons, List.mem_reverse, List.not_mem_nil, or_false, not_or] at h1 h2 hm
              grind
            · intro hm; apply h.nr; rw [hr]; exact List.mem_cons_of_mem _ hm

theorem R.drop_zero (h : R size s a) : ∃ j, s.mem.drop 0 = a.text ++ '\x00' :: j := by
  obtain ⟨j, hj⟩ := h.memText
  exact ⟨j, by simpa using hj⟩

theorem kill_spec (h : R size s a) (arg : Option Nat) :
    ∃ s', kill s arg = some s' ∧
      R size s' (a.killTo (a.column arg)) := by
  simp only [kill]
  obtain ⟨j, hj⟩ := h.drop_zero
  have hpos : ∃ p, p ≤ a.text.length ∧ p = a.column arg ∧
      extForw s.mem 0 (s.ep - killArg s.ep arg) (killArg s.ep arg) = some p := by
    cases arg with
    | none =>
      refine ⟨a.text.length, Nat.le_refl _, rfl, ?_⟩
      simp [extForw, h.ep', killArg]
    | some n =>
      refine ⟨a.column (some n), forwLen_le _ _, rfl, ?_⟩
      rw [h.ep']
      exact extForw_line _ _ _ j n hj
  obtain ⟨p, hp, hpe, he⟩ := hpos
  rw [he, ← hpe]
  simp only [Line.killTo, h.cp]
  by_cases hlt : p < a.left.length
  · rw [if_pos hlt, if_pos hlt]
    obtain ⟨s1, h1, r1⟩ := goto_spec h p hp
    rw [h1]
    exact delPush_spec r1 _ (by simp [Line.moveTo, Line.text]; omega)
  · rw [if_neg hlt, if_neg hlt]
    exact delPush_spec h _ (by simp only [Line.text, List.length_append] at hp; omega)

/-! ## The kill ring -/

theorem yankTop_eq (sp : Nat) (h : sp < 20) : yankTop sp = (sp + 19 - 0) % 20 := by
  simp only [yankTop, killSize]
  split <;> omega

theorem R.withTp (h : R size s a) (tp : Nat) (cur : Nat) : R size { s with tp := tp } { a with cur := cur } :=
  { h with mem := h.mem, size := h.size }

theorem ins_keeps {s s' : Ed} {x : List Char} (h : ins s x = some s') : s'.tp = s.tp ∧ s'.sp = s.sp := by
  simp only [ins, doIns] at h
  split at h
  · cases h; exact ⟨rfl, rfl⟩
  · split at h
    · cases h
    · split at h
      · cases h
      · cases h; exact ⟨rfl, rfl⟩

theorem goto_keeps {s s' : Ed} {p : Int} (h : goto s p = some s') : s'.tp = s.tp ∧ s'.sp = s.sp ∧ s'.ring = s.ring := by
  simp only [goto] at h
  split at h
  · cases h
  · cases h; exact ⟨rfl, rfl, rfl⟩

theorem del_keeps {s s' : Ed} {n : Nat} (h : del s n false = some s') : s'.tp = s.tp ∧ s'.sp = s.sp ∧ s'.ring = s.ring := by
  simp only [del] at h
  split at h
  · cases h; exact ⟨rfl, rfl, rfl⟩
  · simp only [Bool.false_eq_true, if_false, cutOut] at h
    split at h
    · cases h
    · split at h
      · cases h
      · cases h; exact ⟨rfl, rfl, rfl⟩

theorem ins_suffix (a : Line) (x : List Char) (h : (a.ins size x).fit = true) : x <:+ (a.ins size x).left := by
  simp only [Line.ins] at *
  split
  · exact List.suffix_append _ _
  · next hn => rw [if_neg hn] at h; cases h

theorem yank_spec (h : R size s a) :
    ∃ s', yank s = some s' ∧ R size s' (a.yank size) ∧ ∀ y, Y s' { (a.yank size) with yanked := y } := by
  simp only [yank, Line.yank]
  rw [yankTop_eq _ h.ring.sp_lt, h.ring.get 0 (by omega)]
  cases hk : a.kills with
  | nil =>
    simp only [List.getElem?_nil]
    refine ⟨_, rfl, { h with mem := h.mem, ring := hk ▸ h.ring, fit := rfl }, fun y => ⟨fun _ => ⟨rfl, ?_⟩, ?_⟩⟩
    · show 0 < 20; omega
    · intro _ hf; cases hf
  | cons k ks =>
    simp only [List.getElem?_cons_zero]
    have r1 : R size { s with tp := (s.sp + 19 - 0) % 20, mark := some s.cp }
        { a with mark := some a.left.length, cur := 0 } :=
      { h with mem := h.mem, mark := by simp only [h.cp] }
    have hkn : NoNul k := h.ring.nonul k (by rw [hk]; exact List.mem_cons_self)
    obtain ⟨s', h1, r2⟩ := ins_spec r1 k hkn
    obtain ⟨t1, t2⟩ := ins_keeps h1
    refine ⟨s', h1, ?_, ?_⟩
    · rw [← hk]; exact r2
    intro y
    constructor
    · intro _
      rw [t1, t2]
      simp only [Line.ins]
      split <;> exact ⟨rfl, by show 0 < 20; omega⟩
    · intro _ hf k' hk'
      have hs := ins_suffix (size := size) _ k hf
      have e : k' = k := by
        have : ((Line.ins size { a with mark := some a.left.length, cur := 0 } k).kills)[
            ((Line.ins size { a with mark := some a.left.length, cur := 0 } k).cur : Nat)]? = some k' := by
          rw [hk] ; exact hk'
        simp only [Line.ins] at this
        split at this <;> · simp only [hk] at this; simpa using this.symm
      rw [e]
      exact hs

theorem popLoop_step (ring : List (Option (List Char))) {sp : Nat} {kills : List (List Char)} (h : Ring ring sp kills)
    (n i : Nat) (hi : i < 20) : popLoop ring (n+1) ((sp + 19 - i) % 20) =
      match kills[((i + 1) % 20 : Nat)]? with
      | some k => some ((sp + 19 - (i + 1) % 20) % 20, k)
      | none => popLoop ring n ((sp + 19 - (i + 1) % 20) % 20) := by
  have hsp := h.sp_lt
  simp only [popLoop]
  have e : (if (sp + 19 - i) % 20 = 0 then killSize - 1 else (sp + 19 - i) % 20 - 1) = (sp + 19 - (i + 1) % 20) % 20 := by
    simp only [killSize]
    split <;> omega
  rw [e, h.get _ (by omega)]
  cases kills[((i + 1) % 20 : Nat)]? <;> rfl

theorem popLoop_wrap (ring : List (Option (List Char))) {sp : Nat} {kills : List (List Char)} (h : Ring ring sp kills)
    (hk : kills ≠ []) : ∀ (d n i : Nat), i + d = 19 → kills.length ≤ i + 1 → d < n →
    popLoop ring n ((sp + 19 - i) % 20) = some ((sp + 19 - 0) % 20, kills.getD 0 []) := by
  intro d
  induction d with
  | zero =>
    intro n i hi hlen hn
    cases n with
    | zero => omega
    | succ n =>
      rw [popLoop_step ring h n i (by omega), show (i + 1) % 20 = 0 by omega]
      cases kills with
      | nil => exact absurd rfl hk
      | cons k ks => rfl
  | succ d ih =>
    intro n i hi hlen hn
    cases n with
    | zero => omega
    | succ n =>
      rw [popLoop_step ring h n i (by omega), show (i + 1) % 20 = i + 1 by omega,
        List.getElem?_eq_none (by omega)]
      exact ih n (i+1) (by omega) (by omega) (by omega)

theorem popLoop_spec (ring : List (Option (List Char))) {sp : Nat} {kills : List (List Char)} (h : Ring ring sp kills)
    (cur : Nat) (hc : cur < kills.length) :
    popLoop ring killSize ((sp + 19 - cur) % 20) =
      some ((sp + 19 - (cur + 1) % kills.length) % 20, kills.getD ((cur + 1) % kills.length) []) := by
  have hle := h.le
  by_cases hl : cur + 1 < kills.length
  · rw [show killSize = 19 + 1 from rfl, popLoop_step ring h 19 cur (by omega), Nat.mod_eq_of_lt hl,
      Nat.mod_eq_of_lt (show cur + 1 < 20 by omega)]
    simp [List.getD, hl]
  · rw [show (cur + 1) % kills.length = 0 by rw [show cur + 1 = kills.length by omega, Nat.mod_self]]
    exact popLoop_wrap ring h (by intro hh; rw [hh] at hc; simp at hc) (19 - cur) _ cur (by omega) (by omega)
      (by simp only [killSize]; omega)

theorem metaYank_spec (h : R size s a) (hy : Y s a)
    (hok : a.yanked = true → ∀ k, a.kills[a.cur]? = some k → a.fit = true) :
    ∃ s', metaYank s = some s' ∧ R size s' (a.yankPop size) ∧ ∀ y, Y s' { (a.yankPop size) with yanked := y } := by
  simp only [metaYank, Line.yankPop]
  have hsp := h.ring.sp_lt
  have refused : R size { s with tp := s.sp, fit := false } { a with cur := 19, fit := false } ∧
      ∀ y, Y { s with tp := s.sp, fit := false } { a with cur := 19, fit := false, yanked := y } := by
    refine ⟨{ h with mem := h.mem, fit := rfl }, fun y => ⟨fun _ => ⟨?_, by show 19 < 20; omega⟩, ?_⟩⟩
    · show s.sp = (s.sp + 19 - 19) % 20; omega
    · intro _ hf; cases hf
  by_cases hyd : a.yanked = true
  · rw [if_pos (h.yanked.trans hyd), if_pos hyd]
    obtain ⟨htp, hcur⟩ := hy.tp hyd
    rw [htp, h.ring.get _ hcur]
    cases hk : a.kills[a.cur]? with
    | none => exact ⟨_, rfl, refused⟩
    | some k =>
      simp only [pop]
      have hfit := hok hyd k hk
      have hsuf := hy.suf hyd hfit k hk
      have hklen : k.length ≤ a.left.length := hsuf.length_le
      have hclt : a.cur < a.kills.length := by
        rcases Nat.lt_or_ge a.cur a.kills.length with h | h
        · exact h
        · rw [List.getElem?_eq_none h] at hk; cases hk
      obtain ⟨s1, h1, r1⟩ := goto_spec h (a.left.length - k.length) (by simp [Line.text]; omega)
      rw [show ((a.left.length - k.length : Nat) : Int) = (s.cp : Int) - k.length by rw [h.cp]; omega] at h1
      rw [h1]
      simp only
      obtain ⟨s2, h2, r2⟩ := del_spec r1 k.length (by rw [(moveTo_left hklen).2]; simp; omega)
      rw [h2]
      simp only
      obtain ⟨t1, t2, t3⟩ := goto_keeps h1
      obtain ⟨u1, u2, u3⟩ := del_keeps h2
      have hpl := popLoop_spec s.ring h.ring a.cur hclt
      rw [show popLoop s2.ring killSize s2.tp = _ by rw [u3, t3, u1, t1, htp, hpl]]
      simp only
      have hnl : (a.cur + 1) % a.kills.length < a.kills.length := Nat.mod_lt _ (by omega)
      have hle := h.ring.le
      have hkn : NoNul (a.kills.getD ((a.cur + 1) % a.kills.length) []) := by
        simp only [List.getD, List.getElem?_eq_getElem hnl, Option.getD_some]
        exact h.ring.nonul _ (List.getElem_mem hnl)
      obtain ⟨s3, h3, r3⟩ := ins_spec (r2.withTp ((s.sp + 19 - (a.cur + 1) % a.kills.length) % 20)
        ((a.cur + 1) % a.kills.length)) _ hkn
      obtain ⟨v1, v2⟩ := ins_keeps h3
      refine ⟨s3, h3, r3, ?_⟩
      intro y
      constructor
      · intro _
        rw [v1, v2]
        simp only [u2, t2, Line.ins]
        split <;> exact ⟨rfl, by show (a.cur + 1) % a.kills.length < 20; omega⟩
      · intro _ hf k' hk'
        have hs := ins_suffix (size := size) _ _ hf
        have e : k' = a.kills.getD ((a.cur + 1) % a.kills.length) [] := by
          simp only [Line.ins] at hk'
          split at hk' <;>
          · simp only [Line.cut, Line.moveTo] at hk'
            simp [List.getD, hk']
        rw [e]; exact hs
  · rw [if_neg (by rw [h.yanked]; exact hyd), if_neg hyd]
    exact ⟨_, rfl, refused⟩

/-! ## The mark -/

theorem killRegion_spec (h : R size s a) (hok : ∀ m, a.mark = some m → m ≤ a.text.length) :
    ∃ s', killRegion s = some s' ∧ R size s' a.killRegion := by
  simp only [killRegion, Line.killRegion, h.mark]
  cases hm : a.mark with
  | none => exact ⟨s, rfl, h⟩
  | some m =>
    have hle := hok m hm
    have hl : a.left.length ≤ a.text.length := by simp [Line.text]
    simp only
    have e1 : (if m > s.cp then s.cp else m) = min m a.left.length := by rw [h.cp]; split <;> omega
    have e2 : (if m > s.cp then m - s.cp else s.cp - m) = max m a.left.length - min m a.left.length := by
      rw [h.cp]; split <;> omega
    rw [e1, e2]
    obtain ⟨s1, h1, r1⟩ := goto_spec h (min m a.left.length) (by omega)
    rw [h1]
    simp only
    obtain ⟨s2, h2, r2⟩ := delPush_spec r1 (max m a.left.length - min m a.left.length)
      (by simp only [Line.moveTo, List.length_drop]; omega)
    rw [h2]
    exact ⟨_, rfl, { r2 with mem := r2.mem, mark := rfl }⟩

def Line.xchg (a : Line) : Line :=
  match a.mark with
  | none => a
  | some m => { a with mark := some a.left.length }.moveTo m

theorem xchg_spec (h : R size s a) (hok : ∀ m, a.mark = some m → m ≤ a.text.length) :
    ∃ s', xchg s = some s' ∧ R size s' a.xchg := by
  simp only [xchg, Line.xchg, h.mark]
  cases hm : a.mark with
  | none => exact ⟨s, rfl, h⟩
  | some m =>
    have r1 : R size { s with mark := some s.cp } { a with mark := some a.left.length } :=
      { h with mem := h.mem, mark := by simp only [h.cp] }
    exact goto_spec r1 m (hok m hm)

end Ksh.Emacs
