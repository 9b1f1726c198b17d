import Verif.Lexnest.Spec

/-!
# The stack of states of the lexer: proofs
-/
namespace Ksh.Lexnest

variable {S : Type}

/-- The cells `k`, `k-1`, …, 1 of a block hold `ys`. -/
def Holds (f : Nat → Cell S) : Nat → List S → Prop
  | 0, ys => ys = []
  | k + 1, ys => ∃ y zs, ys = y :: zs ∧ f (k + 1) = .data y ∧ Holds f k zs

/-- The chain of blocks `bs`, the first filled up to `k`, holds `xs`. -/
def Chain (h : Heap S) : List Nat → Nat → List S → Prop
  | [], _, _ => False
  | [b], k, xs => b = 0 ∧ ∃ f, h b = some f ∧ f 0 = .link none ∧ Holds f k xs
  | b :: b' :: r, k, xs => b ≠ 0 ∧ ∃ f ys zs, h b = some f ∧ f 0 = .link (some ⟨b', bsize⟩) ∧ Holds f k ys ∧
      xs = ys ++ zs ∧ Chain h (b' :: r) (bsize - 1) zs

structure Inv (l : L S) (bs : List Nat) (k : Nat) (xs : List S) : Prop where
  chain : Chain l.heap bs k xs
  nodup : bs.Nodup
  lo : 1 ≤ k
  hi : k < bsize
  sp : ∃ b r, bs = b :: r ∧ l.sp = ⟨b, k⟩ ∧ l.base = ⟨b, 0⟩ ∧ l.fin = ⟨b, bsize⟩
  live : ∀ b, (l.heap b).isSome = true ↔ b ∈ bs

theorem holds_congr {f g : Nat → Cell S} : ∀ {k ys}, (∀ i, 1 ≤ i → i ≤ k → f i = g i) → Holds f k ys → Holds g k ys := by
  intro k
  induction k with
  | zero => intro ys _ h; exact h
  | succ k ih =>
    intro ys hfg h
    obtain ⟨y, zs, e, hy, hz⟩ := h
    exact ⟨y, zs, e, by rw [← hfg (k + 1) (by omega) (by omega)]; exact hy, ih (fun i h1 h2 => hfg i h1 (by omega)) hz⟩

theorem chain_congr {h h' : Heap S} : ∀ {bs k xs}, (∀ b ∈ bs, h b = h' b) → Chain h bs k xs → Chain h' bs k xs := by
  intro bs
  induction bs with
  | nil => intro k xs _ hc; exact hc
  | cons b r ih =>
    intro k xs hh hc
    cases r with
    | nil =>
      obtain ⟨h0, f, hf, h1, h2⟩ := hc
      exact ⟨h0, f, by rw [← hh b (by simp)]; exact hf, h1, h2⟩
    | cons b' r =>
      obtain ⟨h0, f, ys, zs, hf, h1, h2, h3, h4⟩ := hc
      exact ⟨h0, f, ys, zs, by rw [← hh b (by simp)]; exact hf, h1, h2, h3,
        ih (fun c hc => hh c (by simp only [List.mem_cons] at hc ⊢; exact Or.inr hc)) h4⟩

/-- What is at the innermost cell, and what else is needed of the first block. -/
theorem chain_first {h : Heap S} {b r k xs} (hc : Chain h (b :: r) (k + 1) xs) :
    ∃ f y zs, h b = some f ∧ f (k + 1) = .data y ∧ xs = y :: zs ∧ Chain h (b :: r) k zs := by
  cases r with
  | nil =>
    obtain ⟨h0, f, hf, h1, y, zs, e, hy, hz⟩ := hc
    exact ⟨f, y, zs, hf, hy, e, h0, f, hf, h1, hz⟩
  | cons b' r =>
    obtain ⟨h0, f, ys, zs, hf, h1, ⟨y, ys', e, hy, hz⟩, h3, h4⟩ := hc
    subst e
    exact ⟨f, y, ys' ++ zs, hf, hy, by simp [h3], h0, f, ys', zs, hf, h1, hz, rfl, h4⟩

/-- Writing the cell above. -/
theorem chain_write {h : Heap S} {b r k xs f} (hc : Chain h (b :: r) k xs) (hn : (b :: r).Nodup) (hf : h b = some f) (s : S) :
    Chain (fun c => if c = b then some (fun i => if i = k + 1 then .data s else f i) else h c) (b :: r) (k + 1) (s :: xs) := by
  cases r with
  | nil =>
    obtain ⟨h0, g, hg, h1, h2⟩ := hc
    rw [hf] at hg
    cases hg
    refine ⟨h0, _, by simp; rfl, by simpa using h1, s, xs, rfl, by simp, holds_congr ?_ h2⟩
    intro i _ hi
    have : ¬ i = k + 1 := by omega
    simp [this]
  | cons b' r =>
    obtain ⟨h0, g, ys, zs, hg, h1, h2, h3, h4⟩ := hc
    rw [hf] at hg
    cases hg
    refine ⟨h0, _, s :: ys, zs, by simp; rfl, by simpa using h1, ⟨s, ys, rfl, by simp, holds_congr ?_ h2⟩, by simp [h3], chain_congr ?_ h4⟩
    · intro i _ hi
      have : ¬ i = k + 1 := by omega
      simp [this]
    · intro c hc
      have : ¬ c = b := by
        intro e
        subst e
        exact (List.nodup_cons.mp hn).1 hc
      simp [this]

theorem inv_start (s : S) (junk) : Inv (start s junk) [0] 1 [s] := by
  refine ⟨⟨rfl, _, by simp [start]; rfl, by simp, s, [], rfl, by simp, rfl⟩, by simp, by simp, by simp [bsize], ⟨0, [], rfl, rfl, rfl, rfl⟩, ?_⟩
  intro b
  by_cases hb : b = 0 <;> simp [start, hb]

theorem chain_link {h : Heap S} {b r k xs} (hc : Chain h (b :: r) k xs) : ∃ f, h b = some f := by
  cases r with
  | nil => obtain ⟨_, f, hf, _⟩ := hc; exact ⟨f, hf⟩
  | cons b' r => obtain ⟨_, f, _, _, hf, _⟩ := hc; exact ⟨f, hf⟩

theorem push_ok {l : L S} {bs k xs} (hi : Inv l bs k xs) (s : S) (new : Nat) (junk : Nat → Cell S) (hnew : l.heap new = none) :
    ∃ l' bs' k', push s new junk l = some l' ∧ Inv l' bs' k' (s :: xs) := by
  obtain ⟨hc, hn, hlo, hhi, ⟨b, r, rfl, esp, ebase, efin⟩, hlive⟩ := hi
  obtain ⟨f, hf⟩ := chain_link hc
  have hp : plus l.sp 1 = some ⟨b, k + 1⟩ := by
    simp only [plus, esp]
    rw [if_pos (by omega)]
  simp only [push, hp, efin]
  by_cases hk : k + 1 = bsize
  · -- a new block
    have hnb : new ∉ b :: r := by
      intro hm
      have := (hlive new).2 hm
      rw [hnew] at this
      simp at this
    have h0 : new ≠ 0 := by
      intro e
      have h0m : (0 : Nat) ∈ b :: r := by
        clear hlive hnb hf esp ebase efin hp hhi
        have gen : ∀ (bs : List Nat) (k : Nat) (xs : List S), Chain l.heap bs k xs → (0 : Nat) ∈ bs := by
          intro bs
          induction bs with
          | nil => intro k xs h; exact h.elim
          | cons b r ih =>
            intro k xs h
            cases r with
            | nil => obtain ⟨e, _⟩ := h; simp [e]
            | cons b' r =>
              obtain ⟨_, _, _, _, _, _, _, _, h4⟩ := h
              exact List.mem_cons_of_mem _ (ih _ _ h4)
        exact gen _ _ _ hc
      exact hnb (e ▸ h0m)
    simp only [hk, if_true, pushState, store]
    refine ⟨_, new :: b :: r, 1, rfl, ?_, List.nodup_cons.mpr ⟨hnb, hn⟩, by omega, by simp [bsize], ⟨new, b :: r, rfl, rfl, rfl, rfl⟩, ?_⟩
    · refine ⟨h0, _, [s], xs, by simp; rfl, by simp, ⟨s, [], rfl, by simp, rfl⟩, rfl, ?_⟩
      have : bsize - 1 = k := by omega
      rw [this]
      refine chain_congr ?_ hc
      intro c hcm
      have : ¬ c = new := fun e => hnb (e ▸ hcm)
      simp [this]
    · intro c
      by_cases hcn : c = new
      · simp [hcn]
      · simp only [hcn, if_false, List.mem_cons, false_or]
        simpa using hlive c
  · have hne : ¬ (⟨b, k + 1⟩ : Ptr) = ⟨b, bsize⟩ := by simp [hk]
    simp only [if_neg hne, store, hf]
    rw [if_pos (by omega)]
    refine ⟨_, b :: r, k + 1, rfl, chain_write hc hn hf s, hn, by omega, by omega, ⟨b, r, rfl, rfl, ebase, rfl⟩, ?_⟩
    intro c
    by_cases hcn : c = b
    · simp [hcn]
    · simp only [hcn, if_false]
      exact hlive c

theorem pop_ok {l : L S} {bs k y x xs} (hi : Inv l bs k (y :: x :: xs)) :
    ∃ l' bs' k', pop l = some l' ∧ Inv l' bs' k' (x :: xs) := by
  obtain ⟨hc, hn, hlo, hhi, ⟨b, r, rfl, esp, ebase, efin⟩, hlive⟩ := hi
  obtain ⟨j, rfl⟩ : ∃ j, k = j + 1 := ⟨k - 1, by omega⟩
  have hm : minus l.sp 1 = some ⟨b, j⟩ := by simp [minus, esp]
  obtain ⟨f, y', zs, hf, _, e, hc'⟩ := chain_first hc
  cases e
  simp only [pop, hm, ebase]
  cases j with
  | zero =>
    simp only [if_true, popState, load, ebase]
    cases r with
    | nil =>
      obtain ⟨_, _, _, _, h2⟩ := hc'
      simp [Holds] at h2
    | cons b' r =>
      obtain ⟨h0, g, ys, zs, hg, h1, h2, h3, h4⟩ := hc'
      simp only [Holds] at h2
      subst h2
      simp only [List.nil_append] at h3
      subst h3
      have hl : (if (0 : Nat) < bsize then (l.heap b).map (fun f => f 0) else none) = some (.link (some ⟨b', bsize⟩)) := by
        simp [bsize, hg, h1]
      simp only [hl, minus, Nat.le_refl, if_true, Nat.sub_self, h0, plus]
      have hb1 : 0 + (bsize - 1) ≤ bsize := by simp [bsize]
      simp only [if_pos hb1, ne_eq, not_true_eq_false, or_self, if_false]
      have hnb : b ∉ b' :: r := (List.nodup_cons.mp hn).1
      refine ⟨_, b' :: r, bsize - 1, rfl, chain_congr ?_ h4, (List.nodup_cons.mp hn).2, by simp [bsize], by simp [bsize],
        ⟨b', r, rfl, by simp, rfl, rfl⟩, ?_⟩
      · intro c hcm
        have : ¬ c = b := fun e => hnb (e ▸ hcm)
        simp [this]
      · intro c
        by_cases hcb : c = b
        · subst hcb; simp only [if_true, Option.isSome_none, Bool.false_eq_true, false_iff]; exact hnb
        · simp only [hcb, if_false]
          rw [hlive c]
          simp [hcb]
  | succ j =>
    have hne : ¬ (⟨b, j + 1⟩ : Ptr) = ⟨b, 0⟩ := by simp
    simp only [if_neg hne]
    exact ⟨_, b :: r, j + 1, rfl, hc', hn, by omega, by omega, ⟨b, r, rfl, rfl, rfl, efin⟩, hlive⟩

theorem top_ok {l : L S} {bs k x xs} (hi : Inv l bs k (x :: xs)) : top l = some x := by
  obtain ⟨hc, hn, hlo, hhi, ⟨b, r, rfl, esp, ebase, efin⟩, hlive⟩ := hi
  obtain ⟨j, rfl⟩ : ∃ j, k = j + 1 := ⟨k - 1, by omega⟩
  obtain ⟨f, y', zs, hf, hy, e, hc'⟩ := chain_first hc
  cases e
  simp [top, load, esp, hhi, hf, hy]

theorem modify_ok {l : L S} {bs k x xs} (hi : Inv l bs k (x :: xs)) (g : S → S) :
    ∃ l', modify g l = some l' ∧ Inv l' bs k (g x :: xs) := by
  have ht := top_ok hi
  obtain ⟨hc, hn, hlo, hhi, ⟨b, r, rfl, esp, ebase, efin⟩, hlive⟩ := hi
  obtain ⟨j, rfl⟩ : ∃ j, k = j + 1 := ⟨k - 1, by omega⟩
  obtain ⟨f, y', zs, hf, hy, e, hc'⟩ := chain_first hc
  cases e
  simp only [modify, ht, store, esp, hhi, if_true, hf, Option.map_some]
  refine ⟨_, rfl, chain_write hc' hn hf (g x), hn, hlo, hhi, ⟨b, r, rfl, rfl, ebase, efin⟩, ?_⟩
  intro c
  by_cases hcb : c = b
  · simp [hcb]
  · simp only [hcb, if_false]; exact hlive c

theorem inv_nonempty {l : L S} {bs k xs} (hi : Inv l bs k xs) : xs ≠ [] := by
  obtain ⟨hc, hn, hlo, hhi, ⟨b, r, rfl, esp, ebase, efin⟩, hlive⟩ := hi
  obtain ⟨j, rfl⟩ : ∃ j, k = j + 1 := ⟨k - 1, by omega⟩
  obtain ⟨f, y', zs, hf, hy, e, hc'⟩ := chain_first hc
  simp [e]

theorem step_inv {l l' : L S} {o bs k xs xs'} (hi : Inv l bs k xs) (ho : o.run xs = some xs') (hs : Step l o l') :
    ∃ bs' k', Inv l' bs' k' xs' := by
  cases hs with
  | push hnew h =>
    simp only [Op.run, Option.some.injEq] at ho
    subst ho
    obtain ⟨l2, bs', k', e, h2⟩ := push_ok hi _ _ _ hnew
    rw [h] at e
    cases e
    exact ⟨_, _, h2⟩
  | pop h =>
    match xs, hi, ho with
    | y :: x :: xs, hi, ho =>
      simp only [Op.run, Option.some.injEq] at ho
      subst ho
      obtain ⟨l2, bs', k', e, h2⟩ := pop_ok hi
      rw [h] at e
      cases e
      exact ⟨_, _, h2⟩
    | [y], hi, ho => simp [Op.run] at ho
    | [], hi, ho => simp [Op.run] at ho
  | modify h =>
    match xs, hi, ho with
    | x :: xs, hi, ho =>
      simp only [Op.run, Option.some.injEq] at ho
      subst ho
      obtain ⟨l2, e, h2⟩ := modify_ok hi _
      rw [h] at e
      cases e
      exact ⟨_, _, h2⟩
    | [], hi, ho => simp [Op.run] at ho

theorem steps_inv : ∀ {os : List (Op S)} {l l' bs k xs xs'}, Inv l bs k xs → runs os xs = some xs' → Steps l os l' →
    ∃ bs' k', Inv l' bs' k' xs' := by
  intro os
  induction os with
  | nil =>
    intro l l' bs k xs xs' hi hr hs
    cases hs
    simp only [runs, Option.some.injEq] at hr
    subst hr
    exact ⟨_, _, hi⟩
  | cons o os ih =>
    intro l l' bs k xs xs' hi hr hs
    cases hs with
    | cons h1 h2 =>
      simp only [runs] at hr
      cases ho : o.run xs with
      | none => rw [ho] at hr; simp at hr
      | some ys =>
        rw [ho] at hr
        obtain ⟨bs1, k1, i1⟩ := step_inv hi ho h1
        exact ih i1 hr h2

/-! ## What the user relies on -/

/-- **C145.**  After anything that the lexer has entered and left, to any depth and however often it crosses the end
of a block, the innermost state is that of a list. -/
theorem innermost (s : S) (junk) (os : List (Op S)) (l' : L S) (x : S) (xs : List S)
    (hr : runs os [s] = some (x :: xs)) (hs : Steps (start s junk) os l') : top l' = some x := by
  obtain ⟨bs, k, hi⟩ := steps_inv (inv_start s junk) hr hs
  exact top_ok hi

/-- No step reads or writes outside of its blocks or what was released: each that the list allows can
be made, whichever block `alloc` returns. -/
theorem never_stuck (s : S) (junk) (os : List (Op S)) (l' : L S) (xs ys : List S) (o : Op S)
    (hr : runs os [s] = some xs) (hs : Steps (start s junk) os l') (ho : o.run xs = some ys)
    (new : Nat) (hnew : l'.heap new = none) : ∃ l'', Step l' o l'' := by
  obtain ⟨bs, k, hi⟩ := steps_inv (inv_start s junk) hr hs
  cases o with
  | push t =>
    obtain ⟨l2, _, _, e, _⟩ := push_ok hi t new junk hnew
    exact ⟨l2, .push hnew e⟩
  | pop =>
    match xs, hi, ho with
    | y :: x :: xs, hi, _ =>
      obtain ⟨l2, _, _, e, _⟩ := pop_ok hi
      exact ⟨l2, .pop e⟩
    | [y], _, ho => simp [Op.run] at ho
    | [], _, ho => simp [Op.run] at ho
  | modify f =>
    match xs, hi, ho with
    | x :: xs, hi, _ =>
      obtain ⟨l2, e, _⟩ := modify_ok hi f
      exact ⟨l2, .modify e⟩
    | [], _, ho => simp [Op.run] at ho

theorem holds_length {f : Nat → Cell S} : ∀ {k ys}, Holds f k ys → ys.length = k := by
  intro k
  induction k with
  | zero => intro ys h; simp only [Holds] at h; simp [h]
  | succ k ih => intro ys h; obtain ⟨y, zs, rfl, _, hz⟩ := h; simp [ih hz]

theorem chain_length {h : Heap S} : ∀ {bs k xs}, Chain h bs k xs → xs.length = k + (bsize - 1) * (bs.length - 1) := by
  intro bs
  induction bs with
  | nil => intro k xs hc; exact hc.elim
  | cons b r ih =>
    intro k xs hc
    cases r with
    | nil => obtain ⟨_, f, _, _, hh⟩ := hc; simp [holds_length hh]
    | cons b' r =>
      obtain ⟨_, f, ys, zs, _, _, hh, rfl, h4⟩ := hc
      have := ih h4
      simp only [List.length_append, holds_length hh, this, List.length_cons, Nat.add_sub_cancel]
      rw [Nat.mul_add]
      omega

/-- Nothing is kept longer than needed: with `d` states the blocks in use are the array and as many as
31 states each need. -/
theorem blocks_needed (s : S) (junk) (os : List (Op S)) (l' : L S) (xs : List S)
    (hr : runs os [s] = some xs) (hs : Steps (start s junk) os l') :
    ∃ bs : List Nat, bs.Nodup ∧ (∀ b, (l'.heap b).isSome = true ↔ b ∈ bs) ∧ bs.length = (xs.length + 30) / 31 := by
  obtain ⟨bs, k, hi⟩ := steps_inv (inv_start s junk) hr hs
  refine ⟨bs, hi.nodup, hi.live, ?_⟩
  have hl := chain_length hi.chain
  obtain ⟨b, r, rfl, _⟩ := hi.sp
  have h1 := hi.lo
  have h2 := hi.hi
  simp only [bsize] at hl h2
  simp only [List.length_cons, Nat.add_sub_cancel] at hl ⊢
  omega

/-- So when all that was entered has been left, only the array is in use. -/
theorem nothing_left (s : S) (junk) (os : List (Op S)) (l' : L S) (x : S)
    (hr : runs os [s] = some [x]) (hs : Steps (start s junk) os l') (b : Nat) : (l'.heap b).isSome = true ↔ b = 0 := by
  obtain ⟨bs, k, hi⟩ := steps_inv (inv_start s junk) hr hs
  have hl := chain_length hi.chain
  have hlive := hi.live b
  have hc := hi.chain
  obtain ⟨b0, r, rfl, _⟩ := hi.sp
  have h1 := hi.lo
  cases r with
  | nil =>
    obtain ⟨h0, _⟩ := hc
    subst h0
    simpa using hlive
  | cons b' r =>
    simp [bsize] at hl
    omega

theorem scan_ok (isq : S → Bool) {h : Heap S} {b : Nat} {f : Nat → Cell S} (hf : h b = some f) : ∀ {k ys n},
    Holds f k ys → k < bsize → k < n →
    ∃ p : Ptr, scan isq h ⟨b, 0⟩ n ⟨b, k⟩ = some (ys.any isq, p) ∧ (if ys.any isq then p ≠ ⟨b, 0⟩ else p = ⟨b, 0⟩) := by
  intro k
  induction k with
  | zero =>
    intro ys n hh _ hn
    simp only [Holds] at hh
    subst hh
    obtain ⟨m, rfl⟩ : ∃ m, n = m + 1 := ⟨n - 1, by omega⟩
    exact ⟨⟨b, 0⟩, by simp [scan], by simp⟩
  | succ k ih =>
    intro ys n hh hk hn
    obtain ⟨m, rfl⟩ : ∃ m, n = m + 1 := ⟨n - 1, by omega⟩
    obtain ⟨y, zs, rfl, hy, hz⟩ := hh
    have hne : ¬ (⟨b, k + 1⟩ : Ptr) = ⟨b, 0⟩ := by simp
    simp only [scan, if_neg hne, load, hk, if_true, hf, Option.map_some, hy]
    cases hq : isq y with
    | true => exact ⟨⟨b, k + 1⟩, by simp [hq], by simp [hq]⟩
    | false =>
      obtain ⟨p, e, hp⟩ := ih hz (by omega) (n := m) (by omega)
      have hm : minus (⟨b, k + 1⟩ : Ptr) 1 = some ⟨b, k⟩ := by simp [minus]
      exact ⟨p, by simp [hm, e, hq], by simpa [hq] using hp⟩

theorem search_ok (isq : S → Bool) {h : Heap S} : ∀ {bs k xs n b r}, bs = b :: r → Chain h bs k xs → k < bsize → bs.length ≤ n →
    search isq h n ⟨b, k⟩ ⟨b, 0⟩ = some (xs.any isq) := by
  intro bs
  induction bs with
  | nil => intro k xs n b r e; cases e
  | cons b r ih =>
    intro k xs n b0 r0 e hc hk hn
    cases e
    obtain ⟨m, rfl⟩ : ∃ m, n = m + 1 := ⟨n - 1, by simp at hn; omega⟩
    cases r with
    | nil =>
      obtain ⟨_, f, hf, h1, h2⟩ := hc
      obtain ⟨p, e, hp⟩ := scan_ok isq hf h2 hk (n := bsize + 1) (by omega)
      simp only [search, e]
      cases hq : xs.any isq with
      | true => rw [hq] at hp; simp only [if_true] at hp; simp [hp]
      | false =>
        rw [hq] at hp
        simp only [Bool.false_eq_true, if_false] at hp
        subst hp
        simp [load, bsize, hf, h1]
    | cons b' r =>
      obtain ⟨_, f, ys, zs, hf, h1, h2, h3, h4⟩ := hc
      obtain ⟨p, e, hp⟩ := scan_ok isq hf h2 hk (n := bsize + 1) (by omega)
      simp only [search, e]
      subst h3
      cases hq : ys.any isq with
      | true => rw [hq] at hp; simp only [if_true] at hp; simp [hp, hq]
      | false =>
        rw [hq] at hp
        simp only [Bool.false_eq_true, if_false] at hp
        subst hp
        have hl : load h ⟨b, 0⟩ = some (.link (some ⟨b', bsize⟩)) := by simp [load, bsize, hf, h1]
        have hm1 : minus (⟨b', bsize⟩ : Ptr) 1 = some ⟨b', bsize - 1⟩ := by simp [minus, bsize]
        have hm2 : minus (⟨b', bsize⟩ : Ptr) bsize = some ⟨b', 0⟩ := by simp [minus]
        have := ih (k := bsize - 1) (n := m) rfl h4 (by simp [bsize]) (by simp at hn ⊢; omega)
        simp only [ne_eq, not_true_eq_false, if_false, hl, hm1, hm2, this, List.any_append, hq, Bool.false_or]

/-- **C145.**  A backquote is found to be inside of double quotes just if one of the states around it is that of double
quotes, in whichever block; the search ends. -/
theorem backquote (isq : S → Bool) (s : S) (junk) (os : List (Op S)) (l' : L S) (xs : List S)
    (hr : runs os [s] = some xs) (hs : Steps (start s junk) os l') (n : Nat) (hn : xs.length ≤ n) :
    search isq l'.heap n l'.sp l'.base = some (xs.any isq) := by
  obtain ⟨bs, k, hi⟩ := steps_inv (inv_start s junk) hr hs
  have hl := chain_length hi.chain
  have hc := hi.chain
  obtain ⟨b, r, e, e1, e2, _⟩ := hi.sp
  have h1 := hi.lo
  rw [e1, e2]
  refine search_ok isq e hc hi.hi ?_
  simp only [bsize] at hl
  subst e
  simp only [List.length_cons, Nat.add_sub_cancel] at hl ⊢
  omega

/-! ## Cases -/

def demoPush (l : Option (L Nat)) (n : Nat) : Option (L Nat) := l.bind (push n (n + 100) (fun _ => .link none))

/-- Forty states need a second block, found in reverse order; the search crosses it. -/
example : let l := (List.range 40).foldl demoPush (some (start 7 (fun _ => .link none)))
    (l.bind top) = some 39 ∧ (l.map (fun l => l.sp)) = some ⟨130, 10⟩ ∧
    ((l.bind pop).bind pop).bind top = some 37 ∧
    (l.bind (fun l => search (· == 7) l.heap 5 l.sp l.base)) = some true ∧
    (l.bind (fun l => search (· == 77) l.heap 5 l.sp l.base)) = some false := by
  decide +kernel

/-- Leaving the last state would read the link that is not there. -/
example : ((pop (start 7 (fun _ => .link none))).isNone) = true := by decide +kernel

example : runs [.push 1, .push 2, .modify (· + 1), .pop] [7] = some [1, 7] := rfl

end Ksh.Lexnest
