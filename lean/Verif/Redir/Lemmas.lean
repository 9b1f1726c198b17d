import Verif.Redir.Model

/-! # The invariant that ties `savefd[]` to the table -/

namespace Ksh.Redir

variable {F : Type}

theorem set_same (T : Nat → Option F) (n v) : set T n v n = v := by simp [set]
theorem set_ne (T : Nat → Option F) {n m} (v) (h : m ≠ n) : set T n v m = T m := by simp [set, h]
theorem set_self (T : Nat → Option F) (n) : set T n (T n) = T := by
  funext m; by_cases h : m = n <;> simp [set, h]
theorem set_set (T : Nat → Option F) (n v w) : set (set T n v) n w = set T n w := by
  funext m; by_cases h : m = n <;> simp [set, h]

theorem free_some {k : K F} {b n} (h : k.free b = some n) :
    b ≤ n ∧ n < k.lim ∧ k.tab n = none := by
  unfold K.free at h
  have h1 := List.mem_of_find?_eq_some h
  have h2 := List.find?_some h
  simp only [List.mem_range'_1] at h1
  simp only [Option.isNone_iff_eq_none] at h2
  exact ⟨h1.1, by omega, h2⟩

theorem find_lowest (p : Nat → Bool) : ∀ len b n, (List.range' b len).find? p = some n → ∀ m, b ≤ m → m < n → p m = false
  | 0, b, n, h => by simp at h
  | len + 1, b, n, h => by
    intro m hm hn
    rw [List.range'_succ, List.find?_cons] at h
    cases hb : p b with
    | true => rw [hb] at h; simp at h; omega
    | false =>
      rw [hb] at h
      by_cases he : m = b
      · rw [he, hb]
      · exact find_lowest p len (b + 1) n h m (by omega) hn

theorem free_lowest {k : K F} {b n} (h : k.free b = some n) : ∀ m, b ≤ m → m < n → k.tab m ≠ none := by
  intro m hm hn he
  have := find_lowest _ _ _ _ h m hm hn
  simp [he] at this

theorem free_unique {k : K F} {b n} (h1 : b ≤ n) (h2 : n < k.lim) (h3 : k.tab n = none)
    (h4 : ∀ m, b ≤ m → m < n → k.tab m ≠ none) : k.free b = some n := by
  cases hf : k.free b with
  | none =>
    unfold K.free at hf
    rw [List.find?_eq_none] at hf
    have := hf n (by simp only [List.mem_range'_1]; omega)
    simp [h3] at this
  | some m =>
    have ⟨a, _, c⟩ := free_some hf
    have d := free_lowest hf
    by_cases hlt : m < n
    · exact absurd c (h4 m a hlt)
    · by_cases hgt : n < m
      · exact absurd h3 (d n h1 hgt)
      · have : m = n := by omega
        rw [this]

theorem toShort_small {n} (h : n < 32768) : toShort n = n := by
  unfold toShort
  rw [Nat.mod_eq_of_lt (by omega)]
  simp [h]

/-- `T0` is the table before the command, `sv` the saved descriptors, `T` the table now. -/
structure Inv (T0 : Nat → Option F) (sv : Nat → Int) (T : Nat → Option F) : Prop where
  hi : ∀ n, 10 ≤ n → sv n = 0
  same : ∀ n, n < 10 → sv n = 0 → T n = T0 n
  closed : ∀ n, sv n < 0 → T0 n = none
  saved : ∀ n, 0 < sv n → 10 ≤ sv n ∧ T0 (sv n).toNat = none ∧ T (sv n).toNat = T0 n ∧ T0 n ≠ none
  dist : ∀ n m, 0 < sv n → sv n = sv m → n = m
  rest : ∀ n : Nat, 10 ≤ n → (∀ m, sv m ≠ n) → T n = T0 n

theorem Inv.start (T : Nat → Option F) : Inv T (fun _ => 0) T where
  hi := by simp
  same := by simp
  closed := by simp
  saved := by simp
  dist := by simp
  rest := by simp

/-- A free number is not a saved copy. -/
theorem Inv.not_saved {T0 : Nat → Option F} {sv T} (h : Inv T0 sv T) {u : Nat} (hu : T u = none) : ∀ m, 0 < sv m → sv m ≠ u := by
  intro m hm he
  have ⟨_, _, c, d⟩ := h.saved m hm
  rw [he] at c; simp only [Int.toNat_natCast] at c
  rw [hu] at c; exact d c.symm

/-- A unit that has been saved can be changed at will. -/
theorem Inv.change {T0 : Nat → Option F} {sv T} (h : Inv T0 sv T) {n : Nat} (hn : n < 10) (hs : sv n ≠ 0) (v) : Inv T0 sv (set T n v) where
  hi := h.hi
  same := by
    intro m hm h0
    have : m ≠ n := by rintro rfl; exact hs h0
    rw [set_ne _ _ this]; exact h.same m hm h0
  closed := h.closed
  saved := by
    intro m hm
    have ⟨a, b, c, d⟩ := h.saved m hm
    refine ⟨a, b, ?_, d⟩
    rw [set_ne _ _ (by omega)]; exact c
  dist := h.dist
  rest := by
    intro m hm h0
    rw [set_ne _ _ (by omega)]; exact h.rest m hm h0

/-- Saving a unit in a free number. -/
theorem Inv.save {T0 : Nat → Option F} {sv T} (h : Inv T0 sv T) {n u : Nat} (hn : n < 10) (h0 : sv n = 0) (ho : T n ≠ none)
    (hu : 10 ≤ u) (hf : T u = none) : Inv T0 (upd sv n u) (set T u (T n)) := by
  have hns := h.not_saved hf
  have hT0u : T0 u = none := by
    rw [← h.rest u hu (by
      intro m he
      exact hns m (by omega) he), hf]
  have hTn := h.same n hn h0
  constructor
  · intro m hm; simp only [upd]; rw [if_neg (by omega)]; exact h.hi m hm
  · intro m hm; simp only [upd]
    by_cases hmn : m = n
    · rw [if_pos hmn]; omega
    · rw [if_neg hmn]; intro h1; rw [set_ne _ _ (by omega)]; exact h.same m hm h1
  · intro m; simp only [upd]
    by_cases hmn : m = n
    · rw [if_pos hmn]; omega
    · rw [if_neg hmn]; exact h.closed m
  · intro m; simp only [upd]
    by_cases hmn : m = n
    · subst hmn
      rw [if_pos rfl]; intro _
      refine ⟨by omega, by simpa using hT0u, by simp [set_same, hTn], by rw [← hTn]; exact ho⟩
    · rw [if_neg hmn]; intro hm
      have ⟨a, b, c, d⟩ := h.saved m hm
      refine ⟨a, b, ?_, d⟩
      rw [set_ne _ _ ?_]
      · exact c
      · intro he; exact hns m hm (by omega)
  · intro a b; simp only [upd]
    by_cases ha : a = n <;> by_cases hb : b = n
    · intros; omega
    · rw [if_pos ha, if_neg hb]; intro h1 h2
      exact absurd h2.symm (hns b (by omega))
    · rw [if_neg ha, if_pos hb]; intro h1 h2
      exact absurd h2 (hns a h1)
    · rw [if_neg ha, if_neg hb]; exact h.dist a b
  · intro m hm hall
    have h1 := hall n
    simp only [upd, if_true] at h1
    rw [set_ne _ _ (by omega)]
    refine h.rest m hm ?_
    intro a
    have h2 := hall a
    simp only [upd] at h2
    by_cases ha : a = n
    · subst ha; omega
    · rw [if_neg ha] at h2; exact h2

/-- Noting that a unit was not open. -/
theorem Inv.saveClosed {T0 : Nat → Option F} {sv T} (h : Inv T0 sv T) {n : Nat} (hn : n < 10) (h0 : sv n = 0) (ho : T n = none) :
    Inv T0 (upd sv n (-1)) T := by
  have hTn := h.same n hn h0
  constructor
  · intro m hm; simp only [upd]; rw [if_neg (by omega)]; exact h.hi m hm
  · intro m hm; simp only [upd]
    by_cases hmn : m = n
    · rw [if_pos hmn]; omega
    · rw [if_neg hmn]; exact h.same m hm
  · intro m; simp only [upd]
    by_cases hmn : m = n
    · subst hmn; intro _; rw [← hTn, ho]
    · rw [if_neg hmn]; exact h.closed m
  · intro m; simp only [upd]
    by_cases hmn : m = n
    · rw [if_pos hmn]; omega
    · rw [if_neg hmn]; exact h.saved m
  · intro a b; simp only [upd]
    by_cases ha : a = n <;> by_cases hb : b = n
    · intros; omega
    · rw [if_pos ha]; intro h1; omega
    · rw [if_neg ha, if_pos hb]; intro h1 h2; omega
    · rw [if_neg ha, if_neg hb]; exact h.dist a b
  · intro m hm hall
    refine h.rest m hm ?_
    intro a
    have h2 := hall a
    simp only [upd] at h2
    by_cases ha : a = n
    · subst ha; omega
    · rw [if_neg ha] at h2; exact h2

/-- Whatever a command does to numbers that hold no saved copy, the saved units come back. -/
theorem Inv.body {T0 : Nat → Option F} {sv T} (h : Inv T0 sv T) (T' : Nat → Option F) (hk : ∀ m, 0 < sv m → T' (sv m).toNat = T (sv m).toNat) :
    ∃ T1, Inv T1 sv T' ∧ (∀ n, sv n ≠ 0 → T1 n = T0 n) ∧ (∀ n, sv n = 0 → T' n = T n → T1 n = T0 n) ∧
      (∀ n, n < 10 → sv n = 0 → T1 n = T' n) ∧ (∀ n, 10 ≤ n → T' n = T n → T1 n = T0 n) ∧
      (∀ n, T1 n = T0 n ∨ (T1 n = T' n ∧ T0 n = T n)) := by
  classical
  refine ⟨fun n => if (n < 10 ∧ sv n = 0) ∨ (10 ≤ n ∧ ∀ m, sv m ≠ n) then T' n else T0 n, ?_, ?_, ?_, ?_, ?_, ?_⟩
  · constructor
    · exact h.hi
    · intro n hn h0; rw [if_pos (.inl ⟨hn, h0⟩)]
    · intro n hn
      rw [if_neg]
      · exact h.closed n hn
      · rintro (⟨_, _⟩ | ⟨h1, _⟩)
        · omega
        · have := h.hi n h1; omega
    · intro n hn
      have ⟨a, b, c, d⟩ := h.saved n hn
      have hlt : n < 10 := by
        by_cases h1 : n < 10
        · exact h1
        · have := h.hi n (by omega); omega
      have e1 : ¬((n < 10 ∧ sv n = 0) ∨ (10 ≤ n ∧ ∀ m, sv m ≠ n)) := by
        rintro (⟨_, _⟩ | ⟨h1, _⟩) <;> omega
      have e2 : ¬(((sv n).toNat < 10 ∧ sv (sv n).toNat = 0) ∨ (10 ≤ (sv n).toNat ∧ ∀ m, sv m ≠ (sv n).toNat)) := by
        rintro (⟨_, _⟩ | ⟨_, h1⟩)
        · omega
        · exact h1 n (by omega)
      simp only [if_neg e1, if_neg e2]
      exact ⟨a, b, by rw [hk n hn]; exact c, d⟩
    · exact h.dist
    · intro n hn hall; rw [if_pos (.inr ⟨hn, hall⟩)]
  · intro n hn
    have hlt : n < 10 := by
      by_cases h1 : n < 10
      · exact h1
      · exact absurd (h.hi n (by omega)) hn
    simp only
    rw [if_neg]
    rintro (⟨_, h1⟩ | ⟨h1, _⟩)
    · exact hn h1
    · omega
  · intro n hn he
    simp only
    by_cases hc : (n < 10 ∧ sv n = 0) ∨ (10 ≤ n ∧ ∀ m, sv m ≠ n)
    · rw [if_pos hc, he]
      rcases hc with ⟨a, b⟩ | ⟨a, b⟩
      · exact h.same n a b
      · exact h.rest n a b
    · rw [if_neg hc]
  · intro n hn h0; simp only; rw [if_pos (.inl ⟨hn, h0⟩)]
  · intro n hn he
    simp only
    by_cases hc : (n < 10 ∧ sv n = 0) ∨ (10 ≤ n ∧ ∀ m, sv m ≠ n)
    · rw [if_pos hc, he]
      rcases hc with ⟨a, b⟩ | ⟨a, b⟩
      · exact h.same n a b
      · exact h.rest n a b
    · rw [if_neg hc]
  · intro n
    simp only
    by_cases hc : (n < 10 ∧ sv n = 0) ∨ (10 ≤ n ∧ ∀ m, sv m ≠ n)
    · rw [if_pos hc]
      right
      refine ⟨rfl, ?_⟩
      rcases hc with ⟨a, b⟩ | ⟨a, b⟩
      · exact (h.same n a b).symm
      · exact (h.rest n a b).symm
    · rw [if_neg hc]; exact .inl rfl

/-! ## Restoring -/

theorem restfd_lim (fd ofd) (k : K F) : (restfd fd ofd k).lim = k.lim := by
  unfold restfd kdup2 kclose K.tick
  split
  · rfl
  · split
    · split <;> rfl
    · rfl

theorem Inv.rest1 {T0 : Nat → Option F} {sv} {k : K F} (h : Inv T0 sv k.tab) (hl : 10 ≤ k.lim) {n : Nat} (h0 : sv n ≠ 0) :
    Inv T0 (upd sv n 0) (restfd n (sv n) k).tab := by
  have hn : n < 10 := by
    by_cases h1 : n < 10
    · exact h1
    · exact absurd (h.hi n (by omega)) h0
  have key : (restfd n (sv n) k).tab = if sv n < 0 then set k.tab n none
      else set (set k.tab n (k.tab (sv n).toNat)) (sv n).toNat none := by
    unfold restfd
    by_cases hneg : sv n < 0
    · rw [if_pos hneg, if_pos hneg]; rfl
    · rw [if_neg hneg, if_neg hneg]
      have ⟨a, b, c, d⟩ := h.saved n (by omega)
      rw [if_pos (by omega)]
      have hs : (k.tab (sv n).toNat).isSome = true := by
        rw [c]; cases hh : T0 n
        · exact absurd hh d
        · rfl
      have hd : decide (n < k.lim) = true := by simp; omega
      simp [kdup2, hs, hd, kclose, K.tick]
  rw [key]
  constructor
  · intro m hm; simp only [upd]; rw [if_neg (by omega)]; exact h.hi m hm
  · intro m hm; simp only [upd]
    by_cases hmn : m = n
    · subst hmn; intro _
      by_cases hneg : sv m < 0
      · rw [if_pos hneg, set_same, h.closed m hneg]
      · rw [if_neg hneg]
        have ⟨a, b, c, d⟩ := h.saved m (by omega)
        rw [set_ne _ _ (by omega), set_same, c]
    · rw [if_neg hmn]; intro h1
      by_cases hneg : sv n < 0
      · rw [if_pos hneg, set_ne _ _ hmn]; exact h.same m hm h1
      · rw [if_neg hneg]
        have ⟨a, b, c, d⟩ := h.saved n (by omega)
        rw [set_ne _ _ (by omega), set_ne _ _ hmn]; exact h.same m hm h1
  · intro m; simp only [upd]
    by_cases hmn : m = n
    · rw [if_pos hmn]; omega
    · rw [if_neg hmn]; exact h.closed m
  · intro m; simp only [upd]
    by_cases hmn : m = n
    · rw [if_pos hmn]; omega
    · rw [if_neg hmn]; intro hm
      have ⟨a, b, c, d⟩ := h.saved m hm
      refine ⟨a, b, ?_, d⟩
      by_cases hneg : sv n < 0
      · rw [if_pos hneg, set_ne _ _ (by omega)]; exact c
      · rw [if_neg hneg]
        have ⟨a', _, _, _⟩ := h.saved n (by omega)
        have : (sv m).toNat ≠ (sv n).toNat := by
          intro he; exact hmn (h.dist m n hm (by omega))
        rw [set_ne _ _ this, set_ne _ _ (by omega)]; exact c
  · intro a b; simp only [upd]
    by_cases ha : a = n <;> by_cases hb : b = n
    · intros; omega
    · rw [if_pos ha]; intro h1; omega
    · rw [if_neg ha, if_pos hb]; intro h1 h2; omega
    · rw [if_neg ha, if_neg hb]; exact h.dist a b
  · intro m hm hall
    have hall' : ∀ a, a ≠ n → sv a ≠ m := by
      intro a ha; have := hall a; simp only [upd] at this; rw [if_neg ha] at this; exact this
    by_cases hneg : sv n < 0
    · rw [if_pos hneg, set_ne _ _ (by omega)]
      refine h.rest m hm ?_
      intro a; by_cases ha : a = n
      · subst ha; omega
      · exact hall' a ha
    · rw [if_neg hneg]
      by_cases hm2 : m = (sv n).toNat
      · have ⟨a', b', _, _⟩ := h.saved n (by omega)
        subst hm2; rw [set_same, b']
      · rw [set_ne _ _ hm2, set_ne _ _ (by omega)]
        refine h.rest m hm ?_
        intro a; by_cases ha : a = n
        · subst ha; omega
        · exact hall' a ha

theorem upd_same (sv : Nat → Int) {n} {v} (h : sv n = v) : upd sv n v = sv := by
  funext m; by_cases hm : m = n <;> simp [upd, hm, h]

/-- `quitenv` brings the table back. -/
theorem quit_fold {T0 : Nat → Option F} : ∀ (l : List Nat) (sv sv0 : Nat → Int) (k : K F), Inv T0 sv k.tab → 10 ≤ k.lim → (l.Nodup) → (∀ n ∈ l, sv n = sv0 n) →
    Inv T0 (fun n => if n ∈ l then 0 else sv n) (l.foldl (fun k fd => if sv0 fd ≠ 0 then restfd fd (sv0 fd) k else k) k).tab ∧
    (l.foldl (fun k fd => if sv0 fd ≠ 0 then restfd fd (sv0 fd) k else k) k).lim = k.lim
  | [], sv, sv0, k, h, _, _, _ => ⟨by simpa using h, rfl⟩
  | a :: l, sv, sv0, k, h, hl, hd, he => by
    simp only [List.foldl_cons]
    have ha : sv a = sv0 a := he a (by simp)
    rw [List.nodup_cons] at hd
    have step : Inv T0 (upd sv a 0) (if sv0 a ≠ 0 then restfd a (sv0 a) k else k).tab ∧ (if sv0 a ≠ 0 then restfd a (sv0 a) k else k).lim = k.lim := by
      by_cases h0 : sv0 a ≠ 0
      · rw [if_pos h0, ← ha]; exact ⟨h.rest1 hl (by rw [ha]; exact h0), restfd_lim ..⟩
      · rw [if_neg h0]
        rw [upd_same sv (by rw [ha]; omega)]; exact ⟨h, rfl⟩
    have ih := quit_fold l (upd sv a 0) sv0 _ step.1 (by omega) hd.2 (by
      intro n hn
      have : n ≠ a := by rintro rfl; exact hd.1 hn
      simp only [upd]; rw [if_neg this]; exact he n (by simp [hn]))
    refine ⟨?_, by rw [ih.2, step.2]⟩
    have e : (fun n => if n ∈ l then 0 else upd sv a 0 n) = fun n => if n ∈ a :: l then 0 else sv n := by
      funext n; by_cases hn : n ∈ l <;> by_cases hna : n = a <;> simp [upd, hn, hna]
    rw [e] at ih; exact ih.1

theorem Inv.zero {T0 : Nat → Option F} {sv T} (h : Inv T0 sv T) (hz : ∀ n, sv n = 0) : T = T0 := by
  funext n
  by_cases hn : n < 10
  · exact h.same n hn (hz n)
  · exact h.rest n (by omega) (by intro m; rw [hz m]; omega)

theorem quitenv_restores {T0 : Nat → Option F} {sv} {k : K F} (h : Inv T0 sv k.tab) (hl : 10 ≤ k.lim) :
    (quitenv sv k).tab = T0 ∧ (quitenv sv k).lim = k.lim := by
  have := quit_fold (List.range 32) sv sv k h hl List.nodup_range (by simp)
  refine ⟨this.1.zero ?_, this.2⟩
  intro n
  by_cases hn : n < 32
  · rw [if_pos (by simpa using hn)]
  · rw [if_neg (by simpa using hn)]; exact h.hi n (by omega)

/-! ## Setting up -/

theorem kopen_cases (O : Oracle F) (f : F) (k : K F) :
    (∃ n, kopen O f k = (some n, { k.tick with tab := set k.tab n (some f) }) ∧ n < k.lim ∧ k.tab n = none) ∨ kopen O f k = (none, k.tick) := by
  unfold kopen
  split
  · cases h : k.free 0 with
    | none => exact .inr rfl
    | some n => have := free_some h; exact .inl ⟨n, rfl, this.2.1, this.2.2⟩
  · exact .inr rfl

theorem set_none {T : Nat → Option F} {n} (h : T n = none) (v) : set (set T n v) n none = T := by
  rw [set_set]; funext m; by_cases hm : m = n <;> simp [set, hm, h]

theorem herein_cases (O : Oracle F) (f : F) (k : K F) :
    (∃ n t, herein O f k = (some n, { k with t := t, tab := set k.tab n (some f) }) ∧ n < k.lim ∧ k.tab n = none) ∨
    ∃ t, herein O f k = (none, { k with t := t }) := by
  unfold herein
  rcases kopen_cases O O.tmp k with ⟨w, hw, hwl, hwn⟩ | hw
  · rw [hw]; simp only
    rcases kopen_cases O f { k.tick with tab := set k.tab w (some O.tmp) } with ⟨r, hr, hrl, hrn⟩ | hr
    · rw [hr]; simp only at hrl hrn ⊢
      have hne : r ≠ w := by rintro rfl; rw [set_same] at hrn; cases hrn
      rw [set_ne _ _ hne] at hrn
      have e : set (set (set k.tab w (some O.tmp)) r (some f)) w none = set k.tab r (some f) := by
        funext m; by_cases h1 : m = w
        · subst h1; rw [set_same, set_ne _ _ hne.symm, hwn]
        · rw [set_ne _ _ h1]; by_cases h2 : m = r
          · subst h2; rw [set_same, set_same]
          · rw [set_ne _ _ h2, set_ne _ _ h2, set_ne _ _ h1]
      have hclose : ∀ (k' : K F), k' = { k.tick.tick with tab := set (set k.tab w (some O.tmp)) r (some f) } →
          kclose w k' = { k with t := k.t + 1 + 1 + 1, tab := set k.tab r (some f) } := by
        rintro _ rfl; simp [kclose, K.tick, e]
      have hc2 : ∀ (k' : K F), k' = { k.tick.tick with tab := set (set k.tab w (some O.tmp)) r (some f) } →
          kclose r (kclose w k') = { k with t := k.t + 1 + 1 + 1 + 1 } := by
        rintro _ rfl; rw [hclose _ rfl]; simp [kclose, K.tick, set_none hrn]
      split
      · exact .inr ⟨_, congrArg (Prod.mk none) (hc2 _ rfl)⟩
      · split
        · exact .inr ⟨_, congrArg (Prod.mk none) (hc2 _ rfl)⟩
        · exact .inl ⟨r, _, congrArg (Prod.mk (some r)) (hclose _ rfl), hrl, hrn⟩
    · rw [hr]; simp only
      refine .inr ⟨k.t + 1 + 1 + 1, ?_⟩
      simp [kclose, K.tick, set_none hwn]
  · rw [hw]; exact .inr ⟨_, rfl⟩

theorem savefd_cases {O : Oracle F} {T0 : Nat → Option F} {sv} {k : K F} {n : Nat} (h : Inv T0 sv k.tab) (hn : n < 10) (h0 : sv n = 0) (hl : k.lim ≤ 32768) :
    (∃ s k', savefd O n k = (some s, k') ∧ s ≠ 0 ∧ Inv T0 (upd sv n s) k'.tab ∧ k'.lim = k.lim ∧
      (∀ m, k.tab m ≠ none → k'.tab m = k.tab m) ∧ (∀ m, m < 10 → k'.tab m = k.tab m)) ∨
    savefd O n k = (none, k.tick) := by
  unfold savefd
  by_cases ho : k.tab n = none
  · left
    refine ⟨-1, k.tick, by simp [ho], by omega, h.saveClosed hn h0 ho, rfl, fun _ _ => rfl, fun _ _ => rfl⟩
  · have : (k.tab n).isNone = false := by cases hh : k.tab n <;> simp_all
    rw [this]; simp only [Bool.false_eq_true, if_false]
    split
    · cases hf : k.free 10 with
      | none => exact .inr rfl
      | some u =>
        have ⟨a, b, c⟩ := free_some hf
        left
        refine ⟨(u : Int), { k.tick with tab := set k.tab u (k.tab n) }, ?_, by omega, h.save hn h0 ho a c, rfl, ?_, ?_⟩
        · simp only; rw [toShort_small (by omega)]
        · intro m hm; simp only
          exact set_ne _ _ (by rintro rfl; exact hm c)
        · intro m hm; simp only
          exact set_ne _ _ (by omega)
    · exact .inr rfl

/-- A table with one more open file. -/
def Leak (T T' : Nat → Option F) : Prop := ∃ u f, T u = none ∧ T' = set T u (some f)

theorem kdup2_cases (may) (src dst : Nat) (k : K F) :
    (kdup2 may src dst k = (true, { k.tick with tab := set k.tab dst (k.tab src) }) ∧ k.tab src ≠ none) ∨ kdup2 may src dst k = (false, k.tick) := by
  unfold kdup2
  split
  · rename_i h
    simp only [Bool.and_eq_true, Option.isSome_iff_ne_none] at h
    exact .inl ⟨rfl, h.1.1⟩
  · exact .inr rfl

theorem upd_ne (sv : Nat → Int) {n m} (v) (h : m ≠ n) : upd sv n v m = sv m := by simp [upd, h]
theorem upd_at (sv : Nat → Int) (n) (v) : upd sv n v n = v := by simp [upd]


/-- A free number is taken: either the unit is saved already, or one file more is open. -/
theorem Inv.hold {T0 : Nat → Option F} {sv B} (h : Inv T0 sv B) {u : Nat} (hu : B u = none) (f : F) :
    ∃ T1, Inv T1 sv (set B u (some f)) ∧ ((T1 = T0 ∧ u < 10 ∧ sv u ≠ 0) ∨ (T0 u = none ∧ T1 = set T0 u (some f) ∧ sv u = 0)) := by
  by_cases h0 : sv u = 0
  · have hns := h.not_saved hu
    have hne : ∀ m, sv m ≠ u ∨ u < 10 := by
      intro m; by_cases h1 : 0 < sv m
      · exact .inl (hns m h1)
      · by_cases h2 : u < 10
        · exact .inr h2
        · left; omega
    have hT0 : T0 u = none := by
      by_cases h1 : u < 10
      · rw [← h.same u h1 h0, hu]
      · rw [← h.rest u (by omega) (fun m => (hne m).resolve_right h1), hu]
    refine ⟨set T0 u (some f), ?_, .inr ⟨hT0, rfl, h0⟩⟩
    constructor
    · exact h.hi
    · intro n hn hs
      by_cases he : n = u
      · rw [he, set_same, set_same]
      · rw [set_ne _ _ he, set_ne _ _ he]; exact h.same n hn hs
    · intro n hn
      rw [set_ne _ _ (by rintro rfl; omega)]; exact h.closed n hn
    · intro n hn
      have ⟨a, b, c, d⟩ := h.saved n hn
      have e1 : n ≠ u := by rintro rfl; omega
      have e2 : (sv n).toNat ≠ u := by intro he; exact hns n hn (by omega)
      rw [set_ne _ _ e1, set_ne _ _ e2, set_ne _ _ e2]
      exact ⟨a, b, c, d⟩
    · exact h.dist
    · intro n hn hall
      by_cases he : n = u
      · rw [he, set_same, set_same]
      · rw [set_ne _ _ he, set_ne _ _ he]; exact h.rest n hn hall
  · have hlt : u < 10 := by
      by_cases h1 : u < 10
      · exact h1
      · exact absurd (h.hi u (by omega)) h0
    exact ⟨T0, h.change hlt h0 _, .inl ⟨rfl, hlt, h0⟩⟩

/-- The number is given back. -/
theorem Inv.unhold {T0 : Nat → Option F} {sv T} {u : Nat} {f : F} (h : Inv (set T0 u (some f)) sv T) (h0 : sv u = 0) (hT : T0 u = none) :
    Inv T0 sv (set T u none) := by
  have hns : ∀ n, 0 < sv n → (sv n).toNat ≠ u := by
    intro n hn he
    have ⟨_, b, _, _⟩ := h.saved n hn
    rw [he, set_same] at b; cases b
  constructor
  · exact h.hi
  · intro n hn hs
    by_cases he : n = u
    · rw [he, set_same, hT]
    · rw [set_ne _ _ he]; have := h.same n hn hs; rw [set_ne _ _ he] at this; exact this
  · intro n hn
    have := h.closed n hn
    rw [set_ne _ _ (by rintro rfl; omega)] at this; exact this
  · intro n hn
    have ⟨a, b, c, d⟩ := h.saved n hn
    have e1 : n ≠ u := by rintro rfl; omega
    have e2 := hns n hn
    rw [set_ne _ _ e1] at c d; rw [set_ne _ _ e2] at b
    rw [set_ne _ _ e2]
    exact ⟨a, b, c, d⟩
  · exact h.dist
  · intro n hn hall
    by_cases he : n = u
    · rw [he, set_same, hT]
    · rw [set_ne _ _ he]; have := h.rest n hn hall; rw [set_ne _ _ he] at this; exact this

/-- What one step of setting up does: `S` is the table the command is to see. -/
structure Good (T0 : Nat → Option F) (sv : Nat → Int) (S : Nat → Option F) (hit : Nat → Prop) (lim : Nat) (x : Res × (Nat → Int) × K F) : Prop where
  lim : x.2.2.lim = lim
  inv : x.1 ≠ .tooMany → Inv T0 x.2.1 x.2.2.tab
  leak : ∃ T1, (T1 = T0 ∨ Leak T0 T1) ∧ Inv T1 x.2.1 x.2.2.tab
  sees : x.1 = .ok → ∀ n, n < 10 → x.2.2.tab n = S n
  kept : x.1 = .ok → ∀ n, sv n ≠ 0 → x.2.1 n ≠ 0
  hits : x.1 = .ok → ∀ n, hit n → x.2.1 n ≠ 0

theorem good_of {T0 : Nat → Option F} {sv S hit lim r sv' k} (hl : k.lim = lim) (h : Inv T0 sv' k.tab)
    (hok : r = Res.ok → (∀ n, n < 10 → k.tab n = S n) ∧ (∀ n, sv n ≠ 0 → sv' n ≠ 0) ∧ ∀ n, hit n → sv' n ≠ 0) : Good T0 sv S hit lim (r, sv', k) where
  lim := hl
  inv := fun _ => h
  leak := ⟨T0, .inl rfl, h⟩
  sees := fun hr => (hok hr).1
  kept := fun hr => (hok hr).2.1
  hits := fun hr => (hok hr).2.2

theorem upd_kept {sv : Nat → Int} {n s} (hs : s ≠ 0) : ∀ m, sv m ≠ 0 → upd sv n s m ≠ 0 := by
  intro m hm; by_cases he : m = n
  · rw [he, upd_at]; exact hs
  · rw [upd_ne _ _ he]; exact hm

/-- Installing a descriptor that is not to be closed. -/
theorem install_dup (O : Oracle F) {T0 : Nat → Option F} {sv} {k : K F} {unit u : Nat} (h : Inv T0 sv k.tab) (hn : unit < 10) (hu : k.tab u ≠ none)
    (hne : u ≠ unit) (hl : k.lim ≤ 32768) : Good T0 sv (set k.tab unit (k.tab u)) (· = unit) k.lim (install O unit u false sv k) := by
  unfold install
  have fin : ∀ s (k' : K F), s ≠ 0 → Inv T0 (upd sv unit s) k'.tab → k'.lim = k.lim → (k'.tab u = k.tab u) → (∀ m, m < 10 → k'.tab m = k.tab m) →
      Good T0 sv (set k.tab unit (k.tab u)) (· = unit) k.lim
        (match kdup2 O.dup2s u unit k' with
        | (true, k') => (.ok, upd sv unit s, if false = true then kclose u k' else k')
        | (false, k') => (.fail, upd sv unit s, if false = true then kclose u k' else k')) := by
    intro s k' hs hi hlim hku hlow
    rcases kdup2_cases O.dup2s u unit k' with ⟨e, hsome⟩ | e
    · rw [e]; simp only [Bool.false_eq_true, if_false]
      refine good_of hlim (hi.change hn (by rw [upd_at]; exact hs) _) fun _ => ⟨?_, upd_kept hs, ?_⟩
      · intro m hm
        simp only
        by_cases he : m = unit
        · rw [he, set_same, set_same, hku]
        · rw [set_ne _ _ he, set_ne _ _ he, hlow m hm]
      · rintro m rfl; rw [upd_at]; exact hs
    · rw [e]; simp only [Bool.false_eq_true, if_false]
      exact good_of hlim hi (fun hr => by cases hr)
  by_cases h0 : sv unit = 0
  · simp only [if_pos h0, if_neg hne]
    rcases savefd_cases (O := O) h hn h0 hl with ⟨s, k', e, hs, hi, hlim, hop, hlow⟩ | e
    · rw [e]; exact fin s k' hs hi hlim (hop u hu) hlow
    · rw [e]; simp only
      exact ⟨rfl, fun hr => absurd rfl hr, ⟨T0, .inl rfl, h⟩, fun hr => (by cases hr), fun hr => (by cases hr), fun hr => (by cases hr)⟩
  · simp only [if_neg h0, if_neg hne]
    exact fin (sv unit) k h0 (by rw [upd_same sv rfl]; exact h) rfl rfl (fun _ _ => rfl)

/-- Installing a descriptor that has just been opened. -/
theorem install_own (O : Oracle F) {T0 : Nat → Option F} {sv} {k : K F} {unit u : Nat} {B : Nat → Option F} {f : F} (h : Inv T0 sv B) (hn : unit < 10)
    (hu : B u = none) (hk : k.tab = set B u (some f)) (hl : k.lim ≤ 32768) :
    Good T0 sv (set B unit (some f)) (· = unit) k.lim (install O unit u true sv k) := by
  unfold install
  obtain ⟨T1, hi1, hT1⟩ := h.hold hu f
  rw [← hk] at hi1
  by_cases hne : u = unit
  · subst hne
    by_cases h0 : sv u = 0
    · simp only [if_pos h0, if_true]
      refine good_of rfl ?_ fun _ => ⟨fun m _ => by rw [hk], upd_kept (by omega), ?_⟩
      · rw [hk]; exact (h.saveClosed hn h0 hu).change hn (by rw [upd_at]; omega) _
      · rintro m rfl; rw [upd_at]; omega
    · simp only [if_neg h0, if_true]
      refine good_of rfl ?_ fun _ => ⟨fun m _ => by rw [hk], upd_kept h0, ?_⟩
      · rw [upd_same sv rfl, hk]; exact h.change hn h0 _
      · rintro m rfl; rw [upd_at]; exact h0
  · have close : ∀ s (k' : K F), Inv T1 (upd sv unit s) k'.tab → Inv T0 (upd sv unit s) (set k'.tab u none) := by
      intro s k' hi
      rcases hT1 with ⟨rfl, hlt, hs⟩ | ⟨hT, rfl, hs⟩
      · exact hi.change hlt (by rw [upd_ne _ _ hne]; exact hs) _
      · exact hi.unhold (by rw [upd_ne _ _ hne]; exact hs) hT
    have fin : ∀ s (k' : K F), s ≠ 0 → Inv T1 (upd sv unit s) k'.tab → k'.lim = k.lim → (k'.tab u = k.tab u) → (∀ m, m < 10 → k'.tab m = k.tab m) →
        Good T0 sv (set B unit (some f)) (· = unit) k.lim
          (match kdup2 O.dup2s u unit k' with
          | (true, k') => (.ok, upd sv unit s, if true = true then kclose u k' else k')
          | (false, k') => (.fail, upd sv unit s, if true = true then kclose u k' else k')) := by
      intro s k' hs hi hlim hku hlow
      rcases kdup2_cases O.dup2s u unit k' with ⟨e, hsome⟩ | e
      · rw [e]; simp only [if_true]
        refine good_of hlim (close s { k'.tick with tab := set k'.tab unit (k'.tab u) } (hi.change hn (by rw [upd_at]; exact hs) _)) fun _ => ⟨?_, upd_kept hs, ?_⟩
        · intro m hm
          simp only [kclose]
          by_cases he : m = u
          · subst he; rw [set_same, set_ne _ _ hne, hu]
          · rw [set_ne _ _ he]
            by_cases hm2 : m = unit
            · rw [hm2, set_same, set_same, hku, hk, set_same]
            · rw [set_ne _ _ hm2, set_ne _ _ hm2, hlow m hm, hk, set_ne _ _ he]
        · rintro m rfl; rw [upd_at]; exact hs
      · rw [e]; simp only [if_true]
        exact good_of hlim (close s k'.tick hi) (fun hr => by cases hr)
    by_cases h0 : sv unit = 0
    · simp only [if_pos h0, if_neg hne]
      rcases savefd_cases (O := O) hi1 hn h0 hl with ⟨s, k', e, hs, hi, hlim, hop, hlow⟩ | e
      · rw [e]; exact fin s k' hs hi hlim (hop u (by rw [hk, set_same]; simp)) hlow
      · rw [e]; simp only
        refine ⟨rfl, fun hr => absurd rfl hr, ⟨T1, ?_, hi1⟩, fun hr => (by cases hr), fun hr => (by cases hr), fun hr => (by cases hr)⟩
        rcases hT1 with ⟨rfl, _, _⟩ | ⟨hT, rfl, _⟩
        · exact .inl rfl
        · exact .inr ⟨u, f, hT, rfl⟩
    · simp only [if_neg h0, if_neg hne]
      exact fin (sv unit) k h0 (by rw [upd_same sv rfl]; exact hi1) rfl rfl (fun _ _ => rfl)

/-- The table a command is to see after one redirection. -/
def see1 (T : Nat → Option F) : Redir F → Nat → Option F
  | .file u f => set T u (some f)
  | .here u f => set T u (some f)
  | .dup u s => set T u (T s)
  | .close u => set T u none
  | .bad _ => T

/-- The units a redirection changes; `3>&3` changes none. -/
def hit (r : Redir F) (n : Nat) : Prop :=
  match r with
  | .file u _ => n = u
  | .here u _ => n = u
  | .dup u s => n = u ∧ s ≠ u
  | .close u => n = u
  | .bad _ => False

theorem iosetup_good (O : Oracle F) (r : Redir F) {T0 : Nat → Option F} {sv} {k : K F} (h : Inv T0 sv k.tab) (hl : k.lim ≤ 32768) :
    Good T0 sv (see1 k.tab r) (hit r) k.lim (iosetup O r sv k) := by
  cases r with
  | file unit f =>
    simp only [iosetup, see1]
    split
    · exact good_of rfl h (fun hr => by cases hr)
    · rcases kopen_cases O f k with ⟨u, e, hul, hu⟩ | e
      · rw [e]; simp only
        exact install_own O (k := { k.tick with tab := set k.tab u (some f) }) h unit.isLt hu rfl hl
      · rw [e]; exact good_of rfl h (fun hr => by cases hr)
  | here unit f =>
    simp only [iosetup, see1]
    rcases herein_cases O f k with ⟨u, t, e, hul, hu⟩ | ⟨t, e⟩
    · rw [e]; simp only
      exact install_own O (k := { k with t := t, tab := set k.tab u (some f) }) h unit.isLt hu rfl hl
    · rw [e]; exact good_of rfl h (fun hr => by cases hr)
  | dup unit src =>
    simp only [iosetup, see1]
    split
    · exact good_of rfl h (fun hr => by cases hr)
    · rename_i ho
      split
      · rename_i he
        refine good_of rfl h fun _ => ⟨?_, fun _ hm => hm, ?_⟩
        · intro n _; rw [he, set_self]
        · rintro n ⟨_, h2⟩; exact absurd he h2
      · rename_i he
        have hne : (src : Nat) ≠ unit := fun h => he (Fin.ext h)
        have := install_dup O h unit.isLt (u := src) (by simpa using ho) hne hl
        exact { this with hits := fun hr n hn => this.hits hr n hn.1 }
  | close unit =>
    simp only [iosetup, see1]
    by_cases h0 : sv unit = 0
    · rw [if_pos h0]
      rcases savefd_cases (O := O) h unit.isLt h0 hl with ⟨s, k', e, hs, hi, hlim, hop, hlow⟩ | e
      · rw [e]; simp only
        refine good_of hlim (hi.change unit.isLt (by rw [upd_at]; exact hs) _) fun _ => ⟨?_, upd_kept hs, ?_⟩
        · intro m hm; simp only [kclose]
          by_cases he : m = unit
          · rw [he, set_same, set_same]
          · rw [set_ne _ _ he, set_ne _ _ he, hlow m hm]
        · intro n hn; simp only [hit] at hn; rw [hn, upd_at]; exact hs
      · rw [e]; simp only
        exact ⟨rfl, fun hr => absurd rfl hr, ⟨T0, .inl rfl, h⟩, fun hr => (by cases hr), fun hr => (by cases hr), fun hr => (by cases hr)⟩
    · rw [if_neg h0]; simp only
      rw [upd_same sv rfl]
      refine good_of rfl (h.change unit.isLt h0 _) fun _ => ⟨fun _ _ => rfl, fun _ hm => hm, ?_⟩
      intro n hn; simp only [hit] at hn; rw [hn]; exact h0
  | bad unit => exact good_of rfl h (fun hr => by cases hr)

/-- The table a command is to see: the redirections from left to right. -/
def see (rs : List (Redir F)) (T : Nat → Option F) : Nat → Option F := rs.foldl see1 T

theorem see1_low {T T' : Nat → Option F} (h : ∀ n, n < 10 → T n = T' n) (r : Redir F) : ∀ n, n < 10 → see1 T r n = see1 T' r n := by
  intro n hn
  have hs : ∀ (u : Nat) (v v' : Option F), v = v' → set T u v n = set T' u v' n := by
    rintro u v _ rfl; simp only [set]; split
    · rfl
    · exact h n hn
  cases r with
  | file u f => exact hs _ _ _ rfl
  | here u f => exact hs _ _ _ rfl
  | dup u s => exact hs _ _ _ (h s s.isLt)
  | close u => exact hs _ _ _ rfl
  | bad u => exact h n hn

theorem see_low (rs : List (Redir F)) : ∀ {T T' : Nat → Option F}, (∀ n, n < 10 → T n = T' n) → ∀ n, n < 10 → see rs T n = see rs T' n := by
  induction rs with
  | nil => intro T T' h; exact h
  | cons r rs ih => intro T T' h; exact ih (see1_low h r)

theorem setup_good (O : Oracle F) {T0 : Nat → Option F} : ∀ (rs : List (Redir F)) (sv) (k : K F), Inv T0 sv k.tab → k.lim ≤ 32768 →
    Good T0 sv (see rs k.tab) (fun n => ∃ r ∈ rs, hit r n) k.lim (setup O rs sv k)
  | [], sv, k, h, hl => good_of rfl h fun _ => ⟨fun _ _ => rfl, fun _ hm => hm, by simp⟩
  | r :: rs, sv, k, h, hl => by
    have g := iosetup_good O r h hl
    simp only [setup]
    rcases e : iosetup O r sv k with ⟨res, sv', k'⟩
    rw [e] at g
    cases res with
    | ok =>
      simp only
      have ih := setup_good O (T0 := T0) rs sv' k' (g.inv (by simp)) (by rw [g.lim]; exact hl)
      refine ⟨by rw [ih.lim, g.lim], ih.inv, ih.leak, ?_, ?_, ?_⟩
      · intro hr n hn
        rw [ih.sees hr n hn]
        exact see_low rs (g.sees rfl) n hn
      · intro hr n hn; exact ih.kept hr n (g.kept rfl n hn)
      · rintro hr n ⟨r', hm, hh⟩
        rcases List.mem_cons.1 hm with rfl | hm
        · exact ih.kept hr n (g.hits rfl n hh)
        · exact ih.hits hr n ⟨r', hm, hh⟩
    | fail => exact ⟨g.lim, g.inv, g.leak, fun hr => (by cases hr), fun hr => (by cases hr), fun hr => (by cases hr)⟩
    | jump => exact ⟨g.lim, g.inv, g.leak, fun hr => (by cases hr), fun hr => (by cases hr), fun hr => (by cases hr)⟩
    | tooMany => exact ⟨g.lim, g.inv, g.leak, fun hr => (by cases hr), fun hr => (by cases hr), fun hr => (by cases hr)⟩

/-! ## `exec` -/

theorem commit_fold {T0 : Nat → Option F} (sv : Nat → Int) : ∀ (l : List Nat) (k : K F),
    (∀ n, 10 ≤ n → k.tab n = T0 n ∨ ∃ m ∈ l, sv m = n) → (∀ m ∈ l, 0 < sv m → 10 ≤ sv m ∧ T0 (sv m).toNat = none) →
    (∀ n, 10 ≤ n → (l.foldl (fun k fd => if sv fd > 0 then kclose (sv fd).toNat k else k) k).tab n = T0 n) ∧
    (∀ n, n < 10 → (l.foldl (fun k fd => if sv fd > 0 then kclose (sv fd).toNat k else k) k).tab n = k.tab n) ∧
    (l.foldl (fun k fd => if sv fd > 0 then kclose (sv fd).toNat k else k) k).lim = k.lim
  | [], k, h, _ => by
    refine ⟨fun n hn => ?_, fun _ _ => rfl, rfl⟩
    rcases h n hn with h | ⟨_, h, _⟩
    · exact h
    · cases h
  | a :: l, k, h, hs => by
    simp only [List.foldl_cons]
    by_cases ha : sv a > 0
    · rw [if_pos ha]
      have ⟨a1, a2⟩ := hs a (by simp) ha
      have ih := commit_fold (T0 := T0) sv l (kclose (sv a).toNat k) (by
        intro n hn
        simp only [kclose]
        by_cases he : n = (sv a).toNat
        · left; rw [he, set_same, a2]
        · rw [set_ne _ _ he]
          rcases h n hn with h | ⟨m, hm, hmn⟩
          · exact .inl h
          · rcases List.mem_cons.1 hm with rfl | hm
            · exact absurd (by omega) he
            · exact .inr ⟨m, hm, hmn⟩) (fun m hm => hs m (by simp [hm]))
      refine ⟨ih.1, ?_, ih.2.2⟩
      intro n hn
      rw [ih.2.1 n hn]
      exact set_ne _ _ (by omega)
    · rw [if_neg ha]
      refine commit_fold (T0 := T0) sv l k ?_ (fun m hm => hs m (by simp [hm]))
      intro n hn
      rcases h n hn with h | ⟨m, hm, hmn⟩
      · exact .inl h
      · rcases List.mem_cons.1 hm with rfl | hm
        · omega
        · exact .inr ⟨m, hm, hmn⟩

theorem commit_keeps {T0 : Nat → Option F} {sv} {k : K F} (h : Inv T0 sv k.tab) :
    (∀ n, 10 ≤ n → (commit sv k).tab n = T0 n) ∧ (∀ n, n < 10 → (commit sv k).tab n = k.tab n) ∧ (commit sv k).lim = k.lim := by
  refine commit_fold sv (List.range 32) k ?_ ?_
  · intro n hn
    by_cases hall : ∀ m, sv m ≠ n
    · exact .inl (h.rest n hn hall)
    · obtain ⟨m, hm⟩ := Classical.not_forall.1 hall
      have hm := Classical.not_not.1 hm
      refine .inr ⟨m, ?_, hm⟩
      rw [List.mem_range]
      by_cases hlt : m < 10
      · omega
      · have := h.hi m (by omega); omega
  · intro m _ hm; exact ⟨(h.saved m hm).1, (h.saved m hm).2.1⟩

end Ksh.Redir
