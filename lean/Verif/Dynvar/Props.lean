import Verif.Dynvar.Model

/-!
# SECONDS, RANDOM and LINENO: proofs
-/
namespace Ksh.Dynvar

variable (g : Gen)

/-- Time that passes. -/
def elapsed : List Ev → Nat
  | [] => 0
  | .tick n :: l => n + elapsed l
  | _ :: l => elapsed l

/-- Functions are called, but the variable is neither assigned, unset, nor made local or
read-only. -/
def leaves : Ev → Bool
  | .tick _ | .line _ | .read | .enter | .leave => true
  | _ => false

/-- There is one entry, the global one, and it is special. -/
structure Global (s : S) (n : Nat) (c : Cell) : Prop where
  special : s.special = true
  stack : s.stack = List.replicate n none ++ [some c]
  defd : c.defd = true
  spec : c.spec = true
  free : c.rdonly = false

theorem find_global (sp : Bool) (c : Cell) (hd : c.defd = true) : ∀ n : Nat,
    find sp (List.replicate n none ++ [some c]) = c
  | 0 => by simp [find, hd]
  | n + 1 => by
    have ih := find_global sp c hd n
    simp only [List.replicate_succ, List.cons_append]
    cases n with
    | zero => simpa [find, there] using ih
    | succ n =>
      rw [List.replicate_succ, List.cons_append] at ih ⊢
      simpa [find, there] using ih

theorem put_global (c c' : Cell) : ∀ n : Nat,
    put c' (List.replicate n none ++ [some c]) = List.replicate n none ++ [some c']
  | 0 => by simp [put]
  | n + 1 => by
    have ih := put_global c c' n
    simp only [List.replicate_succ, List.cons_append]
    cases n with
    | zero => simp [put, there]
    | succ n =>
      rw [List.replicate_succ, List.cons_append] at ih ⊢
      simp only [put, there] at ih ⊢
      simpa using ih

theorem setint_free (c : Cell) (n : Int) (h : c.rdonly = false) :
    setint c n = { c with isset := true, val := some n } := by
  simp [setint, h]

/-- The state with that global entry. -/
abbrev glob (s : S) (n : Nat) (c : Cell) : S :=
  { s with stack := List.replicate n none ++ [some c] }

/-- What a step does not change. -/
theorem Global.step (k : Kind) {s : S} {n : Nat} {c : Cell} (h : Global s n c) (hs : c.isset = true)
    (e : Ev) (he : leaves e = true) : ∃ n' c', Global (Dynvar.step g k s e) n' c' ∧
      c'.isset = true ∧ (Dynvar.step g k s e).base = s.base ∧
      (Dynvar.step g k s e).user = s.user ∧
      (Dynvar.step g k s e).now = s.now + elapsed [e] := by
  have hf := fun sp => find_global sp c h.defd n
  cases e with
  | tick m => exact ⟨n, c, ⟨h.special, h.stack, h.defd, h.spec, h.free⟩, hs, rfl, rfl, by simp [Dynvar.step, elapsed]⟩
  | line m => exact ⟨n, c, ⟨h.special, h.stack, h.defd, h.spec, h.free⟩, hs, rfl, rfl, by simp [Dynvar.step, elapsed]⟩
  | read =>
    have hr : ∃ c' : Cell, ∃ r, c'.defd = true ∧ c'.spec = true ∧ c'.rdonly = false ∧
        c'.isset = true ∧ Dynvar.step g k s .read = glob { s with rng := r } n c' := by
      simp only [Dynvar.step, read, h.stack, hf, h.spec, if_true, getspec, h.special]
      cases k with
      | seconds =>
        refine ⟨{ c with isset := true, val := some ((s.now - s.base) / giga) }, s.rng,
          h.defd, h.spec, h.free, rfl, ?_⟩
        simp [hs, setint_free _ _ h.free, h.stack, put_global, h.special, h.spec]
      | random =>
        refine ⟨{ c with isset := true, val := some (((g.next s.rng).2 % 32768 : Nat) : Int) },
          (g.next s.rng).1,
          h.defd, h.spec, h.free, rfl, ?_⟩
        simp only [setint_free _ _ h.free, put_global]
      | lineno =>
        refine ⟨{ c with isset := true, val := some (s.line + s.user) }, s.rng,
          h.defd, h.spec, h.free, rfl, ?_⟩
        simp [setint_free _ _ h.free, h.stack, put_global, h.special, h.spec]
    obtain ⟨c', r, d1, d2, d3, d4, e⟩ := hr
    rw [e]
    exact ⟨n, c', ⟨h.special, rfl, d1, d2, d3⟩, d4, rfl, rfl, by simp [elapsed]⟩
  | enter =>
    exact ⟨n + 1, c, ⟨h.special, by simp [Dynvar.step, h.stack, List.replicate_succ], h.defd, h.spec, h.free⟩,
      hs, rfl, rfl, by simp [Dynvar.step, elapsed]⟩
  | leave =>
    cases n with
    | zero =>
      have : Dynvar.step g k s .leave = s := by simp [Dynvar.step, h.stack]
      rw [this]
      exact ⟨0, c, h, hs, rfl, rfl, by simp [elapsed]⟩
    | succ n =>
      have : Dynvar.step g k s .leave =
          { s with stack := List.replicate n none ++ [some c] } := by
        simp only [Dynvar.step, h.stack, List.replicate_succ, List.cons_append]
        cases n with
        | zero => rfl
        | succ n => rfl
      rw [this]
      exact ⟨n, c, ⟨h.special, rfl, h.defd, h.spec, h.free⟩, hs, rfl, rfl, by simp [elapsed]⟩
  | assign v => cases he
  | unset => cases he
  | readonly => cases he
  | localv => cases he

theorem elapsed_cons (e : Ev) (l : List Ev) : elapsed (e :: l) = elapsed [e] + elapsed l := by
  cases e <;> simp [elapsed]

theorem Global.run (k : Kind) : ∀ (l : List Ev) {s : S} {n : Nat} {c : Cell}, Global s n c →
    c.isset = true → (∀ e ∈ l, leaves e = true) →
    ∃ n' c', Global (Dynvar.run g k s l) n' c' ∧ c'.isset = true ∧
      (Dynvar.run g k s l).base = s.base ∧ (Dynvar.run g k s l).user = s.user ∧
      (Dynvar.run g k s l).now = s.now + elapsed l
  | [], s, n, c, h, hs, _ => ⟨n, c, h, hs, rfl, rfl, rfl⟩
  | e :: l, s, n, c, h, hs, hl => by
    obtain ⟨n1, c1, h1, hs1, a1, b1, d1⟩ := h.step g k hs e (hl e List.mem_cons_self)
    obtain ⟨n2, c2, h2, hs2, a2, b2, d2⟩ := Global.run k l h1 hs1
      (fun x hx => hl x (List.mem_cons_of_mem _ hx))
    refine ⟨n2, c2, h2, hs2, a2.trans a1, b2.trans b1, ?_⟩
    rw [elapsed_cons]
    simp only [Dynvar.run]
    omega

theorem assign_global (k : Kind) {s : S} {n : Nat} {c : Cell} (h : Global s n c) (v : Int) :
    Dynvar.step g k s (.assign v) = setspec g k (glob s n { c with isset := true, val := some v }) v := by
  simp only [step, h.stack, find_global _ c h.defd, h.free, h.spec, put_global]
  rfl

theorem read_global (k : Kind) {s : S} {n : Nat} {c : Cell} (h : Global s n c)
    (hs : c.isset = true) : (read g k s).2 = .value (match k with
      | .seconds => (s.now - s.base) / giga
      | .random => ((g.next s.rng).2 % 32768 : Nat)
      | .lineno => s.line + s.user) := by
  simp only [read, h.stack, find_global _ c h.defd, h.spec, if_true, getspec, h.special]
  cases k <;> simp [hs, setint_free _ _ h.free, got]

/-! ## Properties -/

/-- SECONDS is the value assigned plus the whole seconds that passed since.  Partial: no
function makes it local, and it is not made read-only; see `local_seconds`. -/
theorem seconds_partial (s : S) (n : Nat) (c : Cell) (h : Global s n c) (v : Int) (l : List Ev)
    (hl : ∀ e ∈ l, leaves e = true) :
    (read g .seconds (run g .seconds (step g .seconds s (.assign v)) l)).2 =
      .value (v + (elapsed l / 1000000000 : Nat)) := by
  rw [assign_global g .seconds h v]
  have h0 : Global (setspec g .seconds (glob s n { c with isset := true, val := some v }) v) n
      { c with isset := true, val := some v } := by
    refine ⟨?_, ?_, h.defd, h.spec, h.free⟩ <;> simp [setspec, h.special]
  obtain ⟨n', c', h', hs', hb, _, hn⟩ := h0.run g .seconds l rfl hl
  rw [read_global g .seconds h' hs', hb, hn]
  have e1 : (setspec g .seconds (glob s n { c with isset := true, val := some v }) v).base =
      s.now - v * giga := by simp [setspec, h.special]
  have e2 : (setspec g .seconds (glob s n { c with isset := true, val := some v }) v).now =
      s.now := by simp [setspec, h.special]
  rw [e1, e2]
  show Got.value ((((s.now + elapsed l : Nat) : Int) - (s.now - v * 1000000000)) / 1000000000) = _
  congr 1
  omega

/-- RANDOM is a number from 0 to 32767. -/
theorem random_range (s : S) (n : Nat) (c : Cell) (h : Global s n c) :
    ∃ v, (read g .random s).2 = .value v ∧ 0 ≤ v ∧ v < 32768 := by
  refine ⟨((g.next s.rng).2 % 32768 : Nat), ?_, by omega, by omega⟩
  simp only [read, h.stack, find_global _ c h.defd, h.spec, if_true, getspec, h.special]
  simp [setint_free _ _ h.free, got]

/-- The values of `$RANDOM` at the next references. -/
def values (s : S) : Nat → List Got
  | 0 => []
  | m + 1 => (read g .random s).2 :: values (read g .random s).1 m

/-- A number assigned to RANDOM determines all that follow. -/
theorem random_seeded (s s' : S) (n n' : Nat) (c c' : Cell) (h : Global s n c)
    (h' : Global s' n' c') (v : Int) (m : Nat) :
    values g (step g .random s (.assign v)) m = values g (step g .random s' (.assign v)) m := by
  have key : ∀ (m : Nat) (s s' : S) (n n' : Nat) (c c' : Cell), Global s n c → Global s' n' c' →
      s.rng = s'.rng → values g s m = values g s' m := by
    intro m
    induction m with
    | zero => intros; rfl
    | succ m ih =>
      intro s s' n n' c c' h h' e
      have r : ∀ (s : S) (n : Nat) (c : Cell), Global s n c →
          read g .random s = (glob { s with rng := (g.next s.rng).1 } n
            { c with isset := true, val := some (((g.next s.rng).2 % 32768 : Nat) : Int) },
            .value (((g.next s.rng).2 % 32768 : Nat) : Int)) := by
        intro s n c h
        simp only [read, h.stack, find_global _ c h.defd, h.spec, if_true, getspec, h.special,
          setint_free _ _ h.free, put_global]
        rfl
      simp only [values, r s n c h, r s' n' c' h', e]
      congr 1
      exact ih _ _ n n' _ _ ⟨h.special, rfl, h.defd, h.spec, h.free⟩
        ⟨h'.special, rfl, h'.defd, h'.spec, h'.free⟩ (by simp)
  rw [assign_global g .random h v, assign_global g .random h' v]
  refine key m _ _ n n' { c with isset := true, val := some v }
    { c' with isset := true, val := some v } ?_ ?_ ?_
  · refine ⟨?_, ?_, h.defd, h.spec, h.free⟩ <;> simp [setspec, h.special]
  · refine ⟨?_, ?_, h'.defd, h'.spec, h'.free⟩ <;> simp [setspec, h'.special]
  · simp [setspec, h.special, h'.special]

/-- Assigning to LINENO numbers the lines after it: the next line gets the number, and the
others follow.  Partial: no function makes it local. -/
theorem lineno_partial (s : S) (n : Nat) (c : Cell) (h : Global s n c) (v : Int) (l : List Ev)
    (hl : ∀ e ∈ l, leaves e = true) (d : Nat)
    (hr : -2147483648 ≤ v - s.line - 1 ∧ v - s.line - 1 < 2147483648)
    (hd : (run g .lineno (step g .lineno s (.assign v)) l).line = s.line + 1 + d) :
    (read g .lineno (run g .lineno (step g .lineno s (.assign v)) l)).2 = .value (v + d) := by
  rw [assign_global g .lineno h v] at hd ⊢
  have h0 : Global (setspec g .lineno (glob s n { c with isset := true, val := some v }) v) n
      { c with isset := true, val := some v } := by
    refine ⟨?_, ?_, h.defd, h.spec, h.free⟩ <;> simp [setspec, h.special]
  obtain ⟨n', c', h', hs', _, hu, _⟩ := h0.run g .lineno l rfl hl
  rw [read_global g .lineno h' hs', hu, hd]
  have ht : toInt32 (v - s.line - 1) = v - s.line - 1 := by
    simp only [toInt32]
    split <;> omega
  simp only [setspec, h.special, if_true, ht]
  congr 1
  omega

/-- LINENO is the number of the line being executed as long as nothing is assigned to it. -/
theorem lineno_current (l : List Ev) (t : Nat) (hl : ∀ e ∈ l, leaves e = true) :
    (read g .lineno (run g .lineno (start .lineno t) l)).2 =
      .value (run g .lineno (start .lineno t) l).line := by
  -- either there is no entry yet, or there is one
  have key : ∀ (l : List Ev) (s : S), (∀ e ∈ l, leaves e = true) → s.special = true → s.user = 0 →
      ((∃ n, s.stack = List.replicate (n + 1) none) ∨ ∃ n c, Global s n c ∧ c.isset = true) →
      (run g .lineno s l).special = true ∧ (run g .lineno s l).user = 0 ∧
      ((∃ n, (run g .lineno s l).stack = List.replicate (n + 1) none) ∨
        ∃ n c, Global (run g .lineno s l) n c ∧ c.isset = true) := by
    intro l
    induction l with
    | nil => exact fun _ _ a b c => ⟨a, b, c⟩
    | cons e l ih =>
      intro s hl a b hc
      have he := hl e List.mem_cons_self
      have hl' : ∀ x ∈ l, leaves x = true := fun x hx => hl x (List.mem_cons_of_mem _ hx)
      rcases hc with ⟨n, hn⟩ | ⟨n, c, hg, hs⟩
      · have hfind : ∀ n, find true (List.replicate (n + 1) none) =
            ⟨true, true, false, false, false, none⟩ := by
          intro n
          induction n with
          | zero => simp [find]
          | succ n ih =>
            rw [List.replicate_succ, List.replicate_succ]
            rw [List.replicate_succ] at ih
            simpa [find, there] using ih
        have hput : ∀ (c : Cell) n, put c (List.replicate (n + 1) none) =
            List.replicate n none ++ [some c] := by
          intro c n
          induction n with
          | zero => simp [put]
          | succ n ih =>
            rw [List.replicate_succ, List.replicate_succ]
            rw [List.replicate_succ] at ih
            simp only [put, there]
            simp only [Bool.false_eq_true, if_false, List.cons_append]
            rw [← List.replicate_succ, ← ih]
            rfl
        cases e with
        | tick m => exact ih _ hl' a b (Or.inl ⟨n, hn⟩)
        | line m => exact ih _ hl' a b (Or.inl ⟨n, hn⟩)
        | read =>
          have : step g .lineno s .read = glob s n
              ⟨true, true, false, false, true, some (s.line + s.user)⟩ := by
            simp only [step, read, hn, hfind, getspec, a, if_true, setint]
            simp [hput, a]
          simp only [run, this]
          exact ih _ hl' a b (Or.inr ⟨n, _, ⟨a, rfl, rfl, rfl, rfl⟩, rfl⟩)
        | enter => exact ih _ hl' a b (Or.inl ⟨n + 1, by simp [step, hn, List.replicate_succ]⟩)
        | leave =>
          cases n with
          | zero =>
            have : step g .lineno s .leave = s := by simp [step, hn]
            simp only [run, this]
            exact ih _ hl' a b (Or.inl ⟨0, hn⟩)
          | succ n =>
            have : step g .lineno s .leave = { s with stack := List.replicate (n + 1) none } := by
              simp only [step, hn, List.replicate_succ]
              rfl
            simp only [run, this]
            exact ih _ hl' a b (Or.inl ⟨n, rfl⟩)
        | assign v => cases he
        | unset => cases he
        | readonly => cases he
        | localv => cases he
      · obtain ⟨n1, c1, h1, hs1, _, b1, _⟩ := hg.step g .lineno hs e he
        exact ih _ hl' h1.special (b1.trans b) (Or.inr ⟨n1, c1, h1, hs1⟩)
  obtain ⟨hsp, hu, hc⟩ := key l (start .lineno t) hl rfl rfl (Or.inl ⟨0, rfl⟩)
  generalize run g .lineno (start .lineno t) l = s at *
  rcases hc with ⟨n, hn⟩ | ⟨n, c, hg, hs⟩
  · have hfind : ∀ n, find true (List.replicate (n + 1) none) =
        ⟨true, true, false, false, false, none⟩ := by
      intro n
      induction n with
      | zero => simp [find]
      | succ n ih =>
        rw [List.replicate_succ, List.replicate_succ]
        rw [List.replicate_succ] at ih
        simpa [find, there] using ih
    simp [read, hn, hfind, getspec, hsp, setint, got, hu]
  · rw [read_global g .lineno hg hs, hu]
    simp

/-- After `unset` the variable has no special meaning, for good: reading it has no effect and
gives what was assigned. -/
theorem unset_ordinary (k : Kind) (s : S) (h : s.special = false) (l : List Ev) :
    (run g k s l).special = false ∧ (run g k s l).base = s.base ∧
      (run g k s l).user = s.user ∧ (run g k s l).rng = s.rng ∧
      (read g k (run g k s l)).2 = got (find false (run g k s l).stack) := by
  have hset : ∀ (t : S) (v : Int), t.special = false → setspec g k t v = t := by
    intro t v ht
    simp [setspec, ht]
  have key : ∀ (l : List Ev) (t : S), t.special = false → (run g k t l).special = false ∧
      (run g k t l).base = t.base ∧ (run g k t l).user = t.user ∧ (run g k t l).rng = t.rng := by
    intro l
    induction l with
    | nil => exact fun t ht => ⟨ht, rfl, rfl, rfl⟩
    | cons e l ih =>
      intro t ht
      have : (step g k t e).special = false ∧ (step g k t e).base = t.base ∧
          (step g k t e).user = t.user ∧ (step g k t e).rng = t.rng := by
        cases e with
        | tick m => exact ⟨ht, rfl, rfl, rfl⟩
        | line m => exact ⟨ht, rfl, rfl, rfl⟩
        | read =>
          simp only [step, read, getspec, ht]
          split <;> exact ⟨ht, rfl, rfl, rfl⟩
        | assign v =>
          simp only [step]
          split
          · exact ⟨ht, rfl, rfl, rfl⟩
          · split
            · rw [hset]
              · exact ⟨ht, rfl, rfl, rfl⟩
              · exact ht
            · exact ⟨ht, rfl, rfl, rfl⟩
        | unset =>
          simp only [step]
          split
          · exact ⟨ht, rfl, rfl, rfl⟩
          · split
            · exact ⟨rfl, rfl, rfl, rfl⟩
            · exact ⟨ht, rfl, rfl, rfl⟩
        | readonly => exact ⟨ht, rfl, rfl, rfl⟩
        | enter => exact ⟨ht, rfl, rfl, rfl⟩
        | localv =>
          simp only [step]
          split <;> exact ⟨ht, rfl, rfl, rfl⟩
        | leave =>
          simp only [step]
          split
          · simp only [pop]
            split
            · exact ⟨ht, rfl, rfl, rfl⟩
            · split
              · split
                · split
                  · rw [hset]
                    · exact ⟨ht, rfl, rfl, rfl⟩
                    · exact ht
                  · exact ⟨ht, rfl, rfl, rfl⟩
                · exact ⟨rfl, rfl, rfl, rfl⟩
              · exact ⟨ht, rfl, rfl, rfl⟩
          · exact ⟨ht, rfl, rfl, rfl⟩
      obtain ⟨a, b, c, d⟩ := ih (step g k t e) this.1
      simp only [run]
      exact ⟨a, b.trans this.2.1, c.trans this.2.2.1, d.trans this.2.2.2⟩
  obtain ⟨a, b, c, d⟩ := key l s h
  refine ⟨a, b, c, d, ?_⟩
  simp only [read, getspec, a]
  split <;> rfl

/-- `unset` does that. -/
theorem unset_forever (k : Kind) (s : S) (hs : (find s.special s.stack).spec = true)
    (hr : (find s.special s.stack).rdonly = false) (l : List Ev) :
    (run g k (step g k s .unset) l).special = false ∧
      (run g k (step g k s .unset) l).base = s.base ∧
      (run g k (step g k s .unset) l).user = s.user ∧
      (run g k (step g k s .unset) l).rng = s.rng := by
  have h : (step g k s .unset).special = false := by simp [step, hs, hr]
  obtain ⟨a, b, c, d, _⟩ := unset_ordinary g k _ h l
  refine ⟨a, b.trans ?_, c.trans ?_, d.trans ?_⟩ <;> simp [step, hs, hr]

theorem find_defd (sp : Bool) : ∀ l : List (Option Cell), (find sp l).defd = true
  | [] => rfl
  | [some c] => by simp only [find]; split <;> simp_all
  | [none] => rfl
  | o :: x :: l => by
    have ih := find_defd sp (x :: l)
    cases o with
    | none => simpa [find, there] using ih
    | some c =>
      by_cases hd : c.defd = true
      · simpa [find, there, hd] using hd
      · simpa [find, there, hd] using ih

theorem find_put (sp : Bool) (c : Cell) (hc : c.defd = true) : ∀ l : List (Option Cell), l ≠ [] →
    find sp (put c l) = c
  | [], h => absurd rfl h
  | [o], _ => by cases o <;> simp [put, find, hc]
  | o :: x :: l, _ => by
    have ih := find_put sp c hc (x :: l) (by simp)
    simp only [put]
    split
    · simp [find, there, hc]
    · next ho =>
      cases hp : put c (x :: l) with
      | nil => cases l <;> simp [put] at hp; split at hp <;> cases hp
      | cons y m =>
        rw [hp] at ih
        cases o with
        | none => simpa [find, there] using ih
        | some d =>
          have hd : d.defd = false := by simpa [there] using ho
          simpa [find, there, hd] using ih

/-- Then it has the value assigned last, however much time passes. -/
theorem unset_assigned (k : Kind) (s : S) (h : s.special = false) (hn : s.stack ≠ [])
    (hr : (find s.special s.stack).rdonly = false) (v : Int) (ns : Nat) (line : Int) :
    (read g k (run g k s [.assign v, .tick ns, .line line])).2 = .value v := by
  have e := (unset_ordinary g k s h [.assign v, .tick ns, .line line]).2.2.2.2
  rw [e]
  have hst : (run g k s [.assign v, .tick ns, .line line]).stack =
      put { find s.special s.stack with isset := true, val := some v } s.stack := by
    simp only [run, step, hr]
    simp only [Bool.false_eq_true, if_false]
    split <;> simp [setspec, h]
  rw [hst, find_put false]
  · rfl
  · exact find_defd _ _
  · exact hn

/-! ## Cases, and where the code falls short -/

/-- Any generator. -/
def lcg : Gen := ⟨fun s => ((s * 1103515245 + 12345) % 2147483648, s / 3), fun n => n⟩

-- SECONDS=10; 2.5 s pass; $SECONDS
example : (read lcg .seconds (run lcg .seconds (start .seconds 7) [.tick 900000000, .assign 10,
    .tick 1500000000, .read, .enter, .tick 1000000000, .leave])).2 = .value 12 := by decide
example : Global (start .seconds 7) 0 ⟨true, true, true, false, true, some 0⟩ :=
  ⟨rfl, rfl, rfl, rfl, rfl⟩
-- LINENO=100 in line 5: line 8 is 102
example : (read lcg .lineno (run lcg .lineno (start .lineno 0) [.read, .line 5, .assign 100,
    .line 8])).2 = .value 102 := by decide

/-- When a function that makes SECONDS local returns, SECONDS goes back to what it was when it
was last read: here 0 after 100 seconds. -/
theorem local_seconds : (read lcg .seconds (run lcg .seconds (start .seconds 7)
    [.read, .tick 100000000000, .enter, .localv, .leave])).2 = .value 0 ∧
    (read lcg .seconds (run lcg .seconds (start .seconds 7)
    [.read, .tick 100000000000, .enter, .leave])).2 = .value 100 := by decide

/-- When a function that makes RANDOM local returns, the generator is seeded with the last
number it gave. -/
theorem local_random (s : S) (c : Cell) (v : Int) (hs : s.stack = [some c]) (hsp : s.special = true)
    (hd : c.defd = true) (hi : c.isset = true) (hv : c.val = some v) :
    (run g .random s [.enter, .localv, .leave]).rng = g.seed (v % 4294967296).toNat := by
  simp [run, step, hs, hsp, pop, find, hd, hi, hv, setspec]

/-- A function that makes LINENO local takes its meaning away for good, unless it was read
before; then the lines are numbered wrongly. -/
theorem local_lineno : (read lcg .lineno (run lcg .lineno (start .lineno 0)
    [.line 3, .enter, .localv, .leave, .line 9])).2 = .unset ∧
    (read lcg .lineno (run lcg .lineno (start .lineno 0)
    [.line 3, .read, .line 8, .enter, .localv, .leave, .line 9])).2 = .value 3 := by decide

/-- In the line that assigns to it LINENO is one less than what was assigned. -/
theorem same_line : (read lcg .lineno (run lcg .lineno (start .lineno 0)
    [.line 5, .read, .assign 100])).2 = .value 99 := by decide

/-- `readonly LINENO; echo $LINENO` reads through a pointer that was never set; when LINENO was
read before, it stays at that number. -/
theorem readonly_wild : (read lcg .lineno (run lcg .lineno (start .lineno 0)
    [.line 2, .readonly])).2 = .wild ∧
    (read lcg .lineno (run lcg .lineno (start .lineno 0)
    [.line 2, .read, .readonly, .line 9])).2 = .value 2 := by decide

end Ksh.Dynvar
