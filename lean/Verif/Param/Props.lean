import Verif.Param.Spec

/-!
# The positional parameters: proofs
-/
namespace Ksh.Param

/-- The block holds these parameters. -/
structure Rel (s : S) (p : P) : Prop where
  mem : ∃ a, s.mem[s.cur.arr]? = some a ∧ a.drop s.cur.off = p.zero :: p.ps
  argc : s.cur.argc = p.ps.length
  out : s.out = p.out

/-- What a command leaves alone. -/
structure Frame (m : Nat) (q : Bool) (s s' : S) : Prop where
  len : s.mem.length ≤ s'.mem.length
  other : ∀ A, A < s.mem.length → A ≠ s.cur.arr → s'.mem[A]? = s.mem[A]?
  arr : s'.cur.arr = s.cur.arr ∨ s.mem.length ≤ s'.cur.arr
  own : m ≤ 1 → ∀ a, s.mem[s.cur.arr]? = some a → ∃ a', s'.mem[s.cur.arr]? = some a' ∧
    ∀ i, s.cur.off + m < i → a'[i]? = a[i]?
  size : ∀ a, s.mem[s.cur.arr]? = some a → ∃ a', s'.mem[s.cur.arr]? = some a' ∧ a'.length = a.length
  off : m ≤ 1 → s'.cur.arr = s.cur.arr → s'.cur.off ≤ s.cur.off + m
  quiet : q = true → s'.cur = s.cur ∧ s'.mem[s.cur.arr]? = s.mem[s.cur.arr]?

def Sim (m : Nat) (q : Bool) (s : S) : R S → R P → Prop
  | .fuel, .fuel => True
  | .ok s' ab, .ok p' ab' => ab = ab' ∧ Rel s' p' ∧ Frame m q s s'
  | _, _ => False

theorem Rel.lt {s : S} {p : P} (h : Rel s p) : s.cur.arr < s.mem.length := by
  obtain ⟨a, ha, -⟩ := h.mem
  exact (List.getElem?_eq_some_iff.1 ha).1

theorem Rel.view {s : S} {p : P} (h : Rel s p) : Param.view s = some (p.zero, p.ps) := by
  obtain ⟨a, ha, hd⟩ := h.mem
  simp [Param.view, ha, hd]

theorem Frame.refl (m : Nat) (q : Bool) (s : S) : Frame m q s s :=
  ⟨Nat.le_refl _, fun _ _ _ => rfl, .inl rfl, fun _ a h => ⟨a, h, fun _ _ => rfl⟩, fun a h => ⟨a, h, rfl⟩,
    fun _ _ => by omega, fun _ => ⟨rfl, rfl⟩⟩

theorem Frame.mono {m m' : Nat} {q q' : Bool} {s s' : S} (h : Frame m q s s') (hm : m ≤ m' ∨ 2 ≤ m')
    (hq : q' = true → q = true) : Frame m' q' s s' := by
  refine ⟨h.len, h.other, h.arr, fun hx a ha => ?_, h.size, fun hx ha => ?_, fun hx => h.quiet (hq hx)⟩
  · obtain ⟨a', h1, h2⟩ := h.own (by omega) a ha
    exact ⟨a', h1, fun i hi => h2 i (by omega)⟩
  · have := h.off (by omega) ha
    omega

theorem Frame.trans {m1 m2 : Nat} {q1 q2 : Bool} {s s1 s2 : S} (h1 : Frame m1 q1 s s1)
    (h2 : Frame m2 q2 s1 s2) (hlt : s.cur.arr < s.mem.length) : Frame (m1 + m2) (q1 && q2) s s2 := by
  have hlen := h1.len
  refine ⟨Nat.le_trans h1.len h2.len, fun A hA hne => ?_, ?_, fun hm a ha => ?_, fun a ha => ?_,
    fun hm hc => ?_, fun hq => ?_⟩
  · rcases h1.arr with e | e
    · rw [h2.other A (by omega) (by rw [e]; exact hne), h1.other A hA hne]
    · rw [h2.other A (by omega) (by omega), h1.other A hA hne]
  · rcases h1.arr with e | e
    · rcases h2.arr with e' | e'
      · exact .inl (e'.trans e)
      · exact .inr (by omega)
    · rcases h2.arr with e' | e'
      · exact .inr (by omega)
      · exact .inr (by omega)
  · obtain ⟨a1, ha1, hb1⟩ := h1.own (by omega) a ha
    rcases h1.arr with e | e
    · obtain ⟨a2, ha2, hb2⟩ := h2.own (by omega) a1 (by rw [e]; exact ha1)
      have ho := h1.off (by omega) e
      refine ⟨a2, by rw [← e]; exact ha2, fun i hi => ?_⟩
      rw [hb2 i (by omega), hb1 i (by omega)]
    · refine ⟨a1, ?_, fun i hi => hb1 i (by omega)⟩
      rw [h2.other _ (by omega) (by omega)]
      exact ha1
  · obtain ⟨a1, ha1, hb1⟩ := h1.size a ha
    rcases h1.arr with e | e
    · obtain ⟨a2, ha2, hb2⟩ := h2.size a1 (by rw [e]; exact ha1)
      exact ⟨a2, by rw [← e]; exact ha2, hb2.trans hb1⟩
    · refine ⟨a1, ?_, hb1⟩
      rw [h2.other _ (by omega) (by omega)]
      exact ha1
  · rcases h1.arr with e | e
    · have := h1.off (by omega) e
      have := h2.off (by omega) (hc.trans e.symm)
      omega
    · rcases h2.arr with e' | e'
      · omega
      · omega
  · simp only [Bool.and_eq_true] at hq
    obtain ⟨x1, x2⟩ := h1.quiet hq.1
    obtain ⟨y1, y2⟩ := h2.quiet hq.2
    rw [x1] at y1 y2
    exact ⟨y1, y2.trans x2⟩

theorem Sim.mono {m m' : Nat} {q q' : Bool} {s : S} {r : R S} {r' : R P} (h : Sim m q s r r')
    (hm : m ≤ m' ∨ 2 ≤ m') (hq : q' = true → q = true) : Sim m' q' s r r' := by
  cases r <;> cases r' <;> simp only [Sim] at h ⊢
  exact ⟨h.1, h.2.1, h.2.2.mono hm hq⟩

theorem Sim.then {m1 m2 : Nat} {q1 q2 : Bool} {s : S} {r : R S} {r' : R P} {f : S → R S} {g : P → R P}
    (hlt : s.cur.arr < s.mem.length) (h : Sim m1 q1 s r r')
    (hf : ∀ s1 p1, Rel s1 p1 → Frame m1 q1 s s1 → Sim m2 q2 s1 (f s1) (g p1)) :
    Sim (m1 + m2) (q1 && q2) s (r.then f) (r'.then g) := by
  cases r with
  | fuel => cases r' with
    | fuel => trivial
    | bad => exact h.elim
    | ok _ _ => exact h.elim
  | bad => cases r' <;> exact h.elim
  | ok s1 ab =>
    cases r' with
    | fuel => exact h.elim
    | bad => exact h.elim
    | ok p1 ab' =>
      obtain ⟨e, hr, hfr⟩ := h
      subst e
      cases ab with
      | true => exact ⟨rfl, hr, hfr.mono (.inl (by omega)) (by simp only [Bool.and_eq_true]; exact fun h => h.1)⟩
      | false =>
        have := hf s1 p1 hr hfr
        show Sim _ _ s (f s1) (g p1)
        cases h1 : f s1 <;> cases h2 : g p1 <;> rw [h1, h2] at this <;> simp only [Sim] at this ⊢
        exact ⟨this.1, this.2.1, hfr.trans this.2.2 hlt⟩

/-- `shift`, once it is known to be possible. -/
theorem doShift_sim {s : S} {p : P} (h : Rel s p) {n : Nat} (hn : n ≤ p.ps.length) (m : Nat)
    (hm : n ≤ m ∨ 2 ≤ m) : Sim m false s (doShift n s) (.ok { p with ps := p.ps.drop n } false) := by
  obtain ⟨a, ha, hd⟩ := h.mem
  have hlt := h.lt
  have hargc := h.argc
  have hlen : a.length = s.cur.off + 1 + p.ps.length := by
    have := congrArg List.length hd
    simp only [List.length_drop, List.length_cons] at this
    omega
  have hz : a[s.cur.off]? = some p.zero := by
    have : (a.drop s.cur.off)[0]? = some p.zero := by rw [hd]; rfl
    simpa using this
  have hn' : ∃ x, a[s.cur.off + n]? = some x := ⟨_, List.getElem?_eq_getElem (by omega)⟩
  obtain ⟨x, hx⟩ := hn'
  unfold doShift
  rw [if_neg (by omega), if_neg (by simp only [Int.toNat_natCast]; omega), ha]
  simp only [Int.toNat_natCast, hz, hx]
  refine ⟨rfl, ⟨⟨a.set (s.cur.off + n) p.zero, by simp [hlt], ?_⟩, by simp; omega, h.out⟩, ⟨by simp, ?_, .inl rfl, ?_, ?_, ?_, ?_⟩⟩
  · apply List.ext_getElem?
    intro i
    rw [List.getElem?_drop]
    show (a.set (s.cur.off + n) p.zero)[s.cur.off + n + i]? = (p.zero :: p.ps.drop n)[i]?
    cases i with
    | zero => simp [List.getElem?_set, show s.cur.off + n < a.length by omega]
    | succ i =>
      rw [List.getElem?_set_ne (by omega)]
      have : (a.drop s.cur.off)[n + i + 1]? = (p.zero :: p.ps)[n + i + 1]? := by rw [hd]
      rw [List.getElem?_drop] at this
      simp only [List.getElem?_cons_succ, List.getElem?_drop] at this ⊢
      rw [show s.cur.off + n + (i + 1) = s.cur.off + (n + i + 1) by omega]
      exact this
  · intro A hA hne
    show (s.mem.set _ _)[A]? = _
    rw [List.getElem?_set_ne (fun e => hne e.symm)]
  · intro hm1 b hb
    cases ha.symm.trans hb
    refine ⟨a.set (s.cur.off + n) p.zero, by simp [hlt], fun i hi => ?_⟩
    rw [List.getElem?_set_ne (by omega)]
  · intro b hb
    cases ha.symm.trans hb
    exact ⟨a.set (s.cur.off + n) p.zero, by simp [hlt], by simp⟩
  · intro hm1 _
    show s.cur.off + n ≤ _
    omega
  · intro h; cases h

theorem fresh_rel (zero : Str) (args : List Str) {s : S} {p : P} (h : Rel s p) :
    Rel (fresh zero args s) { p with zero := zero, ps := args } :=
  ⟨⟨zero :: args, by simp [fresh], by simp [fresh]⟩, rfl, h.out⟩

theorem fresh_frame (m : Nat) (zero : Str) (args : List Str) {s : S} (hlt : s.cur.arr < s.mem.length) :
    Frame m false s (fresh zero args s) := by
  have hk : ∀ A, A < s.mem.length → (fresh zero args s).mem[A]? = s.mem[A]? := fun A hA => by
    simp [fresh, List.getElem?_append_left hA]
  refine ⟨by simp [fresh], fun A hA _ => hk A hA, .inr (by simp [fresh]), fun _ a ha => ⟨a, ?_, fun _ _ => rfl⟩,
    fun a ha => ⟨a, ?_, rfl⟩, fun _ hc => ?_, fun h => by cases h⟩
  · rw [hk _ hlt]; exact ha
  · rw [hk _ hlt]; exact ha
  · simp only [fresh] at hc; omega

/-- The parameters of a function, or of a sourced file, go away. -/
theorem fresh_back {m : Nat} {q : Bool} {zero : Str} {args : List Str} {s : S} {p : P} (h : Rel s p)
    {r : R S} {r' : R P} (hs : Sim m q (fresh zero args s) r r') :
    Sim 0 true s (r.map fun s' _ => ({ s' with cur := s.cur }, false))
      (r'.map fun p' _ => ({ p with out := p'.out }, false)) := by
  have hlt := h.lt
  cases r <;> cases r' <;> simp only [Sim, R.map] at hs ⊢
  rename_i s' ab p' ab'
  obtain ⟨-, hr, hf⟩ := hs
  have hk : ∀ A, A < s.mem.length → s'.mem[A]? = s.mem[A]? := fun A hA => by
    rw [hf.other A (by simp [fresh]; omega) (by simp [fresh]; omega)]
    simp [fresh, List.getElem?_append_left hA]
  have hlen : s.mem.length ≤ s'.mem.length := by
    have := hf.len
    simp [fresh] at this
    omega
  obtain ⟨a, ha, hd⟩ := h.mem
  refine ⟨trivial, ⟨⟨a, by show s'.mem[s.cur.arr]? = _; rw [hk _ hlt]; exact ha, hd⟩, h.argc, hr.out⟩,
    ⟨hlen, fun A hA _ => hk A hA, .inl rfl, fun _ b hb => ⟨b, by show s'.mem[s.cur.arr]? = _; rw [hk _ hlt]; exact hb, fun _ _ => rfl⟩,
      fun b hb => ⟨b, by show s'.mem[s.cur.arr]? = _; rw [hk _ hlt]; exact hb, rfl⟩, fun _ _ => by simp, fun _ => ⟨rfl, hk _ hlt⟩⟩⟩

theorem Rel.item {s : S} {p : P} (h : Rel s p) (e : Event) :
    Rel { s with out := s.out ++ [e] } { p with out := p.out ++ [e] } :=
  ⟨h.mem, h.argc, by simp [h.out]⟩

/-- `for i; do ...; done` -/
theorem each_sim {m : Nat} {q : Bool} (hm : m ≤ 1) {body : S → R S} {sbody : P → R P}
    (hb : ∀ s p, Rel s p → Sim m q s (body s) (sbody p)) (A : Nat) :
    ∀ (l : List Str) (k i : Nat) (s : S) (p : P) (a : List Str), l.length + 1 ≤ k → Rel s p →
      s.mem[A]? = some a → a.drop i = l → i ≤ a.length → (s.cur.arr = A → s.cur.off + 1 ≤ i) →
      Sim (if m = 0 then 0 else 2) q s (eachLoop body A k i s) (specEach sbody l p) := by
  intro l
  induction l with
  | nil =>
    intro k i s p a hk hr ha hd hi _
    obtain ⟨k, rfl⟩ : ∃ k', k = k' + 1 := ⟨k - 1, by simp at hk; omega⟩
    unfold eachLoop specEach
    rw [ha]
    have : i = a.length := by
      have := congrArg List.length hd
      simp at this
      omega
    simp only [this, if_true]
    exact ⟨rfl, hr, Frame.refl _ _ _⟩
  | cons x l ih =>
    intro k i s p a hk hr ha hd hi hoff
    obtain ⟨k, rfl⟩ : ∃ k', k = k' + 1 := ⟨k - 1, by simp at hk; omega⟩
    unfold eachLoop specEach
    rw [ha]
    have hlen : a.length = i + 1 + l.length := by
      have := congrArg List.length hd
      simp at this
      omega
    have hx : a[i]? = some x := by
      have : (a.drop i)[0]? = some x := by rw [hd]; rfl
      simpa using this
    have hdl : a.drop (i + 1) = l := by
      rw [← List.drop_drop, hd]; rfl
    simp only
    rw [if_neg (show ¬ i = a.length by omega), hx]
    simp only
    have hAlt : A < s.mem.length := (List.getElem?_eq_some_iff.1 ha).1
    have hs := hb _ _ (hr.item (.item x))
    have hs' : Sim m q s (body { s with out := s.out ++ [.item x] }) (sbody { p with out := p.out ++ [.item x] }) := by
      cases h1 : body { s with out := s.out ++ [.item x] } <;>
        cases h2 : sbody { p with out := p.out ++ [.item x] } <;> rw [h1, h2] at hs <;>
        simp only [Sim] at hs ⊢
      exact ⟨hs.1, hs.2.1, ⟨hs.2.2.len, hs.2.2.other, hs.2.2.arr, hs.2.2.own, hs.2.2.size, hs.2.2.off, hs.2.2.quiet⟩⟩
    have := hs'.then hr.lt (f := eachLoop body A k (i + 1)) (g := specEach sbody l)
      (m2 := if m = 0 then 0 else 2) (q2 := q) (fun s1 p1 hr1 hf1 => by
        have hmem : ∃ a1, s1.mem[A]? = some a1 ∧ a1.drop (i + 1) = l ∧ a1.length = a.length := by
          by_cases e : A = s.cur.arr
          · subst e
            obtain ⟨a1, ha1, hb1⟩ := hf1.own hm a ha
            obtain ⟨a2, ha2, hb2⟩ := hf1.size a ha
            cases ha1.symm.trans ha2
            refine ⟨a1, ha1, ?_, hb2⟩
            rw [← hdl]
            apply List.ext_getElem?
            intro j
            rw [List.getElem?_drop, List.getElem?_drop, hb1 _ (by have := hoff rfl; omega)]
          · exact ⟨a, by rw [hf1.other A hAlt e]; exact ha, hdl, rfl⟩
        obtain ⟨a1, ha1, hd1, hl1⟩ := hmem
        refine ih k (i + 1) s1 p1 a1 (by simp at hk; omega) hr1 ha1 hd1 (by omega) (fun e => ?_)
        by_cases e' : s.cur.arr = A
        · have := hf1.off hm (e.trans e'.symm)
          have := hoff e'
          omega
        · rcases hf1.arr with x | x
          · exact absurd (x.symm.trans e) e'
          · omega)
    refine this.mono ?_ ?_
    · by_cases h0 : m = 0
      · simp [h0]
      · simp [h0]
    · simp

theorem while_sim {m : Nat} {q : Bool} (c : Str → List Str → Bool) {body : S → R S} {sbody : P → R P}
    (hb : ∀ s p, Rel s p → Sim m q s (body s) (sbody p)) : ∀ (k : Nat) (s : S) (p : P), Rel s p →
      Sim (if m = 0 then 0 else 2) q s (whileLoop (fun s => (view s).map fun v => c v.1 v.2) body k s)
        (whileLoop (fun p => some (c p.zero p.ps)) sbody k p) := by
  intro k
  induction k with
  | zero => intro s p _; trivial
  | succ k ih =>
    intro s p hr
    unfold whileLoop
    rw [hr.view]
    simp only [Option.map_some]
    cases hc : c p.zero p.ps with
    | false => exact ⟨rfl, hr, Frame.refl _ _ _⟩
    | true =>
      refine ((hb s p hr).then hr.lt (m2 := if m = 0 then 0 else 2) (q2 := q) fun s1 p1 hr1 _ => ih s1 p1 hr1).mono ?_ ?_
      · by_cases h0 : m = 0
        · simp [h0]
        · simp [h0]
      · simp

/-- The shell does what it should, and leaves the rest alone. -/
theorem exec_sim : ∀ (n : Nat) (c : Cmd) (s : S) (p : P), Fine c → Rel s p →
    Sim (shifts c) (quiet c) s (exec n c s) (spec n c p) := by
  intro n
  induction n with
  | zero => intro c s p _ _; trivial
  | succ n ih =>
    intro c s p hf hr
    unfold exec spec
    rw [hr.view]
    have hargc := hr.argc
    cases c with
    | shift1 =>
      simp only
      cases hp : p.ps with
      | nil =>
        have : s.cur.argc = 0 := by rw [hargc, hp]; rfl
        simp only [doShift, this]
        exact ⟨rfl, hr, Frame.refl _ _ _⟩
      | cons x l =>
        have := doShift_sim hr (n := 1) (by rw [hp]; simp) 1 (.inl (by omega))
        rw [hp] at this
        exact this
    | shift e =>
      simp only
      obtain ⟨h1, h2⟩ := hf p.zero p.ps
      have ht : toInt (e p.zero p.ps) = e p.zero p.ps := by
        unfold toInt
        rw [Int.bmod_eq_of_le (by omega) (by omega)]
      rw [ht]
      generalize e p.zero p.ps = v at *
      by_cases hv : 0 ≤ v ∧ v ≤ p.ps.length
      · rw [if_pos hv]
        have := doShift_sim hr (n := v.toNat) (by omega) 2 (.inr (by omega))
        rw [show ((v.toNat : Nat) : Int) = v by omega] at this
        exact this
      · rw [if_neg hv]
        have : doShift v s = .ok s true := by
          unfold doShift
          by_cases h0 : v < 0
          · rw [if_pos h0]
          · rw [if_neg h0, if_pos (by omega)]
        rw [this]
        exact ⟨rfl, hr, Frame.refl _ _ _⟩
    | set f => exact ⟨rfl, fresh_rel _ _ hr, fresh_frame _ _ _ hr.lt⟩
    | seq a b => exact (ih a s p hf.1 hr).then hr.lt fun s1 p1 hr1 _ => ih b s1 p1 hf.2 hr1
    | ite c a b =>
      simp only
      split
      · exact (ih a s p hf.1 hr).mono (.inl (by simp only [shifts]; omega)) (by simp only [quiet, Bool.and_eq_true]; exact fun h => h.1)
      · exact (ih b s p hf.2 hr).mono (.inl (by simp only [shifts]; omega)) (by simp only [quiet, Bool.and_eq_true]; exact fun h => h.2)
    | «while» c b => exact while_sim c (fun s p hr => ih b s p hf hr) n s p hr
    | call zero f b => exact fresh_back hr (ih b _ _ hf (fresh_rel (zero p.zero) (f p.zero p.ps) hr))
    | dot f b =>
      simp only
      split
      · have := ih b s p hf hr
        cases h1 : exec n b s <;> cases h2 : spec n b p <;> rw [h1, h2] at this <;> simp only [Sim, R.map] at this ⊢
        exact ⟨trivial, this.2.1, this.2.2⟩
      · have hx : Rel (fresh p.zero (f p.zero p.ps) s) { p with ps := f p.zero p.ps } := fresh_rel _ _ hr
        exact (fresh_back hr (ih b _ _ hf hx)).mono (.inl (by omega)) (fun _ => rfl)
    | each b =>
      obtain ⟨a, ha, hd⟩ := hr.mem
      simp only [ha]
      have hl := congrArg List.length hd
      simp only [List.length_drop, List.length_cons] at hl
      refine each_sim hf.2 (fun s p hr => ih b s p hf.1 hr) s.cur.arr p.ps (a.length + 1) (s.cur.off + 1) s p a
        (by omega) hr ha ?_ (by omega) (fun _ => Nat.le_refl _)
      rw [← List.drop_drop, hd]; rfl
    | command b =>
      have := ih b s p hf.1 hr
      simp only
      cases h1 : exec n b s <;> cases h2 : spec n b p <;> rw [h1, h2] at this <;> simp only [Sim, R.map] at this ⊢
      rename_i s' ab p' ab'
      obtain ⟨e1, e2, e3⟩ := this
      have hc := (e3.quiet hf.2).1
      have : ({ s' with cur := s.cur } : S) = s' := by rw [← hc]
      rw [this]
      exact ⟨e1, e2, e3⟩
    | abort => exact ⟨rfl, hr, Frame.refl _ _ _⟩
    | note =>
      refine ⟨rfl, by rw [hargc]; exact hr.item _, ?_⟩
      have := Frame.refl 0 true s
      exact ⟨this.len, this.other, this.arr, this.own, this.size, this.off, this.quiet⟩

/-! ## The theorems -/

/-- What programs print of their positional parameters is what they should print, and no memory outside
of the parameters is used, as long as no loop over the parameters shifts more than once a turn,
`command` is not used to change them and the arguments of `shift` are numbers of 32 bits.  (Without
these: `each_shift2`, `command_shift`, `shift_wraps`.) -/
theorem params_partial (c : Cmd) (zero : Str) (args : List Str) (hf : Fine c) (n : Nat) :
    (∃ s p ab, exec n c (start zero args) = .ok s ab ∧ spec n c ⟨zero, args, []⟩ = .ok p ab ∧
      s.out = p.out ∧ view s = some (p.zero, p.ps) ∧ s.cur.argc = p.ps.length) ∨
    (exec n c (start zero args) = .fuel ∧ spec n c ⟨zero, args, []⟩ = .fuel) := by
  have hr : Rel (start zero args) ⟨zero, args, []⟩ := ⟨⟨zero :: args, rfl, rfl⟩, rfl, rfl⟩
  have := exec_sim n c _ _ hf hr
  cases h1 : exec n c (start zero args) <;> cases h2 : spec n c ⟨zero, args, []⟩ <;> rw [h1, h2] at this <;>
    simp only [Sim] at this
  · exact .inr ⟨rfl, rfl⟩
  · obtain ⟨rfl, hr', -⟩ := this
    exact .inl ⟨_, _, _, rfl, rfl, hr'.out, hr'.view, hr'.argc⟩

/-- A function, and a file sourced with arguments, leave the parameters of the caller as they were,
whatever they do and however they end. -/
theorem call_keeps (zero : Str → Str) (f : Str → List Str → List Str) (b : Cmd) (hb : Fine b) {s : S} {p : P}
    (hr : Rel s p) {n : Nat} {s' : S} {ab : Bool} (h : exec n (.call zero f b) s = .ok s' ab) :
    view s' = view s ∧ s'.cur = s.cur ∧ ab = false := by
  have := exec_sim n (.call zero f b) s p hb hr
  cases n with
  | zero => cases h
  | succ n =>
    rw [h] at this
    cases h2 : spec (n + 1) (.call zero f b) p <;> rw [h2] at this <;> simp only [Sim] at this
    rename_i p' ab'
    obtain ⟨rfl, -, hf⟩ := this
    obtain ⟨q1, q2⟩ := hf.quiet rfl
    refine ⟨by simp only [view, q1, q2], q1, ?_⟩
    unfold spec at h2
    simp only at h2
    cases h3 : spec n b { p with zero := zero p.zero, ps := f p.zero p.ps } <;> rw [h3] at h2 <;> cases h2
    rfl

/-! ## Where it goes wrong -/

def a : Str := "a".toList
def b : Str := "b".toList
def c : Str := "c".toList
def ksh : Str := "ksh".toList

/-- `set -- a b c; for i; do print $i; shift 2; done`: the second turn has the name of the shell
instead of `b`. -/
theorem each_shift2 : ∃ s, exec 9 (.each (.ite (fun _ l => decide (2 ≤ l.length)) (.shift fun _ _ => 2) .note))
      (start ksh [a, b, c]) = .ok s false ∧
    s.out.filter (fun e => match e with | .item _ => true | _ => false) = [.item a, .item ksh, .item c] ∧
    ∃ p, spec 9 (.each (.ite (fun _ l => decide (2 ≤ l.length)) (.shift fun _ _ => 2) .note)) ⟨ksh, [a, b, c], []⟩ =
      .ok p false ∧
    p.out.filter (fun e => match e with | .item _ => true | _ => false) = [.item a, .item b, .item c] :=
  ⟨_, by rfl, by decide, _, by rfl, by decide⟩

/-- `set -- a b c; command shift; print $# "$@"`: nothing is shifted, and `$1` is the name of the
shell. -/
theorem command_shift : ∃ s, exec 9 (.seq (.command .shift1) .note) (start ksh [a, b, c]) = .ok s false ∧
    s.out = [.params 3 ksh [ksh, b, c]] ∧
    ∃ p, spec 9 (.seq (.command .shift1) .note) ⟨ksh, [a, b, c], []⟩ = .ok p false ∧
    p.out = [.params 2 ksh [b, c]] :=
  ⟨_, by rfl, by decide, _, by rfl, by decide⟩

/-- `command set -- x`: nothing is set. -/
theorem command_set : ∃ s, exec 9 (.seq (.command (.set fun _ _ => [c])) .note) (start ksh [a, b]) = .ok s false ∧
    s.out = [.params 2 ksh [a, b]] := ⟨_, by rfl, by decide⟩

/-- `shift 4294967297` and `shift -4294967295` shift by one. -/
theorem shift_wraps : (∃ s, exec 9 (.seq (.shift fun _ _ => 4294967297) .note) (start ksh [a, b]) = .ok s false ∧
      s.out = [.params 1 ksh [b]]) ∧
    (∃ s, exec 9 (.seq (.shift fun _ _ => -4294967295) .note) (start ksh [a, b]) = .ok s false ∧
      s.out = [.params 1 ksh [b]]) := ⟨⟨_, by rfl, by decide⟩, ⟨_, by rfl, by decide⟩⟩

/-! ## Examples -/

/-- `f() { for i; do shift; set -- "$@" x; done; }; f a b; . file c; while [ $# -gt 0 ]; do shift; done` -/
def program : Cmd :=
  .seq (.call id (fun _ l => l) (.seq (.each (.seq .shift1 (.set fun _ l => l ++ [c]))) (.seq .note .shift1)))
    (.seq (.dot (fun _ _ => [c]) (.seq .note .abort))
      (.seq .note (.while (fun _ l => !l.isEmpty) .shift1)))

example : Fine program := by simp [program, Fine, shifts]

example : ∃ s, exec 20 program (start ksh [a, b]) = .ok s false ∧
    s.out = [.item a, .item b, .params 2 ksh [c, c], .params 1 ksh [c], .params 2 ksh [a, b]] :=
  ⟨_, by rfl, by decide⟩

end Ksh.Param
