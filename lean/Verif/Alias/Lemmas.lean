import Verif.Alias.Model
/-!
# Lemmas about the source stack
-/

namespace Ksh.Alias

/-- The text that is still to be read. -/
def stream (st : List ASrc) (b : List Char) : List Char := (st.map (·.text)).flatten ++ b

def S.stream (s : S) : List Char := Alias.stream s.stk s.base

def names (st : List ASrc) : List (List Char) := st.map (·.name)

theorem size_stream (s : S) : s.size = s.stream.length := by
  simp [S.size, S.stream, stream, List.length_flatten, Function.comp_def]

theorem getscK_stream : ∀ (st : List ASrc) (k : Bool) (b : List Char) (f : Bool) (o : Option Char) (r : S),
    getscK k st b f = (o, r) →
    stream st b = o.toList ++ r.stream ∧ (o = none → r.stk = [] ∧ r.base = []) := by
  intro st
  induction st with
  | nil =>
    intro k b f o r h
    cases b with
    | nil => simp only [getscK, Prod.mk.injEq] at h; obtain ⟨rfl, rfl⟩ := h; simp [stream, S.stream]
    | cons c b => simp only [getscK, Prod.mk.injEq] at h; obtain ⟨rfl, rfl⟩ := h; simp [stream, S.stream]
  | cons s st ih =>
    intro k b f o r h
    rcases s with ⟨nm, v, t, fn, fl⟩
    cases t with
    | cons c t =>
      simp only [getscK, Prod.mk.injEq] at h; obtain ⟨rfl, rfl⟩ := h; simp [stream, S.stream]
    | nil =>
      simp only [getscK] at h
      have hs : stream (⟨nm, v, [], fn, fl⟩ :: st) b = stream st b := by simp [stream]
      rw [hs]
      by_cases h1 : fn = true
      · rw [if_pos h1] at h; exact ih _ _ _ _ _ h
      · rw [if_neg h1] at h
        by_cases h2 : endsSpace v = true
        · rw [if_pos h2] at h; exact ih _ _ _ _ _ h
        · rw [if_neg h2] at h
          generalize hg : getscK (fl || k) st b f = g at h
          rcases g with ⟨o', r'⟩
          have := ih _ _ _ _ _ hg
          cases o' with
          | none => simp only [Prod.mk.injEq] at h; obtain ⟨rfl, rfl⟩ := h; exact this
          | some c =>
            simp only [Prod.mk.injEq] at h; obtain ⟨rfl, rfl⟩ := h
            refine ⟨?_, by simp⟩
            rw [this.1]; simp [S.stream, stream]

theorem getsc_stream {s : S} {o : Option Char} {r : S} (h : getsc s = (o, r)) :
    s.stream = o.toList ++ r.stream := (getscK_stream _ _ _ _ _ _ h).1

theorem unget_stream (o : Option Char) (s : S) : (unget o s).stream = o.toList ++ s.stream := by
  rcases s with ⟨st, b, f⟩
  cases o <;> cases st <;> simp [unget, S.stream, stream]

theorem clearFl_stream (s : S) : s.clearFl.stream = s.stream := by
  rcases s with ⟨st, b, f⟩
  cases st <;> simp [S.clearFl, S.stream, stream]

/-- Reading a character that has been put back. -/
theorem getsc_unget (c : Char) (s : S) : getsc (unget (some c) s) = (some c, s) := by
  rcases s with ⟨st, b, f⟩
  cases st with
  | nil => simp [unget, getsc, getscK]
  | cons a st => simp [unget, getsc, getscK]

/-! ## The shape of the stack -/

/-- What lies below an alias that has not been left: the next character ends a word. -/
def Below : List ASrc → List Char → Prop
  | [], b => ∀ x, b.head? = some x → lex1 x = true
  | t :: _, _ => ∃ x ts, t.text = x :: ts ∧ lex1 x = true

def Inv : List ASrc → List Char → Prop
  | [], _ => True
  | s :: st, b =>
    Inv st b ∧ (s.fin = true → s.text = [] ∨ ∃ c, s.text = [c] ∧ lex1 c = true) ∧
      (s.fin = false → (∃ p, p ++ s.text = s.val) ∧ Below st b)

def S.Inv (s : S) : Prop := Alias.Inv s.stk s.base

/-- The next character is read without leaving the names on the stack. -/
def Stable (s : S) : Prop := ∀ c r, getsc s = (some c, r) → names r.stk = names s.stk

theorem below_read : ∀ (st : List ASrc) (k : Bool) (b : List Char) (f : Bool) (c : Char) (r : S),
    Below st b → Inv st b → getscK k st b f = (some c, r) →
    lex1 c = true ∧ names r.stk = names st := by
  intro st k b f c r hb hi h
  cases st with
  | nil =>
    cases b with
    | nil => simp [getscK] at h
    | cons x b =>
      simp only [getscK, Prod.mk.injEq, Option.some.injEq] at h; obtain ⟨rfl, rfl⟩ := h
      exact ⟨hb _ rfl, rfl⟩
  | cons s st =>
    obtain ⟨x, ts, h1, h2⟩ := hb
    rcases s with ⟨nm, v, t, fn, fl⟩
    simp only at h1; subst h1
    simp only [getscK, Prod.mk.injEq, Option.some.injEq] at h; obtain ⟨rfl, rfl⟩ := h
    exact ⟨h2, rfl⟩

/-- Reading, and reading and putting back, keep the shape. -/
theorem getscK_inv : ∀ (st : List ASrc) (k : Bool) (b : List Char) (f : Bool) (o : Option Char) (r : S),
    Inv st b → getscK k st b f = (o, r) →
    r.Inv ∧ (unget o r).Inv ∧ (names r.stk).Sublist (names st) ∧
      (∀ a ∈ r.stk, ∃ a' ∈ st, a'.name = a.name ∧ a'.val = a.val) := by
  intro st
  induction st with
  | nil =>
    intro k b f o r hi h
    cases b with
    | nil => simp only [getscK, Prod.mk.injEq] at h; obtain ⟨rfl, rfl⟩ := h; simp [S.Inv, Inv, unget, names]
    | cons c b => simp only [getscK, Prod.mk.injEq] at h; obtain ⟨rfl, rfl⟩ := h; simp [S.Inv, Inv, unget, names]
  | cons s st ih =>
    intro k b f o r hi h
    rcases s with ⟨nm, v, t, fn, fl⟩
    obtain ⟨hi1, hi2, hi3⟩ := hi
    cases t with
    | cons c t =>
      simp only [getscK, Prod.mk.injEq] at h; obtain ⟨rfl, rfl⟩ := h
      refine ⟨⟨hi1, ?_, ?_⟩, ⟨hi1, hi2, hi3⟩, by simp [names], ?_⟩
      · intro hf
        rcases hi2 hf with h | ⟨x, h, _⟩
        · cases h
        · left; simp only [List.cons.injEq] at h; exact h.2
      · intro hf
        obtain ⟨⟨p, hp⟩, hb⟩ := hi3 hf
        exact ⟨⟨p ++ [c], by simpa using hp⟩, hb⟩
      · intro a ha
        simp only [List.mem_cons] at ha
        rcases ha with rfl | ha
        · exact ⟨_, List.mem_cons_self, rfl, rfl⟩
        · exact ⟨a, List.mem_cons_of_mem _ ha, rfl, rfl⟩
    | nil =>
      have lift : ∀ r : S, (r.Inv ∧ (unget o r).Inv ∧ (names r.stk).Sublist (names st) ∧
          (∀ a ∈ r.stk, ∃ a' ∈ st, a'.name = a.name ∧ a'.val = a.val)) →
          r.Inv ∧ (unget o r).Inv ∧ (names r.stk).Sublist (names (⟨nm, v, [], fn, fl⟩ :: st)) ∧
          (∀ a ∈ r.stk, ∃ a' ∈ (⟨nm, v, [], fn, fl⟩ :: st : List ASrc), a'.name = a.name ∧ a'.val = a.val) := by
        intro r ⟨h1, h2, h3, h4⟩
        refine ⟨h1, h2, h3.cons _, ?_⟩
        intro a ha
        obtain ⟨a', h, h'⟩ := h4 a ha
        exact ⟨a', List.mem_cons_of_mem _ h, h'⟩
      simp only [getscK] at h
      by_cases h1 : fn = true
      · rw [if_pos h1] at h; exact lift _ (ih _ _ _ _ _ hi1 h)
      · rw [if_neg h1] at h
        by_cases h2 : endsSpace v = true
        · rw [if_pos h2] at h; exact lift _ (ih _ _ _ _ _ hi1 h)
        · rw [if_neg h2] at h
          have hf : fn = false := by simpa using h1
          obtain ⟨_, hb⟩ := hi3 hf
          generalize hg : getscK (fl || k) st b f = g at h
          rcases g with ⟨o', r'⟩
          have hr := ih _ _ _ _ _ hi1 hg
          cases o' with
          | none => simp only [Prod.mk.injEq] at h; obtain ⟨rfl, rfl⟩ := h; exact lift _ hr
          | some c =>
            simp only [Prod.mk.injEq] at h; obtain ⟨rfl, rfl⟩ := h
            obtain ⟨hr1, hr2, hr3, hr4⟩ := hr
            obtain ⟨hc, _⟩ := below_read _ _ _ _ _ _ hb hi1 hg
            refine ⟨⟨hr1, by simp, by simp⟩, ⟨hr1, ?_, by simp⟩, hr3.cons_cons _, ?_⟩
            · intro _; right; exact ⟨c, rfl, hc⟩
            · intro a ha
              simp only [List.mem_cons] at ha
              rcases ha with rfl | ha
              · exact ⟨_, List.mem_cons_self, rfl, rfl⟩
              · obtain ⟨a', h, h'⟩ := hr4 a ha
                exact ⟨a', List.mem_cons_of_mem _ h, h'⟩

/-- After a character of a word the next character is found without leaving an alias. -/
theorem getscK_stable : ∀ (st : List ASrc) (k : Bool) (b : List Char) (f : Bool) (c : Char) (r : S),
    Inv st b → (∀ a ∈ st, ∀ x, a.val.getLast? = some x → isspace x = true → lex1 x = true) →
    getscK k st b f = (some c, r) → lex1 c = false → Stable r := by
  intro st
  induction st with
  | nil =>
    intro k b f c r hi hv h hc
    cases b with
    | nil => simp [getscK] at h
    | cons x b =>
      simp only [getscK, Prod.mk.injEq] at h; obtain ⟨_, rfl⟩ := h
      intro c' r' h'
      cases b with
      | nil => simp [getsc, getscK] at h'
      | cons y b => simp only [getsc, getscK, Prod.mk.injEq] at h'; obtain ⟨_, rfl⟩ := h'; rfl
  | cons s st ih =>
    intro k b f c r hi hv h hc
    have hvs := hv s List.mem_cons_self
    have hv' : ∀ a ∈ st, ∀ x, a.val.getLast? = some x → isspace x = true → lex1 x = true :=
      fun a ha => hv a (List.mem_cons_of_mem _ ha)
    rcases s with ⟨nm, v, t, fn, fl⟩
    obtain ⟨hi1, hi2, hi3⟩ := hi
    simp only at hvs hi2 hi3
    cases t with
    | cons x t =>
      simp only [getscK, Prod.mk.injEq, Option.some.injEq] at h; obtain ⟨rfl, rfl⟩ := h
      intro c' r' h'
      have hf : fn = false := by
        cases hfn : fn with
        | false => rfl
        | true =>
          rcases hi2 hfn with h | ⟨y, h, hy⟩
          · cases h
          · simp only [List.cons.injEq] at h; rw [h.1, hy] at hc; cases hc
      obtain ⟨⟨p, hp⟩, hb⟩ := hi3 hf
      cases t with
      | cons y t => simp only [getsc, getscK, Prod.mk.injEq] at h'; obtain ⟨_, rfl⟩ := h'; rfl
      | nil =>
        simp only [getsc, getscK] at h'
        have h2 : ¬ endsSpace v = true := by
          intro he
          have hl : v.getLast? = some x := by rw [← hp]; simp
          simp only [endsSpace, hl] at he
          rw [hvs x hl he] at hc; cases hc
        rw [if_neg (by simp [hf]), if_neg h2] at h'
        generalize hg : getscK (fl || k || false) st b f = g at h'
        rcases g with ⟨o', r''⟩
        cases o' with
        | none => simp at h'
        | some z =>
          simp only [Prod.mk.injEq] at h'; obtain ⟨_, rfl⟩ := h'
          have := (below_read _ _ _ _ _ _ hb hi1 hg).2
          simp only [names, List.map_cons] at this ⊢
          rw [this]
    | nil =>
      simp only [getscK] at h
      by_cases h1 : fn = true
      · rw [if_pos h1] at h; exact ih _ _ _ _ _ hi1 hv' h hc
      · rw [if_neg h1] at h
        by_cases h2 : endsSpace v = true
        · rw [if_pos h2] at h; exact ih _ _ _ _ _ hi1 hv' h hc
        · rw [if_neg h2] at h
          have hf : fn = false := by simpa using h1
          generalize hg : getscK (fl || k) st b f = g at h
          rcases g with ⟨o', r'⟩
          cases o' with
          | none => simp at h
          | some z =>
            simp only [Prod.mk.injEq, Option.some.injEq] at h; obtain ⟨rfl, rfl⟩ := h
            rw [(below_read _ _ _ _ _ _ (hi3 hf).2 hi1 hg).1] at hc; cases hc

/-! ## A weight that every pass decreases -/

/-- Weight of the text: characters below fewer aliases weigh more. -/
def weight (W : Nat → Nat) : List ASrc → List Char → Nat
  | [], b => b.length * W 0
  | s :: st, b => s.text.length * W (st.length + 1) + weight W st b

def S.weight (W : Nat → Nat) (s : S) : Nat := Alias.weight W s.stk s.base

theorem weight_unget (W : Nat → Nat) (c : Char) (s : S) :
    (unget (some c) s).weight W = s.weight W + W s.stk.length := by
  rcases s with ⟨st, b, f⟩
  cases st with
  | nil => simp only [unget, S.weight, weight, List.length_cons, List.length_nil, Nat.add_mul]; omega
  | cons a st => simp only [unget, S.weight, weight, List.length_cons, Nat.add_mul]; omega

theorem getscK_weight (W : Nat → Nat) (hW : ∀ i, W (i+1) ≤ W i) :
    ∀ (st : List ASrc) (k : Bool) (b : List Char) (f : Bool) (c : Char) (r : S),
    getscK k st b f = (some c, r) → r.weight W + W r.stk.length ≤ weight W st b := by
  intro st
  induction st with
  | nil =>
    intro k b f c r h
    cases b with
    | nil => simp [getscK] at h
    | cons x b =>
      simp only [getscK, Prod.mk.injEq] at h; obtain ⟨_, rfl⟩ := h
      simp only [S.weight, weight, List.length_cons, List.length_nil, Nat.add_mul]; omega
  | cons s st ih =>
    intro k b f c r h
    rcases s with ⟨nm, v, t, fn, fl⟩
    cases t with
    | cons x t =>
      simp only [getscK, Prod.mk.injEq] at h; obtain ⟨_, rfl⟩ := h
      simp only [S.weight, weight, List.length_cons, Nat.add_mul]; omega
    | nil =>
      simp only [getscK] at h
      have hs : weight W (⟨nm, v, [], fn, fl⟩ :: st) b = weight W st b := by simp [weight]
      rw [hs]
      by_cases h1 : fn = true
      · rw [if_pos h1] at h; exact ih _ _ _ _ _ h
      · rw [if_neg h1] at h
        by_cases h2 : endsSpace v = true
        · rw [if_pos h2] at h; exact ih _ _ _ _ _ h
        · rw [if_neg h2] at h
          generalize hg : getscK (fl || k) st b f = g at h
          rcases g with ⟨o', r'⟩
          cases o' with
          | none => simp at h
          | some z =>
            simp only [Prod.mk.injEq] at h; obtain ⟨_, rfl⟩ := h
            have := ih _ _ _ _ _ hg
            simp only [S.weight, weight, List.length_cons, List.length_nil, Nat.zero_mul, Nat.zero_add] at this ⊢
            have := hW r'.stk.length
            omega

theorem getsc_weight_le (W : Nat → Nat) (hW : ∀ i, W (i+1) ≤ W i) {s r : S} {o : Option Char}
    (h : getsc s = (o, r)) : (unget o r).weight W ≤ s.weight W := by
  cases o with
  | none =>
    have := (getscK_stream _ _ _ _ _ _ h).2 rfl
    rcases r with ⟨st, b, f⟩
    simp only at this; obtain ⟨rfl, rfl⟩ := this
    simp [unget, S.weight, weight]
  | some c => rw [weight_unget]; exact getscK_weight W hW _ _ _ _ _ _ h

theorem clearFl_weight (W : Nat → Nat) (s : S) : s.clearFl.weight W = s.weight W := by
  rcases s with ⟨st, b, f⟩
  cases st <;> simp [S.clearFl, S.weight, weight]

end Ksh.Alias
