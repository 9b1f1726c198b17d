import Verif.Substat.Model

/-!
# C127: the status of a command made of substitutions
-/
namespace Ksh.Substat

variable {σ : Type}

/-! ## Specification -/

/-- `r` is the status of the last substitution in the list that satisfies `p`, and zero when
there is none. -/
def Reports (p : Ev → Bool) (l : List Ev) (r : Nat) : Prop :=
  (∃ a e b, l = a ++ e :: b ∧ p e = true ∧ e.st = r ∧ ∀ x ∈ b, p x = false) ∨
    ((∀ x ∈ l, p x = false) ∧ r = 0)

/-- There is at most one such status. -/
theorem Reports.unique {p : Ev → Bool} : ∀ {l : List Ev} {r r' : Nat}, Reports p l r →
    Reports p l r' → r = r' := by
  intro l
  induction l with
  | nil =>
    intro r r' h h'
    rcases h with ⟨a, e, b, h, _⟩ | ⟨_, h⟩
    · simp at h
    · rcases h' with ⟨a, e, b, h', _⟩ | ⟨_, h'⟩
      · simp at h'
      · omega
  | cons x l ih =>
    have key : ∀ {r}, Reports p (x :: l) r →
        (Reports p l r ∧ ∃ y ∈ l, p y = true) ∨ ((∀ y ∈ l, p y = false) ∧
          ((p x = true ∧ r = x.st) ∨ (p x = false ∧ r = 0))) := by
      intro r h
      rcases h with ⟨a, e, b, h, h1, h2, h3⟩ | ⟨h1, h2⟩
      · cases a with
        | nil =>
          simp only [List.nil_append, List.cons.injEq] at h
          obtain ⟨rfl, rfl⟩ := h
          exact .inr ⟨h3, .inl ⟨h1, h2.symm⟩⟩
        | cons y a =>
          simp only [List.cons_append, List.cons.injEq] at h
          obtain ⟨rfl, rfl⟩ := h
          exact .inl ⟨.inl ⟨a, e, b, rfl, h1, h2, h3⟩, e, by simp, h1⟩
      · exact .inr ⟨fun y hy => h1 y (by simp [hy]), .inr ⟨h1 x (by simp), h2⟩⟩
    intro r r' h h'
    rcases key h with ⟨h, y, hy, hy'⟩ | ⟨h, h2⟩ <;> rcases key h' with ⟨h', z, hz, hz'⟩ | ⟨h', h2'⟩
    · exact ih h h'
    · have := h' y hy; simp_all
    · have := h z hz; simp_all
    · rcases h2 with ⟨a, b⟩ | ⟨a, b⟩ <;> rcases h2' with ⟨a', b'⟩ | ⟨a', b'⟩ <;> simp_all

/-! ## Lemmas -/

theorem Reports.snoc {p : Ev → Bool} {l : List Ev} (e : Ev) (he : p e = true) :
    Reports p (l ++ [e]) e.st := .inl ⟨l, e, [], rfl, he, rfl, by simp⟩

theorem Reports.skip {p : Ev → Bool} {l : List Ev} {r : Nat} (e : Ev) (he : p e = false)
    (h : Reports p l r) : Reports p (l ++ [e]) r := by
  rcases h with ⟨a, x, b, h, h1, h2, h3⟩ | ⟨h1, h2⟩
  · refine .inl ⟨a, x, b ++ [e], by simp [h], h1, h2, ?_⟩
    intro y hy
    rcases List.mem_append.1 hy with hy | hy
    · exact h3 y hy
    · simp only [List.mem_singleton] at hy
      exact hy ▸ he
  · refine .inr ⟨?_, h2⟩
    intro y hy
    rcases List.mem_append.1 hy with hy | hy
    · exact h1 y hy
    · simp only [List.mem_singleton] at hy
      exact hy ▸ he

/-- `subst_exstat` is the status of the last substitution that ran something. -/
def Kept (s : St σ) : Prop := Reports Ev.ran s.log s.subst

/-- All substitutions so far satisfy `p`. -/
def AllEv (p : Ev → Prop) (s : St σ) : Prop := ∀ e ∈ s.log, p e

theorem Kept.doSub {O : Oracle σ} {own : Bool} {s : St σ} (h : Kept s) (b : Sub) :
    Kept (doSub O own s b) := by
  cases b
  · exact Reports.skip _ rfl h
  · exact Reports.snoc _ rfl
  · exact Reports.snoc _ rfl

theorem Kept.subs {O : Oracle σ} {own : Bool} : ∀ (l : List Sub) {s : St σ}, Kept s →
    Kept (l.foldl (Substat.doSub O own) s)
  | [], _, h => h
  | b :: l, _, h => Kept.subs l (h.doSub b)

theorem Kept.word {O : Oracle σ} {own : Bool} {s : St σ} (h : Kept s) (v : Word) :
    Kept (word O own s v) := h.subs v.subs

theorem Kept.words {O : Oracle σ} : ∀ (l : List Word) {s : St σ}, Kept s →
    Kept (words O s l)
  | [], _, h => h
  | v :: l, _, h => Kept.words l (h.word v)

theorem Kept.trace {O : Oracle σ} {o : Opts} {s : St σ} (h : Kept s) : Kept (trace O o s) := by
  unfold Substat.trace
  split
  · exact h.word _
  · exact h

theorem Kept.redirs {O : Oracle σ} : ∀ (l : List Word) {s : St σ}, Kept s →
    Kept (redirs O s l).1
  | [], _, h => h
  | r :: l, s, h => by
    have h1 : Kept { Substat.word O true s r with
        w := (O.redir (Substat.word O true s r).w r).1 } := h.word (O := O) (own := true) r
    unfold Substat.redirs
    by_cases hr : (O.redir (Substat.word O true s r).w r).2 = true
    · simp only [hr, if_true]
      exact Kept.redirs l h1
    · simp only [hr]
      exact h1

theorem Kept.assigns {O : Oracle σ} {o : Opts} : ∀ (l : List Word) {first : Bool} {s s' : St σ},
    Kept s → assigns O o first s l = some s' → Kept s'
  | [], _, _, _, h, e => by
    simp only [Substat.assigns, Option.some.injEq] at e
    exact e ▸ h
  | v :: l, first, s, s', h, e => by
    have h1 : Kept (if first then Substat.trace O o (Substat.word O true s v)
        else Substat.word O true s v) := by
      split
      · exact (h.word v).trace
      · exact h.word v
    unfold Substat.assigns at e
    simp only at e
    split at e
    · cases e
    · rename_i w _
      exact Kept.assigns l (s := { (if first then Substat.trace O o (Substat.word O true s v)
        else Substat.word O true s v) with w := w }) h1 e

theorem expanded_kept (O : Oracle σ) (o : Opts) (s : St σ) (c : Simple) :
    Kept (expanded O o s c).1 := by
  have h0 : Kept { s with subst := 0, log := [] } := .inr ⟨by simp, rfl⟩
  unfold expanded
  simp only
  split
  · exact h0.words c.args
  · exact (h0.words c.args).trace

/-- A substitution of the kind `C` adds only events of the kind `P`. -/
def Adds (O : Oracle σ) (C : Sub → Prop) (P : Ev → Prop) : Prop :=
  ∀ s b, C b → ∀ e ∈ (doSub O true s b).log, e ∈ s.log ∨ P e

theorem AllEv.subs {O : Oracle σ} {C : Sub → Prop} {P : Ev → Prop} (hA : Adds O C P) :
    ∀ (l : List Sub) {s : St σ}, (∀ b ∈ l, C b) → AllEv P s →
      AllEv P (l.foldl (doSub O true) s)
  | [], _, _, h => h
  | b :: l, s, hb, h => by
    refine AllEv.subs (s := doSub O true s b) hA l
      (fun x hx => hb x (List.mem_cons_of_mem _ hx)) ?_
    intro e he
    rcases hA s b (hb b List.mem_cons_self) e he with he | he
    · exact h e he
    · exact he

theorem AllEv.word {O : Oracle σ} {C : Sub → Prop} {P : Ev → Prop} (hA : Adds O C P)
    {s : St σ} (h : AllEv P s) {v : Word} (hv : ∀ b ∈ v.subs, C b) :
    AllEv P (word O true s v) := AllEv.subs hA v.subs hv h

theorem AllEv.words {O : Oracle σ} {C : Sub → Prop} {P : Ev → Prop} (hA : Adds O C P) :
    ∀ (l : List Word) {s : St σ}, (∀ v ∈ l, ∀ b ∈ v.subs, C b) → AllEv P s →
      AllEv P (words O s l)
  | [], _, _, h => h
  | v :: l, _, hl, h =>
    AllEv.words hA l (fun x hx => hl x (List.mem_cons_of_mem _ hx))
      (h.word hA (hl v List.mem_cons_self))

theorem trace_quiet {O : Oracle σ} {o : Opts} (hq : o.xtrace = false ∨ o.ps4.subs = [])
    (s : St σ) : trace O o s = s := by
  unfold trace
  rcases hq with hq | hq
  · simp [hq]
  · simp [word, hq]

theorem AllEv.redirs {O : Oracle σ} {C : Sub → Prop} {P : Ev → Prop} (hA : Adds O C P) :
    ∀ (l : List Word) {s : St σ}, (∀ v ∈ l, ∀ b ∈ v.subs, C b) → AllEv P s →
      AllEv P (redirs O s l).1
  | [], _, _, h => h
  | r :: l, s, hl, h => by
    have h1 : AllEv P { Substat.word O true s r with
        w := (O.redir (Substat.word O true s r).w r).1 } :=
      AllEv.word hA h (hl r List.mem_cons_self)
    unfold Substat.redirs
    by_cases hr : (O.redir (Substat.word O true s r).w r).2 = true
    · simp only [hr, if_true]
      exact AllEv.redirs hA l (fun x hx => hl x (List.mem_cons_of_mem _ hx)) h1
    · simp only [hr]
      exact h1

theorem AllEv.assigns {O : Oracle σ} {o : Opts} {C : Sub → Prop} {P : Ev → Prop}
    (hA : Adds O C P) (hq : o.xtrace = false ∨ o.ps4.subs = []) :
    ∀ (l : List Word) {first : Bool} {s s' : St σ}, (∀ v ∈ l, ∀ b ∈ v.subs, C b) →
    AllEv P s → assigns O o first s l = some s' → AllEv P s'
  | [], _, _, _, _, h, e => by
    simp only [Substat.assigns, Option.some.injEq] at e
    exact e ▸ h
  | v :: l, first, s, s', hl, h, e => by
    unfold Substat.assigns at e
    simp only [trace_quiet hq, ite_self] at e
    split at e
    · cases e
    · rename_i w _
      exact AllEv.assigns hA hq l (fun x hx => hl x (List.mem_cons_of_mem _ hx))
        (s := { Substat.word O true s v with w := w })
        (AllEv.word hA h (hl v List.mem_cons_self)) e

theorem expanded_all {O : Oracle σ} {o : Opts} {C : Sub → Prop} {P : Ev → Prop}
    (hA : Adds O C P) (hq : o.xtrace = false ∨ o.ps4.subs = []) (s : St σ) (c : Simple)
    (hc : ∀ v ∈ c.args, ∀ b ∈ v.subs, C b) : AllEv P (expanded O o s c).1 := by
  have h0 : AllEv P { s with subst := 0, log := [] } := by
    intro e he
    simp at he
  unfold expanded
  simp only [trace_quiet hq, ite_self]
  exact AllEv.words hA c.args hc h0

/-- Nothing but the command's own substitutions, and each with something to do. -/
def OwnRan (e : Ev) : Prop := e.own = true ∧ e.ran = true

theorem adds_own (O : Oracle σ) : Adds O (· ≠ .empty) OwnRan := by
  intro s b hb e he
  cases b
  · exact absurd rfl hb
  all_goals
    simp only [doSub, List.mem_append, List.mem_singleton] at he
    rcases he with he | he
    · exact .inl he
    · exact .inr (he ▸ ⟨rfl, rfl⟩)

theorem adds_none (O : Oracle σ) : Adds O (fun _ => False) (fun _ => False) :=
  fun _ _ h => h.elim

/-- A command without a name, step by step. -/
theorem null_steps {O : Oracle σ} {o : Opts} {s s' : St σ} {c : Simple} {rv : Nat}
    (hn : (expanded O o s c).2 = [])
    (hr : (redirs O (expanded O o s c).1 c.redirs).2 = true)
    (h : simple O o s c = .done s' rv) :
    assigns O o true (redirs O (expanded O o s c).1 c.redirs).1 c.vars = some s' ∧
      rv = s'.subst := by
  unfold simple at h
  simp only [hr, if_true, hn, comexec, resolve, List.head?_nil, Option.bind_none,
    Bool.false_eq_true, if_false] at h
  split at h
  · cases h
  · rename_i t ht
    simp only [call, End.done.injEq] at h
    obtain ⟨rfl, rfl⟩ := h
    exact ⟨ht, rfl⟩

/-- A command whose name is a builtin other than builtin, exec and command. -/
theorem named_steps {O : Oracle σ} {o : Opts} {s s' : St σ} {c : Simple} {rv n : Nat}
    {l : List Nat} {k : Kind} (hk : k = .set ∨ k = .eval)
    (hn : (expanded O o s c).2 = n :: l) (hf : O.find (expanded O o s c).1.w n = some k)
    (hr : (redirs O (expanded O o s c).1 c.redirs).2 = true)
    (h : simple O o s c = .done s' rv) :
    assigns O o true (redirs O (expanded O o s c).1 c.redirs).1 c.vars = some s' ∧
      rv = call O o s' (n :: l) (some k) := by
  unfold simple at h
  simp only [hr, if_true, hn, comexec, List.head?_cons, Option.bind_some, hf] at h
  have hres : ∀ w, resolve O o w ((n :: l).length + 1) (n :: l) (some k) =
      .go (n :: l) (some k) false := by
    intro w
    rcases hk with rfl | rfl <;> simp [resolve]
  simp only [hres, Bool.false_eq_true, if_false] at h
  split at h
  · cases h
  · rename_i t ht
    simp only [End.done.injEq] at h
    obtain ⟨rfl, rfl⟩ := h
    exact ⟨ht, rfl⟩

theorem Reports.own {s : St σ} (h : Kept s) (ha : AllEv OwnRan s) :
    Reports Ev.own s.log s.subst := by
  rcases h with ⟨a, x, b, h, h1, h2, h3⟩ | ⟨h1, h2⟩
  · refine .inl ⟨a, x, b, h, (ha x (by simp [h])).1, h2, ?_⟩
    intro y hy
    have := h3 y hy
    have := (ha y (by simp [h, hy])).2
    simp_all
  · refine .inr ⟨?_, h2⟩
    intro y hy
    have := h1 y hy
    have := (ha y hy).2
    simp_all

/-- The command's own substitutions decide `subst_exstat` (lemma for what follows). -/
theorem own_kept {O : Oracle σ} {o : Opts} {s s' : St σ} {c : Simple}
    (hq : o.xtrace = false ∨ o.ps4.subs = [])
    (he : ∀ v ∈ c.args ++ c.redirs ++ c.vars, Sub.empty ∉ v.subs)
    (h : assigns O o true (redirs O (expanded O o s c).1 c.redirs).1 c.vars = some s') :
    Reports Ev.own s'.log s'.subst := by
  have hc : ∀ v ∈ c.args ++ c.redirs ++ c.vars, ∀ b ∈ v.subs, b ≠ Sub.empty :=
    fun v hv b hb e => he v hv (e ▸ hb)
  exact Reports.own (((expanded_kept O o s c).redirs c.redirs).assigns c.vars h)
    (AllEv.assigns (adds_own O) hq c.vars (fun v hv => hc v (by simp [hv]))
      (AllEv.redirs (adds_own O) c.redirs (fun v hv => hc v (by simp [hv]))
        (expanded_all (adds_own O) hq s c (fun v hv => hc v (by simp [hv])))) h)

/-! ## Properties -/

/-- Whatever the command: when it is without a name, its status is that of the last
substitution, of its own or of the trace prompt, that had something to run, and zero when
there was none.  Nothing is left of earlier commands. -/
theorem null_exact (O : Oracle σ) (o : Opts) (s s' : St σ) (c : Simple) (rv : Nat)
    (hn : (expanded O o s c).2 = [])
    (hr : (redirs O (expanded O o s c).1 c.redirs).2 = true)
    (h : simple O o s c = .done s' rv) : Reports Ev.ran s'.log rv := by
  obtain ⟨h1, rfl⟩ := null_steps hn hr h
  exact ((expanded_kept O o s c).redirs c.redirs).assigns c.vars h1

/-- The status of a command without a name is that of the last of its own substitutions, and
zero when it has none.  Partial: no substitution is empty, and tracing is off or PS4 holds no
substitution; see `empty_last` and `traced`. -/
theorem null_status_partial (O : Oracle σ) (o : Opts) (s s' : St σ) (c : Simple) (rv : Nat)
    (hq : o.xtrace = false ∨ o.ps4.subs = [])
    (he : ∀ v ∈ c.args ++ c.redirs ++ c.vars, Sub.empty ∉ v.subs)
    (hn : (expanded O o s c).2 = [])
    (hr : (redirs O (expanded O o s c).1 c.redirs).2 = true)
    (h : simple O o s c = .done s' rv) : Reports Ev.own s'.log rv := by
  obtain ⟨h1, rfl⟩ := null_steps hn hr h
  exact own_kept hq he h1

/-- A command without a name and without substitutions succeeds, whatever `$?` was and
whatever substitutions were made before. -/
theorem null_fresh (O : Oracle σ) (o : Opts) (s s' : St σ) (c : Simple) (rv : Nat)
    (hq : o.xtrace = false ∨ o.ps4.subs = [])
    (he : ∀ v ∈ c.args ++ c.redirs ++ c.vars, v.subs = [])
    (hn : (expanded O o s c).2 = [])
    (hr : (redirs O (expanded O o s c).1 c.redirs).2 = true)
    (h : simple O o s c = .done s' rv) : rv = 0 := by
  obtain ⟨h1, rfl⟩ := null_steps hn hr h
  have hc : ∀ v ∈ c.args ++ c.redirs ++ c.vars, ∀ b ∈ v.subs, False := by
    intro v hv b hb
    simp [he v hv] at hb
  have ha : AllEv (fun _ => False) s' :=
    AllEv.assigns (adds_none O) hq c.vars (fun v hv => hc v (by simp [hv]))
      (AllEv.redirs (adds_none O) c.redirs (fun v hv => hc v (by simp [hv]))
        (expanded_all (adds_none O) hq s c (fun v hv => hc v (by simp [hv])))) h1
  rcases ((expanded_kept O o s c).redirs c.redirs).assigns c.vars h1 with
    ⟨a, e, b, h, _⟩ | ⟨_, h⟩
  · exact (ha e (by simp [h])).elim
  · exact h

/-- A redirection that cannot be made gives 1, and no assignment is made. -/
theorem redirection_fails (O : Oracle σ) (o : Opts) (s s' : St σ) (c : Simple) (rv : Nat)
    (hr : (redirs O (expanded O o s c).1 c.redirs).2 = false)
    (h : simple O o s c = .done s' rv) :
    rv = 1 ∧ s' = (redirs O (expanded O o s c).1 c.redirs).1 := by
  unfold simple at h
  simp only [hr, Bool.false_eq_true, if_false] at h
  split at h
  · cases h
  · simp only [End.done.injEq] at h
    exact ⟨h.2.symm, h.1.symm⟩

/-- `set` with words it accepts reports the last of the command's own substitutions, so that
`set -- $(getopt …)` fails with getopt; in POSIX mode it always succeeds. -/
theorem set_status_partial (O : Oracle σ) (o : Opts) (s s' : St σ) (c : Simple) (rv n m : Nat)
    (l : List Nat) (hq : o.xtrace = false ∨ o.ps4.subs = [])
    (he : ∀ v ∈ c.args ++ c.redirs ++ c.vars, Sub.empty ∉ v.subs)
    (hn : (expanded O o s c).2 = n :: m :: l)
    (hf : O.find (expanded O o s c).1.w n = some .set)
    (hp : O.parse (n :: m :: l) = true)
    (hr : (redirs O (expanded O o s c).1 c.redirs).2 = true)
    (h : simple O o s c = .done s' rv) :
    (o.posix = true → rv = 0) ∧ (o.posix = false → Reports Ev.own s'.log rv) := by
  obtain ⟨h1, rfl⟩ := named_steps (.inl rfl) hn hf hr h
  have := own_kept hq he h1
  constructor <;> intro ho <;> simp [call, cSet, hp, ho, this]

/-- `eval` with nothing to run reports the last of the command's own substitutions, and zero
when there is none.  Partial: not in POSIX mode, see `posix_eval`. -/
theorem eval_nothing_partial (O : Oracle σ) (o : Opts) (s s' : St σ) (c : Simple) (rv n : Nat)
    (l : List Nat) (hq : o.xtrace = false ∨ o.ps4.subs = [])
    (he : ∀ v ∈ c.args ++ c.redirs ++ c.vars, Sub.empty ∉ v.subs)
    (hn : (expanded O o s c).2 = n :: l)
    (hf : O.find (expanded O o s c).1.w n = some .eval)
    (hp : O.evalOpt (n :: l) = true) (hx : o.posix = false)
    (hr : (redirs O (expanded O o s c).1 c.redirs).2 = true)
    (h : simple O o s c = .done s' rv)
    (hz : O.run s'.w s'.subst (n :: l) = none) : Reports Ev.own s'.log rv := by
  obtain ⟨h1, rfl⟩ := named_steps (.inr rfl) hn hf hr h
  have := own_kept hq he h1
  simpa [call, cEval, hp, hx, hz] using this

/-! ## Cases, and where the code falls short -/

/-- A small world: substitution `n` ends with `n`, only file 0 can be opened, a word with
text 0 expands to nothing and any other to itself; the command names are 1 for set, 2 for
eval, 3 for command, 4 for builtin; what eval runs gives ten more than the `$?` it saw, and
word 9 is nothing to run. -/
def demo : Oracle Unit where
  perform := fun _ n => ((), n)
  openf := fun _ n => ((), n == 0)
  names := fun _ l => (l.map Word.text).filter (· ≠ 0)
  find := fun _ n =>
    if n = 1 then some .set else if n = 2 then some .eval
    else if n = 3 then some .command else if n = 4 then some .builtin else none
  findBi := fun _ n => if n = 1 then some .set else if n = 2 then some .eval else none
  opts := fun _ => some (1, false)
  redir := fun _ r => ((), r.text != 7)
  assign := fun _ _ => some ()
  special := fun _ _ => false
  other := fun _ _ => 0
  listing := fun _ => 0
  parse := fun _ => true
  evalOpt := fun _ => true
  run := fun _ e l => if l.tail.all (· == 9) then none else some (10 + e)

def quiet : Opts := ⟨false, false, false, ⟨[], 0⟩⟩

/-- The status of a command. -/
def statusOf (e : End Unit) : Option Nat :=
  match e with
  | .done _ rv => some rv
  | .error => none

/-- Before: `$?` is 5 and the last substitution gave 6. -/
def before : St Unit := ⟨(), 6, 5, []⟩

-- `x=$(c3)$(c4) y=$(c2)` gives 2, `x=1` gives 0, `$(c3)` gives 3
example : statusOf (simple demo quiet before ⟨[], [], [⟨[.cmd 3, .cmd 4], 1⟩, ⟨[.cmd 2], 1⟩]⟩) =
    some 2 := by decide
example : statusOf (simple demo quiet before ⟨[], [], [⟨[], 1⟩]⟩) = some 0 := by decide
example : statusOf (simple demo quiet before ⟨[⟨[.cmd 3], 0⟩], [], []⟩) = some 3 := by decide
-- the words come first, then redirections, then assignments
example : statusOf (simple demo quiet before ⟨[⟨[.cmd 3], 0⟩], [⟨[.cmd 4], 0⟩], []⟩) =
    some 4 := by decide
example : statusOf (simple demo quiet before ⟨[⟨[.cmd 3], 0⟩], [⟨[.cmd 4], 0⟩], [⟨[.cmd 2], 1⟩]⟩) =
    some 2 := by decide
-- `x=$(<nofile)` fails, `x=$(c3)$(<file)` does not
example : statusOf (simple demo quiet before ⟨[], [], [⟨[.file 1], 1⟩]⟩) = some 1 := by decide
example : statusOf (simple demo quiet before ⟨[], [], [⟨[.cmd 3, .file 0], 1⟩]⟩) = some 0 := by decide
-- `set -- $(c3)`, `eval "$(c3)"` with nothing to run
example : statusOf (simple demo quiet before ⟨[⟨[], 1⟩, ⟨[.cmd 3], 8⟩], [], []⟩) = some 3 := by decide
example : statusOf (simple demo quiet before ⟨[⟨[], 2⟩, ⟨[.cmd 3], 9⟩], [], []⟩) = some 3 := by decide
-- `x=$(c3) command` and `command $(c3)`
example : statusOf (simple demo quiet before ⟨[⟨[], 3⟩, ⟨[.cmd 3], 0⟩], [], []⟩) = some 0 := by decide

/-- `x=$(c3)$( )`: the empty substitution was the last, and it succeeds, but the command does
not. -/
theorem empty_last : ∃ s', simple demo quiet before ⟨[], [], [⟨[.cmd 3, .empty], 1⟩]⟩ =
    .done s' 3 ∧ Reports Ev.own s'.log 0 := by
  refine ⟨⟨(), 3, 5, [⟨true, true, 3⟩, ⟨true, false, 0⟩]⟩, by decide, ?_⟩
  exact .inl ⟨[⟨true, true, 3⟩], ⟨true, false, 0⟩, [], rfl, rfl, rfl, by simp⟩

/-- `set -x` with a PS4 that runs a command: `x=$(c3)` succeeds when traced. -/
theorem traced :
    statusOf (simple demo ⟨true, false, false, ⟨[.cmd 0], 0⟩⟩ before
      ⟨[], [], [⟨[.cmd 3], 1⟩]⟩) = some 0 ∧
    statusOf (simple demo ⟨false, false, false, ⟨[.cmd 0], 0⟩⟩ before
      ⟨[], [], [⟨[.cmd 3], 1⟩]⟩) = some 3 := by decide

/-- `x=$(c3) command` does not exit with 0, though the comment at exec.c:492 means it to: the
assignments come after the reset. -/
theorem command_alone :
    statusOf (simple demo quiet before ⟨[⟨[], 3⟩], [], [⟨[.cmd 3], 1⟩]⟩) = some 3 := by decide

/-- The commands `eval` runs do not see the `$?` of the command before it: outside POSIX mode
it is that of the substitutions of `eval` itself, or zero. -/
theorem eval_dollar :
    statusOf (simple demo quiet before ⟨[⟨[], 2⟩, ⟨[], 8⟩], [], []⟩) = some 10 ∧
    statusOf (simple demo ⟨false, true, false, ⟨[], 0⟩⟩ before ⟨[⟨[], 2⟩, ⟨[], 8⟩], [], []⟩) =
      some 15 := by decide

/-- In POSIX mode `eval` with nothing to run repeats the status of the command before it,
where POSIX asks for zero. -/
theorem posix_eval :
    statusOf (simple demo ⟨false, true, false, ⟨[], 0⟩⟩ before ⟨[⟨[], 2⟩], [], []⟩) = some 5 ∧
    statusOf (simple demo ⟨false, true, false, ⟨[], 0⟩⟩ before ⟨[⟨[], 2⟩, ⟨[], 9⟩], [], []⟩) =
      some 5 := by decide

end Ksh.Substat
