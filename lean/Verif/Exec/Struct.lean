import Verif.Exec.Model

/-!
# A structured reading of execution

No stack of environments, no jumps: `break n` is a result that loses one level at each loop it
leaves, and knows only the number of loops around it in the same function, script, `eval` or
child.  `run_refines` says that the machine of the model does exactly this.
-/

namespace Ksh.Exec

/-- How a command ends.  `x` is kept as the code keeps `*xerrok`. -/
inductive Out (σ : Type)
  | done (rv : Nat) (x : Bool) (st : St σ)
  /-- `k` loops are to be left -/
  | brk (k : Nat) (x : Bool) (st : St σ)
  /-- the `k`-th enclosing loop is to be resumed -/
  | cont (k : Nat) (x : Bool) (st : St σ)
  | ret (x : Bool) (st : St σ)
  | leave (err : Bool) (x : Bool) (st : St σ)
  | fuel

variable {σ : Type}

def Out.setX (x : Bool) : Out σ → Out σ
  | .done rv _ st => .done rv x st
  | .brk k _ st => .brk k x st
  | .cont k _ st => .cont k x st
  | .ret _ st => .ret x st
  | .leave e _ st => .leave e x st
  | .fuel => .fuel

def fin (errok xexec : Bool) : Out σ → Out σ
  | .done rv x st =>
    let st := { st with exstat := rv }
    if xexec then .leave false x st
    else if rv ≠ 0 ∧ errok = false ∧ x = false then
      let st := { st with pend := true }
      if st.ee then .leave true x st else .done rv x st
    else .done rv x st
  | r => r

/-- tree, tested, child, `*xerrok`, loops around, inside of a function or script, state -/
abbrev Rec (σ : Type) := Cmd → Bool → Bool → Bool → Nat → Bool → St σ → Out σ

def script (rec : Rec σ) : List Cmd → Bool → Bool → St σ → Out σ
  | [], x, _, st => .done 0 x (start st)
  | t :: ts, x, inF, st =>
    match Out.setX x (rec t false false false 0 inF (start st)) with
    | .done rv _ st => script rec ts x inF { st with exstat := rv }
    | r => r

/-- `break n`: with no loop around nothing happens. -/
def jump (mk : Nat → Bool → St σ → Out σ) (n : Int) (x : Bool) (d : Nat) (st : St σ) : Out σ :=
  if n ≤ 0 then .done 1 x st
  else if d = 0 then .done 0 x st
  else mk (min n.toNat d) x st

def com (O : Oracle σ) (rec : Rec σ) (a : Nat) (errok x : Bool) (d : Nat) (inF : Bool) (st0 : St σ) : Out σ :=
  let y := O.step a st0.exstat st0.w
  let st := { st0 with w := y.1, log := st0.log ++ [.com a] }
  match y.2 with
  | .status n => .done n x st
  | .setE b => .done 0 x { st with ee := b }
  | .brk n => jump .brk n x d st
  | .cont n => jump .cont n x d st
  | .ret n =>
    let st := { st with exstat := n.getD st.exstat }
    if inF then .ret x st else .leave false x st
  | .exit n => .leave false x { st with exstat := n.getD st.exstat }
  | .func b =>
    match rec b errok false x 0 true st with
    | .done rv x st => .done rv x { st with exstat := rv }
    | .ret x st => .done st.exstat x st
    | r => r
  | .dot l =>
    match script rec l x true st with
    | .done _ x st => .done (st.exstat % 256) x st
    | .ret x st => .done (st.exstat % 256) x st
    | r => r
  | .eval l =>
    match script rec l x inF { st with ee := false, exstat := 0 } with
    | .done _ x st' => .done st'.exstat x { st' with ee := st.ee }
    | r => r

/-- the state a command ends in -/
def Out.st? : Out σ → Option (St σ)
  | .done _ _ s | .brk _ _ s | .cont _ _ s | .ret _ s | .leave _ _ s => some s
  | .fuel => none

def paren (O : Oracle σ) (rec : Rec σ) (c : Cmd) (errok xexec x : Bool) (d : Nat) (inF : Bool) (st : St σ) : Out σ :=
  if xexec then rec c errok true x d inF st
  else
    match (rec c errok true false 0 false { st with pend := false }).st? with
    | some s => .done (s.exstat % 256) x { st with w := O.merge st.w s.w, log := s.log }
    | none => .fuel

def list (rec : Rec σ) (d : Nat) (inF : Bool) : List Cmd → Cmd → Bool → Bool → St σ → Out σ
  | [], last, errok, x, st => rec last errok false x d inF st
  | c :: l, last, errok, x, st =>
    match Out.setX x (rec c errok false false d inF st) with
    | .done _ _ st => list rec d inF l last errok x st
    | r => r

/-- What leaves a loop, from what its parts did. -/
def loopEnd (again : Bool → St σ → Out σ) : Out σ → Out σ
  | .brk 1 x st => .done 0 x st
  | .brk k x st => .brk (k - 1) x st
  | .cont 1 x st => again x st
  | .cont k x st => .cont (k - 1) x st
  | r => r

def while_ (rec : Rec σ) (isWhile : Bool) (c b : Cmd) (errok : Bool) (d : Nat) (inF : Bool) : Nat → Nat → Bool → St σ → Out σ
  | 0, _, _, _ => .fuel
  | m + 1, rv, x, st =>
    match Out.setX x (rec c true false false (d + 1) inF st) with
    | .done s x st =>
      if (s == 0) == isWhile then
        match rec b errok false x (d + 1) inF st with
        | .done rv x st => while_ rec isWhile c b errok d inF m rv x st
        | r => loopEnd (fun x st => while_ rec isWhile c b errok d inF m 0 x st) r
      else .done rv x st
    | r => loopEnd (fun x st => while_ rec isWhile c b errok d inF m 0 x st) r

def for_ (rec : Rec σ) (b : Cmd) (errok : Bool) (d : Nat) (inF : Bool) : List (σ → σ) → Nat → Bool → Bool → St σ → Out σ
  | [], rv, _, x, st => .done rv x st
  | f :: l, _, save, _, st =>
    match rec b errok false save (d + 1) inF { st with w := f st.w } with
    | .done rv x st => for_ rec b errok d inF l rv save x st
    | r => loopEnd (fun x st => for_ rec b errok d inF l 0 x x st) r

def body (O : Oracle σ) (n : Nat) (rec : Rec σ) (c : Cmd) (errok xexec x : Bool) (d : Nat) (inF : Bool) (st : St σ) : Out σ :=
  match c with
  | .nil => .done 0 x st
  | .com a => com O rec a errok x d inF st
  | .paren c => paren O rec c errok xexec x d inF st
  | .list l last => list rec d inF l last errok x st
  | .andor isAnd l r =>
    match rec l true false x d inF st with
    | .done rv x st => if (rv == 0) == isAnd then rec r errok false x d inF st else .done rv true st
    | r => r
  | .bang c =>
    match rec c true false x d inF st with
    | .done rv _ st => .done (if rv = 0 then 1 else 0) true st
    | r => r
  | .loop isWhile c b => while_ rec isWhile c b errok d inF n 0 x st
  | .for w b =>
    let y := O.words w st.w
    for_ rec b errok d inF y.2 0 x x { st with w := y.1 }
  | .ite c t e =>
    match Out.setX x (rec c true false false d inF st) with
    | .done s x st => if s = 0 then rec t errok false x d inF st else rec e errok false x d inF st
    | r => r
  | .case w alts =>
    let y := O.pick w st.w
    match alts[y.2]? with
    | some c => rec c errok false x d inF { st with w := y.1 }
    | none => .done 0 x { st with w := y.1 }
  | .brace c => rec c errok false x d inF st

def run (O : Oracle σ) : Nat → Rec σ
  | 0, _, _, _, _, _, _, _ => .fuel
  | n + 1, c, errok, xexec, x, d, inF, st =>
    match c with
    | .nil => .done 0 x st
    | c => fin errok xexec (body O n (run O n) c errok xexec x d inF (start st))

/-! ## Breaks stay inside -/

/-- no result asks for more loops than there are -/
def Out.Within (d : Nat) : Out σ → Prop
  | .brk k _ _ | .cont k _ _ => 1 ≤ k ∧ k ≤ d
  | _ => True

def WithinR (rec : Rec σ) : Prop := ∀ c errok xexec x d inF st, (rec c errok xexec x d inF st).Within d

theorem Within.setX {o : Out σ} {d x} (h : o.Within d) : (o.setX x).Within d := by cases o <;> exact h
theorem Within.fin {o : Out σ} {d e xe} (h : o.Within d) : (fin e xe o).Within d := by
  cases o <;> simp only [Exec.fin] <;> try exact h
  split <;> (try exact h); split <;> (try exact h); split <;> exact h

theorem Within.loopEnd {o : Out σ} {d} {again} (ha : ∀ x st, (again x st : Out σ).Within d) (h : o.Within (d + 1)) : (loopEnd again o).Within d := by
  cases o with
  | brk k x st =>
    match k, h with
    | 0, h => simp [Out.Within] at h
    | 1, _ => trivial
    | k + 2, h => simp only [Exec.loopEnd, Out.Within] at h ⊢; omega
  | cont k x st =>
    match k, h with
    | 0, h => simp [Out.Within] at h
    | 1, _ => exact ha x st
    | k + 2, h => simp only [Exec.loopEnd, Out.Within] at h ⊢; omega
  | _ => trivial

theorem jump_within {mk : Nat → Bool → St σ → Out σ} (hmk : ∀ k x st d, 1 ≤ k → k ≤ d → (mk k x st).Within d) (n x d st) :
    (jump mk n x d st).Within d := by
  simp only [jump]
  split
  · trivial
  · split
    · trivial
    · exact hmk _ _ _ _ (by omega) (by omega)

theorem script_within {rec : Rec σ} (h : WithinR rec) : ∀ l x inF st, (script rec l x inF st).Within 0
  | [], _, _, _ => trivial
  | t :: ts, x, inF, st => by
    have := Within.setX (x := x) (h t false false false 0 inF (start st))
    simp only [script]
    split
    · exact script_within h ts _ _ _
    · exact this

theorem Within.mono {o : Out σ} {d} (h : o.Within 0) : o.Within d := by
  cases o <;> first | trivial | (simp only [Out.Within] at h; omega)

theorem com_within (O : Oracle σ) {rec : Rec σ} (h : WithinR rec) (a e x d inF st) : (com O rec a e x d inF st).Within d := by
  simp only [com]
  split
  · trivial
  · trivial
  · exact jump_within (fun _ _ _ _ h1 h2 => by exact ⟨h1, h2⟩) _ _ _ _
  · exact jump_within (fun _ _ _ _ h1 h2 => by exact ⟨h1, h2⟩) _ _ _ _
  · split <;> trivial
  · trivial
  · rename_i b _
    have := h b e false x 0 true { st with w := (O.step a st.exstat st.w).1, log := st.log ++ [.com a] }
    split <;> first | trivial | exact Within.mono this
  · split <;> first | trivial | exact Within.mono (script_within h _ _ _ _)
  · split <;> first | trivial | exact Within.mono (script_within h _ _ _ _)

theorem list_within {rec : Rec σ} (h : WithinR rec) (d inF) : ∀ l last e x st, (list rec d inF l last e x st).Within d
  | [], _, _, _, _ => h ..
  | c :: l, last, e, x, st => by
    have := Within.setX (x := x) (h c e false false d inF st)
    simp only [list]
    split
    · exact list_within h d inF l _ _ _ _
    · exact this

theorem while_within {rec : Rec σ} (h : WithinR rec) (w c b e d inF) : ∀ m rv x st, (while_ rec w c b e d inF m rv x st).Within d
  | 0, _, _, _ => trivial
  | m + 1, rv, x, st => by
    have := Within.setX (x := x) (h c true false false (d + 1) inF st)
    have ih := while_within h w c b e d inF m
    simp only [while_]
    split
    · rename_i s x' st' _
      have hb := h b e false x' (d + 1) inF st'
      split
      · split
        · exact ih ..
        · exact Within.loopEnd (fun _ _ => ih ..) hb
      · trivial
    · exact Within.loopEnd (fun _ _ => ih ..) this

theorem for_within {rec : Rec σ} (h : WithinR rec) (b e d inF) : ∀ l rv sv x st, (for_ rec b e d inF l rv sv x st).Within d
  | [], _, _, _, _ => trivial
  | f :: l, rv, sv, x, st => by
    have hb := h b e false sv (d + 1) inF { st with w := f st.w }
    simp only [for_]
    split
    · exact for_within h b e d inF l _ _ _ _
    · exact Within.loopEnd (fun _ _ => for_within h b e d inF l _ _ _ _) hb

theorem body_within (O : Oracle σ) (n) {rec : Rec σ} (h : WithinR rec) (c e xe x d inF st) : (body O n rec c e xe x d inF st).Within d := by
  cases c with
  | nil => trivial
  | com a => exact com_within O h ..
  | paren c =>
    simp only [body, paren]
    split
    · exact h ..
    · split <;> trivial
  | list l last => exact list_within h ..
  | andor a l r =>
    have := h l true false x d inF st
    simp only [body]
    split
    · split
      · exact h ..
      · trivial
    · exact this
  | bang c =>
    have := h c true false x d inF st
    simp only [body]
    split
    · trivial
    · exact this
  | loop w c b => exact while_within h ..
  | «for» w b => exact for_within h ..
  | ite c t e' =>
    have := Within.setX (x := x) (h c true false false d inF st)
    simp only [body]
    split
    · split <;> exact h ..
    · exact this
  | case w alts =>
    simp only [body]
    split
    · exact h ..
    · trivial
  | brace c => exact h ..

theorem run_within (O : Oracle σ) : ∀ n, WithinR (run O n)
  | 0 => fun _ _ _ _ _ _ _ => trivial
  | n + 1 => fun c e xe x d inF st => by
    have := fun c e xe x d inF st => body_within O n (run_within O n) c e xe x d inF st
    cases c <;> simp only [run] <;> first | trivial | exact Within.fin (this ..)

/-! ## The stack -/

/-- the loops a `break` can reach -/
def loops : List Env → Nat
  | [] => 0
  | e :: r => if stopBrk e.ty then 0 else if e.ty = .loop then loops r + 1 else loops r

def inFn (env : List Env) : Bool := env.any fun e => stopRet e.ty

/-- the stack with the inner `k - 1` loops marked -/
def mark : Nat → List Env → List Env
  | _, [] => []
  | k, e :: r =>
    if stopBrk e.ty then e :: r
    else if e.ty = .loop then if k = 1 then e :: r else { e with pass := true } :: mark (k - 1) r
    else e :: mark k r

/-- the result of the machine that corresponds to an outcome -/
def embed (env : List Env) : Out σ → R σ
  | .done rv x st => .ret rv x env st
  | .brk k x st => unwind .brk x (mark k env) st
  | .cont k x st => unwind .cont x (mark k env) st
  | .ret x st => unwind .ret x env st
  | .leave e x st => unwind (.leave e) x env st
  | .fuel => .fuel

theorem walk_index : ∀ (q : Nat) (env : List Env) (i : Nat) (last : Option Nat),
    (∀ j, (walk q env i last).2.2 = some j → last = some j ∨ i ≤ j)
  | q, [], i, last => by intro j; simp [walk]; intro h; exact .inl h
  | q, e :: r, i, last => by
    intro j
    simp only [walk]
    split
    · intro h; exact .inl h
    · split
      · split
        · intro h; exact .inl h
        · intro h
          rcases walk_index _ _ _ _ _ h with h | h
          · simp only [Option.some.injEq] at h; omega
          · omega
      · intro h
        rcases walk_index _ _ _ _ _ h with h | h
        · exact .inl h
        · omega

theorem walk_enough : ∀ (q : Nat) (env : List Env) (i : Nat) (last : Option Nat), 1 ≤ q → q ≤ loops env →
    (walk q env i last).1 = 0 ∧ (walk q env i last).2.1 = mark q env
  | q, [], i, last, h1, h2 => by simp [loops] at h2; omega
  | q, e :: r, i, last, h1, h2 => by
    simp only [walk, mark]
    simp only [loops] at h2
    split
    · rename_i h; rw [if_pos h] at h2; omega
    · rename_i h; rw [if_neg h] at h2
      split
      · rename_i h'; rw [if_pos h'] at h2
        by_cases hq : q = 1
        · subst hq; simp
        · rw [if_neg (show ¬ q - 1 = 0 by omega), if_neg hq]
          have := walk_enough (q - 1) r (i + 1) (some i) (by omega) (by omega)
          simp [this]
      · rename_i h'; rw [if_neg h'] at h2
        have := walk_enough q r (i + 1) last h1 h2
        simp [this]

/-- no environment is marked -/
def Clean (env : List Env) : Prop := ∀ e ∈ env, e.pass = false

theorem walk_few : ∀ (q : Nat) (env : List Env) (i : Nat) (last : Option Nat), loops env < q → Clean env →
    (walk q env i last).1 = q - loops env ∧ (loops env = 0 → (walk q env i last).2 = (env, last)) ∧
    (0 < loops env → ∃ j, (walk q env i last).2.2 = some (i + j) ∧
      ((walk q env i last).2.1).modify j (fun e => { e with pass := false }) = mark (loops env) env)
  | q, [], i, last, h, _ => by simp [walk, loops]
  | q, e :: r, i, last, h, hc => by
    simp only [loops] at h ⊢
    simp only [walk, mark]
    have hcr : Clean r := fun x hx => hc x (List.mem_cons_of_mem _ hx)
    have he : e.pass = false := hc e (by simp)
    by_cases h1 : stopBrk e.ty = true
    · simp [h1]
    · rw [if_neg h1] at h
      rw [if_neg h1, if_neg h1, if_neg h1]
      by_cases h2 : e.ty = .loop
      · rw [if_pos h2] at h
        rw [if_pos h2, if_pos h2, if_pos h2]
        have hq : ¬ q - 1 = 0 := by omega
        rw [if_neg hq]
        have ih := walk_few (q - 1) r (i + 1) (some i) (by omega) hcr
        refine ⟨by rw [ih.1]; omega, by omega, fun _ => ?_⟩
        by_cases hr : loops r = 0
        · refine ⟨0, by simp [ih.2.1 hr], ?_⟩
          rw [hr]
          simp [ih.2.1 hr, ← he]
        · obtain ⟨j, g1, g2⟩ := ih.2.2 (by omega)
          refine ⟨j + 1, by rw [g1]; congr 1; omega, ?_⟩
          rw [if_neg (show ¬ loops r + 1 = 1 by omega)]
          simp [g2]
      · rw [if_neg h2] at h
        rw [if_neg h2, if_neg h2, if_neg h2]
        have ih := walk_few q r (i + 1) last (by omega) hcr
        refine ⟨ih.1, fun h0 => by simp [ih.2.1 h0], fun h0 => ?_⟩
        obtain ⟨j, g1, g2⟩ := ih.2.2 h0
        exact ⟨j + 1, by rw [g1]; congr 1; omega, by simp [g2]⟩

theorem brkcont_eq (why : Why) (n x) (env : List Env) (hc : Clean env) (st : St σ) (mk : Nat → Bool → St σ → Out σ)
    (hmk : ∀ k x st, embed env (mk k x st) = unwind why x (mark k env) st) :
    brkcont why n x env st = embed env (jump mk n x (loops env) st) := by
  simp only [brkcont, jump]
  by_cases hn : n ≤ 0
  · rw [if_pos hn, if_pos hn]; rfl
  · rw [if_neg hn, if_neg hn]
    by_cases hl : loops env < n.toNat
    · obtain ⟨h1, h2, h3⟩ := walk_few n.toNat env 0 none hl hc
      rw [if_pos (show (walk n.toNat env 0 none).1 ≠ 0 by omega)]
      by_cases h0 : loops env = 0
      · rw [if_pos h0, if_pos (by omega)]; rfl
      · rw [if_neg h0, if_neg (by omega), hmk]
        obtain ⟨j, g1, g2⟩ := h3 (by omega)
        rw [g1, Nat.min_eq_right (by omega), ← g2]
        simp [clearAt]
    · obtain ⟨h1, h2⟩ := walk_enough n.toNat env 0 none (by omega) (by omega)
      rw [if_neg (by simp [h1]), if_neg (by omega), hmk, h2, Nat.min_eq_left (by omega)]

/-! ## Refinement -/

theorem unwind_exec (why : Why) (x) (p) (env : List Env) (st : St σ) : unwind why x (⟨.exec, p⟩ :: env) st = unwind why x env st := by
  simp [unwind, hasJbuf]

theorem mark_exec (k p) (env : List Env) : mark k (⟨.exec, p⟩ :: env) = ⟨.exec, p⟩ :: mark k env := by simp [mark, stopBrk]

/-- leaving the environment of a node -/
theorem embed_exec (p) (env : List Env) (o : Out σ) (h : ∀ rv x st, o ≠ .done rv x st) : embed (⟨.exec, p⟩ :: env) o = embed env o := by
  cases o with
  | done rv x st => exact absurd rfl (h rv x st)
  | _ => simp [embed, mark_exec, unwind_exec]

theorem setX_embed (x : Bool) (env : List Env) (o : Out σ) : setX x (embed env o) = embed env (o.setX x) := by
  have : ∀ why y env (st : St σ), setX x (unwind why y env st) = unwind why x env st := by
    intro why y env st
    simp only [unwind]
    split <;> rfl
  cases o <;> simp only [embed, Out.setX] <;> first | rfl | exact this ..

/-- an outcome that stays in the loops around -/
theorem not_ret_unwind {why x} {env : List Env} {st : St σ} {rv x' env' st'} : unwind why x env st ≠ .ret rv x' env' st' := by
  simp only [unwind]; split <;> simp

theorem embed_not_ret {env : List Env} {o : Out σ} (hd : ∀ rv x st, o ≠ .done rv x st) : ∀ rv x env' st, embed env o ≠ .ret rv x env' st := by
  intro rv x env' st
  cases o with
  | done rv x st => exact absurd rfl (hd rv x st)
  | fuel => simp [embed]
  | _ => simp only [embed]; exact not_ret_unwind

def Refines (recM : RecM σ) (rec : Rec σ) : Prop :=
  ∀ c errok xexec x env st, Clean env → recM c errok xexec x env st = embed env (rec c errok xexec x (loops env) (inFn env) st)

/-- `r` is `o` seen with the environment of the node, of whatever type, on top of `env` -/
def Rel (env : List Env) (r : R σ) : Out σ → Prop
  | .done rv x st => ∃ e, r = .ret rv x (e :: env) st
  | o => r = embed env o

theorem Rel.of_embed {p} {env : List Env} {o : Out σ} {r} (h : r = embed (⟨.exec, p⟩ :: env) o) : Rel env r o := by
  subst h
  cases o with
  | done => exact ⟨_, rfl⟩
  | _ => exact embed_exec _ _ _ (by simp)

theorem Rel.fin {e xe : Bool} {env : List Env} {o : Out σ} {r} (h : Rel env r o) : finM e xe r = embed env (fin e xe o) := by
  have hu : ∀ why x env (st : St σ), finM e xe (unwind why x env st) = unwind why x env st := by
    intros; simp only [unwind]; split <;> rfl
  cases o with
  | done rv x st =>
    obtain ⟨t, rfl⟩ := h
    simp only [embed, finM, Exec.fin, List.tail_cons]
    split
    · rfl
    · split
      · split <;> rfl
      · rfl
  | fuel => simp only [Rel] at h; subst h; rfl
  | _ => simp only [Rel, embed] at h; subst h; simp only [Exec.fin, embed]; exact hu ..

section
variable {O : Oracle σ} {recM : RecM σ} {rec : Rec σ}

theorem clean_cons {t} {env : List Env} (h : Clean env) : Clean (⟨t, false⟩ :: env) := by
  intro e he
  rcases List.mem_cons.1 he with rfl | he
  · rfl
  · exact h e he

theorem unwind_jbuf {t} (ht : hasJbuf t = true) (why x p) (env : List Env) (st : St σ) :
    unwind why x (⟨t, p⟩ :: env) st = .jmp why x (⟨t, p⟩ :: env) st := by simp [unwind, ht]

theorem shell_refines (hr : Refines recM rec) (hw : WithinR rec) (env1 : List Env) (hc : Clean env1) : ∀ l x st,
    shellM recM l x (⟨.parse, false⟩ :: env1) st = embed env1 (script rec l x (inFn env1) st)
  | [], x, st => rfl
  | t :: ts, x, st => by
    simp only [shellM, script]
    rw [hr _ _ _ _ _ _ (clean_cons hc), setX_embed]
    have hl : loops (⟨.parse, false⟩ :: env1) = 0 := rfl
    have hi : inFn (⟨.parse, false⟩ :: env1) = inFn env1 := by simp [inFn, stopRet]
    rw [hl, hi]
    have := Within.setX (x := x) (hw t false false false 0 (inFn env1) (start st))
    generalize Out.setX x (rec t false false false 0 (inFn env1) (start st)) = o at this
    cases o with
    | done rv x' st' => exact shell_refines hr hw env1 hc ts x _
    | brk k x' st' => simp only [Out.Within] at this; omega
    | cont k x' st' => simp only [Out.Within] at this; omega
    | ret x' st' => simp only [embed, unwind_jbuf (show hasJbuf .parse = true from rfl), List.tail_cons]
    | leave e x' st' => simp only [embed, unwind_jbuf (show hasJbuf .parse = true from rfl), List.tail_cons]
    | fuel => rfl

theorem com_refines (hr : Refines recM rec) (hw : WithinR rec) (env0 : List Env) (hc : Clean env0) (a e x st) :
    Rel env0 (comM O recM a e x (⟨.exec, false⟩ :: env0) st) (com O rec a e x (loops env0) (inFn env0) st) := by
  have hloops : loops (⟨.exec, false⟩ :: env0) = loops env0 := by simp [loops, stopBrk]
  have hin : inFn (⟨.exec, false⟩ :: env0) = inFn env0 := by simp [inFn, stopRet]
  simp only [comM, com]
  generalize O.step a st.exstat st.w = y
  cases hy : y.2 with
  | status n => exact ⟨_, rfl⟩
  | setE b => exact ⟨_, rfl⟩
  | brk n =>
    simp only
    rw [brkcont_eq .brk n x _ (clean_cons hc) _ .brk (fun _ _ _ => rfl), hloops]
    exact Rel.of_embed rfl
  | cont n =>
    simp only
    rw [brkcont_eq .cont n x _ (clean_cons hc) _ .cont (fun _ _ _ => rfl), hloops]
    exact Rel.of_embed rfl
  | ret n =>
    simp only
    have : (⟨.exec, false⟩ :: env0).any (fun e => stopRet e.ty) = inFn env0 := hin
    rw [this]
    split <;> rfl
  | exit n => rfl
  | func b =>
    simp only [List.tail_cons]
    rw [hr _ _ _ _ _ _ (clean_cons hc)]
    have hl : loops (⟨.func, false⟩ :: env0) = 0 := rfl
    have hi : inFn (⟨.func, false⟩ :: env0) = true := rfl
    rw [hl, hi]
    have := hw b e false x 0 true { st with w := y.1, log := st.log ++ [.com a] }
    generalize rec b e false x 0 true { st with w := y.1, log := st.log ++ [.com a] } = o at this
    cases o with
    | done rv x' st' => exact ⟨_, rfl⟩
    | brk k x' st' => simp only [Out.Within] at this; omega
    | cont k x' st' => simp only [Out.Within] at this; omega
    | ret x' st' => simp only [embed, unwind_jbuf (show hasJbuf .func = true from rfl)]; exact ⟨_, rfl⟩
    | leave e' x' st' => simp only [embed, unwind_jbuf (show hasJbuf .func = true from rfl), List.tail_cons]; rfl
    | fuel => rfl
  | dot l =>
    simp only
    rw [shell_refines hr hw _ (clean_cons (clean_cons hc))]
    have hi : inFn (⟨.incl, false⟩ :: ⟨.exec, false⟩ :: env0) = true := rfl
    rw [hi]
    have := script_within hw l x true { st with w := y.1, log := st.log ++ [.com a] }
    generalize script rec l x true { st with w := y.1, log := st.log ++ [.com a] } = o at this
    cases o with
    | done rv x' st' => exact ⟨_, rfl⟩
    | brk k x' st' => simp only [Out.Within] at this; omega
    | cont k x' st' => simp only [Out.Within] at this; omega
    | ret x' st' => simp only [embed, unwind_jbuf (show hasJbuf .incl = true from rfl)]; exact ⟨_, rfl⟩
    | leave e' x' st' =>
      simp only [embed, unwind_jbuf (show hasJbuf .incl = true from rfl), List.tail_cons, unwind_exec]; rfl
    | fuel => rfl
  | eval l =>
    simp only
    rw [shell_refines hr hw _ (clean_cons hc), hin]
    have := script_within hw l x (inFn env0) { st with w := y.1, log := st.log ++ [.com a], ee := false, exstat := 0 }
    generalize script rec l x (inFn env0) _ = o at this
    cases o with
    | done rv x' st' => exact ⟨_, rfl⟩
    | brk k x' st' => simp only [Out.Within] at this; omega
    | cont k x' st' => simp only [Out.Within] at this; omega
    | ret x' st' =>
      simp only [embed, unwind_exec]
      split
      · rename_i h; exact absurd h not_ret_unwind
      · rfl
    | leave e' x' st' =>
      simp only [embed, unwind_exec]
      split
      · rename_i h; exact absurd h not_ret_unwind
      · rfl
    | fuel => rfl

theorem list_refines (hr : Refines recM rec) (env : List Env) (hc : Clean env) : ∀ l last e x st,
    listM recM l last e x env st = embed env (list rec (loops env) (inFn env) l last e x st)
  | [], last, e, x, st => hr _ _ _ _ _ _ hc
  | c :: l, last, e, x, st => by
    simp only [listM, list]
    rw [hr _ _ _ _ _ _ hc, setX_embed]
    generalize Out.setX x (rec c e false false (loops env) (inFn env) st) = o
    cases o with
    | done rv x' st' => exact list_refines hr env hc l last e x st'
    | _ =>
      simp only
      split
      · rename_i h; exact (embed_not_ret (by simp) _ _ _ _ h).elim
      · rfl

/-- the handler of a loop -/
theorem handler_refines (env : List Env) (again : Bool → List Env → St σ → R σ) (again' : Bool → St σ → Out σ)
    (ha : ∀ x st, Rel env (again x (⟨.loop, false⟩ :: env) st) (again' x st)) (o : Out σ) (hw : o.Within (loops env + 1)) (hd : ∀ rv x st, o ≠ .done rv x st) :
    Rel env (handler again (embed (⟨.loop, false⟩ :: env) o)) (loopEnd again' o) := by
  have hj : ∀ why x p (st : St σ), unwind why x (⟨.loop, p⟩ :: env) st = .jmp why x (⟨.loop, p⟩ :: env) st :=
    fun why x p st => unwind_jbuf rfl why x p env st
  cases o with
  | done rv x st => exact absurd rfl (hd rv x st)
  | brk k x st =>
    match k, hw with
    | 0, hw => simp [Out.Within] at hw
    | 1, _ =>
      simp only [embed, mark, stopBrk, Bool.false_eq_true, if_false, if_true, hj, handler, loopEnd]
      exact ⟨_, rfl⟩
    | k + 2, _ =>
      have : mark (k + 2) (⟨.loop, false⟩ :: env) = ⟨.loop, true⟩ :: mark (k + 1) env := by simp [mark, stopBrk]
      simp only [embed, this, unwind_jbuf (show hasJbuf .loop = true from rfl), handler, loopEnd, if_true]
      rfl
  | cont k x st =>
    match k, hw with
    | 0, hw => simp [Out.Within] at hw
    | 1, _ =>
      simp only [embed, mark, stopBrk, Bool.false_eq_true, if_false, if_true, hj, handler, loopEnd]
      exact ha x st
    | k + 2, _ =>
      have : mark (k + 2) (⟨.loop, false⟩ :: env) = ⟨.loop, true⟩ :: mark (k + 1) env := by simp [mark, stopBrk]
      simp only [embed, this, unwind_jbuf (show hasJbuf .loop = true from rfl), handler, loopEnd, if_true]
      rfl
  | ret x st => simp only [embed, hj, handler, loopEnd]; rfl
  | leave e x st => simp only [embed, hj, handler, loopEnd]; rfl
  | fuel => rfl

theorem while_refines (hr : Refines recM rec) (hw : WithinR rec) (env : List Env) (hc : Clean env) (w c b e) : ∀ m rv x st,
    Rel env (whileM recM w c b e m rv x (⟨.loop, false⟩ :: env) st) (while_ rec w c b e (loops env) (inFn env) m rv x st)
  | 0, _, _, _ => rfl
  | m + 1, rv, x, st => by
    have ih := while_refines hr hw env hc w c b e m
    have hl : loops (⟨.loop, false⟩ :: env) = loops env + 1 := rfl
    have hi : inFn (⟨.loop, false⟩ :: env) = inFn env := by simp [inFn, stopRet]
    simp only [whileM, while_]
    rw [hr _ _ _ _ _ _ (clean_cons hc), hl, hi, setX_embed]
    have h1 := Within.setX (x := x) (hw c true false false (loops env + 1) (inFn env) st)
    generalize Out.setX x (rec c true false false (loops env + 1) (inFn env) st) = o at h1
    by_cases hd : ∃ s x st, o = .done s x st
    · obtain ⟨s, x', st', rfl⟩ := hd
      simp only [embed]
      by_cases hs : ((s == 0) == w) = true
      · rw [if_pos hs, if_pos hs]
        rw [hr _ _ _ _ _ _ (clean_cons hc), hl, hi]
        have h2 := hw b e false x' (loops env + 1) (inFn env) st'
        generalize rec b e false x' (loops env + 1) (inFn env) st' = o2 at h2
        by_cases hd2 : ∃ s x st, o2 = .done s x st
        · obtain ⟨s, x', st', rfl⟩ := hd2
          exact ih s x' st'
        · have hd2' : ∀ rv x st, o2 ≠ .done rv x st := fun rv x st h => hd2 ⟨rv, x, st, h⟩
          have hh := handler_refines env (fun x env st => whileM recM w c b e m 0 x env st)
            (fun x st => while_ rec w c b e (loops env) (inFn env) m 0 x st) (fun x st => ih 0 x st) o2 h2 hd2'
          split
          · rename_i h; exact (embed_not_ret hd2' _ _ _ _ h).elim
          · split
            · exact (hd2' _ _ _ rfl).elim
            · exact hh
      · rw [if_neg hs, if_neg hs]; exact ⟨_, rfl⟩
    · have hd' : ∀ rv x st, o ≠ .done rv x st := fun rv x st h => hd ⟨rv, x, st, h⟩
      have hh := handler_refines env (fun x env st => whileM recM w c b e m 0 x env st)
        (fun x st => while_ rec w c b e (loops env) (inFn env) m 0 x st) (fun x st => ih 0 x st) o h1 hd'
      split
      · rename_i h; exact (embed_not_ret hd' _ _ _ _ h).elim
      · split
        · exact (hd' _ _ _ rfl).elim
        · exact hh

theorem for_refines (hr : Refines recM rec) (hw : WithinR rec) (env : List Env) (hc : Clean env) (b e) : ∀ l rv sv x st,
    Rel env (forM recM b e l rv sv x (⟨.loop, false⟩ :: env) st) (for_ rec b e (loops env) (inFn env) l rv sv x st)
  | [], _, _, _, _ => ⟨_, rfl⟩
  | f :: l, rv, sv, x, st => by
    have ih := for_refines hr hw env hc b e l
    have hl : loops (⟨.loop, false⟩ :: env) = loops env + 1 := rfl
    have hi : inFn (⟨.loop, false⟩ :: env) = inFn env := by simp [inFn, stopRet]
    simp only [forM, for_]
    rw [hr _ _ _ _ _ _ (clean_cons hc), hl, hi]
    have h2 := hw b e false sv (loops env + 1) (inFn env) { st with w := f st.w }
    generalize rec b e false sv (loops env + 1) (inFn env) { st with w := f st.w } = o2 at h2
    by_cases hd2 : ∃ s x st, o2 = .done s x st
    · obtain ⟨s, x', st', rfl⟩ := hd2
      exact ih s sv x' st'
    · have hd2' : ∀ rv x st, o2 ≠ .done rv x st := fun rv x st h => hd2 ⟨rv, x, st, h⟩
      have hh := handler_refines env (fun x env st => forM recM b e l 0 x x env st)
        (fun x st => for_ rec b e (loops env) (inFn env) l 0 x x st) (fun x st => ih 0 x x st) o2 h2 hd2'
      split
      · rename_i h; exact (embed_not_ret hd2' _ _ _ _ h).elim
      · split
        · exact (hd2' _ _ _ rfl).elim
        · exact hh

theorem paren_refines (hr : Refines recM rec) (env0 : List Env) (hc : Clean env0) (c e xe x st) :
    Rel env0 (parenM O recM c e xe x (⟨.exec, false⟩ :: env0) st) (paren O rec c e xe x (loops env0) (inFn env0) st) := by
  have hloops : loops (⟨.exec, false⟩ :: env0) = loops env0 := by simp [loops, stopBrk]
  have hin : inFn (⟨.exec, false⟩ :: env0) = inFn env0 := by simp [inFn, stopRet]
  simp only [parenM, paren]
  split
  · rw [hr _ _ _ _ _ _ (clean_cons hc), hloops, hin]
    exact Rel.of_embed rfl
  · have hc1 : Clean [⟨.exec, false⟩] := by intro e he; simp at he; simp [he]
    rw [hr _ _ _ _ _ _ hc1]
    have h0 : loops [⟨.exec, false⟩] = 0 := rfl
    have h1 : inFn [⟨.exec, false⟩] = false := rfl
    rw [h0, h1]
    generalize rec c e true false 0 false { st with pend := false } = o
    have hm : ∀ k, mark k [⟨E.exec, false⟩] = [⟨.exec, false⟩] := by intro k; simp [mark, stopBrk]
    cases o <;> simp only [embed, hm, unwind, List.dropWhile_cons, hasJbuf, Bool.not_false, if_true, List.dropWhile_nil, Out.st?] <;>
      first | exact ⟨_, rfl⟩ | rfl

theorem body_refines (hr : Refines recM rec) (hw : WithinR rec) (n) (env0 : List Env) (hc : Clean env0) (c e xe x st) :
    Rel env0 (bodyM O n recM c e xe x (⟨.exec, false⟩ :: env0) st) (body O n rec c e xe x (loops env0) (inFn env0) st) := by
  have hloops : loops (⟨.exec, false⟩ :: env0) = loops env0 := by simp [loops, stopBrk]
  have hin : inFn (⟨.exec, false⟩ :: env0) = inFn env0 := by simp [inFn, stopRet]
  have hcc := clean_cons (t := .exec) hc
  have hr' : ∀ c e xe x st, recM c e xe x (⟨.exec, false⟩ :: env0) st = embed (⟨.exec, false⟩ :: env0) (rec c e xe x (loops env0) (inFn env0) st) := by
    intro c e xe x st
    rw [hr _ _ _ _ _ _ hcc, hloops, hin]
  cases c with
  | nil => exact ⟨_, rfl⟩
  | com a => exact com_refines hr hw env0 hc a e x st
  | paren c => exact paren_refines hr env0 hc c e xe x st
  | list l last =>
    have := list_refines hr _ hcc l last e x st
    rw [hloops, hin] at this
    exact Rel.of_embed this
  | andor a l r =>
    simp only [bodyM, body]
    rw [hr']
    generalize rec l true false x (loops env0) (inFn env0) st = o
    cases o with
    | done rv x' st' =>
      simp only [embed]
      by_cases h : ((rv == 0) == a) = true
      · rw [if_pos h, if_pos h, hr']; exact Rel.of_embed rfl
      · rw [if_neg h, if_neg h]; exact ⟨_, rfl⟩
    | _ =>
      simp only
      split
      · rename_i h; exact (embed_not_ret (by simp) _ _ _ _ h).elim
      · exact Rel.of_embed rfl
  | bang c =>
    simp only [bodyM, body]
    rw [hr']
    generalize rec c true false x (loops env0) (inFn env0) st = o
    cases o with
    | done rv x' st' => exact ⟨_, rfl⟩
    | _ =>
      simp only
      split
      · rename_i h; exact (embed_not_ret (by simp) _ _ _ _ h).elim
      · exact Rel.of_embed rfl
  | loop w c b => exact while_refines hr hw env0 hc w c b e n 0 x st
  | «for» w b => exact for_refines hr hw env0 hc b e _ 0 x x _
  | ite c t e' =>
    simp only [bodyM, body]
    rw [hr', setX_embed]
    generalize Out.setX x (rec c true false false (loops env0) (inFn env0) st) = o
    cases o with
    | done rv x' st' =>
      simp only [embed]
      by_cases h : rv = 0
      · rw [if_pos h, if_pos h, hr']; exact Rel.of_embed rfl
      · rw [if_neg h, if_neg h, hr']; exact Rel.of_embed rfl
    | _ =>
      simp only
      split
      · rename_i h; exact (embed_not_ret (by simp) _ _ _ _ h).elim
      · exact Rel.of_embed rfl
  | case w alts =>
    simp only [bodyM, body]
    cases alts[(O.pick w st.w).2]? with
    | some c => simp only [hr']; exact Rel.of_embed rfl
    | none => exact ⟨_, rfl⟩
  | brace c => exact Rel.of_embed (hr' ..)

end

/-- The machine with its stack of environments and its jumps does what the structured reading
says. -/
theorem run_refines (O : Oracle σ) : ∀ n, Refines (exec O n) (run O n)
  | 0 => fun _ _ _ _ _ _ _ => rfl
  | n + 1 => fun c e xe x env st hc => by
    have h := fun c st => body_refines (O := O) (run_refines O n) (run_within O n) n env hc c e xe x st
    cases c <;> simp only [exec, run] <;> first | rfl | exact (h ..).fin

end Ksh.Exec
