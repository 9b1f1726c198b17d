import Verif.Exec.Ends

/-!
# And-or lists (C29), `break` and `continue` (C31)
-/

namespace Ksh.Exec

variable {σ : Type}

/-- What `andor` (syn.c:92-108) builds from a command and the operators and commands behind it
(`true` is `&&`). -/
def andorTree (c : Cmd) (rest : List (Bool × Cmd)) : Cmd := rest.foldl (fun t p => .andor p.1 t p.2) c

/-- the command came to its end -/
def Out.isDone : Out σ → Bool
  | .done .. => true
  | _ => false

/-- Spec: the rest of an and-or list, given the status so far.  A command behind `&&` runs if
it is zero, one behind `||` if it is not; a jump ends the list; all but the last command are
tested. -/
inductive AndOr (O : Oracle σ) (e : Bool) (d : Nat) (inF : Bool) : List (Bool × Cmd) → Nat → Bool → St σ → Out σ → Prop
  | nil {rv x st} : AndOr O e d inF [] rv x st (.done rv x st)
  | skipAnd {c rest rv x st o} : rv ≠ 0 → AndOr O e d inF rest rv true st o → AndOr O e d inF ((true, c) :: rest) rv x st o
  | skipOr {c rest rv x st o} : rv = 0 → AndOr O e d inF rest rv true st o → AndOr O e d inF ((false, c) :: rest) rv x st o
  | goAnd {c rest rv x st rv' x' st' o} : rv = 0 → Ends O c (e || !rest.isEmpty) false x d inF st (.done rv' x' st') →
      AndOr O e d inF rest rv' x' st' o → AndOr O e d inF ((true, c) :: rest) rv x st o
  | goOr {c rest rv x st rv' x' st' o} : rv ≠ 0 → Ends O c (e || !rest.isEmpty) false x d inF st (.done rv' x' st') →
      AndOr O e d inF rest rv' x' st' o → AndOr O e d inF ((false, c) :: rest) rv x st o
  | jumpAnd {c rest rv x st o} : rv = 0 → Ends O c (e || !rest.isEmpty) false x d inF st o → o.isDone = false →
      AndOr O e d inF ((true, c) :: rest) rv x st o
  | jumpOr {c rest rv x st o} : rv ≠ 0 → Ends O c (e || !rest.isEmpty) false x d inF st o → o.isDone = false →
      AndOr O e d inF ((false, c) :: rest) rv x st o

/-! ## Proofs -/

theorem start_start (st : St σ) : start (start st) = start st := by
  unfold start
  split <;> simp_all

theorem run_start (O : Oracle σ) (n) {c : Cmd} (hc : c ≠ .nil) (e xe x d inF st) :
    run O n c e xe x d inF (start st) = run O n c e xe x d inF st := by
  cases n with
  | zero => rfl
  | succ n => rw [run_succ O n hc, run_succ O n hc, start_start]

theorem Ends.start {O : Oracle σ} {c : Cmd} (hc : c ≠ .nil) {e xe x d inF st o} : Ends O c e xe x d inF (start st) o ↔ Ends O c e xe x d inF st o := by
  simp only [Ends, run_start O _ hc]

theorem fin_fin (e : Bool) (o : Out σ) : fin e false (fin e false o) = fin e false o := by
  cases o with
  | done rv x st =>
    simp only [fin, Bool.false_eq_true, if_false]
    by_cases h : rv ≠ 0 ∧ e = false ∧ x = false
    · rw [if_pos h]
      by_cases he : st.ee = true
      · rw [if_pos he]
      · rw [if_neg he]
        simp only
        rw [if_pos h, if_neg he]
    · rw [if_neg h]
      simp only
      rw [if_neg h]
  | _ => rfl

theorem Ends.fin {O : Oracle σ} {c : Cmd} (hc : c ≠ .nil) {e x d inF st o} (h : Ends O c e false x d inF st o) : fin e false o = o := by
  obtain ⟨hf, n, hn⟩ := h
  cases n with
  | zero => exact absurd hn.symm hf
  | succ n => rw [run_succ O n hc] at hn; rw [← hn, fin_fin]

/-- the status is in `$?` -/
theorem fin_exstat {e : Bool} {rv x} {st : St σ} (h : Exec.fin e false (.done rv x st) = .done rv x st) : st.exstat = rv := by
  simp only [Exec.fin, Bool.false_eq_true, if_false] at h
  split at h
  · split at h
    · simp at h
    · simp only [Out.done.injEq, true_and] at h; rw [← h]
  · simp only [Out.done.injEq, true_and] at h; rw [← h]

theorem st_same {st : St σ} {rv} (h : st.exstat = rv) : { st with exstat := rv } = st := by subst h; rfl

/-- The two sides of one operator. -/
theorem andor_node (O : Oracle σ) (b : Bool) (l r : Cmd) (hl : l ≠ .nil) (hr : r ≠ .nil) (e x d inF st o) :
    Ends O (.andor b l r) e false x d inF st o ↔
    ∃ o1, Ends O l true false x d inF st o1 ∧
      (o1.isDone = false ∧ o = o1 ∨
       ∃ rv x' st', o1 = .done rv x' st' ∧
        (((rv == 0) == b) = true ∧ Ends O r e false x' d inF st' o ∨ ((rv == 0) == b) = false ∧ o = .done rv true st')) := by
  have key : ∀ n, run O (n + 1) (.andor b l r) e false x d inF st =
      fin e false (match run O n l true false x d inF st with
        | .done rv x st => if (rv == 0) == b then run O n r e false x d inF st else .done rv true st
        | r => r) := by
    intro n
    rw [run_succ O n (by simp)]
    simp only [body]
    rw [run_start O n hl]
    generalize run O n l true false x d inF st = o
    cases o <;> rfl
  have short : ∀ {rv x' st'}, Ends O l true false x d inF st (.done rv x' st') → fin e false (.done rv true st') = .done rv true st' := by
    intro rv x' st' h
    have := fin_exstat (h.fin hl)
    simp only [fin, Bool.false_eq_true, if_false, Bool.true_eq_false, and_false]
    rw [st_same this]
  constructor
  · rintro ⟨hf, n, hn⟩
    cases n with
    | zero => exact absurd hn.symm hf
    | succ n =>
      rw [key] at hn
      generalize ho : run O n l true false x d inF st = o1 at hn
      cases o1 with
      | done rv x' st' =>
        have he : Ends O l true false x d inF st (.done rv x' st') := ⟨by simp, n, ho⟩
        refine ⟨_, he, .inr ⟨rv, x', st', rfl, ?_⟩⟩
        simp only at hn
        by_cases hb : ((rv == 0) == b) = true
        · rw [if_pos hb] at hn
          generalize ho2 : run O n r e false x' d inF st' = o2 at hn
          cases o2 with
          | fuel => exact absurd hn.symm hf
          | _ =>
            have he2 : Ends O r e false x' d inF st' _ := ⟨by simp, n, ho2⟩
            rw [he2.fin hr] at hn
            exact .inl ⟨hb, hn ▸ he2⟩
        · rw [if_neg hb, short he] at hn
          exact .inr ⟨by simpa using hb, hn.symm⟩
      | fuel => exact absurd hn.symm hf
      | _ => exact ⟨_, ⟨by simp, n, ho⟩, .inl ⟨rfl, hn.symm⟩⟩
  · rintro ⟨o1, h1, h2⟩
    obtain ⟨hf1, n, hn⟩ := id h1
    rcases h2 with ⟨hd, rfl⟩ | ⟨rv, x', st', rfl, ⟨hb, h2⟩ | ⟨hb, rfl⟩⟩
    · refine ⟨hf1, n + 1, ?_⟩
      rw [key, hn]
      cases o with
      | done => simp [Out.isDone] at hd
      | _ => rfl
    · obtain ⟨hf2, m, hm⟩ := id h2
      refine ⟨hf2, max n m + 1, ?_⟩
      rw [key]
      have e1 : run O (max n m) l true false x d inF st = .done rv x' st' := by
        rcases run_mono O (Nat.le_max_left n m) l true false x d inF st with g | g
        · rw [hn] at g; exact absurd g (by simp)
        · rw [g, hn]
      have e2 : run O (max n m) r e false x' d inF st' = o := by
        rcases run_mono O (Nat.le_max_right n m) r e false x' d inF st' with g | g
        · rw [hm] at g; exact absurd g hf2
        · rw [g, hm]
      rw [e1]
      simp only
      rw [if_pos hb, e2, h2.fin hr]
    · refine ⟨by simp, n + 1, ?_⟩
      rw [key, hn]
      simp only
      rw [if_neg (by simp [hb]), short h1]

theorem AndOr.snoc {O : Oracle σ} {e d inF} {p : Bool × Cmd} : ∀ {l : List (Bool × Cmd)} {rv x st o},
    AndOr O e d inF (l ++ [p]) rv x st o ↔
    ∃ o1, AndOr O true d inF l rv x st o1 ∧ (o1.isDone = false ∧ o = o1 ∨ ∃ rv' x' st', o1 = .done rv' x' st' ∧ AndOr O e d inF [p] rv' x' st' o)
  | [], rv, x, st, o => by
    constructor
    · intro h; exact ⟨_, .nil, .inr ⟨_, _, _, rfl, h⟩⟩
    · rintro ⟨o1, h1, h2⟩
      cases h1
      rcases h2 with ⟨hd, rfl⟩ | ⟨rv', x', st', h, h2⟩
      · simp [Out.isDone] at hd
      · simp only [Out.done.injEq] at h; obtain ⟨rfl, rfl, rfl⟩ := h; exact h2
  | (b, c) :: l, rv, x, st, o => by
    have ih := fun rv x st o => AndOr.snoc (O := O) (e := e) (d := d) (inF := inF) (p := p) (l := l) (rv := rv) (x := x) (st := st) (o := o)
    have he : ∀ {o}, Ends O c (e || !(l.append [p]).isEmpty) false x d inF st o ↔ Ends O c (true || !l.isEmpty) false x d inF st o := by
      intro o
      rw [show (e || !(l.append [p]).isEmpty) = (true || !l.isEmpty) by cases l <;> simp]
    constructor
    · intro h
      cases h with
      | skipAnd hz h => obtain ⟨o1, g1, g2⟩ := (ih _ _ _ _).1 h; exact ⟨o1, .skipAnd hz g1, g2⟩
      | skipOr hz h => obtain ⟨o1, g1, g2⟩ := (ih _ _ _ _).1 h; exact ⟨o1, .skipOr hz g1, g2⟩
      | goAnd hz hr h => obtain ⟨o1, g1, g2⟩ := (ih _ _ _ _).1 h; exact ⟨o1, .goAnd hz (he.1 hr) g1, g2⟩
      | goOr hz hr h => obtain ⟨o1, g1, g2⟩ := (ih _ _ _ _).1 h; exact ⟨o1, .goOr hz (he.1 hr) g1, g2⟩
      | jumpAnd hz hr hd => exact ⟨o, .jumpAnd hz (he.1 hr) hd, .inl ⟨hd, rfl⟩⟩
      | jumpOr hz hr hd => exact ⟨o, .jumpOr hz (he.1 hr) hd, .inl ⟨hd, rfl⟩⟩
    · rintro ⟨o1, h1, h2⟩
      cases h1 with
      | skipAnd hz h => exact .skipAnd hz ((ih _ _ _ _).2 ⟨o1, h, h2⟩)
      | skipOr hz h => exact .skipOr hz ((ih _ _ _ _).2 ⟨o1, h, h2⟩)
      | goAnd hz hr h => exact .goAnd hz (he.2 hr) ((ih _ _ _ _).2 ⟨o1, h, h2⟩)
      | goOr hz hr h => exact .goOr hz (he.2 hr) ((ih _ _ _ _).2 ⟨o1, h, h2⟩)
      | jumpAnd hz hr hd =>
        rcases h2 with ⟨_, rfl⟩ | ⟨_, _, _, rfl, _⟩
        · exact .jumpAnd hz (he.2 hr) hd
        · simp [Out.isDone] at hd
      | jumpOr hz hr hd =>
        rcases h2 with ⟨_, rfl⟩ | ⟨_, _, _, rfl, _⟩
        · exact .jumpOr hz (he.2 hr) hd
        · simp [Out.isDone] at hd

@[elab_as_elim]
theorem snocInd {α : Type} {p : List α → Prop} (nil : p []) (append_singleton : ∀ l a, p l → p (l ++ [a])) (l : List α) : p l := by
  rw [← List.reverse_reverse l]
  induction l.reverse with
  | nil => exact nil
  | cons a m ih => rw [List.reverse_cons]; exact append_singleton _ _ ih

theorem andorTree_ne {c : Cmd} (hc : c ≠ .nil) : ∀ rest, andorTree c rest ≠ .nil := by
  intro rest
  induction rest using snocInd with
  | nil => exact hc
  | append_singleton l p _ => simp [andorTree]

/-- **C29**: an and-or list of any length does what the reading from left to right says; in
particular its status is that of the last command run. -/
theorem and_or_left_to_right (O : Oracle σ) (c : Cmd) (hc : c ≠ .nil) (rest : List (Bool × Cmd)) (hr : ∀ p ∈ rest, p.2 ≠ .nil) (e x d inF st o) :
    Ends O (andorTree c rest) e false x d inF st o ↔ AndOr O e d inF ((true, c) :: rest) 0 x st o := by
  induction rest using snocInd generalizing e o with
  | nil =>
    constructor
    · intro h
      cases hd : o.isDone with
      | true =>
        cases o <;> simp [Out.isDone] at hd
        exact .goAnd rfl (by simpa [andorTree] using h) .nil
      | false => exact .jumpAnd rfl (by simpa [andorTree] using h) hd
    · intro h
      cases h with
      | skipAnd hz => exact absurd rfl hz
      | goAnd _ h h' => cases h'; simpa [andorTree] using h
      | jumpAnd _ h => simpa [andorTree] using h
  | append_singleton l p ih =>
    have ih := ih (fun q hq => hr q (by simp [hq]))
    have hp := hr p (by simp)
    have ht : andorTree c (l ++ [p]) = .andor p.1 (andorTree c l) p.2 := by simp [andorTree]
    rw [ht, andor_node O p.1 _ p.2 (andorTree_ne hc l) hp, ← List.cons_append, AndOr.snoc]
    obtain ⟨b, r⟩ := p
    refine exists_congr fun o1 => ?_
    rw [ih true o1]
    refine and_congr_right fun _ => or_congr_right ?_
    refine exists_congr fun rv => exists_congr fun x' => exists_congr fun st' => and_congr_right fun _ => ?_
    constructor
    · rintro (⟨hb, h⟩ | ⟨hb, rfl⟩)
      · cases hd : o.isDone with
        | true =>
          cases o <;> simp [Out.isDone] at hd
          cases b
          · exact .goOr (by simpa using hb) (by simpa using h) .nil
          · exact .goAnd (by simpa using hb) (by simpa using h) .nil
        | false =>
          cases b
          · exact .jumpOr (by simpa using hb) (by simpa using h) hd
          · exact .jumpAnd (by simpa using hb) (by simpa using h) hd
      · cases b
        · exact .skipOr (by simpa using hb) .nil
        · exact .skipAnd (by simpa using hb) .nil
    · intro h
      cases h with
      | skipAnd hz h => cases h; exact .inr ⟨by simpa using hz, rfl⟩
      | skipOr hz h => cases h; exact .inr ⟨by simpa using hz, rfl⟩
      | goAnd hz h h' => cases h'; exact .inl ⟨by simpa using hz, by simpa using h⟩
      | goOr hz h h' => cases h'; exact .inl ⟨by simpa using hz, by simpa using h⟩
      | jumpAnd hz h => exact .inl ⟨by simpa using hz, by simpa using h⟩
      | jumpOr hz h => exact .inl ⟨by simpa using hz, by simpa using h⟩

/-- **C29**: `!` inverts the status, and only that. -/
theorem bang_inverts (O : Oracle σ) (c : Cmd) (hc : c ≠ .nil) (e x d inF st rv x' st') (h : Ends O c true false x d inF st (.done rv x' st')) :
    Ends O (.bang c) e false x d inF st (.done (if rv = 0 then 1 else 0) true { st' with exstat := if rv = 0 then 1 else 0 }) := by
  obtain ⟨hf, n, hn⟩ := h
  refine ⟨by simp, n + 1, ?_⟩
  rw [run_succ O n (by simp)]
  simp only [body]
  rw [run_start O n hc, hn]
  simp [fin]

/-! ## C31 -/

/-- **C31**: the machine of the code, with the environments on its stack and their marks, does
exactly what the structured reading says, where `break n` leaves as many loops as it can up to
`n` and `continue n` resumes the last of them; the environments left behind are the ones found. -/
theorem jumps_structured (O : Oracle σ) (n : Nat) (c : Cmd) (e xe x : Bool) (env : List Env) (hc : Clean env) (st : St σ) :
    exec O n c e xe x env st = embed env (run O n c e xe x (loops env) (inFn env) st) := run_refines O n c e xe x env st hc

/-- **C31**: no jump asks for more loops than there are in the same function, script or child;
with none around, `break` and `continue` come to their end. -/
theorem jumps_stay_inside (O : Oracle σ) (n : Nat) (c : Cmd) (e xe x d inF) (st : St σ) :
    (run O n c e xe x d inF st).Within d := run_within O n c e xe x d inF st

/-- **C31**: a jump never reaches a handler that does not expect it (`internal_errorf`). -/
theorem never_internal_error (O : Oracle σ) (n : Nat) (c : Cmd) (e xe x) (env : List Env) (hc : Clean env) (st : St σ) :
    exec O n c e xe x env st ≠ .bad := by
  rw [jumps_structured O n c e xe x env hc st]
  have hu : ∀ why x env (st : St σ), unwind why x env st ≠ .bad := by
    intros; simp only [unwind]; split <;> simp
  cases run O n c e xe x (loops env) (inFn env) st <;> simp [embed, hu]

/-- A `break` in the body of a loop: the loop ends with status 0 if it is the one meant. -/
theorem break_ends_loop (O : Oracle σ) (n : Nat) (w : Nat) (b : Cmd) (e x d inF) (st : St σ) (f : σ → σ) (l : List (σ → σ))
    (hw : O.words w (start st).w = ((start st).w, f :: l)) (k : Nat) (x' : Bool) (st' : St σ)
    (hb : run O n b e false x (d + 1) inF { start st with w := f (start st).w } = .brk (k + 1) x' st') :
    run O (n + 1) (.for w b) e false x d inF st =
      if k = 0 then .done 0 x' { st' with exstat := 0 } else .brk k x' st' := by
  rw [run_succ O n (by simp)]
  simp only [body, hw, for_, hb]
  cases k with
  | zero => simp [loopEnd, fin]
  | succ k => simp [loopEnd, fin]

/-! ## Examples -/

/-- commands by number: the status of command `a`, except for a few that jump -/
private def demo : Oracle Nat where
  step a _ w :=
    match a with
    | 100 => (w, .brk 1)
    | 101 => (w, .brk 2)
    | 102 => (w, .brk 7)
    | 103 => (w, .cont 2)
    | 104 => (w, .func (.com 101))
    | 105 => (w, .eval [.com 100])
    | a => (w + 1, .status a)
  words k w := (w, List.replicate k id)
  pick _ w := (w, 0)
  merge p _ := p

private def st0 : St Nat := ⟨0, 0, false, false, []⟩
private def logOf (c : Cmd) : List Ev := ((run demo 30 c false false false 0 false st0).st?.map (·.log)).getD []
private def logM (c : Cmd) : Option (Nat × List Ev) :=
  match exec demo 30 c false false false [⟨.parse, false⟩] st0 with
  | .ret rv _ _ st => some (rv, st.log)
  | _ => none

/-- `for 2 { for 2 { break 2; 8 }; 9 }; 10` -/
example : logM (.list [.for 2 (.list [.for 2 (.list [.com 101] (.com 8))] (.com 9))] (.com 0)) = some (0, [.com 101, .com 0]) := by decide +kernel
/-- `break 7` in two loops leaves both. -/
example : logM (.list [.for 2 (.list [.for 2 (.list [.com 102] (.com 8))] (.com 9))] (.com 0)) = some (0, [.com 102, .com 0]) := by decide +kernel
/-- `continue 2` -/
example : logM (.list [.for 2 (.list [.for 2 (.list [.com 103] (.com 8))] (.com 9))] (.com 0)) = some (0, [.com 103, .com 103, .com 0]) := by decide +kernel
/-- A function cannot break the loop it is called in, nor can `eval`. -/
example : logM (.for 1 (.list [.com 104] (.com 0))) = some (0, [.com 104, .com 101, .com 0]) := by decide +kernel
example : logM (.for 1 (.list [.com 105] (.com 0))) = some (0, [.com 105, .com 100, .com 0]) := by decide +kernel
/-- `0 && 3 || 4 && 5 || 0`: the status is that of the last command run. -/
example : logM (andorTree (.com 0) [(true, .com 3), (false, .com 4), (true, .com 5), (false, .com 0)]) =
    some (0, [.com 0, .com 3, .com 4, .com 0]) := by decide +kernel

end Ksh.Exec
