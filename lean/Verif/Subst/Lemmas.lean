import Verif.Subst.Spec
/-!
# The stack machine follows the tree
-/

namespace Ksh.Subst

open Ksh.Glob (Trim debunk)

variable {E : Env}

/-! ## Fields by a machine -/

abbrev Q := Option (List B) × List (List B)

def fstep (E : Env) (q : Q) (t : Tok) : Q :=
  if t.isNote then q
  else if t.delim E then (none, q.2 ++ q.1.toList)
  else (some (q.1.getD [] ++ t.text), q.2)

def fin (q : Q) : List (List B) := q.2 ++ q.1.toList

theorem runs_ne (E : Env) (l : List Tok) : runs E l ≠ [] := by
  cases l with
  | nil => simp [runs]
  | cons t l =>
    rw [runs]
    split
    · simp
    · split <;> simp

theorem fin_fold (E : Env) : ∀ (l : List Tok), (∀ t ∈ l, t.isNote = false) → ∀ (o : List (List B)),
    (∀ r rs, runs E l = r :: rs →
      (∀ cur, fin (l.foldl (fstep E) (some cur, o)) = o ++ (cur ++ text r) :: (rs.filter fun r => !r.isEmpty).map text) ∧
      fin (l.foldl (fstep E) (none, o)) = o ++ ((r :: rs).filter fun r => !r.isEmpty).map text) := by
  intro l
  induction l with
  | nil =>
    intro _ o r rs h
    simp only [runs, List.cons.injEq] at h
    obtain ⟨rfl, rfl⟩ := h
    simp [fin, text]
  | cons t l ih =>
    intro hn o r rs h
    have hnt := hn t (by simp)
    have ih := ih (fun u hu => hn u (List.mem_cons_of_mem _ hu))
    obtain ⟨r', rs', hr⟩ : ∃ r' rs', runs E l = r' :: rs' := by
      cases hh : runs E l with
      | nil => exact absurd hh (runs_ne E l)
      | cons a b => exact ⟨a, b, rfl⟩
    rw [runs] at h
    by_cases hd : t.delim E = true
    · rw [if_pos hd, hr] at h
      simp only [List.cons.injEq] at h
      obtain ⟨rfl, rfl⟩ := h
      have h2 := fun o => (ih o r' rs' hr).2
      refine ⟨fun cur => ?_, ?_⟩
      · rw [List.foldl_cons, show fstep E (some cur, o) t = (none, o ++ [cur]) by simp [fstep, hnt, hd], h2]
        simp [text]
      · rw [List.foldl_cons, show fstep E (none, o) t = (none, o) by simp [fstep, hnt, hd], h2]
        simp
    · rw [if_neg hd, hr] at h
      simp only [List.cons.injEq] at h
      obtain ⟨rfl, rfl⟩ := h
      have h2 := fun o => (ih o r' rs' hr).1
      refine ⟨fun cur => ?_, ?_⟩
      · rw [List.foldl_cons, show fstep E (some cur, o) t = (some (cur ++ t.text), o) by simp [fstep, hnt, hd], h2]
        simp [text]
      · rw [List.foldl_cons, show fstep E (none, o) t = (some t.text, o) by simp [fstep, hnt, hd], h2]
        simp [text]

theorem foldl_notes (E : Env) : ∀ (l : List Tok) (q : Q), (l.filter fun t => !t.isNote).foldl (fstep E) q = l.foldl (fstep E) q
  | [], q => rfl
  | t :: l, q => by
    by_cases h : t.isNote = true
    · rw [List.filter_cons_of_neg (by simp [h]), List.foldl_cons, show fstep E q t = q by simp [fstep, h]]
      exact foldl_notes E l q
    · rw [List.filter_cons_of_pos (by simpa using h), List.foldl_cons, List.foldl_cons]
      exact foldl_notes E l _

theorem fields_fin (E : Env) (l : List Tok) : fields E l = fin (l.foldl (fstep E) (none, [])) := by
  rw [← foldl_notes]
  unfold fields
  obtain ⟨r, rs, hr⟩ : ∃ r rs, runs E (l.filter fun t => !t.isNote) = r :: rs := by
    cases hh : runs E (l.filter fun t => !t.isNote) with
    | nil => exact absurd hh (runs_ne E _)
    | cons a b => exact ⟨a, b, rfl⟩
  rw [(fin_fold E _ (by intro t ht; simpa using (List.mem_filter.1 ht).2) [] r rs hr).2, hr]
  rfl

/-- The notes are harmless: no word is entered and no empty value cut off when the field begun is empty (which
only quotes can make), no value made by `=`, `#` or `%` begins with white space when a field has begun, and
none made by `=` is empty unless one has. -/
def Ok (E : Env) : Q → List Tok → Prop
  | _, [] => True
  | q, t :: l => (match t with
      | .enter => q.1 ≠ some []
      | .anull => q.1 ≠ none
      | .val => q.1 = none ∨ ∀ u, l.head? = some u → u.delim E = false
      | _ => True) ∧ Ok E (fstep E q t) l

theorem Ok.append {q : Q} {a b : List Tok} (h : Ok E q (a ++ b)) : Ok E q a ∧ Ok E (a.foldl (fstep E) q) b := by
  induction a generalizing q with
  | nil => exact ⟨trivial, h⟩
  | cons t a ih =>
    obtain ⟨h1, h2⟩ := h
    obtain ⟨h3, h4⟩ := ih h2
    refine ⟨⟨?_, h3⟩, h4⟩
    cases t <;> first | exact h1 | skip
    rcases h1 with h1 | h1
    · exact Or.inl h1
    · refine Or.inr fun u hu => h1 u ?_
      cases a with
      | nil => simp at hu
      | cons x a => simpa using hu

/-! ## States -/

structure R (s : St) (q : Q) : Prop where
  out : s.out = q.2
  st : (s.word = .word ∧ q.1 = some s.ds) ∨ (s.word = .quote ∧ s.ds = [] ∧ q.1 = some []) ∨ ((s.word = .ws ∨ s.word = .iws) ∧ s.ds = [] ∧ q.1 = none)
  quote : s.quote = true → q.1 ≠ none

def WsIfs (E : Env) : Prop := ∀ c, E.ifs c = true → ws c = true

structure Same (s s' : St) : Prop where
  quote : s'.quote = s.quote
  f : s'.f = s.f
  doblank : s'.doblank = s.doblank
  stack : s'.stack = s.stack

structure Flat (s : St) (t : List B) (s' : St) : Prop where
  ds : s'.ds = s.ds ++ t
  inv : (s.ds ≠ [] → s.word = .word) → s'.ds ≠ [] → s'.word = .word
  out : s.word ≠ .nws → s'.out = s.out ∧ s'.word ≠ .nws

/-- After a piece with this meaning. -/
structure Post (E : Env) (s : St) (t : List Tok) (w' : World) (s' : St) : Prop where
  w : s'.w = w'
  same : Same s s'
  flat : s.f.blank = false → Flat s (text t) s'
  split : s.f.blank = true → WsIfs E → ∀ q, R s q → Ok E q t → R s' (t.foldl (fstep E) q)

theorem Same.refl (s : St) : Same s s := ⟨rfl, rfl, rfl, rfl⟩
theorem Same.trans {a b c : St} (h : Same a b) (k : Same b c) : Same a c :=
  ⟨k.1.trans h.1, k.2.trans h.2, k.3.trans h.3, k.4.trans h.4⟩

theorem Flat.trans {a b c : St} {t u : List B} (h : Flat a t b) (k : Flat b u c) : Flat a (t ++ u) c := by
  refine ⟨by rw [k.ds, h.ds, List.append_assoc], fun hi => k.inv (h.inv hi), ?_⟩
  intro ha
  obtain ⟨h1, h2⟩ := h.out ha
  obtain ⟨h3, h4⟩ := k.out h2
  exact ⟨h3.trans h1, h4⟩

theorem Post.trans {a b c : St} {t u : List Tok} {w1 w2 : World} (h : Post E a t w1 b) (k : Post E b u w2 c) : Post E a (t ++ u) w2 c := by
  refine ⟨k.w, h.same.trans k.same, ?_, ?_⟩
  · intro hf
    have := (h.flat hf).trans (k.flat (by rw [h.same.f]; exact hf))
    simpa [text] using this
  · intro hf hw q hr hok
    obtain ⟨h1, h2⟩ := hok.append
    rw [List.foldl_append]
    exact k.split (by rw [h.same.f]; exact hf) hw _ (h.split hf hw q hr h1) h2

/-- Ends with this error. -/
def Ends (E : Env) (e : Err) (w : World) (r : Res) : Prop := r = .error e w ∨ r = .over ∧ e.long E

/-- Executing these codes from this state has this meaning. -/
def Exec (E : Env) (h : List Code) (s : St) : Den → Prop
  | .error (e, w) => ∀ X, run E (h ++ X) s = .wide ∨ Ends E e w (run E (h ++ X) s)
  | .ok (t, w') => (∀ X, run E (h ++ X) s = .wide) ∨ ∃ s', (∀ X, run E (h ++ X) s = run E X s') ∧ Post E s t w' s'

def ctx (s : St) : Ctx := ⟨s.f, s.quote, decide (0 < s.doblank)⟩

theorem Same.ctx {s s' : St} (h : Same s s') : ctx s' = ctx s := by
  unfold Subst.ctx; rw [h.f, h.quote, h.doblank]

theorem Exec.seq {h k : List Code} {s : St} {a : Den} {f : World → Den} (h1 : Exec E h s a)
    (h2 : ∀ s1, Same s s1 → Exec E k s1 (f s1.w)) : Exec E (h ++ k) s (a.seq f) := by
  match a, h1 with
  | .error (e, w), h1 =>
    intro X
    rw [List.append_assoc]
    exact h1 _
  | .ok (t, w1), h1 =>
    rcases h1 with h1 | ⟨s1, hr, hp⟩
    · have hw : ∀ X, run E (h ++ k ++ X) s = .wide := fun X => by rw [List.append_assoc]; exact h1 _
      unfold Den.seq
      simp only
      generalize f w1 = d
      match d with
      | .error (e, w) => exact fun X => Or.inl (hw X)
      | .ok (t', w') => exact Or.inl hw
    · have h2 := h2 s1 hp.same
      rw [hp.w] at h2
      unfold Den.seq
      simp only
      revert h2
      generalize f w1 = d
      match d with
      | .error (e, w) =>
        intro h2 X
        rw [List.append_assoc, hr]
        exact h2 X
      | .ok (t', w') =>
        intro h2
        rcases h2 with h2 | ⟨s2, hr2, hp2⟩
        · exact Or.inl fun X => by rw [List.append_assoc, hr]; exact h2 X
        · exact Or.inr ⟨s2, fun X => by rw [List.append_assoc, hr]; exact hr2 X, hp.trans hp2⟩

theorem run_cons (E : Env) (c : Code) (r : List Code) (s : St) : run E (c :: r) s = match step E c r s with
    | .stop res => res
    | .go d s' => run E (d.app r) s' := by
  rw [run]
  cases step E c r s <;> rfl

theorem Exec.one {c : Code} {s s' : St} {t : List Tok} {w' : World} (h : ∀ r, step E c r s = .go .none s') (hp : Post E s t w' s') :
    Exec E [c] s (.ok (t, w')) :=
  Or.inr ⟨s', fun X => by rw [List.cons_append, run_cons, h]; rfl, hp⟩

/-! ## Characters -/

theorem put_same (split q fresh : Bool) (s : St) (c : B) : Same s (put E split q fresh s c).1 ∧ (put E split q fresh s c).1.w = s.w := by
  unfold put
  split
  · dsimp only
    split <;> split <;> exact ⟨⟨rfl, rfl, rfl, rfl⟩, rfl⟩
  · dsimp only
    split <;> exact ⟨⟨rfl, rfl, rfl, rfl⟩, rfl⟩

theorem puts_same : ∀ (v : List B) (fresh : Bool) (s : St), Same s (puts E fresh v s) ∧ (puts E fresh v s).w = s.w
  | [], _, s => ⟨Same.refl s, rfl⟩
  | c :: v, fresh, s => by
    rw [puts]
    obtain ⟨h1, h2⟩ := put_same (E := E) (splits s) s.quote fresh s c
    obtain ⟨h3, h4⟩ := puts_same v (put E (splits s) s.quote fresh s c).2 (put E (splits s) s.quote fresh s c).1
    exact ⟨h1.trans h3, h4.trans h2⟩

theorem code_ne (f : F) (q : Bool) (c : B) : code f q c ≠ [] := by
  unfold code
  split
  · simp
  · split <;> simp

/-- A character that does not split. -/
theorem put_flat (split q fresh : Bool) (s : St) (c : B) (h : (split && E.ifs c) = false) : Flat s (code s.f q c) (put E split q fresh s c).1 := by
  unfold put
  rw [h]
  simp only [Bool.false_eq_true, if_false]
  refine ⟨?_, fun _ _ => rfl, ?_⟩
  · dsimp only; split <;> rfl
  · intro hn
    dsimp only
    rw [if_neg (by simp [hn])]
    exact ⟨rfl, by simp⟩

theorem splits_flat {s : St} (h : s.f.blank = false) : splits s = false := by simp [splits, h]

theorem puts_flat : ∀ (v : List B) (fresh : Bool) (s : St), s.f.blank = false → Flat s (v.flatMap (code s.f s.quote)) (puts E fresh v s)
  | [], _, s, _ => ⟨by simp [puts], fun h => h, fun h => ⟨rfl, h⟩⟩
  | c :: v, fresh, s, hb => by
    rw [puts]
    obtain ⟨h1, -⟩ := put_same (E := E) (splits s) s.quote fresh s c
    have h2 := put_flat (E := E) (splits s) s.quote fresh s c (by rw [splits_flat hb]; rfl)
    have h3 := puts_flat v (put E (splits s) s.quote fresh s c).2 (put E (splits s) s.quote fresh s c).1 (by rw [h1.f]; exact hb)
    rw [h1.f, h1.quote] at h3
    rw [List.flatMap_cons]
    exact h2.trans h3

/-- A character that does not split. -/
theorem R.plain {s : St} {q : Q} (h : R s q) (split qt fresh : Bool) (c : B) (hs : (split && E.ifs c) = false) :
    R (put E split qt fresh s c).1 (some (q.1.getD [] ++ code s.f qt c), q.2) := by
  have hn : s.word ≠ .nws := by
    rcases h.st with ⟨h, _⟩ | ⟨h, _⟩ | ⟨h | h, _⟩ <;> rw [h] <;> simp
  unfold put
  rw [hs]
  simp only [Bool.false_eq_true, if_false]
  rw [if_neg (by simp [hn])]
  refine ⟨h.out, Or.inl ⟨rfl, ?_⟩, fun _ => by simp⟩
  rcases h.st with ⟨_, h2⟩ | ⟨_, h2, h3⟩ | ⟨_, h2, h3⟩
  · rw [h2]; rfl
  · rw [h3, h2]; rfl
  · rw [h3, h2]; rfl

/-- IFS white space. -/
theorem R.blank {s : St} {q : Q} (h : R s q) (qt fresh : Bool) (c : B) (hi : E.ifs c = true) (hw : ws c = true) (hq : s.quote = false) :
    R (put E true qt fresh s c).1 (none, q.2 ++ q.1.toList) := by
  unfold put
  simp only [Bool.true_and, hi, if_true, hw]
  rcases h.st with ⟨h1, h2⟩ | ⟨h1, h2, h3⟩ | ⟨h1 | h1, h2, h3⟩
  · simp only [h1, true_or, if_true, ne_eq, reduceCtorEq, not_false_eq_true]
    exact ⟨by rw [h2]; simp [emit, h.out], Or.inr (Or.inr ⟨Or.inl rfl, rfl, rfl⟩), by simp [emit, hq]⟩
  · simp only [h1, true_or, or_true, if_true, ne_eq, reduceCtorEq, not_false_eq_true]
    exact ⟨by rw [h3]; simp [emit, h.out, h2], Or.inr (Or.inr ⟨Or.inl rfl, rfl, rfl⟩), by simp [emit, hq]⟩
  · simp only [h1, reduceCtorEq, Bool.true_eq_false, and_false, or_self, if_false, ne_eq, not_false_eq_true, if_true]
    exact ⟨by rw [h3]; simp [h.out], Or.inr (Or.inr ⟨Or.inl rfl, h2, rfl⟩), by simp [hq]⟩
  · simp only [h1, reduceCtorEq, Bool.true_eq_false, and_false, or_self, if_false, ne_eq, not_false_eq_true, if_true]
    exact ⟨by rw [h3]; simp [h.out], Or.inr (Or.inr ⟨Or.inl rfl, h2, rfl⟩), by simp [hq]⟩

theorem put_split {s : St} {q : Q} (h : R s q) (hw : WsIfs E) (fresh : Bool) (c : B) :
    R (put E (splits s) s.quote fresh s c).1 (fstep E q (lit (ctx s) c)) := by
  have hsp : (s.f.blank && decide (0 < s.doblank) && !s.quote) = splits s := by
    unfold splits; cases s.quote <;> cases s.f.blank <;> simp
  by_cases hd : (splits s && E.ifs c) = true
  · have hq : s.quote = false := by
      simp only [splits, Bool.and_eq_true, Bool.not_eq_true'] at hd
      exact hd.1.1.1
    have h1 : splits s = true := by simp only [Bool.and_eq_true] at hd; exact hd.1
    have h2 : E.ifs c = true := by simp only [Bool.and_eq_true] at hd; exact hd.2
    rw [show fstep E q (lit (ctx s) c) = (none, q.2 ++ q.1.toList) by simp [fstep, lit, ctx, Tok.isNote, Tok.delim, hsp, hd], h1]
    exact h.blank s.quote fresh c h2 (hw c h2) hq
  · have hd' : (splits s && E.ifs c) = false := by simpa using hd
    rw [show fstep E q (lit (ctx s) c) = (some (q.1.getD [] ++ code s.f s.quote c), q.2) by simp [fstep, lit, ctx, Tok.isNote, Tok.delim, Tok.text, hsp, hd']]
    exact h.plain (splits s) s.quote fresh c hd'

theorem puts_split (hw : WsIfs E) : ∀ (v : List B) (fresh : Bool) (s : St) (q : Q), R s q → 
    R (puts E fresh v s) ((v.map (lit (ctx s))).foldl (fstep E) q)
  | [], _, s, q, h => h
  | c :: v, fresh, s, q, h => by
    rw [puts, List.map_cons, List.foldl_cons]
    have h1 := put_split h hw fresh c
    obtain ⟨h2, -⟩ := put_same (E := E) (splits s) s.quote fresh s c
    have h3 := puts_split hw v (put E (splits s) s.quote fresh s c).2 _ _ h1
    rw [h2.ctx] at h3
    exact h3

theorem text_value (C : Ctx) (v : List B) : text (value C v) = v.flatMap (code C.f C.quote) := by
  unfold text value
  rw [List.flatMap_map]
  rfl

/-- Inside an expansion. -/
theorem ctx_inc (s : St) (h : s.f.blank = true) : ctx (inc s) = { ctx s with inn := true } := by
  simp [ctx, inc, h]

theorem value_flat (C : Ctx) (s : St) (hf : C.f = s.f) (hq : C.quote = s.quote) (v : List B) : text (value C v) = v.flatMap (code s.f s.quote) := by
  rw [text_value, hf, hq]

theorem dec_inc_same (s s' : St) (h : Same (inc s) s') : Same s (dec s') := by
  obtain ⟨h1, h2, h3, h4⟩ := h
  unfold inc at h1 h2 h3 h4
  unfold dec
  cases hb : s.f.blank with
  | false =>
    rw [hb] at h1 h2 h3 h4
    simp only [Bool.false_eq_true, if_false] at h1 h2 h3 h4
    rw [h2, hb]
    exact ⟨h1, h2, h3, h4⟩
  | true =>
    rw [hb] at h1 h2 h3 h4
    simp only [if_true] at h1 h2 h3 h4
    rw [h2, hb]
    simp only [if_true]
    refine ⟨h1, rfl, ?_, h4⟩
    simp only [h3]
    omega

theorem dec_R {s : St} {q : Q} (h : R s q) : R (dec s) q := by
  unfold dec
  split
  · exact ⟨h.out, h.st, h.quote⟩
  · exact h

theorem dec_flat {a s : St} {t : List B} (h : Flat a t s) : Flat a t (dec s) := by
  unfold dec
  split
  · exact ⟨h.ds, h.inv, h.out⟩
  · exact h

theorem dec_w (s : St) : (dec s).w = s.w := by unfold dec; split <;> rfl
theorem inc_w (s : St) : (inc s).w = s.w := by unfold inc; split <;> rfl

/-- A value after a state with `doblank` counted up. -/
theorem value_post {s s1 : St} (hs : Same (inc s) s1) (hds : s1.ds = s.ds) (hout : s1.out = s.out)
    (hflat : s.f.blank = false → (s1.word = s.word ∨ s1.word = .word)) (hR : s.f.blank = true → ∀ q, R s q → R s1 q) (fresh : Bool) (v : List B) :
    Post E s (value (ctx s) v) s1.w (dec (puts E fresh v s1)) := by
  obtain ⟨p1, p2⟩ := puts_same (E := E) v fresh s1
  have hf1 : s1.f = s.f := by rw [hs.f]; unfold inc; split <;> rfl
  have hq1 : s1.quote = s.quote := by rw [hs.quote]; unfold inc; split <;> rfl
  refine ⟨by rw [dec_w, p2], dec_inc_same _ _ (hs.trans p1), ?_, ?_⟩
  · intro hb
    have h := puts_flat (E := E) v fresh s1 (by rw [hf1]; exact hb)
    apply dec_flat
    rw [value_flat (ctx s) s rfl rfl, ← hf1, ← hq1]
    refine ⟨by rw [h.ds, hds], ?_, ?_⟩
    · intro hi
      refine h.inv fun hd => ?_
      rcases hflat hb with h3 | h3
      · rw [h3]; exact hi (by rw [← hds]; exact hd)
      · exact h3
    · intro hn
      have : s1.word ≠ .nws := by rcases hflat hb with h3 | h3 <;> rw [h3] <;> simp [hn]
      obtain ⟨h4, h5⟩ := h.out this
      exact ⟨by rw [h4, hout], h5⟩
  · intro hb hw q hr _
    apply dec_R
    have h := puts_split hw v fresh s1 q (hR hb q hr)
    rw [hs.ctx, ctx_inc s hb] at h
    exact h

/-- `IFS_QUOTE` becomes `IFS_WORD`. -/
def unq (s : St) : St := if s.word = .quote then { s with word := .word } else s

theorem unq_spec (s : St) : Same s (unq s) ∧ (unq s).ds = s.ds ∧ (unq s).out = s.out ∧ ((unq s).word = s.word ∨ (unq s).word = .word) ∧ (unq s).w = s.w ∧
    ∀ q, R s q → R (unq s) q := by
  unfold unq
  split
  · rename_i h
    refine ⟨⟨rfl, rfl, rfl, rfl⟩, rfl, rfl, Or.inr rfl, rfl, ?_⟩
    intro q hr
    refine ⟨hr.out, ?_, hr.quote⟩
    rcases hr.st with ⟨h1, h2⟩ | ⟨h1, h2, h3⟩ | ⟨h1 | h1, h2, h3⟩
    · rw [h] at h1; cases h1
    · exact Or.inl ⟨rfl, by rw [h3]; exact congrArg some h2.symm⟩
    · rw [h] at h1; cases h1
    · rw [h] at h1; cases h1
  · exact ⟨Same.refl s, rfl, rfl, Or.inl rfl, rfl, fun q h => h⟩

theorem inc_spec (s : St) : (inc s).ds = s.ds ∧ (inc s).out = s.out ∧ (inc s).word = s.word ∧ (inc s).f = s.f ∧ (inc s).quote = s.quote ∧ (inc s).stack = s.stack ∧ ∀ q, R s q → R (inc s) q := by
  unfold inc
  split
  · exact ⟨rfl, rfl, rfl, rfl, rfl, rfl, fun q h => ⟨h.out, h.st, h.quote⟩⟩
  · exact ⟨rfl, rfl, rfl, rfl, rfl, rfl, fun q h => h⟩

/-! ## Skipping words -/

theorem skip_compile (w : Wd) : ∀ (n : Nat) (X : List Code), skip n (compile w ++ X) = skip n X := by
  have hc : ∀ (op : Op) (n : Nat) (Y : List Code), skip n (opCodes op ++ Y) = skip n Y := by
    intro op n Y
    cases op with
    | trim t => cases t <;> simp [opCodes, skip]
    | _ => simp [opCodes, skip]
  have hco : ∀ (b : Bool) (n : Nat) (Y : List Code), skip n (colonCodes b ++ Y) = skip n Y := by
    intro b n Y
    cases b <;> simp [colonCodes, skip]
  induction w with
  | nil => intro n X; rfl
  | char c r ih => intro n X; simp [compile, skip, ih]
  | qchar c r ih => intro n X; simp [compile, skip, ih]
  | quoted w r ih1 ih2 => intro n X; simp [compile, skip, ih1, ih2]
  | com k r ih => intro n X; simp [compile, skip, ih]
  | arith k r ih => intro n X; simp [compile, skip, ih]
  | sub len x r ih => intro n X; simp [compile, skip, ih]
  | cond x colon op w r ih1 ih2 => intro n X; simp [compile, skip, ih1, ih2, hc, hco]
  | group c w r ih1 ih2 => intro n X; simp [compile, skip, ih1, ih2]
  | bar r ih => intro n X; simp [compile, skip, ih]

theorem skip_cond (colon : Bool) (op : Op) (w : Wd) (X : List Code) : skip 0 (colonCodes colon ++ (opCodes op ++ (compile w ++ .csubst :: X))) = X := by
  have h := skip_compile (.cond 0 colon op w .nil) 0 X
  have h2 : skip 0 (compile (.cond 0 colon op w .nil) ++ X) = skip 1 (colonCodes colon ++ (opCodes op ++ (compile w ++ .csubst :: X))) := by
    simp [compile, skip]
  have e1 : ∀ n (Y : List Code), skip n (colonCodes colon ++ Y) = skip n Y := by
    intro n Y; cases colon <;> simp [colonCodes, skip]
  have e2 : ∀ n (Y : List Code), skip n (opCodes op ++ Y) = skip n Y := by
    intro n Y
    cases op with
    | trim t => cases t <;> simp [opCodes, skip]
    | _ => simp [opCodes, skip]
  rw [e1, e2, skip_compile]
  rfl

/-- The action `varsub` finds: `:` does not count for trims. -/
theorem qualifier_codes (colon : Bool) (op : Op) (w : Wd) (X : List Code) (h : okShort op w) :
    qualifier (colonCodes colon ++ (opCodes op ++ (compile w ++ .csubst :: X))) =
      some (some (match op with | .trim _ => false | _ => colon, op), (colonCodes colon).length + (opCodes op).length) := by
  have hh : ∀ c, (∀ r, w ≠ .char c r) → (compile w ++ .csubst :: X).head? ≠ some (.char c) := by
    intro c hw
    cases w <;> simp only [compile, List.nil_append, List.cons_append, List.head?_cons, ne_eq, Option.some.injEq, reduceCtorEq, not_false_eq_true, Code.char.injEq]
    rintro rfl
    exact hw _ rfl
  cases op with
  | trim t =>
    cases t with
    | prefixShort =>
      have := hh 35 (by rintro r rfl; exact h rfl)
      rw [List.head?_append] at this
      cases colon <;> simp [qualifier, colonCodes, opCodes] <;> simpa using this
    | suffixShort =>
      have := hh 37 (by rintro r rfl; exact h rfl)
      rw [List.head?_append] at this
      cases colon <;> simp [qualifier, colonCodes, opCodes] <;> simpa using this
    | prefixLong => cases colon <;> simp [qualifier, colonCodes, opCodes]
    | suffixLong => cases colon <;> simp [qualifier, colonCodes, opCodes]
  | _ => cases colon <;> simp [qualifier, colonCodes, opCodes]

end Ksh.Subst
