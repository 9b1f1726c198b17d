import Verif.Subst.Lemmas
/-!
# Every word is executed as its tree says
-/

namespace Ksh.Subst

open Ksh.Glob (Trim debunk)

variable {E : Env}

/-- The context belongs to the state. -/
structure Match (C : Ctx) (s : St) : Prop where
  f : C.f = s.f
  quote : C.quote = s.quote
  inn : s.f.blank = true → C.inn = decide (0 < s.doblank)

theorem Match.same {C : Ctx} {s s' : St} (h : Match C s) (k : Same s s') : Match C s' :=
  ⟨h.f.trans k.f.symm, h.quote.trans k.quote.symm, fun hb => by rw [k.doblank]; exact h.inn (by rw [← k.f]; exact hb)⟩

theorem Match.ctx {C : Ctx} {s : St} (h : Match C s) (hb : s.f.blank = true) : C = ctx s := by
  cases C
  obtain ⟨h1, h2, h3⟩ := h
  simp only at h1 h2 h3
  unfold Subst.ctx
  rw [h1, h2, h3 hb]

theorem Exec.nil (s : St) : Exec E [] s (.ok ([], s.w)) :=
  Or.inr ⟨s, fun _ => rfl, rfl, Same.refl s, fun _ => ⟨by simp [text], fun h => h, fun h => ⟨rfl, h⟩⟩, fun _ _ _ h _ => h⟩

theorem raw_post {s : St} (v : List B) (w : World) : Post E s [.raw v] w { s with w := w, ds := s.ds ++ v, word := .word } := by
  refine ⟨rfl, ⟨rfl, rfl, rfl, rfl⟩, fun _ => ⟨by simp [text, Tok.text], fun _ _ => rfl, fun h => ⟨rfl, by simp⟩⟩, ?_⟩
  intro _ _ q hr _
  refine ⟨hr.out, Or.inl ⟨rfl, ?_⟩, fun _ => by simp [fstep, Tok.isNote, Tok.delim]⟩
  rcases hr.st with ⟨_, h⟩ | ⟨_, h1, h2⟩ | ⟨_, h1, h2⟩
  · simp [fstep, Tok.isNote, Tok.delim, Tok.text, h]
  · simp [fstep, Tok.isNote, Tok.delim, Tok.text, h1, h2]
  · simp [fstep, Tok.isNote, Tok.delim, Tok.text, h1, h2]

theorem char_post {C : Ctx} {s : St} (h : Match C s) (c : B) : Post E s [lit C c] s.w (put E (splits s) s.quote false s c).1 := by
  obtain ⟨h1, h2⟩ := put_same (E := E) (splits s) s.quote false s c
  refine ⟨h2, h1, ?_, ?_⟩
  · intro hb
    have := put_flat (E := E) (splits s) s.quote false s c (by rw [splits_flat hb]; rfl)
    simpa [text, Tok.text, lit, h.f, h.quote] using this
  · intro hb hw q hr _
    rw [h.ctx hb]
    exact put_split hr hw false c

theorem qchar_post {C : Ctx} {s : St} (h : Match C s) (c : B) : Post E s [.c c (code C.f true c) false] s.w (put E false true false s c).1 := by
  obtain ⟨h1, h2⟩ := put_same (E := E) false true false s c
  refine ⟨h2, h1, ?_, ?_⟩
  · intro hb
    have := put_flat (E := E) false true false s c rfl
    simpa [text, Tok.text, h.f] using this
  · intro hb hw q hr _
    have := hr.plain (E := E) false true false c rfl
    simpa [fstep, Tok.isNote, Tok.delim, Tok.text, h.f] using this

theorem value_ctx {C : Ctx} {s : St} (h : Match C s) (v : List B) : value C v = value (ctx s) v ∨ s.f.blank = false := by
  by_cases hb : s.f.blank = true
  · exact Or.inl (by rw [h.ctx hb])
  · exact Or.inr (by simpa using hb)

/-- A value in another context that differs only where nothing is split. -/
theorem Post.value {C : Ctx} {s s' : St} {pre : List Tok} {v : List B} {w : World} (h : Match C s)
    (hp : Post E s (pre ++ value (Subst.ctx s) v) w s') : Post E s (pre ++ Subst.value C v) w s' := by
  rcases value_ctx h v with hc | hb
  · rw [hc]; exact hp
  · refine ⟨hp.w, hp.same, ?_, fun hb2 => by rw [hb] at hb2; cases hb2⟩
    intro hb2
    have := hp.flat hb2
    have he : text (pre ++ Subst.value C v) = text (pre ++ Subst.value (Subst.ctx s) v) := by
      have e : ∀ l, text (pre ++ l) = text pre ++ text l := fun l => by simp [text]
      rw [e, e, text_value, text_value, h.f, h.quote]
      rfl
    rw [he]
    exact this

theorem quote_same {s : St} : s.quote = (ctx s).quote := rfl

theorem oquote_post {s : St} (h : s.quote = false) {t : List Tok} {w : World} {s' : St}
    (hp : Post E { s with quote := true, word := match s.word with | .quote => .word | .word => .word | _ => .quote } t w s') :
    Post E s (.mark :: t) w { s' with quote := false } := by
  obtain ⟨hw, hs, hf, hsp⟩ := hp
  refine ⟨hw, ⟨h.symm, hs.f, hs.doblank, hs.stack⟩, ?_, ?_⟩
  · intro hb
    obtain ⟨f1, f2, f3⟩ := hf hb
    refine ⟨by simpa [text, Tok.text] using f1, ?_, ?_⟩
    · exact fun hi => f2 fun hd => by rw [show ({ s with quote := true, word := match s.word with | .quote => .word | .word => .word | _ => .quote } : St).word = _ from rfl, hi hd]
    · intro hn
      exact f3 (by cases hw' : s.word <;> simp)
  · intro hb hwi q hr hok
    have hq : fstep E q .mark = (some (q.1.getD []), q.2) := by simp [fstep, Tok.isNote, Tok.delim, Tok.text]
    have hok2 := hok.2
    rw [List.foldl_cons]
    have := hsp hb hwi (fstep E q .mark) ?_ hok2
    · exact ⟨this.out, this.st, by simp⟩
    · rw [hq]
      refine ⟨hr.out, ?_, by simp⟩
      rcases hr.st with ⟨h1, h2⟩ | ⟨h1, h2, h3⟩ | ⟨h1 | h1, h2, h3⟩
      · exact Or.inl ⟨by simp [h1], by simp [h2]⟩
      · exact Or.inl ⟨by simp [h1], by simp [h2, h3]⟩
      · exact Or.inr (Or.inl ⟨by simp [h1], h2, by simp [h3]⟩)
      · exact Or.inr (Or.inl ⟨by simp [h1], h2, by simp [h3]⟩)

/-! ## Substitutions -/

/-- The codes of a substitution before its word. -/
def head (x : Nm) (colon : Bool) (op : Op) (Y : List Code) : List Code := .osubst false x :: (colonCodes colon ++ (opCodes op ++ Y))

theorem run_value {x : Nm} {len : Bool} {Z X : List Code} {s : St} {v : List B} (h : varsub E s.w len x Z = .value v) (hs : skip 0 Z = X) :
    run E (.osubst len x :: Z) s = run E X (dec (puts E true v (unq (inc s)))) := by
  rw [run_cons]
  simp only [step, h, Drop.app, hs]
  rfl

theorem run_enter {x : Nm} {colon : Bool} {op : Op} {w : Wd} {X : List Code} {s : St}
    (h : varsub E s.w false x (colonCodes colon ++ (opCodes op ++ (compile w ++ .csubst :: X))) = .expand op ((colonCodes colon).length + (opCodes op).length)) :
    run E (head x colon op (compile w ++ .csubst :: X)) s =
      if op.usesBase = true ∧ 32768 ≤ s.ds.length then .wide else run E (compile w ++ .csubst :: X) (entered op x (unq (inc s))) := by
  have hd : (unq (inc s)).ds = s.ds := by rw [(unq_spec _).2.1, (inc_spec s).1]
  unfold head
  rw [run_cons]
  simp only [step, h]
  rw [show (if (inc s).word = .quote then { inc s with word := .word } else inc s) = unq (inc s) from rfl]
  unfold enter
  rw [hd]
  by_cases hc : op.usesBase = true ∧ 32768 ≤ s.ds.length
  · rw [if_pos hc, if_pos hc]
  · rw [if_neg hc, if_neg hc]
    simp only [Drop.app]
    rw [← List.append_assoc, ← List.length_append, List.drop_left]

theorem run_leave {s : St} {fr : Frame} {st : List Frame} {X : List Code} (h : s.stack = fr :: st) :
    run E (.csubst :: X) s = match leave E fr st s with | .stop r => r | .go d s' => run E (d.app X) s' := by
  rw [run_cons]
  simp only [step, h]
  cases leave E fr st s <;> rfl

theorem varsub_cond {w : World} {x : Nm} {colon : Bool} {op : Op} {u : Wd} {X : List Code} (h : okShort op u) :
    varsub E w false x (colonCodes colon ++ (opCodes op ++ (compile u ++ .csubst :: X))) =
      match op with
      | .assign => if E.assignable x = false then .fail .bad else if absent colon (w.vars x) = true then .expand .assign ((colonCodes colon).length + (opCodes .assign).length) else .value ((w.vars x).getD [])
      | .plus => if absent colon (w.vars x) = true then .value ((w.vars x).getD []) else .expand .plus ((colonCodes colon).length + (opCodes .plus).length)
      | .trim T => if E.nounset = true ∧ w.vars x = none then .fail (.unset x) else .expand (.trim T) ((colonCodes colon).length + (opCodes (.trim T)).length)
      | op => if absent colon (w.vars x) = true then .expand op ((colonCodes colon).length + (opCodes op).length) else .value ((w.vars x).getD []) := by
  have ha : (if colon = true then (w.vars x).getD [] = [] else w.vars x = none) ↔ absent colon (w.vars x) = true := by
    unfold absent
    cases colon <;> cases w.vars x <;> simp
  unfold varsub
  simp only [Bool.false_eq_true, if_false]
  rw [qualifier_codes colon op u X h]
  cases op <;> simp only [Option.map_some, Option.some.injEq, reduceCtorEq, false_and, if_false, true_and, ha]

/-- The rest of the state while a value is put. -/
theorem val_exec {C : Ctx} {s : St} {h : List Code} (hm : Match C s) (v : List B) (hr : ∀ X, run E (h ++ X) s = run E X (dec (puts E true v (unq (inc s))))) :
    Exec E h s (.ok (value C v, s.w)) := by
  refine Or.inr ⟨_, hr, ?_⟩
  obtain ⟨i1, i2, i3, i4, i5, i6, i7⟩ := inc_spec s
  obtain ⟨u1, u2, u3, u4, u5, u6⟩ := unq_spec (inc s)
  have := value_post (E := E) (s := s) (s1 := unq (inc s)) u1 (by rw [u2, i1]) (by rw [u3, i2]) (fun _ => by rw [← i3]; exact u4) (fun _ q h => u6 q (i7 q h)) true v
  rw [u5, inc_w] at this
  exact Post.value (pre := []) hm this

/-- Notes leave fields and text as they are. -/
structure Notes (pre : List Tok) : Prop where
  note : ∀ t ∈ pre, t.isNote = true

theorem Notes.text {pre : List Tok} (h : Notes pre) (l : List Tok) : Subst.text (pre ++ l) = Subst.text l := by
  have : Subst.text pre = [] := by
    unfold Subst.text
    rw [List.flatMap_eq_nil_iff]
    intro t ht
    have := h.note t ht
    cases t <;> simp [Tok.isNote, Tok.text] at this ⊢
  unfold Subst.text at this ⊢
  rw [List.flatMap_append, this, List.nil_append]

theorem Notes.fold {pre : List Tok} (h : Notes pre) (q : Q) : pre.foldl (fstep E) q = q := by
  obtain ⟨h⟩ := h
  induction pre with
  | nil => rfl
  | cons t l ih =>
    rw [List.foldl_cons, show fstep E q t = q by simp [fstep, h t (by simp)]]
    exact ih fun u hu => h u (List.mem_cons_of_mem _ hu)

theorem notes_notes (C : Ctx) (t : Tok) (h : t.isNote = true) : Notes (notes C t) := by
  unfold notes
  split
  · exact ⟨by simp⟩
  · exact ⟨by simpa using h⟩

/-- A value after a word: `value_post` for a state in which the words made may differ. -/
theorem pre_post {s s1 : St} {pre : List Tok} (hpre : Notes pre) (hs : Same (inc s) s1) (hds : s1.ds = s.ds)
    (hflat : s.f.blank = false → (s.ds ≠ [] → s.word = .word) → s1.ds ≠ [] → s1.word = .word)
    (hout : s.word ≠ .nws → s1.out = s.out ∧ s1.word ≠ .nws)
    (hR : s.f.blank = true → ∀ q, R s q → Ok E q pre → R s1 q) (fresh : Bool) (v : List B) :
    Post E s (pre ++ value (ctx s) v) s1.w (dec (puts E fresh v s1)) := by
  obtain ⟨p1, p2⟩ := puts_same (E := E) v fresh s1
  obtain ⟨-, -, -, i4, i5, -, -⟩ := inc_spec s
  have hf1 : s1.f = s.f := hs.f.trans i4
  have hq1 : s1.quote = s.quote := hs.quote.trans i5
  refine ⟨by rw [dec_w, p2], dec_inc_same _ _ (hs.trans p1), ?_, ?_⟩
  · intro hb
    have h := puts_flat (E := E) v fresh s1 (by rw [hf1]; exact hb)
    apply dec_flat
    rw [hpre.text, value_flat (ctx s) s rfl rfl, ← hf1, ← hq1]
    refine ⟨by rw [h.ds, hds], fun hi => h.inv (hflat hb hi), ?_⟩
    intro hn
    obtain ⟨h4, h5⟩ := hout hn
    obtain ⟨h6, h7⟩ := h.out h5
    exact ⟨h6.trans h4, h7⟩
  · intro hb hw q hr hok
    apply dec_R
    have h := puts_split hw v fresh s1 q (hR hb q hr hok.append.1)
    rw [hs.ctx, ctx_inc s hb] at h
    rw [List.foldl_append, hpre.fold]
    exact h

/-- A value that is not empty and is put with `IFS_IWS`. -/
theorem iws_post {s s1 : St} (hs : Same (inc s) s1) (hds : s1.ds = s.ds) (hw1 : s1.word = .iws)
    (hout : s.word ≠ .nws → s1.out = s.out) (v : List B) (hv : v ≠ []) :
    Post E s (notes (ctx s) .val ++ value (ctx s) v) s1.w (dec (puts E true v s1)) := by
  have hpre := notes_notes (ctx s) .val rfl
  obtain ⟨p1, p2⟩ := puts_same (E := E) v true s1
  obtain ⟨-, -, -, i4, i5, -, -⟩ := inc_spec s
  have hf1 : s1.f = s.f := hs.f.trans i4
  have hq1 : s1.quote = s.quote := hs.quote.trans i5
  refine ⟨by rw [dec_w, p2], dec_inc_same _ _ (hs.trans p1), ?_, ?_⟩
  · intro hb
    have h := puts_flat (E := E) v true s1 (by rw [hf1]; exact hb)
    apply dec_flat
    rw [hpre.text, value_flat (ctx s) s rfl rfl, ← hf1, ← hq1]
    refine ⟨by rw [h.ds, hds], fun _ _ => ?_, ?_⟩
    · cases v with
      | nil => exact absurd rfl hv
      | cons c v =>
        obtain ⟨k1, -⟩ := put_same (E := E) (splits s1) s1.quote true s1 c
        have k2 := put_flat (E := E) (splits s1) s1.quote true s1 c (by rw [splits_flat (by rw [hf1]; exact hb)]; rfl)
        have k3 : (put E (splits s1) s1.quote true s1 c).1.word = .word := by
          unfold put
          rw [splits_flat (by rw [hf1]; exact hb)]
          rfl
        have k4 := puts_flat (E := E) v (put E (splits s1) s1.quote true s1 c).2 (put E (splits s1) s1.quote true s1 c).1 (by rw [k1.f, hf1]; exact hb)
        rw [puts]
        refine k4.inv (fun _ => k3) ?_
        rw [k4.ds, k2.ds]
        simp [code_ne]
    · intro hn
      obtain ⟨h6, h7⟩ := h.out (by rw [hw1]; simp)
      exact ⟨h6.trans (hout hn), h7⟩
  · intro hb hw q hr hok
    apply dec_R
    rw [List.foldl_append, hpre.fold]
    have hn : s.word ≠ .nws := by
      rcases hr.st with ⟨h, _⟩ | ⟨h, _⟩ | ⟨h | h, _⟩ <;> rw [h] <;> simp
    have hc : ctx s1 = { ctx s with inn := true } := by rw [hs.ctx, ctx_inc s hb]
    unfold value
    rw [← hc]
    by_cases hq : q.1 = none
    · refine puts_split hw v true s1 q ⟨(hout hn).trans hr.out, Or.inr (Or.inr ⟨Or.inr hw1, ?_, hq⟩), fun h => absurd hq (hr.quote (hq1 ▸ h))⟩
      rw [hds]
      rcases hr.st with ⟨_, h⟩ | ⟨_, h, _⟩ | ⟨_, h, _⟩
      · rw [hq] at h; cases h
      · exact h
      · exact h
    · cases v with
      | nil => exact absurd rfl hv
      | cons c v =>
        have hd : (lit (ctx s1) c).delim E = false := by
          by_cases hqu : s.quote = true
          · simp [lit, ctx, Tok.delim, hq1, hqu]
          · have hok1 : Ok E q (.val :: value (ctx s) (c :: v)) := by
              have : notes (ctx s) .val = [.val] := by unfold notes; rw [if_neg]; exact hqu
              rw [this] at hok
              exact hok
            rcases hok1.1 with h | h
            · exact absurd h hq
            · rw [hc]
              exact h _ (by simp [value])
        have hsp : (s1.f.blank && decide (0 < s1.doblank) && !s1.quote) = splits s1 := by
          unfold splits; cases s1.quote <;> cases s1.f.blank <;> simp
        have hd' : (splits s1 && E.ifs c) = false := by
          rw [← hsp]; exact hd
        obtain ⟨k1, -⟩ := put_same (E := E) (splits s1) s1.quote true s1 c
        have hR : R (put E (splits s1) s1.quote true s1 c).1 (fstep E q (lit (ctx s1) c)) := by
          have e : fstep E q (lit (ctx s1) c) = (some (q.1.getD [] ++ code s1.f s1.quote c), q.2) := by
            unfold fstep
            rw [if_neg (by simp [lit, Tok.isNote]), if_neg (by simp [hd])]
            rfl
          rw [e]
          unfold put
          rw [hd']
          simp only [Bool.false_eq_true, if_false]
          rw [if_neg (by simp [hw1])]
          refine ⟨(hout hn).trans hr.out, Or.inl ⟨rfl, ?_⟩, fun _ => by simp⟩
          simp only [Option.some.injEq, List.append_cancel_right_eq]
          rw [hds]
          rcases hr.st with ⟨_, h⟩ | ⟨_, h, h2⟩ | ⟨_, h, h2⟩
          · rw [h]; rfl
          · rw [h, h2]; rfl
          · exact absurd h2 hq
        rw [puts, List.map_cons, List.foldl_cons, ← k1.ctx]
        rw [← k1.ctx] at hR
        exact puts_split hw v _ _ _ hR

/-- `${x-w}` and `${x+w}` when the word is used. -/
theorem word_post {C : Ctx} {s : St} (hm : Match C s) {op : Op} (hop : op = .minus ∨ op = .plus) {x : Nm} {t : List Tok} {w : World} {s3 : St}
    (hp : Post E (entered op x (unq (inc s))) t w s3) :
    Post E s (notes C .enter ++ t) w (dec { s3 with quote := s.quote, f := s.f, stack := s.stack }) := by
  obtain ⟨i1, i2, i3, i4, i5, i6, i7⟩ := inc_spec s
  obtain ⟨u1, u2, u3, u4, u5, u6⟩ := unq_spec (inc s)
  have hpre := notes_notes C .enter rfl
  have he : entered op x (unq (inc s)) = { unq (inc s) with
      stack := ⟨op, (unq (inc s)).ds.length, (unq (inc s)).f, (unq (inc s)).quote, x⟩ :: (unq (inc s)).stack
      word := if (unq (inc s)).quote then .word else if (unq (inc s)).ds = [] then .iws else (unq (inc s)).word } := by
    rcases hop with rfl | rfl <;> rfl
  rw [he] at hp
  obtain ⟨pw, ps, pf, psp⟩ := hp
  refine ⟨by rw [dec_w]; exact pw, ?_, ?_, ?_⟩
  · refine dec_inc_same _ _ ⟨i5.symm, i4.symm, ?_, i6.symm⟩
    rw [← u1.doblank]
    exact ps.doblank
  · intro hb
    obtain ⟨f1, f2, f3⟩ := pf (by rw [show ({ unq (inc s) with
      stack := ⟨op, (unq (inc s)).ds.length, (unq (inc s)).f, (unq (inc s)).quote, x⟩ :: (unq (inc s)).stack
      word := if (unq (inc s)).quote then .word else if (unq (inc s)).ds = [] then .iws else (unq (inc s)).word } : St).f = _ from u1.f, i4]; exact hb)
    apply dec_flat
    rw [hpre.text]
    refine ⟨?_, ?_, ?_⟩
    · rw [← i1, ← u2]; exact f1
    · intro hi
      refine f2 fun hd => ?_
      simp only at hd ⊢
      by_cases hqq : (unq (inc s)).quote = true
      · rw [if_pos hqq]
      · rw [if_neg hqq, if_neg hd]
        rw [u2, i1] at hd
        rcases u4 with h | h
        · rw [h, i3]; exact hi hd
        · exact h
    · intro hn
      have := f3 ?_
      · rw [u3, i2] at this; exact this
      · simp only
        split
        · simp
        · split
          · simp
          · rcases u4 with h | h
            · rw [h, i3]; exact hn
            · rw [h]; simp
  · intro hb hwi q hr hok
    apply dec_R
    rw [List.foldl_append, hpre.fold]
    obtain ⟨hok1, hok2⟩ := hok.append
    rw [hpre.fold] at hok2
    have hR1 := u6 q (i7 q hr)
    have := psp (by rw [show ({ unq (inc s) with
      stack := ⟨op, (unq (inc s)).ds.length, (unq (inc s)).f, (unq (inc s)).quote, x⟩ :: (unq (inc s)).stack
      word := if (unq (inc s)).quote then .word else if (unq (inc s)).ds = [] then .iws else (unq (inc s)).word } : St).f = _ from u1.f, i4]; exact hb) hwi q ?_ hok2
    · exact ⟨this.out, this.st, fun h => this.quote (by rw [ps.quote]; rw [show ({ unq (inc s) with
      stack := ⟨op, (unq (inc s)).ds.length, (unq (inc s)).f, (unq (inc s)).quote, x⟩ :: (unq (inc s)).stack
      word := if (unq (inc s)).quote then .word else if (unq (inc s)).ds = [] then .iws else (unq (inc s)).word } : St).quote = _ from u1.quote, i5]; exact h)⟩
    · refine ⟨hR1.out, ?_, hR1.quote⟩
      have hqq : (unq (inc s)).quote = s.quote := u1.quote.trans i5
      by_cases hq : s.quote = true
      · have hne := hr.quote hq
        refine Or.inl ⟨by simp [hqq, hq], ?_⟩
        rcases hR1.st with ⟨_, h⟩ | ⟨_, h1, h2⟩ | ⟨_, _, h⟩
        · exact h
        · rw [h2]; exact congrArg some h1.symm
        · exact absurd h hne
      · have hok3 : q.1 ≠ some [] := by
          have : notes C .enter = [.enter] := by unfold notes; rw [if_neg]; rw [hm.quote]; exact hq
          rw [this] at hok1
          exact hok1.1
        rcases hR1.st with ⟨h1, h⟩ | ⟨_, h1, h2⟩ | ⟨_, h1, h⟩
        · have hd : (unq (inc s)).ds ≠ [] := by
            intro h2
            rw [h2] at h
            exact hok3 h
          exact Or.inl ⟨by simp [hqq, hq, hd, h1], h⟩
        · exact absurd h2 hok3
        · exact Or.inr (Or.inr ⟨Or.inr (by simp [hqq, hq, h1]), h1, h⟩)

/-- The state after the word of `=`, `#` or `%`, before the value is put. -/
def back (s s3 : St) (ds : List B) (w : World) (wd : Word) : St :=
  { inc { dec { s3 with quote := s.quote, f := s.f, stack := s.stack } with ds := ds, w := w } with word := wd }

theorem back_spec {s s3 : St} (h : s3.doblank = (inc s).doblank) (ds : List B) (w : World) (wd : Word) :
    Same (inc s) (back s s3 ds w wd) ∧ (back s s3 ds w wd).ds = ds ∧ (back s s3 ds w wd).out = s3.out ∧
      (back s s3 ds w wd).word = wd ∧ (back s s3 ds w wd).w = w := by
  unfold back dec inc at *
  cases hb : s.f.blank
  · simp only [hb, Bool.false_eq_true, if_false] at h ⊢
    exact ⟨⟨rfl, rfl, h, rfl⟩, trivial, trivial, trivial, trivial⟩
  · simp only [hb, if_true] at h ⊢
    exact ⟨⟨rfl, rfl, by simp only [h]; omega, rfl⟩, trivial, trivial, trivial, trivial⟩

theorem R.word {s : St} {q : Q} (h : R s q) : s.word ≠ .nws := by
  rcases h.st with ⟨h, _⟩ | ⟨h, _⟩ | ⟨h | h, _⟩ <;> rw [h] <;> simp

theorem R.some {s : St} {q : Q} (h : R s q) (hq : q.1 ≠ none) : q.1 = some s.ds := by
  rcases h.st with ⟨_, h⟩ | ⟨_, h1, h2⟩ | ⟨_, _, h⟩
  · exact h
  · rw [h2, h1]
  · exact absurd h hq

theorem notes_ctx {C : Ctx} {s : St} (hm : Match C s) (t : Tok) : notes C t = notes (ctx s) t := by
  unfold notes; rw [hm.quote]; rfl

theorem notes_plain {C : Ctx} {s : St} (hm : Match C s) (hq : ¬ s.quote = true) (t : Tok) : notes C t = [t] := by
  unfold notes; rw [if_neg]; rw [hm.quote]; exact hq

/-- The value is put with `IFS_WORD`. -/
theorem back_word {C : Ctx} {s s3 : St} (hm : Match C s) (hd : s3.doblank = (inc s).doblank) (ho : s.word ≠ .nws → s3.out = s.out) (w : World) (v : List B)
    {pre : List Tok} (hpre : Notes pre) (hok : s.quote = true ∨ ∀ q, Ok E q pre → q.1 ≠ none) :
    Post E s (pre ++ value C v) w (sub E v (back s s3 s.ds w .word)) := by
  obtain ⟨b1, b2, b3, b4, b5⟩ := back_spec hd s.ds w .word
  have := pre_post (E := E) hpre b1 b2 (fun _ _ _ => b4) (fun hn => ⟨b3.trans (ho hn), by rw [b4]; simp⟩) ?_ true v
  · rw [b5] at this
    exact Post.value hm this
  · intro hb q hr hk
    have hne : q.1 ≠ none := by
      rcases hok with h | h
      · exact hr.quote h
      · exact h q hk
    exact ⟨(b3.trans (ho hr.word)).trans hr.out, Or.inl ⟨b4, by rw [b2]; exact hr.some hne⟩, fun _ => hne⟩

/-- The value is put with `IFS_IWS`. -/
theorem back_iws {C : Ctx} {s s3 : St} (hm : Match C s) (hd : s3.doblank = (inc s).doblank) (ho : s.word ≠ .nws → s3.out = s.out) (w : World) {v : List B} (hv : v ≠ []) :
    Post E s (notes C .val ++ value C v) w (sub E v (back s s3 s.ds w .iws)) := by
  obtain ⟨b1, b2, b3, b4, b5⟩ := back_spec hd s.ds w .iws
  have := iws_post (E := E) b1 b2 b4 (fun hn => b3.trans (ho hn)) v hv
  rw [b5, ← notes_ctx hm] at this
  exact Post.value hm this

/-- What the word of `=` leaves. -/
theorem assign_word {s : St} {x : Nm} {t : List Tok} {w : World} {s3 : St} (hp : Post E (entered .assign x (unq (inc s))) t w s3) :
    s3.ds = s.ds ++ text t ∧ s3.doblank = (inc s).doblank ∧ (s.word ≠ .nws → s3.out = s.out) := by
  obtain ⟨i1, i2, i3, i4, i5, i6, i7⟩ := inc_spec s
  obtain ⟨u1, u2, u3, u4, u5, u6⟩ := unq_spec (inc s)
  obtain ⟨pw, ps, pf, -⟩ := hp
  obtain ⟨f1, f2, f3⟩ := pf rfl
  refine ⟨by rw [f1, show (entered .assign x (unq (inc s))).ds = (unq (inc s)).ds from rfl, u2, i1], by rw [ps.doblank, ← u1.doblank]; rfl, ?_⟩
  intro hn
  have := (f3 (by
    show (unq (inc s)).word ≠ .nws
    rcases u4 with h | h
    · rw [h, i3]; exact hn
    · rw [h]; simp)).1
  rw [this]
  show (unq (inc s)).out = s.out
  rw [u3, i2]

/-- What the word of `#` and `%` leaves. -/
theorem trim_word {s : St} {x : Nm} {T : Trim} {t : List Tok} {w : World} {s3 : St} (hp : Post E (entered (.trim T) x (unq (inc s))) t w s3) :
    s3.ds = s.ds ++ ([7, 192] ++ text t) ∧ s3.doblank = (inc s).doblank ∧ (s.word ≠ .nws → s3.out = s.out ∧ s3.word ≠ .nws) ∧
      (s.ds ≠ [] → s.word = .word → s3.word = .word) := by
  obtain ⟨i1, i2, i3, i4, i5, i6, i7⟩ := inc_spec s
  obtain ⟨u1, u2, u3, u4, u5, u6⟩ := unq_spec (inc s)
  obtain ⟨pw, ps, pf, -⟩ := hp
  obtain ⟨f1, f2, f3⟩ := pf rfl
  have hd : s3.ds = s.ds ++ ([7, 192] ++ text t) := by
    rw [f1, show (entered (.trim T) x (unq (inc s))).ds = (unq (inc s)).ds ++ [7, 192] from rfl, u2, i1, List.append_assoc]
  refine ⟨hd, by rw [ps.doblank, ← u1.doblank]; rfl, ?_, ?_⟩
  · intro hn
    have := f3 (by
      show (unq (inc s)).word ≠ .nws
      rcases u4 with h | h
      · rw [h, i3]; exact hn
      · rw [h]; simp)
    refine ⟨?_, this.2⟩
    rw [this.1]
    show (unq (inc s)).out = s.out
    rw [u3, i2]
  · intro _ hw
    refine f2 (fun _ => ?_) (by rw [hd]; simp)
    show (unq (inc s)).word = .word
    rcases u4 with h | h
    · rw [h, i3]; exact hw
    · exact h

/-- `XNULLSUB` -/
def nullsub (s : St) : St :=
  let s3 := if s.ds = [] then { s with word := .iws } else s
  let s4 := dec s3
  if s4.f.blank = true ∧ s4.ds = [] ∧ s4.word ≠ .word then { s4 with word := .iws } else s4

theorem nullsub_spec (s : St) : nullsub s = dec { s with word := if s.ds = [] then .iws else s.word } := by
  unfold nullsub dec
  cases hb : s.f.blank <;> by_cases hd : s.ds = [] <;> simp [hb, hd]

/-- Nothing is left of the value of `#` and `%`, outside quotes. -/
theorem nullsub_post {C : Ctx} {s s3 : St} (hm : Match C s) (hq : ¬ s.quote = true) (hd : s3.doblank = (inc s).doblank)
    (ho : s.word ≠ .nws → s3.out = s.out ∧ s3.word ≠ .nws) (hi : s.ds ≠ [] → s.word = .word → s3.word = .word) (w : World) :
    Post E s (notes C .enter ++ value C []) w (nullsub (back s s3 s.ds w s3.word)) := by
  obtain ⟨b1, b2, b3, b4, b5⟩ := back_spec hd s.ds w s3.word
  have hs : nullsub (back s s3 s.ds w s3.word) = dec (back s s3 s.ds w (if s.ds = [] then .iws else s3.word)) := by
    rw [nullsub_spec, show (if (back s s3 s.ds w s3.word).ds = [] then Word.iws else (back s s3 s.ds w s3.word).word) = (if s.ds = [] then .iws else s3.word) by rw [b2, b4]]
    rfl
  obtain ⟨b1, b2, b3, b4, b5⟩ := back_spec hd s.ds w (if s.ds = [] then .iws else s3.word)
  rw [hs]
  have := pre_post (E := E) (notes_notes C .enter rfl) b1 b2 ?_ ?_ ?_ true []
  · rw [b5] at this
    exact Post.value hm this
  · intro _ h1 h2
    rw [b2] at h2
    rw [b4, if_neg h2]
    exact hi h2 (h1 h2)
  · intro hn
    refine ⟨b3.trans (ho hn).1, ?_⟩
    rw [b4]
    split
    · simp
    · exact (ho hn).2
  · intro hb q hr hok
    rw [notes_plain hm hq] at hok
    have hok := hok.1
    refine ⟨(b3.trans (ho hr.word).1).trans hr.out, ?_, fun h => hr.quote (by rw [← (inc_spec s).2.2.2.2.1, ← b1.quote]; exact h)⟩
    rw [b2, b4]
    by_cases hdz : s.ds = []
    · rw [if_pos hdz]
      refine Or.inr (Or.inr ⟨Or.inr rfl, hdz, ?_⟩)
      rcases hr.st with ⟨_, h⟩ | ⟨_, _, h⟩ | ⟨_, _, h⟩
      · rw [hdz] at h; exact absurd h hok
      · exact absurd h hok
      · exact h
    · rw [if_neg hdz]
      rcases hr.st with ⟨h1, h⟩ | ⟨_, h, _⟩ | ⟨_, h, _⟩
      · exact Or.inl ⟨hi hdz h1, h⟩
      · exact absurd h hdz
      · exact absurd h hdz

theorem back_eq (s s3 : St) (ds : List B) : inc { dec { s3 with quote := s.quote, f := s.f, stack := s.stack } with ds := ds } = back s s3 ds s3.w s3.word := by
  unfold back inc dec
  cases hb : s.f.blank <;> simp [hb]

theorem back_eq' (s s3 : St) (ds : List B) (wd : Word) : ({ inc { dec { s3 with quote := s.quote, f := s.f, stack := s.stack } with ds := ds } with word := wd } : St) = back s s3 ds s3.w wd := by
  unfold back inc dec
  cases hb : s.f.blank <;> simp [hb]

/-- The frame pushed. -/
theorem entered_stack (op : Op) (x : Nm) (s : St) : (entered op x (unq (inc s))).stack = ⟨op, s.ds.length, s.f, s.quote, x⟩ :: s.stack := by
  obtain ⟨i1, i2, i3, i4, i5, i6, i7⟩ := inc_spec s
  obtain ⟨u1, u2, u3, u4, u5, u6⟩ := unq_spec (inc s)
  have : (entered op x (unq (inc s))).stack = ⟨op, (unq (inc s)).ds.length, (unq (inc s)).f, (unq (inc s)).quote, x⟩ :: (unq (inc s)).stack := by
    cases op <;> rfl
  rw [this, u2, i1, u1.f, i4, u1.quote, i5, u1.stack, i6]

theorem entered_w (op : Op) (x : Nm) (s : St) : (entered op x (unq (inc s))).w = s.w := by
  have : (entered op x (unq (inc s))).w = (unq (inc s)).w := by cases op <;> rfl
  rw [this, (unq_spec _).2.2.2.2.1, inc_w]

theorem Exec.fail {h : List Code} {s : St} {d : Den} (hw : ∀ X, run E (h ++ X) s = .wide) : Exec E h s d := by
  match d with
  | .error (e, w) => exact fun X => Or.inl (hw X)
  | .ok (t, w) => exact Or.inl hw

theorem named_ends (x : Nm) {e : Err} (h : e.long E = (E.ro x = true ∧ E.long x = true)) (w : World) : Ends E e w (named E x e w) := by
  unfold named
  split
  · right
    rename_i hc
    rw [h]
    simpa using hc
  · exact Or.inl rfl

/-- The word is executed first. -/
theorem enter_exec {x : Nm} {colon : Bool} {op : Op} {u : Wd} {s : St} {d k : Den}
    (hv : ∀ X, varsub E s.w false x (colonCodes colon ++ (opCodes op ++ (compile u ++ .csubst :: X))) = .expand op ((colonCodes colon).length + (opCodes op).length))
    (hd : Exec E (compile u) (entered op x (unq (inc s))) d)
    (herr : ∀ e, d = .error e → k = .error e)
    (hok : ∀ t w s3, d = .ok (t, w) → Post E (entered op x (unq (inc s))) t w s3 →
      (∃ t' w' s', k = .ok (t', w') ∧ leave E ⟨op, s.ds.length, s.f, s.quote, x⟩ s.stack s3 = .go .none s' ∧ Post E s t' w' s') ∨
        ∃ e w' r, k = .error (e, w') ∧ leave E ⟨op, s.ds.length, s.f, s.quote, x⟩ s.stack s3 = .stop r ∧ Ends E e w' r) :
    Exec E (head x colon op (compile u ++ [.csubst])) s k := by
  have hrun : ∀ X, run E (head x colon op (compile u ++ [.csubst]) ++ X) s =
      if op.usesBase = true ∧ 32768 ≤ s.ds.length then .wide else run E (compile u ++ .csubst :: X) (entered op x (unq (inc s))) := by
    intro X
    have e : head x colon op (compile u ++ [.csubst]) ++ X = head x colon op (compile u ++ .csubst :: X) := by simp [head]
    rw [e]
    exact run_enter (hv X)
  by_cases hc : op.usesBase = true ∧ 32768 ≤ s.ds.length
  · exact Exec.fail fun X => by rw [hrun, if_pos hc]
  · have hrun : ∀ X, run E (head x colon op (compile u ++ [.csubst]) ++ X) s = run E (compile u ++ .csubst :: X) (entered op x (unq (inc s))) :=
      fun X => by rw [hrun, if_neg hc]
    match d, hd with
    | .error (e, w), hd =>
      rw [herr _ rfl]
      intro X
      rw [hrun]
      exact hd _
    | .ok (t, w), hd =>
      rcases hd with hd | ⟨s3, hr, hp⟩
      · exact Exec.fail fun X => by rw [hrun]; exact hd _
      · have hst : s3.stack = ⟨op, s.ds.length, s.f, s.quote, x⟩ :: s.stack := by rw [hp.same.stack, entered_stack]
        rcases hok t w s3 rfl hp with ⟨t', w', s', rfl, hl, hp'⟩ | ⟨e, w', r, rfl, hl, he⟩
        · refine Or.inr ⟨s', fun X => ?_, hp'⟩
          rw [hrun, hr, run_leave hst, hl]
          rfl
        · intro X
          right
          rw [hrun, hr, run_leave hst, hl]
          exact he

theorem head_match {C : Ctx} {s : St} (hm : Match C s) (op : Op) (x : Nm) : Match (match op with
    | .minus | .plus => { C with inn := true }
    | .assign => ⟨⟨false, C.f.pat, false⟩, C.quote, true⟩
    | .err => ⟨{ C.f with blank := false }, C.quote, true⟩
    | .trim _ => ⟨⟨false, true, false⟩, false, true⟩) (entered op x (unq (inc s))) := by
  obtain ⟨i1, i2, i3, i4, i5, i6, i7⟩ := inc_spec s
  obtain ⟨u1, u2, u3, u4, u5, u6⟩ := unq_spec (inc s)
  have hf : C.f = (unq (inc s)).f := by rw [u1.f, i4]; exact hm.f
  have hq : C.quote = (unq (inc s)).quote := by rw [u1.quote, i5]; exact hm.quote
  have hn : (unq (inc s)).f.blank = true → true = decide (0 < (unq (inc s)).doblank) := by
    intro hb
    rw [u1.f, i4] at hb
    rw [u1.doblank]
    simp [inc, hb]
  cases op with
  | minus => exact ⟨hf, hq, hn⟩
  | plus => exact ⟨hf, hq, hn⟩
  | assign => exact ⟨by simp only; rw [hf]; rfl, hq, fun hb => by cases hb⟩
  | err => exact ⟨by simp only; rw [hf]; rfl, hq, fun hb => by cases hb⟩
  | trim t => exact ⟨rfl, rfl, fun hb => by cases hb⟩

/-- A word is executed as its tree says. -/
theorem exec (E : Env) (wd : Wd) : ∀ (C : Ctx) (s : St), Match C s → WF s.quote wd → Exec E (compile wd) s (den E C wd s.w) := by
  induction wd with
  | nil => intro C s _ _; exact Exec.nil s
  | char c r ih =>
    intro C s hm hwf
    refine Exec.seq (h := [.char c]) (Exec.one (fun _ => rfl) (char_post hm c)) ?_
    intro s1 h1
    exact ih C s1 (hm.same h1) (by rw [h1.quote]; exact hwf)
  | qchar c r ih =>
    intro C s hm hwf
    refine Exec.seq (h := [.qchar c]) (Exec.one (fun _ => rfl) (qchar_post hm c)) ?_
    intro s1 h1
    exact ih C s1 (hm.same h1) (by rw [h1.quote]; exact hwf)
  | quoted u r ih1 ih2 =>
    intro C s hm hwf
    obtain ⟨hq, hwu, hwr⟩ := hwf
    have e : compile (.quoted u r) = (.oquote :: (compile u ++ [.cquote])) ++ compile r := by simp [compile]
    rw [e]
    refine Exec.seq ?_ ?_
    · have hi := ih1 { C with quote := true } { s with quote := true, word := match s.word with | .quote => .word | .word => .word | _ => .quote }
        ⟨hm.f, rfl, hm.inn⟩ hwu
      have hrun : ∀ X, run E ((.oquote :: (compile u ++ [.cquote])) ++ X) s = run E (compile u ++ .cquote :: X) { s with quote := true, word := match s.word with | .quote => .word | .word => .word | _ => .quote } := by
        intro X
        rw [List.cons_append, run_cons]
        simp only [List.append_assoc, List.singleton_append]
        rfl
      change Exec E _ _ (den E { C with quote := true } u s.w) at hi
      unfold Den.seq
      simp only
      revert hi
      generalize den E { C with quote := true } u s.w = d
      match d with
      | .error (e, w) =>
        intro hi X
        rw [hrun]
        exact hi _
      | .ok (t, w) =>
        intro hi
        rcases hi with hi | ⟨s', hr, hp⟩
        · exact Or.inl fun X => by rw [hrun]; exact hi _
        · refine Or.inr ⟨{ s' with quote := false }, fun X => ?_, oquote_post hq hp⟩
          rw [hrun, hr, run_cons]
          rfl
    · intro s1 h1
      exact ih2 C s1 (hm.same h1) (by rw [h1.quote]; exact hwr)
  | com k r ih =>
    intro C s hm hwf
    refine Exec.seq (h := [.com k]) (Exec.one (fun _ => rfl) ?_) ?_
    · have hs : Same (inc s) { inc s with w := note k s.w } := ⟨rfl, rfl, rfl, rfl⟩
      obtain ⟨i1, i2, i3, i4, i5, i6, i7⟩ := inc_spec s
      have := value_post (E := E) hs i1 i2 (fun _ => Or.inl i3) (fun _ q hr => ⟨(i7 q hr).out, (i7 q hr).st, (i7 q hr).quote⟩) false (E.com k (note k s.w))
      exact Post.value (pre := []) hm this
    · intro s1 h1
      exact ih C s1 (hm.same h1) (by rw [h1.quote]; exact hwf)
  | arith k r ih =>
    intro C s hm hwf
    refine Exec.seq (h := [.arith k]) ?_ ?_
    · cases ha : E.arith k (note k s.w) with
      | none =>
        simp only
        intro X
        right
        left
        rw [List.singleton_append, run_cons]
        simp only [step, ha]
      | some p =>
        obtain ⟨w', v⟩ := p
        simp only
        refine Exec.one (s' := { s with w := w', ds := s.ds ++ v, word := .word }) (fun r => ?_) (raw_post v w')
        simp only [step, ha]
    · intro s1 h1
      exact ih C s1 (hm.same h1) (by rw [h1.quote]; exact hwf)
  | sub len x r ih =>
    intro C s hm hwf
    refine Exec.seq (h := [.osubst len x, .csubst]) ?_ ?_
    · by_cases hn : E.nounset = true ∧ s.w.vars x = none
      · rw [if_pos hn]
        intro X
        right
        left
        have : varsub E s.w len x (.csubst :: X) = .fail (.unset x) := by
          cases len <;> simp [varsub, qualifier, hn]
        rw [List.cons_append, run_cons]
        simp only [step, List.singleton_append, this]
      · rw [if_neg hn]
        refine val_exec hm _ fun X => ?_
        refine run_value (X := X) ?_ rfl
        cases len <;> simp [varsub, qualifier, hn]
    · intro s1 h1
      exact ih C s1 (hm.same h1) (by rw [h1.quote]; exact hwf)
  | cond x colon op u r ih1 ih2 =>
    intro C s hm hwf
    obtain ⟨hsh, hwu, hwr⟩ := hwf
    have e : compile (.cond x colon op u r) = head x colon op (compile u ++ [.csubst]) ++ compile r := by simp [compile, head]
    rw [e]
    refine Exec.seq ?_ ?_
    · have hval : (∀ X, varsub E s.w false x (colonCodes colon ++ (opCodes op ++ (compile u ++ .csubst :: X))) = .value ((s.w.vars x).getD [])) →
          Exec E (head x colon op (compile u ++ [.csubst])) s (.ok (value C ((s.w.vars x).getD []), s.w)) := by
        intro h
        refine val_exec hm _ fun X => ?_
        have e : head x colon op (compile u ++ [.csubst]) ++ X = .osubst false x :: (colonCodes colon ++ (opCodes op ++ (compile u ++ .csubst :: X))) := by simp [head]
        rw [e]
        exact run_value (h X) (skip_cond colon op u X)
      have hfail : ∀ er, (∀ X, varsub E s.w false x (colonCodes colon ++ (opCodes op ++ (compile u ++ .csubst :: X))) = .fail er) →
          Exec E (head x colon op (compile u ++ [.csubst])) s (.error (er, s.w)) := by
        intro er h X
        right
        left
        have e : head x colon op (compile u ++ [.csubst]) ++ X = .osubst false x :: (colonCodes colon ++ (opCodes op ++ (compile u ++ .csubst :: X))) := by simp [head]
        rw [e, run_cons]
        simp only [step, h]
      have hvs := fun X => varsub_cond (E := E) (w := s.w) (x := x) (colon := colon) (X := X) hsh
      have hi := ih1 _ _ (head_match hm op x) (by
        obtain ⟨i1, i2, i3, i4, i5, i6, i7⟩ := inc_spec s
        obtain ⟨u1, u2, u3, u4, u5, u6⟩ := unq_spec (inc s)
        have : (entered op x (unq (inc s))).quote = match op with | .trim _ => false | _ => s.quote := by
          cases op <;> first | rfl | exact u1.quote.trans i5
        rw [this]
        cases op <;> exact hwu)
      rw [entered_w] at hi
      have hword : (op = .minus ∨ op = .plus) → (∀ X, varsub E s.w false x (colonCodes colon ++ (opCodes op ++ (compile u ++ .csubst :: X))) = .expand op ((colonCodes colon).length + (opCodes op).length)) →
          Exec E (compile u) (entered op x (unq (inc s))) (den E { C with inn := true } u s.w) →
          Exec E (head x colon op (compile u ++ [.csubst])) s (Den.seq (.ok (notes C .enter, s.w)) (den E { C with inn := true } u)) := by
        intro hop hv hi
        refine enter_exec hv hi ?_ ?_
        · intro e he
          simp only [Den.seq, he]
        · intro t w s3 he hp
          refine Or.inl ⟨notes C .enter ++ t, w, dec { s3 with quote := s.quote, f := s.f, stack := s.stack }, by simp only [Den.seq, he], ?_, word_post hm hop hp⟩
          rcases hop with rfl | rfl <;> rfl
      cases op with
      | minus =>
        simp only at hvs hi ⊢
        by_cases ha : absent colon (s.w.vars x) = true
        · simp only [ha, if_true] at hvs ⊢
          exact hword (Or.inl rfl) hvs hi
        · simp only [ha] at hvs ⊢
          exact hval hvs
      | plus =>
        simp only at hvs hi ⊢
        by_cases ha : absent colon (s.w.vars x) = true
        · simp only [ha, if_true] at hvs ⊢
          exact hval hvs
        · simp only [ha] at hvs ⊢
          exact hword (Or.inr rfl) hvs hi
      | assign =>
        simp only at hvs hi ⊢
        by_cases hA : E.assignable x = false
        · simp only [hA, if_true] at hvs ⊢
          exact hfail _ hvs
        · by_cases ha : absent colon (s.w.vars x) = true
          · simp only [hA, ha, if_true, Bool.true_eq_false, if_false] at hvs ⊢
            refine enter_exec hvs hi ?_ ?_
            · intro e he
              simp only [he]
            · intro t w s3 he hp
              obtain ⟨d1, d2, d3⟩ := assign_word hp
              have hdrop : s3.ds.drop s.ds.length = text t := by rw [d1, List.drop_left]
              have htake : s3.ds.take s.ds.length = s.ds := by rw [d1, List.take_left]
              simp only [he]
              by_cases hro : E.ro x = true
              · rw [if_pos hro]
                exact Or.inr ⟨_, _, _, rfl, by simp only [leave, hro, if_true]; rw [hp.w], named_ends x rfl w⟩
              · rw [if_neg hro]
                refine Or.inl ⟨_, _, sub E (E.conv x (debunk (text t))) (back s s3 s.ds (w.set x (E.conv x (debunk (text t)))) (if s.quote = true ∨ E.conv x (debunk (text t)) = [] then .word else .iws)), rfl, ?_, ?_⟩
                · rw [← hp.w]
                  simp only [leave, if_neg hro, hdrop, htake]
                  rfl
                · by_cases hqv : s.quote = true ∨ E.conv x (debunk (text t)) = []
                  · rw [if_pos hqv]
                    refine back_word hm d2 d3 _ _ (notes_notes C _ (by split <;> rfl)) ?_
                    by_cases hq : s.quote = true
                    · exact Or.inl hq
                    · refine Or.inr fun q hok => ?_
                      rw [if_pos (hqv.resolve_left hq), notes_plain hm hq] at hok
                      exact hok.1
                  · rw [if_neg hqv, if_neg (fun h => hqv (Or.inr h))]
                    exact back_iws hm d2 d3 _ (fun h => hqv (Or.inr h))
          · simp only [hA, ha] at hvs ⊢
            exact hval hvs
      | err =>
        simp only at hvs hi ⊢
        by_cases ha : absent colon (s.w.vars x) = true
        · simp only [ha, if_true] at hvs ⊢
          refine enter_exec hvs hi ?_ ?_
          · intro e he
            simp only [he]
          · intro t w s3 he hp
            simp only [he]
            have hdrop : s3.ds.drop s.ds.length = text t := by
              rw [(hp.flat rfl).ds, show (entered .err x (unq (inc s))).ds = (unq (inc s)).ds from rfl, (unq_spec _).2.1, (inc_spec s).1, List.drop_left]
            exact Or.inr ⟨_, _, _, rfl, by simp only [leave, hdrop, hp.w], named_ends x rfl w⟩
        · simp only [ha] at hvs ⊢
          exact hval hvs
      | trim T =>
        simp only at hvs hi ⊢
        by_cases hn : E.nounset = true ∧ s.w.vars x = none
        · simp only [hn, and_self, if_true] at hvs ⊢
          exact hfail _ hvs
        · simp only [hn, if_false] at hvs ⊢
          refine enter_exec hvs hi ?_ ?_
          · intro e he
            simp only [he]
          · intro t w s3 he hp
            obtain ⟨d1, d2, d3, d4⟩ := trim_word hp
            have hdrop : s3.ds.drop s.ds.length = [7, 192] ++ text t := by rw [d1, List.drop_left]
            have htake : s3.ds.take s.ds.length = s.ds := by rw [d1, List.take_left]
            have hl : leave E ⟨.trim T, s.ds.length, s.f, s.quote, x⟩ s.stack s3 =
                .go .none (if E.trim T ((w.vars x).getD []) ([7, 192] ++ text t ++ [7, 41]) ≠ [] then
                    sub E (E.trim T ((w.vars x).getD []) ([7, 192] ++ text t ++ [7, 41])) (back s s3 s.ds w .iws)
                  else if s.quote = true then sub E (E.trim T ((w.vars x).getD []) ([7, 192] ++ text t ++ [7, 41])) (back s s3 s.ds w .word)
                  else nullsub (back s s3 s.ds w s3.word)) := by
              simp only [leave, hdrop, htake]
              rw [back_eq', back_eq', back_eq, hp.w]
              split
              · rfl
              · split <;> rfl
            simp only [he]
            refine Or.inl ⟨_, _, _, rfl, hl, ?_⟩
            generalize E.trim T ((w.vars x).getD []) ([7, 192] ++ text t ++ [7, 41]) = v
            by_cases hv : v = []
            · rw [if_pos hv, if_neg (by simp [hv])]
              by_cases hq : s.quote = true
              · rw [if_pos hq]
                exact back_word hm d2 (fun h => (d3 h).1) _ _ (notes_notes C _ rfl) (Or.inl hq)
              · rw [if_neg hq, hv]
                exact nullsub_post hm hq d2 d3 d4 w
            · rw [if_neg hv, if_pos hv]
              exact back_iws hm d2 (fun h => (d3 h).1) _ hv
    · intro s1 h1
      exact ih2 C s1 (hm.same h1) (by rw [h1.quote]; exact hwr)
  | group c u r ih1 ih2 =>
    intro C s hm hwf
    obtain ⟨hwu, hwr⟩ := hwf
    have e : compile (.group c u r) = (([.opat c] ++ compile u) ++ [.cpat]) ++ compile r := by simp [compile]
    rw [e]
    refine Exec.seq (Exec.seq (Exec.seq (Exec.one (fun _ => rfl) (raw_post [7, c + 128] s.w)) ?_) ?_) ?_
    · intro s1 h1
      exact ih1 C s1 (hm.same h1) (by rw [h1.quote]; exact hwu)
    · intro s1 h1
      exact Exec.one (fun _ => rfl) (raw_post [7, 41] s1.w)
    · intro s1 h1
      exact ih2 C s1 (hm.same h1) (by rw [h1.quote]; exact hwr)
  | bar r ih =>
    intro C s hm hwf
    refine Exec.seq (h := [.spat]) (Exec.one (fun _ => rfl) (raw_post [7, 124] s.w)) ?_
    intro s1 h1
    exact ih C s1 (hm.same h1) (by rw [h1.quote]; exact hwf)

end Ksh.Subst
