import Verif.Prompt.Lemmas
/-!
# Prompts: the properties (C94, C95)
-/

namespace Ksh.Prompt

theorem escape_count {e : Env} {buf : Option (List Char)} {c : Char} {rest : List Char} {x : Esc}
    (h : escape e buf c rest = some x) (hx : x.count = some false) : c = '[' := by
  have hs : ∀ t x, some (simple t rest) = some x → x.count = none := by
    intro t x h; cases h; rfl
  have hD : ∀ x, escD e rest = some x → x.count = none := by
    intro x h
    cases rest with
    | nil => cases h
    | cons b r =>
      simp only [escD] at h
      split at h
      · cases h; rfl
      · cases h; rfl
  have hO : (escOct c rest).count = none := by
    unfold escOct
    split
    · split <;> rfl
    · rfl
  unfold escape at h
  split at h
  · rw [hs _ _ h] at hx; cases hx
  · split at h
    all_goals first
      | (rw [hs _ _ h] at hx; cases hx; done)
      | (rw [hD _ h] at hx; cases hx; done)
      | rfl
      | (cases h; cases hx; done)
      | skip
    · split at h
      · rw [hs _ _ h] at hx; cases hx
      · cases h; cases hx
    · split at h
      · cases h; rw [hO] at hx; cases hx
      · rw [hs _ _ h] at hx; cases hx

theorem escape_reset {e : Env} {buf : Option (List Char)} {c : Char} {rest : List Char} {x : Esc}
    (h : escape e buf c rest = some x) (hx : x.reset = true) : x.buf = some ['\n'] ∨ x.buf = some ['\r'] := by
  have hs : ∀ t x, some (simple t rest) = some x → x.reset = false := by
    intro t x h; cases h; rfl
  have hD : ∀ x, escD e rest = some x → x.reset = false := by
    intro x h
    cases rest with
    | nil => cases h
    | cons b r =>
      simp only [escD] at h
      split at h
      · cases h; rfl
      · cases h; rfl
  have hO : (escOct c rest).reset = false := by
    unfold escOct
    split
    · split <;> rfl
    · rfl
  unfold escape at h
  split at h
  · rw [hs _ _ h] at hx; cases hx
  · split at h
    all_goals first
      | (rw [hs _ _ h] at hx; cases hx; done)
      | (rw [hD _ h] at hx; cases hx; done)
      | (cases h; exact .inl rfl)
      | (cases h; exact .inr rfl)
      | (cases h; cases hx; done)
      | skip
    · split at h
      · rw [hs _ _ h] at hx; cases hx
      · cases h; cases hx
    · split at h
      · cases h; rw [hO] at hx; cases hx
      · rw [hs _ _ h] at hx; cases hx

/-- The facts about the pieces of a prompt that the theorems below need. -/
structure TokOk (t : Tok) (cp' : List Char) : Prop where
  esc : ∀ x s, t.kind = .esc x s → t.head = '\\' ∧ x.buf = some s ∧ x.rest = cp' ∧
    (x.count = some false → ∃ r, t.more = '[' :: r) ∧ (x.reset = true → s = ['\n'] ∨ s = ['\r'])
  chr : ∀ c, t.kind = .chr c → (t.head = c ∧ c ≠ '\\') ∧ (c ≠ '!' → cp' = t.more)
  num : ∀ s, t.kind = .num s → t.head = '!'
  stop : t.kind = .stop → t.head = '\\' ∧ cp' = []

theorem tok_ok {e : Env} {buf : Option (List Char)} {c : Char} {more : List Char} {k : Kind} {b : Option (List Char)}
    {cp : List Char} (h : tok e buf c more = some (k, b, cp)) : TokOk ⟨c, more, k⟩ cp := by
  simp only [tok] at h
  split at h
  · next hc =>
    split at h
    · cases h
      exact ⟨fun _ _ h => (nomatch h), fun _ h => (nomatch h), fun _ h => (nomatch h), fun _ => ⟨hc, rfl⟩⟩
    · next d rest =>
      split at h
      · cases h
      · next x hx =>
        split at h
        · cases h
        · next t ht =>
          cases h
          refine ⟨fun x' s' h => ?_, fun _ h => (nomatch h), fun _ h => (nomatch h), fun h => (nomatch h)⟩
          cases h
          refine ⟨hc, ht, rfl, fun h => ⟨rest, by rw [escape_count hx h]⟩, fun h => ?_⟩
          rcases escape_reset hx h with h | h <;> rw [ht] at h <;> cases h <;> simp
  · next hc =>
    split at h
    · next hb =>
      cases h
      refine ⟨fun _ _ h => (nomatch h), fun c' h => ?_, fun _ h => (nomatch h), fun h => (nomatch h)⟩
      cases h; exact ⟨⟨rfl, hc⟩, fun _ => rfl⟩
    · next hb =>
      have hb : c = '!' := by simpa using hb
      split at h
      · cases h
        refine ⟨fun _ _ h => (nomatch h), fun c' h => ?_, fun _ h => (nomatch h), fun h => (nomatch h)⟩
        cases h
        exact ⟨⟨hb, by decide⟩, fun h => absurd rfl h⟩
      · cases h
        exact ⟨fun _ _ h => (nomatch h), fun _ h => (nomatch h), fun _ _ => hb, fun h => (nomatch h)⟩

/-- Every piece of a prompt stands somewhere in it, and the pieces after it are those of what follows. -/
theorem toks_mem {e : Env} : ∀ (n : Nat) (buf : Option (List Char)) (cp : List Char) {l1 l2 : List Tok} {t : Tok},
    cp.length ≤ n → toks e n buf cp = some (l1 ++ t :: l2) →
    (t.head :: t.more) <:+ cp ∧ ∃ n' buf' cp', toks e n' buf' cp' = some l2 ∧ cp'.length ≤ n' ∧ cp' <:+ cp ∧ TokOk t cp'
  | 0, buf, [], l1, l2, t, _, h => by simp [toks] at h
  | n + 1, buf, [], l1, l2, t, _, h => by simp [toks] at h
  | n + 1, buf, c :: more, l1, l2, t, hn, h => by
    rw [toks] at h
    cases ht : tok e buf c more with
    | none => rw [ht] at h; cases h
    | some r =>
      obtain ⟨k, b, cp⟩ := r
      rw [ht] at h
      simp only [Option.map_eq_some_iff] at h
      obtain ⟨l, hl, heq⟩ := h
      have hsuf := tok_rest ht
      have hlen : cp.length ≤ n := by have := hsuf.length_le; simp at hn this; omega
      cases l1 with
      | nil =>
        simp only [List.nil_append, List.cons.injEq] at heq
        obtain ⟨rfl, rfl⟩ := heq
        exact ⟨List.suffix_refl _, n, b, cp, hl, hlen, hsuf.trans (List.suffix_cons _ _), tok_ok ht⟩
      | cons a l1 =>
        simp only [List.cons_append, List.cons.injEq] at heq
        obtain ⟨rfl, rfl⟩ := heq
        obtain ⟨h1, n', b', cp', h2, h3, h4, h5⟩ := toks_mem n b cp hlen hl
        have hs : cp <:+ c :: more := hsuf.trans (List.suffix_cons _ _)
        exact ⟨h1.trans hs, n', b', cp', h2, h3, h4.trans hs, h5⟩

/-- The prompt does not use `\[`. -/
def NoBracket (s : List Char) : Prop := ¬ ['\\', '['] <:+: s

theorem toks_counts {e : Env} {n : Nat} {buf : Option (List Char)} {cp : List Char} {l : List Tok} (hn : cp.length ≤ n)
    (h : toks e n buf cp = some l) (hb : NoBracket cp) : Counts l := by
  intro t ht x s hk hc
  obtain ⟨l1, l2, rfl⟩ := List.append_of_mem ht
  obtain ⟨h1, _, _, _, _, _, _, hok⟩ := toks_mem n buf cp hn h
  obtain ⟨hh, _, _, h3, _⟩ := hok.esc x s hk
  obtain ⟨r, hr⟩ := h3 hc
  apply hb
  rw [hh, hr] at h1
  obtain ⟨p, hp⟩ := h1
  exact ⟨p, r, by rw [← hp]; simp⟩

theorem header_suffix (s : List Char) : (header s).2 <:+ s := by
  unfold header
  split
  · exact (List.suffix_cons _ _).trans (List.suffix_cons _ _)
  · exact List.suffix_refl _

theorem noBracket_suffix {s t : List Char} (h : NoBracket s) (ht : t <:+ s) : NoBracket t :=
  fun hi => h (hi.trans ht.isInfix)

/-! ## Writing -/

theorem look_same (delim : Option Char) (s : St) (c : Char) (more : List Char) :
    (look delim s c more).2.out = s.out ∧ (look delim s c more).2.trunc = s.trunc ∧
      (look delim s c more).2.counting = s.counting := by
  simp only [look]
  split
  · simp
  · split
    · simp
    · split
      · split <;> simp
      · split <;> simp

theorem emit_out (s : St) (dt : Bool) (t : List Char) : (emit s dt t).out = s.out ++ t.drop s.trunc ∧
    (emit s dt t).trunc = s.trunc - t.length ∧ (emit s dt t).counting = s.counting := by
  simp only [emit]
  split
  · next h => exact ⟨by rw [List.drop_eq_nil_of_le h.2]; simp, rfl, rfl⟩
  · next h => exact ⟨rfl, by simp only; omega, rfl⟩

theorem put_out (s : St) (dt : Bool) (c : Char) (hc : s.counting = true) :
    (put s dt c).out = s.out ++ [c].drop s.trunc ∧ (put s dt c).trunc = s.trunc - 1 ∧ (put s dt c).counting = true := by
  simp only [put, hc, true_and]
  split
  · next h =>
    have : [c].drop s.trunc = [] := List.drop_eq_nil_of_le (by simp; omega)
    simp [this]
  · next h =>
    have : s.trunc = 0 := by simpa using h
    simp [this]

theorem step_out (delim : Option Char) (s : St) (t : Tok) (hc : s.counting = true)
    (ht : ∀ x u, t.kind = .esc x u → x.count ≠ some false) :
    (stepTok delim s t).out = s.out ++ t.kind.text.drop s.trunc ∧
    (stepTok delim s t).trunc = s.trunc - t.kind.text.length ∧ (stepTok delim s t).counting = true := by
  obtain ⟨l1, l2, l3⟩ := look_same delim s t.head t.more
  simp only [stepTok]
  generalize (look delim s t.head t.more).1 = dt
  generalize (look delim s t.head t.more).2 = s1 at l1 l2 l3
  cases hk : t.kind with
  | esc x u =>
    obtain ⟨e1, e2, e3⟩ := emit_out (applyEsc s1 x) dt u
    simp only [applyKind, Kind.text, e1, e2, e3]
    refine ⟨by simp [applyEsc, l1, l2], by simp [applyEsc, l2], ?_⟩
    simp only [applyEsc, l3, hc]
    have := ht x u hk
    cases hx : x.count with
    | none => rfl
    | some b => cases b with
      | true => rfl
      | false => exact absurd hx this
  | num u =>
    obtain ⟨e1, e2, e3⟩ := emit_out s1 dt u
    simp only [applyKind, Kind.text, e1, e2, e3, l1, l2, l3, hc]; simp
  | chr c =>
    obtain ⟨e1, e2, e3⟩ := put_out s1 dt c (by rw [l3]; exact hc)
    simp only [applyKind, Kind.text, e1, e2, e3, l1, l2]; simp
  | stop => simp [applyKind, Kind.text, l1, l2, l3, hc]

theorem fold_out (delim : Option Char) : ∀ (l : List Tok) (s : St), s.counting = true → Counts l →
    (l.foldl (stepTok delim) s).out = s.out ++ (texts l).drop s.trunc
  | [], s, _, _ => by simp [texts]
  | t :: l, s, hc, hl => by
    obtain ⟨h1, h2, h3⟩ := step_out delim s t hc (hl t (by simp))
    rw [List.foldl_cons, fold_out delim l _ h3 (fun t ht => hl t (by simp [ht])), h1, h2, texts_cons, List.drop_append,
      List.append_assoc]

/-- Without truncation everything is written, whatever is counted. -/
theorem step_out0 (delim : Option Char) (s : St) (t : Tok) (h0 : s.trunc = 0) :
    (stepTok delim s t).out = s.out ++ t.kind.text ∧ (stepTok delim s t).trunc = 0 := by
  obtain ⟨l1, l2, l3⟩ := look_same delim s t.head t.more
  simp only [stepTok]
  generalize (look delim s t.head t.more).1 = dt
  generalize (look delim s t.head t.more).2 = s1 at l1 l2 l3
  cases hk : t.kind with
  | esc x u =>
    obtain ⟨e1, e2, e3⟩ := emit_out (applyEsc s1 x) dt u
    simp only [applyKind, Kind.text, e1, e2]
    simp [applyEsc, l1, l2, h0]
  | num u =>
    obtain ⟨e1, e2, e3⟩ := emit_out s1 dt u
    simp only [applyKind, Kind.text, e1, e2, l1, l2, h0]; simp
  | chr c =>
    simp only [applyKind, Kind.text, put]
    rw [if_neg (by simp [l2, h0])]
    simp [l1, l2, h0]
  | stop => simp [applyKind, Kind.text, l1, l2, h0]

theorem fold_out0 (delim : Option Char) : ∀ (l : List Tok) (s : St), s.trunc = 0 →
    (l.foldl (stepTok delim) s).out = s.out ++ texts l
  | [], s, _ => by simp [texts]
  | t :: l, s, h0 => by
    obtain ⟨h1, h2⟩ := step_out0 delim s t h0
    rw [List.foldl_cons, fold_out0 delim l _ h2, h1, texts_cons, List.append_assoc]

theorem dopprompt_toks (e : Env) (sp : List Char) (n : Nat) : dopprompt e sp n =
    (toks e (header sp).2.length none (header sp).2).map
      (·.foldl (stepTok (header sp).1) ⟨[], 0, n, sp, false, true, none⟩) := by
  rw [dopprompt, loop_toks]

theorem pprompt_texts (e : Env) (sp : List Char) :
    pprompt e sp 0 = (toks e (header sp).2.length none (header sp).2).map texts := by
  rw [pprompt, dopprompt_toks]
  cases toks e (header sp).2.length none (header sp).2 with
  | none => rfl
  | some l => simp only [Option.map_some]; rw [fold_out0 _ _ _ rfl]; rfl

/-- **C94**: a prompt that is truncated by `n` columns is written without its first `n` characters, if it has no parts that
are not counted. -/
theorem truncation_partial (e : Env) (sp : List Char) (n : Nat) (hb : NoBracket sp) :
    pprompt e sp n = (pprompt e sp 0).map (List.drop n) := by
  rw [pprompt_texts, pprompt, dopprompt_toks]
  cases h : toks e (header sp).2.length none (header sp).2 with
  | none => rfl
  | some l =>
    have hc := toks_counts (Nat.le_refl _) h (noBracket_suffix hb (header_suffix sp))
    simp only [Option.map_some]
    rw [fold_out _ _ _ rfl hc]
    rfl

/-- An environment for examples. -/
def env : Env where
  sh := false
  root := false
  time := fun _ => ['1', '2']
  host := ['h', '.', 'x']
  jobs := 3
  tty := some ['t', '0']
  kshname := ['k', 's', 'h']
  user := ['m', 'e']
  verShort := ['v', '5']
  version := ['K', ' ', 'v', '5']
  pwd := ['/', 'r', '/', 's']
  home := ['/', 'r']
  pwdBase := ['s']
  line := 41
  cmdOffset := 40

example : pprompt env ['\\', 'u', '@', '\\', 'h', ':', '\\', 'w', '!', '$'] 3 =
    some ['h', ':', '~', '/', 's', '4', '2', '$'] := by decide +kernel

/-- False of the code: with `\[` the escape sequence for a colour loses its ESC (column truncation takes the uncounted
character, and the rest of the sequence is shown as text), and the `r` that should go is shown. -/
theorem truncation_breaks :
    pprompt env ['\\', '[', '\\', 'e', '[', '3', '1', 'm', '\\', ']', 'r', 'e', 'd'] 0 =
      some ['\x1b', '[', '3', '1', 'm', 'r', 'e', 'd'] ∧
    pprompt env ['\\', '[', '\\', 'e', '[', '3', '1', 'm', '\\', ']', 'r', 'e', 'd'] 1 =
      some ['[', '3', '1', 'm', 'r', 'e', 'd'] := by decide +kernel

/-! ## The last line -/

/-- The piece starts a new line. -/
def Tok.brk (t : Tok) : Bool :=
  t.head == '\n' || (match t.kind with | .esc x _ => x.reset | _ => false)

/-- The pieces of a prompt without tab and carriage return. -/
structure Plain (t : Tok) : Prop where
  tab : t.head ≠ '\t'
  cr : t.head ≠ '\r'

theorem step_len {s : St} {t : Tok} {cp' : List Char} (hs : s.trunc = 0) (hc : s.counting = true) (hi : s.indel = false)
    (hp : Plain t) (hok : TokOk t cp') (hcnt : ∀ x u, t.kind = .esc x u → x.count ≠ some false) :
    (stepTok none s t).indel = false ∧
    (t.brk = false → (stepTok none s t).tot = s.tot + t.kind.text.length ∧ (stepTok none s t).sp = s.sp) ∧
    (t.brk = true → (stepTok none s t).tot = 1 ∧ (stepTok none s t).sp = cp' ∧
      (t.kind.text = ['\n'] ∨ t.kind.text = ['\r'])) := by
  have hlook : look none s t.head t.more = (false, if t.head = '\n' then { s with tot := 0, sp := t.more } else s) := by
    simp only [look, hi]
    rw [if_neg (by simp)]
    by_cases hn : t.head = '\n'
    · rw [if_pos (.inl hn), if_pos hn]
    · rw [if_neg (by simp [hn, hp.cr]), if_neg hp.tab, if_neg (by simp), if_neg hn]
  simp only [stepTok, hlook]
  cases hk : t.kind with
  | esc x u =>
    obtain ⟨h1, h2, h3, h4, h5⟩ := hok.esc x u hk
    have hn : t.head ≠ '\n' := by rw [h1]; decide
    have hcn := hcnt x u hk
    have hcount : x.count.getD true = true := by
      cases hx : x.count with
      | none => rfl
      | some b => cases b with
        | true => rfl
        | false => exact absurd hx hcn
    simp only [if_neg hn, applyKind, emit, applyEsc, hs, hc, hi, Kind.text, Tok.brk, hk]
    rw [if_neg (by simp)]
    simp only [hcount]
    have hb : (t.head == '\n') = false := by simp [hn]
    simp only [hb, Bool.false_or]
    refine ⟨by simp, fun h => by simp [h], fun h => ?_⟩
    rcases h5 h with h' | h' <;> simp [h, h', h3]
  | num u =>
    have hn : t.head ≠ '\n' := by rw [hok.num u hk]; decide
    have hb : t.brk = false := by simp [Tok.brk, hk, hn]
    simp only [if_neg hn, applyKind, emit, hs, Kind.text]
    rw [if_neg (by simp)]
    simp [hc, hi, hb]
  | chr c =>
    obtain ⟨⟨h1, _⟩, h2⟩ := hok.chr c hk
    by_cases hn : t.head = '\n'
    · have hb : t.brk = true := by simp [Tok.brk, hn]
      simp only [if_pos hn, applyKind, put, Kind.text, hc, hi, hs, hb]
      have : cp' = t.more := h2 (by rw [← h1, hn]; decide)
      simp [this, ← h1, hn]
    · have hb : t.brk = false := by simp [Tok.brk, hk, hn]
      simp only [if_neg hn, applyKind, put, Kind.text, hc, hi, hs, hb]
      simp
  | stop =>
    have hn : t.head ≠ '\n' := by rw [(hok.stop hk).1]; decide
    have hb : t.brk = false := by simp [Tok.brk, hk, hn]
    simp [if_neg hn, applyKind, Kind.text, hi, hb]

/-- The state after some pieces, none of which starts a line. -/
theorem fold_flat {e : Env} : ∀ (l : List Tok) (s : St) (n : Nat) (buf : Option (List Char)) (cp : List Char), s.trunc = 0 → s.counting = true →
    s.indel = false → Counts l → cp.length ≤ n → toks e n buf cp = some l → (∀ t ∈ l, Plain t ∧ t.brk = false) →
    (l.foldl (stepTok none) s).tot = s.tot + (texts l).length ∧ (l.foldl (stepTok none) s).sp = s.sp
  | [], s, _, _, _, _, _, _, _, _, _, _ => by simp [texts]
  | t :: l, s, n, buf, cp, hs, hc, hi, hcn, hn, ht, hp => by
    obtain ⟨_, n', buf', cp', h2, h3, _, hok⟩ := toks_mem (l1 := []) n buf cp hn ht
    obtain ⟨a1, a2, _⟩ := step_len hs hc hi (hp t (by simp)).1 hok (hcn t (by simp))
    obtain ⟨b1, b2⟩ := a2 (hp t (by simp)).2
    have c1 := step_out none s t hc (hcn t (by simp))
    have ih := fold_flat l (stepTok none s t) n' buf' cp' (step_out0 none s t hs).2 c1.2.2 a1
      (fun t ht => hcn t (by simp [ht])) h3 h2 (fun t ht => hp t (by simp [ht]))
    rw [List.foldl_cons, ih.1, ih.2, b1, b2, texts_cons, List.length_append]
    exact ⟨by omega, rfl⟩

/-- The state after pieces stays fit for more. -/
theorem fold_fit {e : Env} : ∀ (l l2 : List Tok) (s : St) (n : Nat) (buf : Option (List Char)) (cp : List Char), s.trunc = 0 →
    s.counting = true → s.indel = false → Counts l → cp.length ≤ n → toks e n buf cp = some (l ++ l2) → (∀ t ∈ l, Plain t) →
    (l.foldl (stepTok none) s).trunc = 0 ∧ (l.foldl (stepTok none) s).counting = true ∧
      (l.foldl (stepTok none) s).indel = false ∧ ∃ n' buf' cp', cp'.length ≤ n' ∧ toks e n' buf' cp' = some l2
  | [], l2, s, n, buf, cp, hs, hc, hi, _, hn, ht, _ => ⟨hs, hc, hi, n, buf, cp, hn, ht⟩
  | t :: l, l2, s, n, buf, cp, hs, hc, hi, hcn, hn, ht, hp => by
    obtain ⟨_, n', buf', cp', h2, h3, _, hok⟩ := toks_mem (l1 := []) n buf cp hn ht
    obtain ⟨a1, _, _⟩ := step_len hs hc hi (hp t (by simp)) hok (hcn t (by simp))
    have c1 := step_out none s t hc (hcn t (by simp))
    exact fold_fit l l2 (stepTok none s t) n' buf' cp' (step_out0 none s t hs).2 c1.2.2 a1
      (fun t ht => hcn t (by simp [ht])) h3 h2 (fun t ht => hp t (by simp [ht]))

theorem split_last {p : Tok → Bool} : ∀ (l : List Tok), (∀ t ∈ l, p t = false) ∨
    ∃ l1 t l2, l = l1 ++ t :: l2 ∧ p t = true ∧ ∀ u ∈ l2, p u = false
  | [] => .inl (by simp)
  | a :: l => by
    rcases split_last (p := p) l with h | ⟨l1, t, l2, rfl, h1, h2⟩
    · by_cases ha : p a = true
      · exact .inr ⟨[], a, l, rfl, ha, h⟩
      · left
        intro t ht
        rcases List.mem_cons.mp ht with rfl | ht
        · simpa using ha
        · exact h t ht
    · exact .inr ⟨a :: l1, t, l2, rfl, h1, h2⟩

/-- **C95**: for a prompt without tabs, carriage returns and `\[`, written on a terminal: what is written is `o1 ++ o2`,
redrawing writes exactly `o2`, and either `o1` is empty and the length is the number of characters of `o2`, or `o1` ends in a
line break and the length is one more than that. -/
theorem last_line_partial (e : Env) (sp : List Char) (htty : e.tty ≠ none) (hb : NoBracket sp) (htab : '\t' ∉ sp)
    (hcr : '\r' ∉ sp) {o : List Char} (ho : pprompt e sp 0 = some o) :
    ∃ o1 o2 n rest, o = o1 ++ o2 ∧ promptlen e sp = some (n, rest) ∧ pprompt e rest 0 = some o2 ∧
      ((o1 = [] ∧ n = o2.length) ∨
        ((o1.getLast? = some '\n' ∨ o1.getLast? = some '\r') ∧ n = o2.length + 1)) := by
  have hhead : ∀ s : List Char, '\r' ∉ s → header s = (none, s) := by
    intro s hs
    unfold header
    split
    · exact absurd (by simp) hs
    · rfl
  have hsp := hhead sp hcr
  rw [pprompt_texts, hsp] at ho
  rw [promptlen, dopprompt_toks, hsp]
  simp only at ho ⊢
  cases hl : toks e sp.length none sp with
  | none => rw [hl] at ho; cases ho
  | some l =>
    rw [hl] at ho
    simp only [Option.map_some, Option.some.injEq] at ho ⊢
    have hcn := toks_counts (Nat.le_refl _) hl hb
    have hplain : ∀ t ∈ l, Plain t := by
      intro t ht
      obtain ⟨l1, l2, rfl⟩ := List.append_of_mem ht
      obtain ⟨h1, _⟩ := toks_mem _ _ _ (Nat.le_refl _) hl
      have : t.head ∈ sp := h1.subset (by simp)
      exact ⟨fun h => htab (h ▸ this), fun h => hcr (h ▸ this)⟩
    rcases split_last (p := Tok.brk) l with hno | ⟨l1, t, l2, rfl, hbt, hno⟩
    · obtain ⟨h1, h2⟩ := fold_flat l ⟨[], 0, 0, sp, false, true, none⟩ _ _ _ rfl rfl rfl hcn (Nat.le_refl _) hl
        (fun t ht => ⟨hplain t ht, hno t ht⟩)
      refine ⟨[], o, _, _, rfl, rfl, ?_, .inl ⟨rfl, ?_⟩⟩
      · rw [h2, pprompt_texts, hsp]; simp only [hl, Option.map_some, ho]
      · rw [h1, ho]; simp
    · obtain ⟨_, n', buf', cp', h2, h3, hsuf, hok⟩ := toks_mem _ _ _ (Nat.le_refl _) hl
      obtain ⟨f1, f2, f3, _⟩ := fold_fit l1 (t :: l2) ⟨[], 0, 0, sp, false, true, none⟩ _ _ _ rfl rfl rfl
        (fun u hu => hcn u (by simp [hu])) (Nat.le_refl _) hl (fun u hu => hplain u (by simp [hu]))
      obtain ⟨g1, _, g3⟩ := step_len f1 f2 f3 (hplain t (by simp)) hok (hcn t (by simp))
      obtain ⟨k1, k2, k3⟩ := g3 hbt
      have c1 := step_out none _ t f2 (hcn t (by simp))
      have c0 := step_out0 none _ t f1
      obtain ⟨m1, m2⟩ := fold_flat l2 _ _ _ _ c0.2 c1.2.2 g1 (fun u hu => hcn u (by simp [hu])) h3 h2
        (fun u hu => ⟨hplain u (by simp [hu]), hno u hu⟩)
      refine ⟨texts (l1 ++ [t]), texts l2, _, _, ?_, rfl, ?_, .inr ⟨?_, ?_⟩⟩
      · rw [← ho]; simp [texts]
      · rw [List.foldl_append, List.foldl_cons, m2, k2, pprompt_texts, hhead cp' (fun h => hcr (hsuf.subset h))]
        simp only
        rw [← toks_more e _ n' _ _ (Nat.le_refl _) h3, toks_buf htty n' none buf', h2]
        rfl
      · have : texts (l1 ++ [t]) = texts l1 ++ t.kind.text := by simp [texts]
        rw [this]
        rcases k3 with h | h <;> rw [h] <;> simp
      · rw [List.foldl_append, List.foldl_cons, m1, k1]; omega

example : promptlen env ['a', '\\', 'n', '\\', 'u', '$', ' '] = some (5, ['\\', 'u', '$', ' ']) := by decide +kernel

/-- False of the code: after a newline the cursor of the prompt `$ ` stands in column 2, the length is 3; a tab at the start of
the line ends in column 8, the length is 9. -/
theorem newline_counted : promptlen env ['\n', '$', ' '] = some (3, ['$', ' ']) ∧
    promptlen env ['\t'] = some (9, ['\t']) := by decide +kernel

/-! ## What the escapes show -/

/-- The manual's table of escapes: what is shown for a backslash and the character. -/
def table (e : Env) : List (Char × List Char) := [
  ('a', ['\x07']), ('d', e.time "%a %b %d".toList), ('e', ['\x1b']), ('h', e.host.takeWhile (· ≠ '.')), ('H', e.host),
  ('j', dec e.jobs), ('l', e.tty.getD []), ('n', ['\n']), ('r', ['\r']), ('s', e.kshname), ('t', e.time "%T".toList),
  ('T', e.time "%l:%M:%S".toList), ('@', e.time "%r".toList), ('A', e.time "%R".toList), ('u', e.user),
  ('v', e.verShort), ('V', e.version), ('!', dec (e.line + 1)), ('#', dec (e.line - e.cmdOffset + 1)), ('\\', ['\\']),
  ('[', []), (']', []), ('p', [if e.root then '#' else '$']),
  ('w', cwd e), ('W', if e.pwd = e.home then ['~'] else e.pwdBase)]

/-- **C94**: an escape of the table shows its text (at most 1023 characters of it), and what follows is shown as it would be by
itself. -/
theorem escape_shows {e : Env} (hsh : e.sh = false) (htty : e.tty ≠ none) {c : Char} {t : List Char}
    (h : (c, t) ∈ table e) {rest : List Char} (hh : (header rest).1 = none) :
    pprompt e ('\\' :: c :: rest) 0 = (pprompt e rest 0).map (t.take 1023 ++ ·) := by
  have hr : header rest = (none, rest) := by
    revert hh
    unfold header
    split
    · intro h; cases h
    · intro _; rfl
  have hc : c ≠ '\r' := by
    rintro rfl
    simp [table] at h
  have hs : header ('\\' :: c :: rest) = (none, '\\' :: c :: rest) := by
    unfold header
    split
    · next h => cases h; exact absurd rfl hc
    · rfl
  have hesc : ∃ x, escape e none c rest = some x ∧ x.buf = some (t.take 1023) ∧ x.rest = rest := by
    obtain ⟨tt, htt⟩ := Option.ne_none_iff_exists'.mp htty
    simp only [table, List.mem_cons, Prod.mk.injEq, List.not_mem_nil, or_false] at h
    rcases h with ⟨rfl, rfl⟩ | ⟨rfl, rfl⟩ | ⟨rfl, rfl⟩ | ⟨rfl, rfl⟩ | ⟨rfl, rfl⟩ | ⟨rfl, rfl⟩ | ⟨rfl, rfl⟩ | ⟨rfl, rfl⟩ |
      ⟨rfl, rfl⟩ | ⟨rfl, rfl⟩ | ⟨rfl, rfl⟩ | ⟨rfl, rfl⟩ | ⟨rfl, rfl⟩ | ⟨rfl, rfl⟩ | ⟨rfl, rfl⟩ | ⟨rfl, rfl⟩ | ⟨rfl, rfl⟩ |
      ⟨rfl, rfl⟩ | ⟨rfl, rfl⟩ | ⟨rfl, rfl⟩ | ⟨rfl, rfl⟩ | ⟨rfl, rfl⟩ | ⟨rfl, rfl⟩ | ⟨rfl, rfl⟩ | ⟨rfl, rfl⟩
    all_goals
      simp only [escape, hsh, Bool.false_and, Bool.false_eq_true, if_false, htt, Option.getD_some]
      try exact ⟨_, rfl, rfl, rfl⟩
    · cases e.root <;> exact ⟨_, rfl, rfl, rfl⟩
  obtain ⟨x, hx, hxb, hxr⟩ := hesc
  rw [pprompt_texts, pprompt_texts, hs, hr]
  simp only [List.length_cons]
  rw [toks, tok, if_pos rfl]
  simp only [hx, hxb, hxr]
  rw [toks_more e rest.length _ _ _ (Nat.le_refl _) (by omega), toks_buf htty _ _ none]
  cases toks e rest.length none rest with
  | none => rfl
  | some l => simp [texts_cons, Kind.text]

theorem shows_of_escape {e : Env} (htty : e.tty ≠ none) {c : Char} {rest t : List Char} {x : Esc}
    (hx : escape e none c rest = some x) (hb : x.buf = some t) (hc : c ≠ '\r') (hr : '\r' ∉ rest) :
    pprompt e ('\\' :: c :: rest) 0 = (pprompt e x.rest 0).map (t ++ ·) := by
  have hhead : ∀ s : List Char, '\r' ∉ s → header s = (none, s) := by
    intro s hs
    unfold header
    split
    · exact absurd (by simp) hs
    · rfl
  have hsuf := escape_rest hx
  rw [pprompt_texts, pprompt_texts, hhead _ (fun h => hr (hsuf.subset h)), hhead _ (by simp [hr, Ne.symm hc])]
  simp only [List.length_cons]
  rw [toks, tok, if_pos rfl]
  simp only [hx, hb]
  rw [toks_more e x.rest.length _ _ _ (Nat.le_refl _) (by have := hsuf.length_le; omega), toks_buf htty _ _ none]
  cases toks e x.rest.length none x.rest with
  | none => rfl
  | some l => simp [texts_cons, Kind.text]

/-- `\D{format}` shows the time in this format; without the braces, or if the closing one is missing, it shows itself. -/
theorem date_shown {e : Env} (hsh : e.sh = false) (htty : e.tty ≠ none) {rest : List Char} (hr : '\r' ∉ rest) :
    (∀ f, '}' ∉ f → '\r' ∉ f → f.length < 1023 → pprompt e ('\\' :: 'D' :: '{' :: (f ++ '}' :: rest)) 0 =
      (pprompt e rest 0).map ((e.time f).take 1023 ++ ·)) ∧
    (rest ≠ [] → (rest.head? ≠ some '{' ∨ '}' ∉ rest) →
      pprompt e ('\\' :: 'D' :: rest) 0 = (pprompt e rest 0).map ('\\' :: 'D' :: ·)) := by
  refine ⟨fun f hf hfr hlen => ?_, fun hne hh => ?_⟩
  · have hp : ∀ c ∈ f, (decide (c ≠ '}')) = true := by
      intro c hc
      simp only [ne_eq, decide_eq_true_eq]
      rintro rfl
      exact hf hc
    have h1 : ((f ++ '}' :: rest).take 1023).takeWhile (· ≠ '}') = f := by
      rw [List.take_append, List.take_of_length_le (by omega)]
      obtain ⟨k, hk⟩ : ∃ k, 1023 - f.length = k + 1 := ⟨1022 - f.length, by omega⟩
      rw [hk, List.take_succ_cons, List.takeWhile_append_of_pos hp, List.takeWhile_cons_of_neg (by simp), List.append_nil]
    have h2 : ((f ++ '}' :: rest).dropWhile (· ≠ '}')).drop 1 = rest := by
      rw [List.dropWhile_append_of_pos hp, List.dropWhile_cons_of_neg (by simp)]
      rfl
    have hx : escape e none 'D' ('{' :: (f ++ '}' :: rest)) =
        some ⟨some ((e.time f).take 1023), rest, false, none⟩ := by
      simp only [escape, hsh, Bool.false_and, Bool.false_eq_true, if_false, escD]
      rw [if_pos (by simp)]
      simp only [bufMax, h1, h2]
    rw [shows_of_escape htty hx rfl (by decide) (by simp [hr, hfr])]
  · have hx : escape e none 'D' rest = some (simple ['\\', 'D'] rest) := by
      simp only [escape, hsh, Bool.false_and, Bool.false_eq_true, if_false]
      cases rest with
      | nil => exact absurd rfl hne
      | cons b r =>
        simp only [escD]
        rw [if_neg]
        rintro ⟨rfl, h⟩
        rcases hh with hh | hh
        · exact hh rfl
        · exact hh (by simp [h])
    rw [shows_of_escape htty hx rfl (by decide) hr]
    rfl

/-- Three octal digits show the byte they stand for. -/
theorem octal_shown {e : Env} (hsh : e.sh = false) (htty : e.tty ≠ none) {a b c : Nat} (ha : a < 4) (hb : b < 8) (hc : c < 8)
    (h0 : 0 < a * 64 + b * 8 + c) {rest : List Char} (hr : '\r' ∉ rest) :
    pprompt e ('\\' :: Char.ofNat (48 + a) :: Char.ofNat (48 + b) :: Char.ofNat (48 + c) :: rest) 0 =
      (pprompt e rest 0).map (Char.ofNat (a * 64 + b * 8 + c) :: ·) := by
  have hd : ∀ n : Nat, n < 8 → n = 0 ∨ n = 1 ∨ n = 2 ∨ n = 3 ∨ n = 4 ∨ n = 5 ∨ n = 6 ∨ n = 7 := by omega
  have hval : ∀ n : Nat, n < 8 → (Char.ofNat (48 + n)).toNat - 48 = n ∧ oct (Char.ofNat (48 + n)) = true ∧
      Char.ofNat (48 + n) ≠ '\r' := by
    intro n hn
    rcases hd n hn with rfl | rfl | rfl | rfl | rfl | rfl | rfl | rfl <;> decide
  have hx : escape e none (Char.ofNat (48 + a)) (Char.ofNat (48 + b) :: Char.ofNat (48 + c) :: rest) =
      some (simple (octal (Char.ofNat (48 + a)) (Char.ofNat (48 + b)) (Char.ofNat (48 + c))) rest) := by
    have : ∀ n, n < 4 → escape e none (Char.ofNat (48 + n)) (Char.ofNat (48 + b) :: Char.ofNat (48 + c) :: rest) =
        some (escOct (Char.ofNat (48 + n)) (Char.ofNat (48 + b) :: Char.ofNat (48 + c) :: rest)) := by
      intro n hn
      have : n = 0 ∨ n = 1 ∨ n = 2 ∨ n = 3 := by omega
      rcases this with rfl | rfl | rfl | rfl <;>
        simp only [escape, hsh, Bool.false_and, Bool.false_eq_true, if_false] <;> rfl
    rw [this a ha]
    simp only [escOct, (hval b hb).2.1, (hval c hc).2.1, Bool.and_self, if_true]
  rw [shows_of_escape htty hx rfl (hval a (by omega)).2.2 (by
    simp only [List.mem_cons, not_or]
    exact ⟨(hval b hb).2.2.symm, (hval c hc).2.2.symm, hr⟩)]
  have : octal (Char.ofNat (48 + a)) (Char.ofNat (48 + b)) (Char.ofNat (48 + c)) = [Char.ofNat (a * 64 + b * 8 + c)] := by
    simp only [octal, (hval a (by omega)).1, (hval b hb).1, (hval c hc).1]
    rw [Nat.mod_eq_of_lt (by omega), if_neg (by omega)]
  rw [this]
  simp only [simple, bufMax]
  rfl

example : pprompt env ['\\', '0', '6', '1', '\\', 'D', '{', 'x', '}', 'y'] 0 = some ['1', '1', '2', 'y'] := by decide +kernel

/-- Characters without a meaning are shown as they are. -/
theorem plain_shown {e : Env} (p : List Char) (hp : ∀ c ∈ p, c ≠ '\\' ∧ c ≠ '!' ∧ c ≠ '\r')
    {rest : List Char} (hr : '\r' ∉ rest) : pprompt e (p ++ rest) 0 = (pprompt e rest 0).map (p ++ ·) := by
  have hhead : ∀ s : List Char, '\r' ∉ s → header s = (none, s) := by
    intro s hs
    unfold header
    split
    · exact absurd (by simp) hs
    · rfl
  induction p with
  | nil => simp
  | cons c p ih =>
    have ih := ih fun c hc => hp c (by simp [hc])
    have hpr : '\r' ∉ p ++ rest := by
      simp only [List.mem_append, not_or]
      exact ⟨fun h => (hp _ (by simp [h])).2.2 rfl, hr⟩
    have hc := hp c (by simp)
    have hcpr : '\r' ∉ c :: (p ++ rest) := by
      simp only [List.mem_cons, not_or]
      exact ⟨fun h => hc.2.2 h.symm, hpr⟩
    rw [List.cons_append, pprompt_texts, hhead _ hcpr]
    rw [pprompt_texts, hhead _ hpr] at ih
    simp only [List.length_cons] at ih ⊢
    have htk : tok e none c (p ++ rest) = some (.chr c, none, p ++ rest) := by
      simp only [tok]
      rw [if_neg hc.1, if_pos hc.2.1]
    rw [toks, htk]
    simp only
    have : (Option.map texts ((toks e (p ++ rest).length none (p ++ rest)).map (⟨c, p ++ rest, .chr c⟩ :: ·))) =
        (Option.map texts (toks e (p ++ rest).length none (p ++ rest))).map (c :: ·) := by
      cases toks e (p ++ rest).length none (p ++ rest) with
      | none => rfl
      | some l => simp [texts_cons, Kind.text]
    rw [this, ih]
    cases pprompt e rest 0 <;> simp

example : pprompt env ['\\', 'u', '!'] 0 = (pprompt env ['!'] 0).map (['m', 'e'] ++ ·) :=
  escape_shows (e := env) rfl (by simp [env]) (c := 'u') (t := ['m', 'e']) (by simp [table, env]) rfl

/-- `!` shows the number of the command in the history, `!!` an exclamation mark. -/
theorem bang_shown {e : Env} {rest : List Char} (hr : '\r' ∉ rest) :
    pprompt e ('!' :: '!' :: rest) 0 = (pprompt e rest 0).map ('!' :: ·) ∧
    (rest.head? ≠ some '!' → pprompt e ('!' :: rest) 0 = (pprompt e rest 0).map (dec (e.line + 1) ++ ·)) := by
  have hhead : ∀ s : List Char, '\r' ∉ s → header s = (none, s) := by
    intro s hs
    unfold header
    split
    · exact absurd (by simp) hs
    · rfl
  refine ⟨?_, fun h => ?_⟩
  · rw [pprompt_texts, pprompt_texts, hhead _ hr, hhead ('!' :: '!' :: rest) (by simp [hr])]
    have htk : tok e none '!' ('!' :: rest) = some (.chr '!', none, rest) := rfl
    simp only [List.length_cons]
    rw [toks, htk]
    simp only
    rw [toks_more e rest.length _ _ _ (Nat.le_refl _) (by omega)]
    cases toks e rest.length none rest <;> simp [texts_cons, Kind.text]
  · rw [pprompt_texts, pprompt_texts, hhead _ hr, hhead ('!' :: rest) (by simp [hr])]
    have htk : tok e none '!' rest = some (.num (dec (e.line + 1)), none, rest) := by
      simp only [tok]
      rw [if_neg (by decide), if_neg (by decide), if_neg h]
    simp only [List.length_cons]
    rw [toks, htk]
    simp only
    cases toks e rest.length none rest <;> simp [texts_cons, Kind.text]

/-- `\w` shows `~` for the home directory and for what is below it, and the whole name for everything else, also for
directories whose name merely begins with that of the home directory. -/
theorem cwd_shown (e : Env) (hroot : e.pwd ≠ ['/']) :
    (e.pwd = e.home → cwd e = ['~']) ∧
    (∀ r, e.pwd = e.home ++ '/' :: r → cwd e = '~' :: '/' :: r) ∧
    (e.pwd ≠ e.home → (∀ r, e.pwd ≠ e.home ++ '/' :: r) → cwd e = e.pwd) := by
  refine ⟨fun h => ?_, fun r h => ?_, fun h1 h2 => ?_⟩
  · rw [cwd, if_neg hroot, if_pos h]
  · have hne : e.pwd ≠ e.home := by
      intro h'
      have := congrArg List.length (h' ▸ h)
      simp at this
    rw [cwd, if_neg hroot, if_neg hne, if_pos (by rw [h]; simp), h]
    rw [show e.home.length + 1 = (e.home ++ ['/']).length by simp]
    rw [show e.home ++ '/' :: r = (e.home ++ ['/']) ++ r by simp, List.drop_left]
  · rw [cwd, if_neg hroot, if_neg h1, if_neg]
    rintro ⟨ht, hh⟩
    cases hd : e.pwd.drop e.home.length with
    | nil => rw [hd] at hh; cases hh
    | cons c r =>
      rw [hd] at hh
      simp only [List.head?_cons, Option.some.injEq] at hh
      subst hh
      apply h2 r
      rw [← ht, ← hd]
      have := List.take_append_drop e.home.length e.pwd
      rw [ht] at this ⊢
      exact this.symm

/-! ## `\$` -/

/-- **C94**: before anything else is expanded, exactly the `$` that follow a backslash become `p`. -/
theorem special_spec : ∀ (s : List Char) (i : Nat), (special s)[i]? =
    if s[i]? = some '$' ∧ 0 < i ∧ s[i - 1]? = some '\\' then some 'p' else s[i]?
  | [], i => by simp [special]
  | [c], i => by
    have : special [c] = [c] := by
      rw [special]
      · rfl
      · intro r h h2; cases h2
    rw [this]
    cases i with
    | zero => simp
    | succ i => simp
  | c :: d :: r, i => by
    by_cases h : c = '\\' ∧ d = '$'
    · obtain ⟨rfl, rfl⟩ := h
      rw [special]
      match i with
      | 0 => simp
      | 1 => simp
      | 2 =>
        have := special_spec r 0
        simp only [Nat.lt_irrefl, false_and, and_false, if_false] at this
        simpa using this
      | i + 3 =>
        have := special_spec r (i + 1)
        simpa using this
    · rw [special]
      · match i with
        | 0 => simp
        | 1 =>
          have := special_spec (d :: r) 0
          simp only [Nat.lt_irrefl, false_and, and_false, if_false] at this
          rw [List.getElem?_cons_succ, this]
          simp only [List.getElem?_cons_succ, List.getElem?_cons_zero, Option.some.injEq]
          rw [if_neg]
          rintro ⟨h1, _, h2⟩
          exact h ⟨by simpa using h2, h1⟩
        | i + 2 =>
          have := special_spec (d :: r) (i + 1)
          simpa using this
      · intro r' h1 h2; exact h ⟨h1, by simpa using (List.cons.inj h2).1⟩

/-- `\$` shows `#` for the superuser and `$` for others. -/
theorem dollar_shown {e : Env} (hsh : e.sh = false) (htty : e.tty ≠ none) {rest : List Char}
    (hh : (header (special rest)).1 = none) :
    pprompt e (special ('\\' :: '$' :: rest)) 0 =
      (pprompt e (special rest) 0).map ([if e.root then '#' else '$'] ++ ·) := by
  rw [special, escape_shows hsh htty (c := 'p') (t := [if e.root then '#' else '$']) (by simp [table]) hh]
  rfl

/-- False of the code: a backslash that is itself quoted also changes the `$` after it, so `\\$HOME` shows `\pHOME`. -/
theorem quoted_backslash : special ['\\', '\\', '$', 'H'] = ['\\', '\\', 'p', 'H'] ∧
    pprompt env (special ['\\', '\\', '$', 'H']) 0 = some ['\\', 'p', 'H'] := by decide +kernel

/-! ## Memory -/

theorem escape_some {e : Env} (htty : e.tty ≠ none) (buf : Option (List Char)) {c : Char} {rest : List Char}
    (h : c = 'D' → rest ≠ []) : ∃ x t, escape e buf c rest = some x ∧ x.buf = some t := by
  obtain ⟨tt, htt⟩ := Option.ne_none_iff_exists'.mp htty
  have hD : rest ≠ [] → ∃ x t, escD e rest = some x ∧ x.buf = some t := by
    intro hne
    cases rest with
    | nil => exact absurd rfl hne
    | cons b r =>
      simp only [escD]
      split
      · exact ⟨_, _, rfl, rfl⟩
      · exact ⟨_, _, rfl, rfl⟩
  have hO : ∃ t, (escOct c rest).buf = some t := by
    unfold escOct
    split
    · split <;> exact ⟨_, rfl⟩
    · exact ⟨_, rfl⟩
  unfold escape
  split
  · exact ⟨_, _, rfl, rfl⟩
  · split
    all_goals first
      | exact ⟨_, _, rfl, rfl⟩
      | exact hD (h rfl)
      | skip
    · rw [htt]; exact ⟨_, _, rfl, rfl⟩
    · split
      · obtain ⟨t, ht⟩ := hO; exact ⟨_, t, rfl, ht⟩
      · exact ⟨_, _, rfl, rfl⟩

/-- **C94**, memory: a prompt that does not end in `\D` is written without reading behind it, if standard input is a
terminal. -/
theorem prompt_safe_partial (e : Env) (sp : List Char) (n : Nat) (htty : e.tty ≠ none) (hD : ¬ ['\\', 'D'] <:+ sp) :
    pprompt e sp n ≠ none := by
  have main : ∀ (m : Nat) (buf : Option (List Char)) (cp : List Char), cp.length ≤ m → cp <:+ sp → toks e m buf cp ≠ none := by
    intro m
    induction m with
    | zero =>
      intro buf cp hl _
      cases cp with
      | nil => simp [toks]
      | cons => simp at hl
    | succ m ih =>
      intro buf cp hl hsuf
      cases cp with
      | nil => simp [toks]
      | cons c more =>
        rw [toks]
        have ht : ∃ r, tok e buf c more = some r := by
          simp only [tok]
          split
          · next hc =>
            cases more with
            | nil => exact ⟨_, rfl⟩
            | cons d rest =>
              obtain ⟨x, t, hx, hxb⟩ := escape_some (e := e) htty buf (c := d) (rest := rest) (by
                rintro rfl rfl
                exact hD (by rw [← hc]; exact hsuf))
              simp only [hx, hxb]
              exact ⟨_, rfl⟩
          · split
            · exact ⟨_, rfl⟩
            · split <;> exact ⟨_, rfl⟩
        obtain ⟨⟨k, b, cp'⟩, ht⟩ := ht
        rw [ht]
        have hs := tok_rest ht
        have := ih b cp' (by have := hs.length_le; simp at hl this; omega) ((hs.trans (List.suffix_cons _ _)).trans hsuf)
        simpa using this
  rw [pprompt, dopprompt_toks]
  have := main _ none _ (Nat.le_refl _) (header_suffix sp)
  simpa using this

/-- False of the code: PS1='\D' is read behind its end; `\l` without a terminal uses an uninitialised buffer. -/
theorem prompt_undefined : pprompt env ['\\', 'D'] 0 = none ∧ pprompt { env with tty := none } ['\\', 'l'] 0 = none := by
  decide +kernel

end Ksh.Prompt
