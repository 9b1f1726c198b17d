import Verif.Ifs.Model
/-!
# C18 field splitting, C21 command output, C57 `"$@"` and `"$*"`
-/

namespace Ksh.Ifs

/-! ## Specification -/

/-- What is subject to splitting: characters, each with the mark whether it comes from an
unquoted expansion, and places where a quote begins. -/
inductive Tok
  | c (ch : Char) (splittable : Bool)
  | mark
  deriving DecidableEq, Repr

def Tok.isWs (E : Env) : Tok → Bool
  | .c ch true => E.ifs ch && ws ch
  | _ => false
def Tok.isNws (E : Env) : Tok → Bool
  | .c ch true => E.ifs ch && !ws ch
  | _ => false
/-- not a delimiter character -/
def Tok.plain (E : Env) (t : Tok) : Bool := !t.isWs E && !t.isNws E
def Tok.text : Tok → List Char
  | .c ch _ => [ch]
  | .mark => []
def text (l : List Tok) : List Char := l.flatMap Tok.text

def AllWs (E : Env) (l : List Tok) : Prop := ∀ t ∈ l, t.isWs E = true
def AllPlain (E : Env) (l : List Tok) : Prop := ∀ t ∈ l, t.plain E = true

/-- the next character, if any, is not IFS white space / not in IFS -/
def NoWsNext (E : Env) (l : List Tok) : Prop := ∀ t, l.head? = some t → t.isWs E = false
def PlainNext (E : Env) (l : List Tok) : Prop := ∀ t, l.head? = some t → t.plain E = true

/-- POSIX 2.6.5: text, not beginning with IFS white space, and its fields.  A field is
followed by a delimiter or by the end.  A delimiter is one other IFS character with all
IFS white space around it, or as much IFS white space as there is. -/
inductive Fields (E : Env) : List Tok → List (List Char) → Prop
  | nil : Fields E [] []
  | last {f} : f ≠ [] → AllPlain E f → Fields E f [text f]
  | hard {f w n w' rest fs} : AllPlain E f → AllWs E w → n.isNws E = true → AllWs E w' → NoWsNext E rest →
      (f = [] → w = []) → Fields E rest fs → Fields E (f ++ (w ++ n :: (w' ++ rest))) (text f :: fs)
  | soft {f w rest fs} : f ≠ [] → AllPlain E f → w ≠ [] → AllWs E w → PlainNext E rest → Fields E rest fs →
      Fields E (f ++ (w ++ rest)) (text f :: fs)

/-- Leading IFS white space is ignored. -/
def Splits (E : Env) (l : List Tok) (fs : List (List Char)) : Prop :=
  ∃ w l', l = w ++ l' ∧ AllWs E w ∧ NoWsNext E l' ∧ Fields E l' fs

/-- The tokens of a word: expansions outside quotes are splittable. -/
def toks : Bool → List Piece → List Tok
  | _, [] => []
  | q, .char ch :: r => .c ch false :: toks q r
  | q, .qchar ch :: r => .c ch false :: toks q r
  | _, .oquote :: r => .mark :: toks true r
  | _, .cquote :: r => toks false r
  | q, .sub v :: r => v.map (.c · (!q)) ++ toks q r
  | q, .com v :: r => v.map (.c · (!q)) ++ toks q r
  | q, .args _ _ _ :: r => toks q r
  | q, .noargs :: r => toks q r

/-! ## The specification is a function -/

/-- A machine that splits by the rules: after a hard delimiter (or at the beginning), after
white space, within a field. -/
inductive Q
  | N | W | F (cur : List Char)
  deriving DecidableEq, Repr

def step (E : Env) (q : Q × List (List Char)) (t : Tok) : Q × List (List Char) :=
  if t.isWs E then
    match q with
    | (.N, o) => (.N, o)
    | (.W, o) => (.W, o)
    | (.F cur, o) => (.W, o ++ [cur])
  else if t.isNws E then
    match q with
    | (.N, o) => (.N, o ++ [[]])
    | (.W, o) => (.N, o)
    | (.F cur, o) => (.N, o ++ [cur])
  else
    match q with
    | (.N, o) => (.F t.text, o)
    | (.W, o) => (.F t.text, o)
    | (.F cur, o) => (.F (cur ++ t.text), o)

def fin : Q × List (List Char) → List (List Char)
  | (.F cur, o) => o ++ [cur]
  | (_, o) => o

def split (E : Env) (l : List Tok) : List (List Char) := fin (l.foldl (step E) (.N, []))

variable {E : Env}

theorem ws_not_nws {t : Tok} (h : t.isWs E = true) : t.isNws E = false := by
  cases t with
  | mark => rfl
  | c ch b => cases b <;> simp_all [Tok.isWs, Tok.isNws]

theorem step_ws {t : Tok} (h : t.isWs E = true) (q o) : step E (q, o) t = match q with
    | .N => (.N, o) | .W => (.W, o) | .F cur => (.W, o ++ [cur]) := by
  cases q <;> simp [step, h]

theorem step_nws {t : Tok} (h : t.isNws E = true) (q o) : step E (q, o) t = match q with
    | .N => (.N, o ++ [[]]) | .W => (.N, o) | .F cur => (.N, o ++ [cur]) := by
  have hw : t.isWs E = false := by
    cases hh : t.isWs E with
    | false => rfl
    | true => rw [ws_not_nws hh] at h; cases h
  cases q <;> simp [step, h, hw]

theorem step_plain {t : Tok} (h : t.plain E = true) (q o) : step E (q, o) t = match q with
    | .N => (.F t.text, o) | .W => (.F t.text, o) | .F cur => (.F (cur ++ t.text), o) := by
  simp only [Tok.plain, Bool.and_eq_true, Bool.not_eq_true'] at h
  cases q <;> simp [step, h]

theorem steps_ws {w : List Tok} (h : AllWs E w) (o) :
    w.foldl (step E) (.N, o) = (.N, o) ∧ w.foldl (step E) (.W, o) = (.W, o) := by
  induction w with
  | nil => exact ⟨rfl, rfl⟩
  | cons t w ih =>
    have h1 := h t (by simp)
    have ih := ih fun x hx => h x (by simp [hx])
    simp only [List.foldl_cons, step_ws h1]
    exact ih

theorem steps_plain_F {f : List Tok} (h : AllPlain E f) (o) : ∀ cur,
    f.foldl (step E) (.F cur, o) = (.F (cur ++ text f), o) := by
  induction f with
  | nil => intro cur; simp [text]
  | cons t f ih =>
    intro cur
    rw [List.foldl_cons, step_plain (h t (by simp)), ih fun x hx => h x (by simp [hx])]
    simp [text]

theorem steps_plain {f : List Tok} (hne : f ≠ []) (h : AllPlain E f) (q : Q) (o) (hq : q = .N ∨ q = .W) :
    f.foldl (step E) (q, o) = (.F (text f), o) := by
  cases f with
  | nil => exact absurd rfl hne
  | cons t f =>
    rw [List.foldl_cons, step_plain (h t (by simp))]
    have := steps_plain_F (E := E) (f := f) (fun x hx => h x (by simp [hx])) o t.text
    rcases hq with rfl | rfl <;> simpa [text] using this

theorem Fields.machine {l : List Tok} {fs} (h : Fields E l fs) : ∀ o,
    (NoWsNext E l → fin (l.foldl (step E) (.N, o)) = o ++ fs) ∧
    (PlainNext E l → fin (l.foldl (step E) (.W, o)) = o ++ fs) := by
  induction h with
  | nil => intro o; simp [fin]
  | last hne hp =>
    intro o
    rw [steps_plain hne hp _ _ (Or.inl rfl), steps_plain hne hp _ _ (Or.inr rfl)]
    simp [fin]
  | @hard f w n w' rest fs hp hw hn hw' hr hf _ ih =>
    intro o
    have tail : ∀ o', fin (rest.foldl (step E) (w'.foldl (step E) (.N, o'))) = o' ++ fs := by
      intro o'
      rw [(steps_ws hw' o').1]
      exact (ih o').1 hr
    have fromF : ∀ cur, fin (rest.foldl (step E) (w'.foldl (step E) (step E (w.foldl (step E) (.F cur, o)) n))) =
        (o ++ [cur]) ++ fs := by
      intro cur
      cases w with
      | nil => rw [List.foldl_nil, step_nws hn]; exact tail _
      | cons t w =>
        rw [List.foldl_cons, step_ws (hw t (by simp)), (steps_ws (fun x hx => hw x (by simp [hx])) _).2, step_nws hn]
        exact tail _
    simp only [List.foldl_append, List.foldl_cons]
    by_cases hne : f = []
    · subst hne
      have hw0 := hf rfl
      subst hw0
      simp only [List.foldl_nil]
      constructor
      · intro _
        rw [step_nws hn]
        rw [tail (o ++ [[]])]; simp [text]
      · intro hpn
        have := hpn n (by simp)
        simp only [Tok.plain, hn, Bool.not_true, Bool.and_false] at this
        cases this
    · constructor
      · intro _
        rw [steps_plain hne hp _ _ (Or.inl rfl), fromF]; simp
      · intro _
        rw [steps_plain hne hp _ _ (Or.inr rfl), fromF]; simp
  | @soft f w rest fs hne hp hwne hw hr _ ih =>
    intro o
    have fromF : ∀ cur, fin (rest.foldl (step E) (w.foldl (step E) (.F cur, o))) = (o ++ [cur]) ++ fs := by
      intro cur
      cases w with
      | nil => exact absurd rfl hwne
      | cons t w =>
        rw [List.foldl_cons, step_ws (hw t (by simp)), (steps_ws (fun x hx => hw x (by simp [hx])) _).2]
        exact (ih _).2 hr
    simp only [List.foldl_append]
    rw [steps_plain hne hp _ _ (Or.inl rfl), steps_plain hne hp _ _ (Or.inr rfl), fromF]
    simp

theorem span_plain (E : Env) : ∀ l : List Tok, ∃ f r, l = f ++ r ∧ AllPlain E f ∧
    (∀ t, r.head? = some t → t.plain E = false)
  | [] => ⟨[], [], rfl, by simp [AllPlain], by simp⟩
  | t :: l => by
    cases h : t.plain E with
    | false => exact ⟨[], t :: l, rfl, by simp [AllPlain], by simp [h]⟩
    | true =>
      obtain ⟨f, r, h1, h2, h3⟩ := span_plain E l
      refine ⟨t :: f, r, by simp [h1], fun x hx => ?_, h3⟩
      rcases List.mem_cons.1 hx with rfl | hx
      · exact h
      · exact h2 x hx

theorem span_ws (E : Env) : ∀ l : List Tok, ∃ w r, l = w ++ r ∧ AllWs E w ∧ NoWsNext E r
  | [] => ⟨[], [], rfl, by simp [AllWs], by simp [NoWsNext]⟩
  | t :: l => by
    cases h : t.isWs E with
    | false => exact ⟨[], t :: l, rfl, by simp [AllWs], by simp [NoWsNext, h]⟩
    | true =>
      obtain ⟨f, r, h1, h2, h3⟩ := span_ws E l
      refine ⟨t :: f, r, by simp [h1], fun x hx => ?_, h3⟩
      rcases List.mem_cons.1 hx with rfl | hx
      · exact h
      · exact h2 x hx

theorem fields_exist (E : Env) : ∀ (n : Nat) (l : List Tok), l.length ≤ n → NoWsNext E l → ∃ fs, Fields E l fs := by
  intro n
  induction n with
  | zero => intro l hl _; cases l with
    | nil => exact ⟨[], .nil⟩
    | cons => simp at hl
  | succ n ih =>
    intro l hl hnw
    obtain ⟨f, r, rfl, hf, hr⟩ := span_plain E l
    obtain ⟨w, r', rfl, hw, hr'⟩ := span_ws E r
    cases r' with
    | nil =>
      by_cases hwe : w = []
      · subst hwe
        by_cases hfe : f = []
        · subst hfe; exact ⟨[], .nil⟩
        · exact ⟨[text f], by simpa using Fields.last hfe hf⟩
      · by_cases hfe : f = []
        · subst hfe
          cases w with
          | nil => exact absurd rfl hwe
          | cons t w =>
            have := hnw t (by simp)
            rw [hw t (by simp)] at this; cases this
        · exact ⟨_, Fields.soft hfe hf hwe hw (by simp [PlainNext]) .nil⟩
    | cons t r' =>
      have hfw : f = [] → w = [] := by
        intro hfe
        subst hfe
        cases w with
        | nil => rfl
        | cons u w =>
          have := hnw u (by simp)
          rw [hw u (by simp)] at this; cases this
      cases hn : t.isNws E with
      | true =>
        obtain ⟨w', r'', rfl, hw', hr''⟩ := span_ws E r'
        obtain ⟨fs, hfs⟩ := ih r'' (by simp at hl; omega) hr''
        exact ⟨_, Fields.hard hf hw hn hw' hr'' hfw hfs⟩
      | false =>
        have htw : t.isWs E = false := hr' t (by simp)
        have htp : t.plain E = true := by simp [Tok.plain, hn, htw]
        have hwe : w ≠ [] := by
          rintro rfl
          have := hr t (by simp)
          rw [htp] at this; cases this
        have hfe : f ≠ [] := fun h => hwe (hfw h)
        have hwl : 0 < w.length := List.length_pos_iff.2 hwe
        obtain ⟨fs, hfs⟩ := ih (t :: r') (by simp at hl ⊢; omega) (by simpa [NoWsNext] using htw)
        exact ⟨_, Fields.soft hfe hf hwe hw (by simpa [PlainNext] using htp) hfs⟩

theorem splits_iff {l : List Tok} {fs} : Splits E l fs ↔ fs = split E l := by
  have key : ∀ {fs}, Splits E l fs → fs = split E l := by
    rintro fs ⟨w, l', rfl, hw, hl', hf⟩
    rw [split, List.foldl_append, (steps_ws hw []).1, ((hf.machine []).1 hl')]
    rfl
  constructor
  · exact key
  · rintro rfl
    obtain ⟨w, l', h1, hw, hl'⟩ := span_ws E l
    obtain ⟨fs, hfs⟩ := fields_exist E _ l' (Nat.le_refl _) hl'
    have hs : Splits E l fs := ⟨w, l', h1, hw, hl', hfs⟩
    rw [← key hs]; exact hs

/-! ## The code -/

/-- The states of code and specification that go together (away from a pending delimiter
other than white space). -/
def R (s : S) (q : Q × List (List Char)) : Prop :=
  s.fresh = false ∧ s.out = q.2 ∧
  ((s.word = .word ∧ q.1 = .F s.cur) ∨ (s.word = .quote ∧ s.cur = [] ∧ q.1 = .F []) ∨
   (s.word = .ws ∧ s.cur = [] ∧ (q.1 = .W ∨ q.1 = .N)))

/-- within an expansion, also after a delimiter -/
def RM (s : S) (q : Q × List (List Char)) : Prop :=
  R s q ∨ (s.fresh = false ∧ s.out = q.2 ∧ s.word = .nws ∧ s.cur = [] ∧ q.1 = .N)

/-- past the first character of the value that is not in IFS -/
def RK (s : S) (q : Q × List (List Char)) : Prop :=
  s.fresh = false ∧ s.out = q.2 ∧
  ((s.word = .word ∧ q.1 = .F s.cur) ∨ (s.word = .ws ∧ s.cur = [] ∧ q.1 = .W) ∨
   (s.word = .nws ∧ s.cur = [] ∧ q.1 = .N))

theorem put_plain {b : Bool} {c : Char} (h : (b && E.ifs c) = false) (s : S) (hf : s.fresh = false) :
    put E b s c = { s with cur := s.cur ++ [c], word := .word } := by
  simp [put, h, hf]

theorem tok_split {c : Char} : (Tok.c c true).isWs E = (E.ifs c && ws c) ∧ (Tok.c c true).isNws E = (E.ifs c && !ws c) := ⟨rfl, rfl⟩

theorem tok_plain {c : Char} (h : E.ifs c = false) : (Tok.c c true).plain E = true := by simp [Tok.plain, Tok.isWs, Tok.isNws, h]
theorem tok_plain' {c : Char} : (Tok.c c false).plain E = true := rfl

theorem RK.put {s q} (h : RK s q) (c : Char) : RK (put E true s c) (step E q (.c c true)) := by
  obtain ⟨hf, ho, h⟩ := h
  obtain ⟨q, o⟩ := q
  simp only at ho h
  cases hi : E.ifs c with
  | false =>
    rw [put_plain (by simp [hi]) s hf, step_plain (tok_plain hi)]
    rcases h with ⟨h1, rfl⟩ | ⟨h1, h2, rfl⟩ | ⟨h1, h2, rfl⟩ <;> simp_all [RK, Tok.text]
  | true =>
    cases hw : ws c with
    | true =>
      rw [step_ws (by simp [Tok.isWs, hi, hw])]
      rcases h with ⟨h1, rfl⟩ | ⟨h1, h2, rfl⟩ | ⟨h1, h2, rfl⟩ <;> simp_all [RK, Ifs.put, emit]
    | false =>
      rw [step_nws (by simp [Tok.isNws, hi, hw])]
      rcases h with ⟨h1, rfl⟩ | ⟨h1, h2, rfl⟩ | ⟨h1, h2, rfl⟩ <;> simp_all [RK, Ifs.put, emit]

theorem RK.puts {v : List Char} : ∀ {s q}, RK s q → RK (v.foldl (Ifs.put E true) s) ((v.map (Tok.c · true)).foldl (step E) q) := by
  induction v with
  | nil => intro s q h; exact h
  | cons c v ih => intro s q h; exact ih (h.put c)

theorem R.put_plain {s q} (h : R s q) {b : Bool} {c : Char} (hi : (b && E.ifs c) = false) :
    R (Ifs.put E b s c) (step E q (.c c b)) ∧ (Ifs.put E b s c).word = .word := by
  obtain ⟨hf, ho, h⟩ := h
  obtain ⟨q, o⟩ := q
  have hp : (Tok.c c b).plain E = true := by
    cases b with
    | false => rfl
    | true => exact tok_plain (by simpa using hi)
  rw [Ifs.put_plain hi s hf, step_plain hp]
  refine ⟨?_, rfl⟩
  simp only at ho h
  rcases h with ⟨h1, rfl⟩ | ⟨h1, h2, rfl⟩ | ⟨h1, h2, rfl | rfl⟩ <;> simp_all [R, Tok.text]

theorem R.put_ws {s q} (h : R s q) {c : Char} (hi : E.ifs c = true) (hw : ws c = true) :
    R (Ifs.put E true s c) (step E q (.c c true)) := by
  obtain ⟨hf, ho, h⟩ := h
  obtain ⟨q, o⟩ := q
  rw [step_ws (by simp [Tok.isWs, hi, hw])]
  simp only at ho h
  rcases h with ⟨h1, rfl⟩ | ⟨h1, h2, rfl⟩ | ⟨h1, h2, rfl | rfl⟩ <;> simp_all [R, Ifs.put, emit]

/-- the value has no IFS character other than white space before its first other
character -/
def LeadOk (E : Env) : List Char → Prop
  | [] => True
  | c :: v => if E.ifs c then ws c = true ∧ LeadOk E v else True
def TrailOk (E : Env) (v : List Char) : Prop := LeadOk E v.reverse

/-- Relation with the `fresh` flag on -/
def Fresh (b : Bool) (s : S) : S := { s with fresh := b }

theorem unfresh {s : S} (h : s.fresh = false) : ({ s with fresh := false } : S) = s := by cases s; simp_all

/-- Put with `fresh`: the same when no delimiter is pending -/
theorem put_fresh {s : S} {b c} (hn : s.word ≠ .nws) :
    ({ put E b { s with fresh := true } c with fresh := false } : S) = { put E b s c with fresh := false } := by
  unfold put
  split
  · simp only [emit]; split <;> split <;> rfl
  · simp only [hn, false_and, if_false, if_true]
    split <;> rfl

theorem R.not_nws {s q} (h : R s q) : s.word ≠ .nws := by
  obtain ⟨_, _, h⟩ := h
  rcases h with ⟨h, _⟩ | ⟨h, _⟩ | ⟨h, _⟩ <;> rw [h] <;> simp

theorem R.toRK {s q} (h : R s q) (hw : s.word = .word) : RK s q := by
  obtain ⟨hf, ho, h⟩ := h
  refine ⟨hf, ho, ?_⟩
  rcases h with ⟨h, h'⟩ | ⟨h, _⟩ | ⟨h, _⟩
  · exact Or.inl ⟨h, h'⟩
  · rw [hw] at h; cases h
  · rw [hw] at h; cases h

theorem RK.toR {s q} (h : RK s q) (hw : s.word ≠ .nws) : R s q := by
  obtain ⟨hf, ho, h⟩ := h
  refine ⟨hf, ho, ?_⟩
  rcases h with h | ⟨h1, h2, h3⟩ | ⟨h, _⟩
  · exact Or.inl h
  · exact Or.inr (Or.inr ⟨h1, h2, Or.inl h3⟩)
  · exact absurd h hw

/-- After the whole value: either nothing pending, or the value ends in a delimiter. -/
theorem puts_lead {b0 : Bool} {v : List Char} : ∀ {s q}, R s q → LeadOk E v →
    let s' := { v.foldl (put E true) { s with fresh := b0 } with fresh := false }
    let q' := (v.map (Tok.c · true)).foldl (step E) q
    R s' q' ∨ RK s' q' := by
  induction v with
  | nil => intro s q h _; left; simpa [unfresh h.1] using h
  | cons c v ih =>
    intro s q h hl
    simp only [List.foldl_cons, List.map_cons]
    cases hi : E.ifs c with
    | true =>
      simp only [LeadOk, hi, if_true] at hl
      have hR := h.put_ws hi hl.1
      have := ih hR hl.2
      have e : put E true { s with fresh := b0 } c = { put E true s c with fresh := b0 } := by
        unfold put
        simp only [hi, Bool.and_self, if_true, emit]
        split <;> split <;> rfl
      rw [e]
      exact this
    | false =>
      have hR := h.put_plain (E := E) (b := true) (c := c) (by simp [hi])
      right
      have e : put E true { s with fresh := b0 } c = put E true s c := by
        have := h.not_nws
        cases b0 <;> simp [put, hi, this, h.1]
      rw [e]
      have hk := (hR.1.toRK hR.2).puts (E := E) (v := v)
      have hf : ({ List.foldl (put E true) (put E true s c) v with fresh := false } : S) = List.foldl (put E true) (put E true s c) v :=
        unfresh hk.1
      rw [hf]
      exact hk

/-- The state after a value whose trailing part has no hard delimiter -/
theorem puts_trail_word {b0 : Bool} : ∀ (v : List Char) (s : S), (∀ v' c, v = v' ++ [c] → E.ifs c = true → ws c = true) →
    s.word ≠ .nws → (∀ v1 c v2, v = v1 ++ c :: v2 → E.ifs c = true → ws c = false → ∃ d ∈ v2, E.ifs d = false) →
    (v.foldl (put E true) { s with fresh := b0 }).word ≠ .nws := by
  intro v
  generalize hn : v.reverse = u
  have hv : v = u.reverse := by rw [← hn]; simp
  subst hv
  clear hn
  induction u with
  | nil => intro s _ hs _; exact hs
  | cons c u ih =>
    intro s hlast hs hin
    simp only [List.reverse_cons, List.foldl_append, List.foldl_cons, List.foldl_nil]
    generalize hst : List.foldl (put E true) { s with fresh := b0 } u.reverse = t
    cases hi : E.ifs c with
    | false => simp [put, hi]
    | true =>
      have hw := hlast u.reverse c (by simp) hi
      have htn : t.word ≠ .nws := by
        rw [← hst]
        refine ih s ?_ hs ?_
        · intro v' d hv' hd
          cases hwd : ws d with
          | true => rfl
          | false =>
            obtain ⟨e, he, hee⟩ := hin v' d [c] (by simp [hv']) hd hwd
            simp at he; subst he; rw [hi] at hee; cases hee
        · intro v1 d v2 hv1 hd hwd
          obtain ⟨e, he, hee⟩ := hin v1 d (v2 ++ [c]) (by simp [hv1]) hd hwd
          rcases List.mem_append.1 he with he | he
          · exact ⟨e, he, hee⟩
          · simp at he; subst he; rw [hi] at hee; cases hee
      simp only [put, hi, Bool.and_self, if_true, htn, ne_eq, not_false_eq_true, hw]
      simp

theorem trail_inv {v : List Char} (h : TrailOk E v) :
    (∀ v' c, v = v' ++ [c] → E.ifs c = true → ws c = true) ∧
    (∀ v1 c v2, v = v1 ++ c :: v2 → E.ifs c = true → ws c = false → ∃ d ∈ v2, E.ifs d = false) := by
  have key : ∀ (u : List Char), LeadOk E u → ∀ u2 c u1, u = u2 ++ c :: u1 → E.ifs c = true → ws c = false →
      ∃ d ∈ u2, E.ifs d = false := by
    intro u
    induction u with
    | nil => intro _ u2 c u1 h; simp at h
    | cons a u ih =>
      intro hl u2 c u1 he hi hw
      cases u2 with
      | nil =>
        simp at he
        obtain ⟨rfl, rfl⟩ := he
        simp only [LeadOk, hi, if_true] at hl
        rw [hw] at hl; simp at hl
      | cons b u2 =>
        simp at he
        obtain ⟨rfl, rfl⟩ := he
        cases ha : E.ifs a with
        | false => exact ⟨a, by simp, ha⟩
        | true =>
          simp only [LeadOk, ha, if_true] at hl
          obtain ⟨d, hd, hdd⟩ := ih hl.2 u2 c u1 rfl hi hw
          exact ⟨d, by simp [hd], hdd⟩
  have k2 : ∀ v1 c v2, v = v1 ++ c :: v2 → E.ifs c = true → ws c = false → ∃ d ∈ v2, E.ifs d = false := by
    intro v1 c v2 hv hi hw
    have h' : LeadOk E v.reverse := h
    rw [hv] at h'
    obtain ⟨d, hd, hdd⟩ := key _ h' v2.reverse c v1.reverse (by simp) hi hw
    exact ⟨d, by simpa using hd, hdd⟩
  refine ⟨fun v' c hv hi => ?_, k2⟩
  cases hw : ws c with
  | true => rfl
  | false =>
    obtain ⟨d, hd, _⟩ := k2 v' c [] hv hi hw
    simp at hd

/-- A quoted value: its characters are plain. -/
theorem puts_quoted {b0 : Bool} {v : List Char} : ∀ {s q}, R s q →
    R { v.foldl (put E false) { s with fresh := b0 } with fresh := false } ((v.map (Tok.c · false)).foldl (step E) q) := by
  induction v generalizing b0 with
  | nil => intro s q h; simpa [unfresh h.1] using h
  | cons c v ih =>
    intro s q h
    simp only [List.foldl_cons, List.map_cons]
    have e : put E false { s with fresh := b0 } c = { put E false s c with fresh := false } := by
      have := h.not_nws
      cases b0 <;> simp [put, this, h.1]
    rw [e]
    exact ih (h.put_plain (b := false) rfl).1

/-- Words whose pieces do not meet at a hard delimiter: an unquoted expansion has none
before its first or after its last other character, except that the last piece may end with
one, and that a parameter at the very beginning of the word may start with one if it has
some other character. -/
def Tame (E : Env) : Bool → Bool → List Piece → Prop
  | _, _, [] => True
  | _, q, .char _ :: r => Tame E false q r
  | _, q, .qchar _ :: r => Tame E false q r
  | _, _, .oquote :: r => Tame E false true r
  | _, _, .cquote :: r => Tame E false false r
  | first, false, .sub v :: r => (LeadOk E v ∨ (first = true ∧ ∃ c ∈ v, E.ifs c = false)) ∧ (TrailOk E v ∨ r = []) ∧ Tame E false false r
  | _, true, .sub _ :: r => Tame E false true r
  | _, false, .com v :: r => LeadOk E v ∧ (TrailOk E v ∨ r = []) ∧ Tame E false false r
  | _, true, .com _ :: r => Tame E false true r
  | _, _, .args _ _ _ :: _ => False
  | _, _, .noargs :: _ => False

theorem R.finish {s q} (h : R s q) : finish s = fin q := by
  obtain ⟨_, ho, h⟩ := h
  obtain ⟨q, o⟩ := q
  simp only at ho h
  rcases h with ⟨h1, rfl⟩ | ⟨h1, h2, rfl⟩ | ⟨h1, h2, rfl | rfl⟩ <;> simp_all [Ifs.finish, fin]

theorem RK.finish {s q} (h : RK s q) : finish s = fin q := by
  obtain ⟨_, ho, h⟩ := h
  obtain ⟨q, o⟩ := q
  simp only at ho h
  rcases h with ⟨h1, rfl⟩ | ⟨h1, h2, rfl⟩ | ⟨h1, h2, rfl⟩ <;> simp_all [Ifs.finish, fin]

theorem fold_quote {E b} {v : List Char} : ∀ {s : S}, (v.foldl (put E b) s).quote = s.quote := by
  induction v with
  | nil => intro s; rfl
  | cons c v ih =>
    intro s
    rw [List.foldl_cons, ih]
    unfold put emit
    split
    · simp only; split <;> split <;> rfl
    · simp only; split <;> rfl

/-- leaving `IFS_QUOTE` for `IFS_WORD` keeps the relation -/
theorem R.unquote {s q} (h : R s q) : R (if s.word = .quote then { s with word := .word } else s) q := by
  obtain ⟨hf, ho, h⟩ := h
  rcases h with ⟨h1, h2⟩ | ⟨h1, h2, h3⟩ | ⟨h1, h2⟩
  · rw [if_neg (by rw [h1]; simp)]; exact ⟨hf, ho, Or.inl ⟨h1, h2⟩⟩
  · rw [if_pos h1]; exact ⟨hf, ho, Or.inl ⟨rfl, by rw [h3]; simp [h2]⟩⟩
  · rw [if_neg (by rw [h1]; simp)]; exact ⟨hf, ho, Or.inr (Or.inr ⟨h1, h2⟩)⟩

theorem tame_run (w : List Piece) : ∀ (s : S) q, R s q → Tame E false s.quote w →
    finish (w.foldl (piece E true) s) = fin ((toks s.quote w).foldl (step E) q) := by
  induction w with
  | nil => intro s q h _; exact h.finish
  | cons p r ih =>
    intro s q h ht
    -- a value, from any of the two kinds of expansion
    have value : ∀ (b0 : Bool) (v : List Char) (s : S) q, R s q → s.quote = false → LeadOk E v → (TrailOk E v ∨ r = []) →
        Tame E false false r → 
        finish (r.foldl (piece E true) { v.foldl (put E true) { s with fresh := b0 } with fresh := false }) =
        fin ((v.map (Tok.c · true) ++ toks false r).foldl (step E) q) := by
      intro b0 v s q h hq hl htr htame
      rw [List.foldl_append]
      have hd := puts_lead (b0 := b0) h hl
      simp only at hd
      have hq' : ({ v.foldl (put E true) { s with fresh := b0 } with fresh := false } : S).quote = false := by
        show (v.foldl (put E true) { s with fresh := b0 }).quote = false
        rw [fold_quote]; exact hq
      rcases htr with htr | rfl
      · have hnn := puts_trail_word (b0 := b0) v s (trail_inv htr).1 h.not_nws (trail_inv htr).2
        have hR : R { v.foldl (put E true) { s with fresh := b0 } with fresh := false } ((v.map (Tok.c · true)).foldl (step E) q) := by
          rcases hd with hd | hd
          · exact hd
          · exact hd.toR hnn
        have := ih _ _ hR (by rw [hq']; exact htame)
        rw [hq'] at this
        exact this
      · rcases hd with hd | hd
        · exact hd.finish
        · exact hd.finish
    have qvalue : ∀ (b0 : Bool) (v : List Char) (s : S) q, R s q → s.quote = true → Tame E false true r → 
        finish (r.foldl (piece E true) { v.foldl (put E false) { s with fresh := b0 } with fresh := false }) =
        fin ((v.map (Tok.c · false) ++ toks true r).foldl (step E) q) := by
      intro b0 v s q h hq htame
      rw [List.foldl_append]
      have hR := puts_quoted (E := E) (b0 := b0) (v := v) h
      have hq' : ({ v.foldl (put E false) { s with fresh := b0 } with fresh := false } : S).quote = true := by
        show (v.foldl (put E false) { s with fresh := b0 }).quote = true
        rw [fold_quote]; exact hq
      have := ih _ _ hR (by rw [hq']; exact htame)
      rw [hq'] at this
      exact this
    simp only [List.foldl_cons]
    cases p with
    | char c =>
      have hR := (h.put_plain (b := false) (c := c) (E := E) rfl).1
      have hq : (put E false s c).quote = s.quote := fold_quote (E := E) (b := false) (v := [c]) (s := s)
      have := ih (put E false s c) _ hR (by rw [hq]; simpa [Tame] using ht)
      rw [hq] at this
      simpa [piece, toks] using this
    | qchar c =>
      have hR := (h.put_plain (b := false) (c := c) (E := E) rfl).1
      have hq : (put E false s c).quote = s.quote := fold_quote (E := E) (b := false) (v := [c]) (s := s)
      have := ih (put E false s c) _ hR (by rw [hq]; simpa [Tame] using ht)
      rw [hq] at this
      simpa [piece, toks] using this
    | oquote =>
      have hR : R (piece E true s .oquote) (step E q .mark) := by
        obtain ⟨hf, ho, h⟩ := h
        obtain ⟨q, o⟩ := q
        rw [step_plain rfl]
        simp only at ho h
        rcases h with ⟨h1, rfl⟩ | ⟨h1, h2, rfl⟩ | ⟨h1, h2, rfl | rfl⟩ <;> simp_all [R, piece, Tok.text]
      have := ih (piece E true s .oquote) _ hR (by simpa [piece, Tame] using ht)
      simpa [piece, toks] using this
    | cquote =>
      have hR : R (piece E true s .cquote) q := h
      have := ih (piece E true s .cquote) _ hR (by simpa [piece, Tame] using ht)
      simpa [piece, toks] using this
    | sub v =>
      simp only [piece, toks]
      have hu := h.unquote
      have hq : (if s.word = .quote then { s with word := Word.word } else s).quote = s.quote := by split <;> rfl
      generalize (if s.word = .quote then { s with word := Word.word } else s) = s1 at hu hq ⊢
      rw [← hq] at ht ⊢
      cases hqq : s1.quote with
      | true =>
        rw [hqq] at ht
        have := qvalue true v s1 q hu hqq (by simpa [Tame] using ht)
        rw [hqq] at this
        exact this
      | false =>
        rw [hqq] at ht
        simp only [Tame] at ht
        have hl : LeadOk E v := ht.1.resolve_right (by simp)
        have := value true v s1 q hu hqq hl ht.2.1 ht.2.2
        rw [hqq] at this
        exact this
    | com v =>
      simp only [piece, toks]
      have e : ∀ b, ({ v.foldl (put E b) { s with fresh := false } with fresh := false } : S) = v.foldl (put E b) s := by
        intro b
        rw [unfresh h.1]
        refine unfresh ?_
        have hgen : ∀ (v : List Char) (s : S), s.fresh = false → (v.foldl (put E b) s).fresh = false := by
          intro v
          induction v with
          | nil => intro s h; exact h
          | cons c v ihv =>
            intro s h
            refine ihv _ ?_
            unfold put emit
            split
            · simp only; split <;> split <;> exact h
            · simp [h]
        exact hgen v s h.1
      cases hqq : s.quote with
      | true =>
        rw [hqq] at ht
        have := qvalue false v s q h hqq (by simpa [Tame] using ht)
        rw [e] at this
        exact this
      | false =>
        rw [hqq] at ht
        simp only [Tame] at ht
        have := value false v s q h hqq ht.1 ht.2.1 ht.2.2
        rw [e] at this
        exact this
    | args a b c => simp [Tame] at ht
    | noargs => simp [Tame] at ht

/-! ### The first piece -/

/-- At the very beginning of the word an expansion may start with hard delimiters: the
code counts them except the last one, which is made up for by the empty field at the first
other character. -/
def R0 (s : S) (q : Q × List (List Char)) : Prop :=
  s.fresh = true ∧ s.cur = [] ∧ q.1 = .N ∧
  ((s.word = .ws ∧ s.out = q.2) ∨ (s.word = .nws ∧ s.out ++ [[]] = q.2))

theorem first_value {v : List Char} : ∀ {s q}, R0 s q → (∃ c ∈ v, E.ifs c = false) →
    RK (v.foldl (put E true) s) ((v.map (Tok.c · true)).foldl (step E) q) := by
  induction v with
  | nil => rintro s q _ ⟨c, hc, _⟩; simp at hc
  | cons c v ih =>
    rintro s ⟨q, o⟩ ⟨hf, hc, rfl, h⟩ hex
    simp only [List.foldl_cons, List.map_cons]
    cases hi : E.ifs c with
    | false =>
      refine RK.puts ?_
      rw [step_plain (tok_plain hi)]
      simp only at h
      rcases h with ⟨h1, h2⟩ | ⟨h1, h2⟩ <;> simp_all [RK, put, Tok.text]
    | true =>
      refine ih ?_ ?_
      · cases hw : ws c with
        | true =>
          rw [step_ws (by simp [Tok.isWs, hi, hw])]
          simp only at h
          rcases h with ⟨h1, h2⟩ | ⟨h1, h2⟩ <;> simp_all [R0, put, emit]
        | false =>
          rw [step_nws (by simp [Tok.isNws, hi, hw])]
          simp only at h
          rcases h with ⟨h1, h2⟩ | ⟨h1, h2⟩ <;> simp_all [R0, put, emit]
      · obtain ⟨d, hd, hdd⟩ := hex
        rcases List.mem_cons.1 hd with rfl | hd
        · rw [hi] at hdd; cases hdd
        · exact ⟨d, hd, hdd⟩

theorem R_init : R (init true) (.N, []) := ⟨rfl, rfl, Or.inr (Or.inr ⟨rfl, rfl, Or.inr rfl⟩)⟩

/-! ## C18 -/

/-- Tame words are split exactly as POSIX prescribes.  (For words that are not tame see the
counterexamples below.) -/
theorem fields_posix_partial (E : Env) (w : List Piece) (h : Tame E true false w) :
    Splits E (toks false w) (expand E true w) := by
  rw [splits_iff]
  show finish (w.foldl (piece E true) (init true)) = fin ((toks false w).foldl (step E) (.N, []))
  have gen : Tame E false false w → _ := tame_run w (init true) (.N, []) R_init
  cases w with
  | nil => exact gen trivial
  | cons p r =>
    cases p with
    | char c => exact gen (by simpa [Tame] using h)
    | qchar c => exact gen (by simpa [Tame] using h)
    | oquote => exact gen (by simpa [Tame] using h)
    | cquote => exact gen (by simpa [Tame] using h)
    | com v => exact gen (by simpa [Tame] using h)
    | args a b c => simp [Tame] at h
    | noargs => simp [Tame] at h
    | sub v =>
      simp only [Tame] at h
      obtain ⟨h1, h2, h3⟩ := h
      rcases h1 with h1 | ⟨-, h1⟩
      · exact gen ⟨Or.inl h1, h2, h3⟩
      · have hk : RK (v.foldl (put E true) { init true with fresh := true }) ((v.map (Tok.c · true)).foldl (step E) (.N, [])) :=
          first_value ⟨rfl, rfl, rfl, Or.inl ⟨rfl, rfl⟩⟩ h1
        have hp : piece E true (init true) (.sub v) = v.foldl (put E true) { init true with fresh := true } := by
          simp only [piece, init]
          exact unfresh hk.1
        simp only [List.foldl_cons, toks, List.foldl_append, hp]
        rcases h2 with h2 | rfl
        · have hnn := puts_trail_word (b0 := true) v (init true) (trail_inv h2).1 (by simp [init]) (trail_inv h2).2
          have hq : (v.foldl (put E true) { init true with fresh := true }).quote = false := by rw [fold_quote]; rfl
          have := tame_run r _ _ (hk.toR hnn) (by rw [hq]; exact h3)
          rw [hq] at this
          exact this
        · exact hk.finish

/-- In particular `$x` alone, unless the value consists of IFS characters only and has one
that is not white space. -/
theorem split_parameter_partial (E : Env) (v : List Char) (h : LeadOk E v ∨ ∃ c ∈ v, E.ifs c = false) :
    Splits E (v.map (.c · true)) (expand E true [.sub v]) := by
  have := fields_posix_partial E [.sub v] ⟨h.imp id fun h => ⟨rfl, h⟩, Or.inr rfl, trivial⟩
  simpa [toks] using this

/-- Splitting is a function of the text: there is no other answer POSIX allows. -/
theorem split_deterministic {l : List Tok} {fs gs} (h : Splits E l fs) (h' : Splits E l gs) : fs = gs := by
  rw [splits_iff.1 h, splits_iff.1 h']

/-- pieces that are written inside quotes -/
def inQuotes : List Piece → Prop
  | [] => True
  | .char _ :: r | .qchar _ :: r | .sub _ :: r | .com _ :: r => inQuotes r
  | _ => False

def content : Piece → List Char
  | .char c | .qchar c => [c]
  | .sub v | .com v => v
  | _ => []

theorem quoted_fold {w : List Piece} : ∀ {s : S}, inQuotes w → s.quote = true → s.fresh = false →
    (s.word = .word ∨ (s.word = .quote ∧ s.cur = [])) →
    ∃ wd, (wd = Word.word ∨ wd = .quote) ∧
    w.foldl (piece E true) s = { s with word := wd, cur := s.cur ++ w.flatMap content } := by
  have puts : ∀ (v : List Char) (s : S) (b0 : Bool), s.fresh = false → (s.word = .word ∨ s.word = .quote) →
      ∃ wd, (wd = Word.word ∨ wd = .quote) ∧ ({ v.foldl (put E false) { s with fresh := b0 } with fresh := false } : S) =
        { s with word := wd, cur := s.cur ++ v } := by
    intro v
    induction v with
    | nil => intro s b0 hf hw; exact ⟨s.word, hw, by cases s; simp_all⟩
    | cons c v ih =>
      intro s b0 hf hw
      have e : put E false { s with fresh := b0 } c = { ({ s with cur := s.cur ++ [c], word := .word } : S) with fresh := false } := by
        have : s.word ≠ .nws := by rcases hw with h | h <;> rw [h] <;> simp
        cases b0 <;> simp [put, this, hf]
      obtain ⟨wd, h1, h2⟩ := ih { s with cur := s.cur ++ [c], word := .word } false hf (Or.inl rfl)
      refine ⟨wd, h1, ?_⟩
      rw [List.foldl_cons, e, h2]
      simp
  induction w with
  | nil => intro s _ _ _ hw; exact ⟨s.word, hw.imp id And.left, by cases s; simp⟩
  | cons p w ih =>
    intro s hq hqt hf hw
    have hw' : s.word = .word ∨ s.word = .quote := hw.imp id And.left
    have one : ∃ wd, (wd = Word.word ∨ wd = .quote) ∧ (wd = .quote → s.cur ++ content p = []) ∧
        piece E true s p = { s with word := wd, cur := s.cur ++ content p } := by
      cases p with
      | char c =>
        refine ⟨.word, Or.inl rfl, by simp, ?_⟩
        simp [piece, put, hf, content]
      | qchar c =>
        refine ⟨.word, Or.inl rfl, by simp, ?_⟩
        simp [piece, put, hf, content]
      | sub v =>
        simp only [piece, content]
        have hs1 : (if s.word = .quote then { s with word := Word.word } else s) = { s with word := .word } := by
          rcases hw' with h | h
          · rw [if_neg (by rw [h]; simp)]; cases s; simp_all
          · rw [if_pos h]
        rw [hs1]
        obtain ⟨wd, h1, h2⟩ := puts v { s with word := .word } true hf (Or.inl rfl)
        have hwd : wd = .word := by
          have := congrArg S.word h2
          simp only at this
          rw [← this]
          cases v with
          | nil => rfl
          | cons c v =>
            have g : ∀ (v : List Char) (s : S), s.word = .word → (v.foldl (put E false) s).word = .word := by
              intro v
              induction v with
              | nil => intro s h; exact h
              | cons c v ih => intro s h; exact ih _ (by simp [put])
            exact g _ _ rfl
        refine ⟨.word, Or.inl rfl, by simp, ?_⟩
        rw [hwd] at h2
        have hb : (!({ s with word := Word.word } : S).quote && true) = false := by simp [hqt]
        rw [hb]
        exact h2
      | com v =>
        simp only [piece, content]
        obtain ⟨wd, h1, h2⟩ := puts v s false hf hw'
        have hfr : ∀ (v : List Char) (s : S), s.fresh = false → (v.foldl (put E false) s).fresh = false := by
          intro v
          induction v with
          | nil => intro s h; exact h
          | cons c v ih => intro s h; exact ih _ (by simp [put, h])
        rw [unfresh hf, unfresh (hfr v s hf)] at h2
        refine ⟨wd, h1, ?_, ?_⟩
        · intro hwq
          cases v with
          | nil =>
            simp at h2
            have : s.word = wd := by rw [h2]
            rw [this, hwq] at hw
            rcases hw with h | h
            · cases h
            · simp [h.2]
          | cons c v =>
            exfalso
            have g : ∀ (v : List Char) (s : S), s.word = .word → (v.foldl (put E false) s).word = .word := by
              intro v
              induction v with
              | nil => intro s h; exact h
              | cons c v ih => intro s h; exact ih _ (by simp [put])
            have := congrArg S.word h2
            rw [List.foldl_cons, g _ _ (by simp [put])] at this
            simp only at this
            rw [hwq] at this; cases this
        · have hb : (!s.quote && true) = false := by simp [hqt]
          rw [hb]
          exact h2
      | oquote => simp [inQuotes] at hq
      | cquote => simp [inQuotes] at hq
      | args a b c => simp [inQuotes] at hq
      | noargs => simp [inQuotes] at hq
    obtain ⟨wd, h1, h2, h3⟩ := one
    have hq' : inQuotes w := by cases p <;> simp_all [inQuotes]
    have := ih (s := { s with word := wd, cur := s.cur ++ content p }) hq' hqt hf (by
      rcases h1 with h | h
      · exact Or.inl h
      · exact Or.inr ⟨h, h2 h⟩)
    obtain ⟨wd', h4, h5⟩ := this
    refine ⟨wd', h4, ?_⟩
    rw [List.foldl_cons, h3, h5]
    simp

/-- A quoted word is one field, whatever it contains. -/
theorem quoted_is_one_field (E : Env) (w : List Piece) (h : inQuotes w) :
    expand E true (.oquote :: w ++ [.cquote]) = [w.flatMap content] := by
  obtain ⟨wd, h1, h2⟩ := quoted_fold (E := E) (s := ⟨true, .quote, false, [], []⟩) h rfl rfl (Or.inr ⟨rfl, rfl⟩)
  have hi : piece E true (init true) .oquote = ⟨true, .quote, false, [], []⟩ := rfl
  simp only [expand, List.cons_append, List.foldl_cons, List.foldl_append, List.foldl_nil, hi, h2]
  rcases h1 with rfl | rfl <;> simp [piece, finish]

/-! ### Counterexamples -/

/-- `IFS` is a colon and a space. -/
def colon : Env := ⟨fun c => c == ':' || c == ' ', some ':'⟩

/-- A delimiter alone makes no field; POSIX: one empty field. -/
theorem lone_delimiter : expand colon true [.sub [':']] = [] ∧ split colon (toks false [.sub [':']]) = [[]] := by decide

/-- `x=a: y=b; $x$y` has three fields; POSIX: two. -/
theorem adjacent_expansions : expand colon true [.sub ['a', ':'], .sub ['b']] = [['a'], [], ['b']] ∧
    split colon (toks false [.sub ['a', ':'], .sub ['b']]) = [['a'], ['b']] := by decide

/-- `x=:b; a$x` has three fields; POSIX: two. -/
theorem text_before_delimiter : expand colon true [.char 'a', .sub [':', 'b']] = [['a'], [], ['b']] ∧
    split colon (toks false [.char 'a', .sub [':', 'b']]) = [['a'], ['b']] := by decide

/-- `$(echo :a)` has one field; POSIX: two. -/
theorem substitution_begins_with_delimiter : expand colon true [.com [':', 'a']] = [['a']] ∧
    split colon (toks false [.com [':', 'a']]) = [[], ['a']] := by decide

example : Splits colon (" a : b::c ".toList.map (.c · true)) [['a'], ['b'], [], ['c']] := by
  rw [splits_iff]; decide
example : expand colon true [.sub " a : b::c ".toList, .oquote, .sub "x y".toList, .cquote] =
    [['a'], ['b'], [], ['c'], ['x', ' ', 'y']] := by decide
example : Tame colon true false [.sub ":a : b::c ".toList, .oquote, .sub ": y".toList, .cquote] := by
  simp [Tame, LeadOk, TrailOk, colon, ws]

/-! ## C57: positional parameters -/

theorem put_split_run {v : List Char} : ∀ {s : S}, s.fresh = false → v ≠ [] →
    v.foldl (put E false) s = { s with cur := s.cur ++ v, word := .word } := by
  induction v with
  | nil => intro s _ h; exact absurd rfl h
  | cons c v ih =>
    intro s hf _
    rw [List.foldl_cons]
    have e : put E false s c = { s with cur := s.cur ++ [c], word := .word } := by simp [put, hf]
    rw [e]
    by_cases hv : v = []
    · subst hv; rfl
    · rw [ih (by exact hf) hv]; simp

/-- `"$@"` inside double quotes -/
theorem at_run (E : Env) (h0 : ∀ c, E.ifs0 = some c → E.ifs c = true) : ∀ (as : List (List Char)) (a cur : List Char)
    (w : Word) (out : List (List Char)), ∃ pre last, (cur ++ a) :: as = pre ++ [last] ∧
    argsGo E true true a as ⟨true, w, false, cur, out⟩ = ⟨true, .word, false, last, out ++ pre⟩ := by
  have run : ∀ (a cur : List Char) (w : Word) (out : List (List Char)), ∃ w',
      a.foldl (put E false) ⟨true, w, false, cur, out⟩ = ⟨true, w', false, cur ++ a, out⟩ := by
    intro a cur w out
    by_cases ha : a = []
    · subst ha; exact ⟨w, by simp⟩
    · exact ⟨.word, put_split_run rfl ha⟩
  intro as
  induction as with
  | nil =>
    intro a cur w out
    obtain ⟨w', hr⟩ := run a cur w out
    refine ⟨[], cur ++ a, rfl, ?_⟩
    rw [argsGo]
    simp [hr]
  | cons b bs ih =>
    intro a cur w out
    obtain ⟨w', hr⟩ := run a cur w out
    rw [argsGo]
    simp only [Bool.not_true, Bool.false_and, hr, Bool.and_self, if_true]
    cases hi : E.ifs0 with
    | none =>
      simp only [Bool.and_false, Bool.false_eq_true, if_false, emit]
      obtain ⟨pre, last, h1, h2⟩ := ih b [] .ws (out ++ [cur ++ a])
      simp only [List.nil_append] at h1
      refine ⟨(cur ++ a) :: pre, last, by rw [h1]; simp, ?_⟩
      simp only [ne_eq, reduceCtorEq, not_false_eq_true, if_true]
      rw [h2]; simp
    | some c =>
      have hcif := h0 c hi
      have e2 : put E true ⟨true, .word, false, cur ++ a, out⟩ c = ⟨true, if ws c then .ws else .nws, false, [], out ++ [cur ++ a]⟩ := by
        simp [put, hcif, emit]
      simp only [e2]
      obtain ⟨pre, last, h1, h2⟩ := ih b [] (if ws c then .ws else .nws) (out ++ [cur ++ a])
      simp only [List.nil_append] at h1
      refine ⟨(cur ++ a) :: pre, last, by rw [h1]; simp, ?_⟩
      rw [h2]; simp

/-- `"$@"` is the list of the positional parameters, each as it is, for every IFS. -/
theorem quoted_at_exact (E : Env) (h0 : ∀ c, E.ifs0 = some c → E.ifs c = true) (a : List Char) (as : List (List Char)) :
    expand E true [.oquote, .args true a as, .cquote] = a :: as := by
  obtain ⟨pre, last, h1, h2⟩ := at_run E h0 as a [] .word []
  simp only [expand, List.foldl_cons, List.foldl_nil]
  have e : piece E true (piece E true (init true) .oquote) (.args true a as) = argsGo E true true a as ⟨true, .word, false, [], []⟩ := rfl
  rw [e, h2]
  simpa [piece, finish] using h1.symm

/-- put `p` before the first and `q` after the last -/
def affix (p q : List Char) : List (List Char) → List (List Char)
  | [] => []
  | [a] => [p ++ a ++ q]
  | a :: b :: r => (p ++ a) :: affix [] q (b :: r)

theorem affix_last (q : List Char) : ∀ (as : List (List Char)) (p a last : List Char) (pre : List (List Char)),
    (p ++ a) :: as = pre ++ [last] → affix p q (a :: as) = pre ++ [last ++ q]
  | [], p, a, last, pre, h => by
    cases pre with
    | nil => simp at h; simp [affix, ← h]
    | cons x pre => simp at h
  | b :: bs, p, a, last, pre, h => by
    cases pre with
    | nil => simp at h
    | cons x pre =>
      simp at h
      rw [affix, affix_last q bs [] b last pre (by simpa using h.2), h.1]
      simp

/-- Text around it within the quotes goes to the first and the last parameter. -/
theorem quoted_at_affixes (E : Env) (h0 : ∀ c, E.ifs0 = some c → E.ifs c = true) (p q a : List Char) (as : List (List Char)) :
    expand E true (.oquote :: p.map .char ++ [.args true a as] ++ q.map .char ++ [.cquote]) =
      affix p q (a :: as) := by
  have lit : ∀ (p : List Char) (s : S), s.fresh = false → p ≠ [] →
      (p.map Piece.char).foldl (piece E true) s = { s with cur := s.cur ++ p, word := .word } := by
    intro p s hf hp
    rw [List.foldl_map]
    exact put_split_run hf hp
  have start : ∃ wd, (p = [] → wd = Word.quote) ∧ (p ≠ [] → wd = .word) ∧
      (Piece.oquote :: p.map .char).foldl (piece E true) (init true) = ⟨true, wd, false, p, []⟩ := by
    by_cases hp : p = []
    · subst hp; exact ⟨.quote, by simp, by simp, rfl⟩
    · refine ⟨.word, by simp [hp], by simp, ?_⟩
      rw [List.foldl_cons, lit p _ rfl hp]
      rfl
  obtain ⟨wd, hw1, hw2, hs⟩ := start
  have mid : piece E true ⟨true, wd, false, p, []⟩ (.args true a as) = argsGo E true true a as ⟨true, .word, false, p, []⟩ := by
    by_cases hp : p = []
    · rw [hw1 hp]; rfl
    · rw [hw2 hp]; rfl
  obtain ⟨pre, last, h1, h⟩ := at_run E h0 as a p .word []
  rw [affix_last q as p a last pre h1]
  simp only [expand, List.cons_append, List.foldl_cons, List.foldl_append, List.foldl_nil] at hs ⊢
  rw [hs, mid, h]
  by_cases hq : q = []
  · subst hq; simp [piece, finish]
  · rw [lit q _ rfl hq]; simp [piece, finish]

/-- With no parameters `"$@"` vanishes. -/
theorem quoted_at_none (E : Env) : expand E true [.oquote, .noargs, .cquote] = [] := rfl

/-- join with the first character of IFS -/
def join (sep : Option Char) : List (List Char) → List Char
  | [] => []
  | [a] => a
  | a :: b :: r => a ++ sep.toList ++ join sep (b :: r)

/-- `"$*"` is one field: the parameters joined by the first character of IFS. -/
theorem quoted_star_joined (E : Env) (a : List Char) (as : List (List Char)) :
    expand E true [.oquote, .args false a as, .cquote] = [join E.ifs0 (a :: as)] := by
  have go : ∀ (as : List (List Char)) (a cur : List Char),
      argsGo E true false a as ⟨true, .word, false, cur, []⟩ = ⟨true, .word, false, cur ++ join E.ifs0 (a :: as), []⟩ := by
    have run : ∀ (a cur : List Char), a.foldl (put E false) ⟨true, .word, false, cur, []⟩ = ⟨true, .word, false, cur ++ a, []⟩ := by
      intro a cur
      by_cases ha : a = []
      · subst ha; simp
      · rw [put_split_run rfl ha]
    intro as
    induction as with
    | nil => intro a cur; rw [argsGo]; simp [run, join]
    | cons b bs ih =>
      intro a cur
      rw [argsGo]
      simp only [Bool.not_true, Bool.false_and, run, Bool.and_false]
      cases hi : E.ifs0 with
      | none =>
        simp only [Bool.not_false, Bool.and_self, if_true, Bool.false_eq_true, if_false]
        rw [hi] at ih
        rw [ih]; simp [join]
      | some c =>
        rw [hi] at ih
        simp only [Bool.false_eq_true, if_false, Bool.not_true, Bool.false_and]
        have : put E false ⟨true, .word, false, cur ++ a, []⟩ c = ⟨true, .word, false, cur ++ a ++ [c], []⟩ := by simp [put]
        rw [this, ih]
        simp [join]
  simp only [expand, List.foldl_cons, List.foldl_nil]
  have e : piece E true (piece E true (init true) .oquote) (.args false a as) = argsGo E true false a as ⟨true, .word, false, [], []⟩ := rfl
  rw [e, go]
  simp [piece, finish]

/-- In an assignment (no splitting) with a null IFS only the first parameter is left. -/
theorem assigned_at_null_ifs : expand ⟨fun _ => false, none⟩ false [.oquote, .args true ['a'] [['b']], .cquote] = [['a'], ['b']] := by
  decide

example : expand colon true [.oquote, .args true ['a', ' ', 'b'] [[], [':']], .cquote] = [['a', ' ', 'b'], [], [':']] := by decide
example : expand colon true [.oquote, .args false ['a'] [['b']], .cquote] = [['a', ':', 'b']] := by decide

/-! ## C21 -/

theorem comSkip_spec : ∀ (i : List Char) (n : Nat),
    (∀ c r m, comSkip i n = (some c, r, m) → ∃ k, m = n + k ∧ c ≠ '\x00' ∧ c ≠ '\n' ∧
      i.filter (· ≠ '\x00') = List.replicate k '\n' ++ c :: r.filter (· ≠ '\x00')) ∧
    (∀ r m, comSkip i n = (none, r, m) → ∃ k, i.filter (· ≠ '\x00') = List.replicate k '\n')
  | [], n => by
    refine ⟨by simp [comSkip], fun r m _ => ⟨0, rfl⟩⟩
  | d :: i, n => by
    rw [comSkip]
    by_cases h0 : d = '\x00'
    · rw [if_pos h0]
      have := comSkip_spec i n
      simpa [List.filter_cons, h0] using this
    · rw [if_neg h0]
      by_cases hn : d = '\n'
      · rw [if_pos hn]
        obtain ⟨h1, h2⟩ := comSkip_spec i (n + 1)
        have hf : (d :: i).filter (· ≠ '\x00') = '\n' :: i.filter (· ≠ '\x00') := by simp [hn]
        refine ⟨fun c r m hh => ?_, fun r m hh => ?_⟩
        · obtain ⟨k, hk, hc, hc', he⟩ := h1 c r m hh
          exact ⟨k + 1, by omega, hc, hc', by rw [hf, he]; simp [List.replicate_succ]⟩
        · obtain ⟨k, he⟩ := h2 r m hh
          exact ⟨k + 1, by rw [hf, he]; simp [List.replicate_succ]⟩
      · rw [if_neg hn]
        refine ⟨fun c r m hh => ?_, fun r m hh => by cases hh⟩
        cases hh
        exact ⟨0, rfl, h0, hn, by simp [h0]⟩

theorem comRead_pending (i : List Char) (n : Nat) : comRead i n = List.replicate n '\n' ++ comRead i 0 := by
  induction n with
  | zero => simp
  | succ n ih => rw [comRead, ih]; simp [List.replicate_succ]

theorem comRead_nonnl {c : Char} {r : List Char} (h0 : c ≠ '\x00') (hn : c ≠ '\n') : comRead (c :: r) 0 = c :: comRead r 0 := by
  have : comSkip (c :: r) 0 = (some c, r, 0) := by rw [comSkip, if_neg h0, if_neg hn]
  rw [comRead]
  split
  · rename_i h; rw [this] at h; cases h
  · rename_i h; rw [this] at h; cases h; rfl
  · rename_i h; rw [this] at h; cases h

/-- The output of the command is the value, without its NULs, followed by newlines; the
value does not end in a newline. -/
theorem trailing_newlines_removed (out : List Char) :
    (∃ k, out.filter (· ≠ '\x00') = comRead out 0 ++ List.replicate k '\n') ∧ (comRead out 0).getLast? ≠ some '\n' := by
  generalize hn : out.length = n
  induction n using Nat.strongRecOn generalizing out with
  | ind n ih =>
    obtain ⟨h1, h2⟩ := comSkip_spec out 0
    rcases hs : comSkip out 0 with ⟨_ | c, r, m⟩
    · have hc : comRead out 0 = [] := by
        rw [comRead]
        split
        · rfl
        · rename_i h; rw [hs] at h; cases h
        · rename_i h; rw [hs] at h; cases h
      obtain ⟨k, hk⟩ := h2 r m hs
      rw [hc]
      exact ⟨⟨k, by rw [hk]; simp⟩, by simp⟩
    · obtain ⟨k, hk, h0, hnl, he⟩ := h1 c r m hs
      have hc : comRead out 0 = List.replicate k '\n' ++ c :: comRead r 0 := by
        rw [comRead]
        split
        · rename_i h; rw [hs] at h; cases h
        · rename_i h; rw [hs] at h; cases h
          have : k = 0 := by omega
          subst this; simp
        · rename_i m' h; rw [hs] at h; cases h
          have : k = m' + 1 := by omega
          subst this
          rw [comRead_pending, comRead_nonnl h0 hnl]; simp [List.replicate_succ]
      have hl := comSkip_len _ _ hs
      obtain ⟨⟨j, hj⟩, hlast⟩ := ih r.length (by omega) r rfl
      rw [hc]
      refine ⟨⟨j, by rw [he, hj]; simp⟩, ?_⟩
      rw [List.getLast?_append]
      rw [List.getLast?_cons]
      cases hg : (comRead r 0).getLast? with
      | none => simp [hnl]
      | some d =>
        rw [hg] at hlast
        simpa using hlast

/-- There is only one such value. -/
theorem trailing_newlines_unique {l r s : List Char} {j k} (h : l = r ++ List.replicate j '\n') (hr : r.getLast? ≠ some '\n')
    (h' : l = s ++ List.replicate k '\n') (hs : s.getLast? ≠ some '\n') : r = s := by
  have key : ∀ (j k : Nat) (r s : List Char), r ++ List.replicate j '\n' = s ++ List.replicate k '\n' →
      r.getLast? ≠ some '\n' → s.getLast? ≠ some '\n' → r = s := by
    intro j
    induction j with
    | zero =>
      intro k r s h hr hs
      cases k with
      | zero => simpa using h
      | succ k =>
        exfalso
        apply hr
        have : r = s ++ List.replicate k '\n' ++ ['\n'] := by simpa [List.replicate_succ'] using h
        rw [this]; simp
    | succ j ih =>
      intro k r s h hr hs
      cases k with
      | zero =>
        exfalso
        apply hs
        have : s = r ++ List.replicate j '\n' ++ ['\n'] := by simpa [List.replicate_succ'] using h.symm
        rw [this]; simp
      | succ k =>
        refine ih k r s ?_ hr hs
        have : (r ++ List.replicate j '\n') ++ ['\n'] = (s ++ List.replicate k '\n') ++ ['\n'] := by
          simpa [List.replicate_succ'] using h
        exact List.append_cancel_right this
  exact key j k r s (h ▸ h') hr hs

/-- the value inside double quotes: the command's output as one field -/
theorem quoted_substitution (E : Env) (out : List Char) :
    expand E true [.oquote, .com (comRead out 0), .cquote] = [comRead out 0] := by
  have := quoted_is_one_field E [.com (comRead out 0)] trivial
  simpa [content] using this

example : comRead "\na\n\nb\x00\n\n".toList 0 = "\na\n\nb".toList := by
  simp [comRead, comSkip]

end Ksh.Ifs
