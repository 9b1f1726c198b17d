import Verif.Tilde.Model
/-!
# Tilde expansion: the properties (C98)
-/

namespace Ksh.Tilde
open Ksh.Ifs (S Env)

/-! ## What the manual says -/

/-- `w` begins with a tilde and the login name `nm`, all of it unquoted, up to a slash or (in assignments) a colon or the end of
the word; `rest` follows. -/
def Tilded (asn : Bool) (w : List P) (nm : List Char) (rest : List P) : Prop :=
  w = .char '~' :: (nm.map P.char ++ rest) ∧ (∀ c ∈ nm, c ≠ '/' ∧ (asn = true → c ≠ ':')) ∧
    (rest = [] ∨ (∃ r, rest = .char '/' :: r) ∨ (asn = true ∧ ∃ r, rest = .char ':' :: r))

/-- May a tilde after this piece be expanded?  `st` says whether one before it may, `q` whether it stands in quotes. -/
def after (asn st q : Bool) : P → Bool
  | .char c => !q && asn && c == ':'
  | .cquote => st
  | _ => false

def quoted (q : Bool) : P → Bool
  | .oquote => true
  | .cquote => false
  | _ => q

/-- `Expands asn dir st q w w'`: tilde expansion makes `w'` of `w`; a tilde at the beginning may be expanded if `st`, and the
beginning is in quotes if `q`.  A directory is inserted as quoted characters. -/
inductive Expands (asn : Bool) (dir : List Char → Option (List Char)) : Bool → Bool → List P → List P → Prop where
  | nil {st q : Bool} : Expands asn dir st q [] []
  | tilde {w rest rest' : List P} {nm d : List Char} : Tilded asn w nm rest → dir nm = some d →
    Expands asn dir false false rest rest' → Expands asn dir true false w (d.map .qchar ++ rest')
  | keep {st q : Bool} {p : P} {r r' : List P} :
    ¬ (st = true ∧ q = false ∧ ∃ nm rest d, Tilded asn (p :: r) nm rest ∧ dir nm = some d) →
    Expands asn dir (after asn st q p) (quoted q p) r r' → Expands asn dir st q (p :: r) (p :: r')

/-- The words for which the code does what the manual says.  An unquoted substitution (`eqs`: or an unquoted `=`) is not followed
directly by a tilde. -/
def Tame (eqs : Bool) : Bool → List P → Prop
  | _, [] => True
  | q, p :: r =>
    ((q = false ∧ ((∃ v, p = .sub v) ∨ (∃ v, p = .com v) ∨ (eqs = true ∧ p = .char '='))) →
      r.head? ≠ some (.char '~') ∧ r.head? ≠ some .cquote) ∧ Tame eqs (quoted q p) r

/-! ## Names -/

theorem name_tilded {asn : Bool} {r : List P} (h : endOk (name asn r).2 = true) :
    Tilded asn (.char '~' :: r) (name asn r).1 (name asn r).2 := by
  suffices h' : r = (name asn r).1.map P.char ++ (name asn r).2 ∧
      (∀ c ∈ (name asn r).1, c ≠ '/' ∧ (asn = true → c ≠ ':')) ∧
      ((name asn r).2 = [] ∨ (∃ t, (name asn r).2 = .char '/' :: t) ∨ (asn = true ∧ ∃ t, (name asn r).2 = .char ':' :: t)) from
    ⟨by rw [← h'.1], h'.2⟩
  induction r with
  | nil => simp [name]
  | cons p r ih =>
    cases p with
    | char c =>
      rw [name] at h ⊢
      split at h
      · next hc =>
        rw [if_pos hc]
        refine ⟨rfl, by simp, .inr ?_⟩
        rcases hc with rfl | ⟨h1, rfl⟩
        · exact .inl ⟨r, rfl⟩
        · exact .inr ⟨h1, r, rfl⟩
      · next hc =>
        rw [if_neg hc]
        obtain ⟨h1, h2, h3⟩ := ih h
        refine ⟨by simp only [List.map_cons, List.cons_append]; rw [← h1], ?_, h3⟩
        intro d hd
        rcases List.mem_cons.mp hd with rfl | hd
        · exact ⟨fun h => hc (.inl h), fun ha h => hc (.inr ⟨ha, h⟩)⟩
        · exact h2 d hd
    | qchar c => simp [name, endOk] at h
    | oquote => simp [name, endOk] at h
    | cquote => simp [name, endOk] at h
    | sub v => simp [name, endOk] at h
    | com v => simp [name, endOk] at h

theorem tilded_name {asn : Bool} {r rest : List P} {nm : List Char} (h : Tilded asn (.char '~' :: r) nm rest) :
    name asn r = (nm, rest) ∧ endOk rest = true := by
  obtain ⟨h1, h2, h3⟩ := h
  simp only [List.cons.injEq, true_and] at h1
  subst h1
  induction nm with
  | nil =>
    simp only [List.map_nil, List.nil_append]
    rcases h3 with rfl | ⟨r, rfl⟩ | ⟨ha, r, rfl⟩
    · exact ⟨rfl, rfl⟩
    · rw [name, if_pos (.inl rfl)]; exact ⟨rfl, rfl⟩
    · rw [name, if_pos (.inr ⟨ha, rfl⟩)]; exact ⟨rfl, rfl⟩
  | cons c nm ih =>
    obtain ⟨k1, k2⟩ := ih fun d hd => h2 d (by simp [hd])
    have hc := h2 c (by simp)
    simp only [List.map_cons, List.cons_append]
    rw [name, if_neg, k1]
    · exact ⟨rfl, k2⟩
    · rintro (h | ⟨ha, h⟩)
      · exact hc.1 h
      · exact hc.2 ha h

/-! ## The state -/

theorem put_s (E : Env) (f : F) (split q : Bool) (t : T) (c : Char) : (put E f split q t c).s = Ifs.put E split t.s c := by
  simp only [put]
  split
  · split <;> rfl
  · split
    · rfl
    · split
      · rfl
      · split <;> rfl

theorem puts_s (E : Env) (f : F) (split q : Bool) : ∀ (v : List Char) (t : T),
    (v.foldl (put E f split q) t).s = v.foldl (Ifs.put E split) t.s
  | [], _ => rfl
  | c :: v, t => by rw [List.foldl_cons, puts_s E f split q v, put_s, List.foldl_cons]

theorem piece_s (E : Env) (f : F) (t : T) (p : P) : (piece E f t p).s = Ifs.piece E f.blank t.s p.toIfs := by
  cases p with
  | char c => simp only [piece, P.toIfs, Ifs.piece, put_s]
  | qchar c => simp only [piece, P.toIfs, Ifs.piece, put_s]
  | oquote => rfl
  | cquote => rfl
  | sub v => simp only [piece, P.toIfs, Ifs.piece, puts_s]
  | com v => simp only [piece, P.toIfs, Ifs.piece, puts_s]

theorem put_quote (E : Env) (split : Bool) (s : S) (c : Char) : (Ifs.put E split s c).quote = s.quote := by
  simp only [Ifs.put, Ifs.emit]
  split
  · split <;> split <;> rfl
  · split <;> rfl

theorem puts_quote (E : Env) (split : Bool) : ∀ (v : List Char) (s : S), (v.foldl (Ifs.put E split) s).quote = s.quote
  | [], _ => rfl
  | c :: v, s => by rw [List.foldl_cons, puts_quote E split v, put_quote]

theorem put_fresh (E : Env) (split : Bool) (s : S) (c : Char) (h : s.fresh = false) : (Ifs.put E split s c).fresh = false := by
  simp only [Ifs.put, Ifs.emit]
  split
  · split <;> split <;> first | exact h | rfl
  · rw [h]; exact h

theorem puts_fresh (E : Env) (split : Bool) : ∀ (v : List Char) (s : S), s.fresh = false →
    (v.foldl (Ifs.put E split) s).fresh = false
  | [], _, h => h
  | c :: v, s, h => puts_fresh E split v _ (put_fresh E split s c h)

theorem piece_quote (E : Env) (b : Bool) (s : S) (p : P) : (Ifs.piece E b s p.toIfs).quote = quoted s.quote p := by
  cases p with
  | char c => exact put_quote E false s c
  | qchar c => exact put_quote E false s c
  | oquote => rfl
  | cquote => rfl
  | sub v =>
    simp only [P.toIfs, Ifs.piece, puts_quote, quoted]
    split <;> rfl
  | com v => exact puts_quote E _ v s

theorem piece_fresh (E : Env) (b : Bool) (s : S) (p : P) (h : s.fresh = false) : (Ifs.piece E b s p.toIfs).fresh = false := by
  cases p with
  | char c => exact put_fresh E false s c h
  | qchar c => exact put_fresh E false s c h
  | oquote => exact h
  | cquote => exact h
  | sub v => rfl
  | com v => exact puts_fresh E _ v s h

theorem put_eq {E : Env} {f : F} {q : Bool} {t : T} {c : Char} (h : t.eq = true) : (put E f false q t c).eq = true := by
  simp only [put, Bool.false_and, Bool.false_eq_true, if_false]
  split
  · exact h
  · split
    · rfl
    · split <;> exact h

theorem puts_eq {E : Env} {f : F} {q : Bool} : ∀ (v : List Char) (t : T), t.eq = true →
    (v.foldl (put E f false q) t).eq = true
  | [], _, h => h
  | c :: v, t, h => puts_eq v _ (put_eq h)

theorem piece_eq {E : Env} {f : F} (hf : f.blank = false) {t : T} {p : P} (h : t.eq = true) : (piece E f t p).eq = true := by
  cases p with
  | char c => exact put_eq h
  | qchar c => exact put_eq h
  | oquote => exact h
  | cquote => exact h
  | sub v => simp only [piece, hf, Bool.and_false]; exact puts_eq v _ h
  | com v => simp only [piece, hf, Bool.and_false]; exact puts_eq v _ h

theorem puts_quoted_ok {E : Env} {f : F} : ∀ (v : List Char) (t : T), t.ok % 2 = 0 →
    (v.foldl (put E f false true) t).ok % 2 = 0
  | [], _, h => h
  | c :: v, t, h => puts_quoted_ok v _ (by simp [put])

/-- tilde_ok after a piece says what the manual says, if the next piece looks at it. -/
theorem piece_ok {E : Env} {f : F} {t : T} {st : Bool} {p : P} {r : List P} (hq : f.asn = true → t.eq = true)
    (hok : p = .cquote → (t.ok % 2 = 1 ↔ st = true))
    (ht : Tame (!f.asn) t.s.quote (p :: r)) (hr : r.head? = some (.char '~') ∨ r.head? = some .cquote) :
    (piece E f t p).ok % 2 = 1 ↔ after f.asn st t.s.quote p = true := by
  have htame := ht.1
  cases p with
  | char c =>
    simp only [piece, put, Bool.false_and, Bool.false_eq_true, if_false, after]
    cases hqu : t.s.quote with
    | true => simp
    | false =>
      rw [hqu] at htame
      simp only [Bool.false_eq_true, if_false, Bool.not_false, Bool.true_and, Bool.and_eq_true, beq_iff_eq]
      by_cases h1 : c = '=' ∧ t.eq = false
      · exfalso
        have hasn : f.asn = false := by
          cases ha : f.asn with
          | false => rfl
          | true => rw [hq ha] at h1; cases h1.2
        have := htame ⟨rfl, .inr (.inr ⟨by simp [hasn], by rw [h1.1]⟩)⟩
        rcases hr with hr | hr
        · exact this.1 hr
        · exact this.2 hr
      · rw [if_neg h1]
        by_cases h2 : c = ':' ∧ f.asn = true
        · rw [if_pos h2]; simp [h2]
        · rw [if_neg h2]
          simp only [Nat.mul_mod_left, Nat.zero_ne_one, false_iff]
          exact fun h => h2 ⟨h.2, h.1⟩
  | qchar c => simp [piece, put, after]
  | oquote => simp [piece, after]
  | cquote => simpa [piece, after] using hok rfl
  | sub v =>
    cases hqu : t.s.quote with
    | true =>
      have : (if t.s.word = .quote then { t.s with word := .word } else t.s).quote = true := by split <;> exact hqu
      simp only [piece, after, this, Bool.not_true, Bool.false_and]
      constructor
      · intro h
        rw [puts_quoted_ok] at h
        · cases h
        · rfl
      · exact fun h => (nomatch h)
    | false =>
      rw [hqu] at htame
      have := htame ⟨rfl, .inl ⟨v, rfl⟩⟩
      exfalso
      rcases hr with hr | hr
      · exact this.1 hr
      · exact this.2 hr
  | com v =>
    cases hqu : t.s.quote with
    | true =>
      simp only [piece, after, hqu, Bool.not_true, Bool.false_and]
      constructor
      · intro h
        rw [puts_quoted_ok] at h
        · cases h
        · rfl
      · exact fun h => (nomatch h)
    | false =>
      rw [hqu] at htame
      have := htame ⟨rfl, .inr (.inl ⟨v, rfl⟩)⟩
      exfalso
      rcases hr with hr | hr
      · exact this.1 hr
      · exact this.2 hr

theorem qchars (E : Env) (b : Bool) : ∀ (d : List Char) (s : S), s.fresh = false → d ≠ [] →
    (d.map fun c => (P.qchar c).toIfs).foldl (Ifs.piece E b) s = { s with cur := s.cur ++ d, word := .word }
  | [], _, _, h => absurd rfl h
  | [c], s, h, _ => by
    simp [P.toIfs, Ifs.piece, Ifs.put, h]
  | c :: e :: d, s, h, _ => by
    rw [List.map_cons, List.foldl_cons, qchars E b (e :: d) _ (piece_fresh E b s (.qchar c) h) (by simp)]
    simp [P.toIfs, Ifs.piece, Ifs.put, h]

theorem Tame.suffix {eqs : Bool} : ∀ {nm : List Char} {rest : List P}, Tame eqs false (nm.map P.char ++ rest) → Tame eqs false rest
  | [], _, h => h
  | _ :: nm, _, h => Tame.suffix (nm := nm) h.2

theorem loop_expands {E : Env} {f : F} {dir : List Char → Option (List Char)} (hf : f.asn = true → f.blank = false)
    (hdir : ∀ nm, dir nm ≠ some []) {st q : Bool} {w w' : List P} (h : Expands f.asn dir st q w w') :
    ∀ (n : Nat) (t : T), w.length ≤ n → t.s.quote = q → t.s.fresh = false → (f.asn = true → t.eq = true) →
    (w.head? = some (.char '~') ∨ w.head? = some .cquote → (t.ok % 2 = 1 ↔ st = true)) → Tame (!f.asn) q w →
    (loop E f dir n t w).s = (w'.map P.toIfs).foldl (Ifs.piece E f.blank) t.s := by
  induction h with
  | nil =>
    intro n t _ _ _ _ _ _
    cases n <;> rfl
  | @tilde w rest rest' nm d ht hd _ ih =>
    intro n t hn hq hfr heq hok htame
    obtain ⟨rfl, h2, h3⟩ := id ht
    cases n with
    | zero => simp at hn
    | succ n =>
      obtain ⟨k1, k2⟩ := tilded_name ht
      have hst := (hok (.inl rfl)).mpr rfl
      have hne : d ≠ [] := fun h => hdir nm (by rw [hd, h])
      rw [loop, if_pos ⟨rfl, hq, hst, by rw [k1]; exact k2⟩, k1]
      simp only [hd]
      have hlen : rest.length ≤ n := by simp at hn; omega
      rw [ih n (replaced t d) hlen hq hfr heq ?_ (Tame.suffix htame.2)]
      · rw [List.map_append, List.foldl_append, List.map_map]
        congr 1
        have := qchars E f.blank d t.s hfr hne
        simp only [replaced, if_neg hne]
        rw [← this]
        rfl
      · rintro (hr | hr)
        · rcases h3 with rfl | ⟨r, rfl⟩ | ⟨_, r, rfl⟩ <;> simp at hr
        · rcases h3 with rfl | ⟨r, rfl⟩ | ⟨_, r, rfl⟩ <;> simp at hr
  | @keep st q p r r' hno _ ih =>
    intro n t hn hq hfr heq hok htame
    cases n with
    | zero => simp at hn
    | succ n =>
      have hstep : loop E f dir (n + 1) t (p :: r) = loop E f dir n (piece E f t p) r := by
        rw [loop]
        split
        · next hc =>
          obtain ⟨rfl, c2, c3, c4⟩ := hc
          have hst := (hok (.inl rfl)).mp c3
          have hnone : dir (name f.asn r).1 = none := by
            cases hd : dir (name f.asn r).1 with
            | none => rfl
            | some d => exact absurd ⟨hst, by rw [← hq]; exact c2, _, _, d, name_tilded c4, hd⟩ hno
          rw [hnone]
        · rfl
      rw [hstep, List.map_cons, List.foldl_cons, ← piece_s]
      refine ih n (piece E f t p) (by simp at hn; omega) ?_ ?_ ?_ ?_ htame.2
      · rw [piece_s, piece_quote, hq]
      · rw [piece_s]; exact piece_fresh E f.blank t.s p hfr
      · exact fun ha => piece_eq (hf ha) (heq ha)
      · intro hr
        rw [← hq] at htame ⊢
        exact piece_ok heq (fun hp => hok (.inr (by rw [hp]; rfl))) htame hr

/-- Tilde expansion of a word exists. -/
theorem expands_exists (asn : Bool) (dir : List Char → Option (List Char)) : ∀ (n : Nat) (st q : Bool) (w : List P),
    w.length ≤ n → ∃ w', Expands asn dir st q w w'
  | n, st, q, [], _ => ⟨[], .nil⟩
  | 0, st, q, p :: r, h => by simp at h
  | n + 1, st, q, p :: r, h => by
    by_cases hc : st = true ∧ q = false ∧ ∃ nm rest d, Tilded asn (p :: r) nm rest ∧ dir nm = some d
    · obtain ⟨rfl, rfl, nm, rest, d, ht, hd⟩ := hc
      have hl : rest.length ≤ n := by
        have := congrArg List.length ht.1
        simp at this h
        omega
      obtain ⟨r', hr'⟩ := expands_exists asn dir n false false rest hl
      exact ⟨_, .tilde ht hd hr'⟩
    · obtain ⟨r', hr'⟩ := expands_exists asn dir n (after asn st q p) (quoted q p) r (by simp at h; omega)
      exact ⟨_, .keep hc hr'⟩

/-- The result of tilde expansion is determined. -/
theorem expands_unique {asn : Bool} {dir : List Char → Option (List Char)} {st q : Bool} {w a b : List P}
    (ha : Expands asn dir st q w a) (hb : Expands asn dir st q w b) : a = b := by
  induction ha generalizing b with
  | nil =>
    generalize hw : ([] : List P) = w at hb
    cases hb with
    | nil => rfl
    | tilde ht _ _ => subst hw; exact absurd ht.1 (by simp)
    | keep => cases hw
  | @tilde w rest rest' nm d ht hd _ ih =>
    have ht0 := ht
    obtain ⟨rfl, _, _⟩ := ht
    cases hb with
    | @tilde _ rest2 _ nm2 d2 ht2 hd2 h2 =>
      have e1 := (tilded_name ht0).1
      rw [(tilded_name ht2).1] at e1
      simp only [Prod.mk.injEq] at e1
      obtain ⟨rfl, rfl⟩ := e1
      rw [hd] at hd2
      cases hd2
      rw [ih h2]
    | keep hno _ => exact absurd ⟨rfl, rfl, _, _, _, ht0, hd⟩ hno
  | @keep st q p r r' hno _ ih =>
    cases hb with
    | tilde ht2 hd2 _ => exact absurd ⟨rfl, rfl, _, _, _, ht2, hd2⟩ hno
    | keep _ h2 => rw [ih h2]

/-- **C98**, words: tilde expansion of a word is the replacement that the manual describes, before everything else and without
splitting the directory, if no unquoted substitution and no unquoted `=` stands directly before a tilde and no directory is
empty. -/
theorem word_expanded_partial (E : Env) (blank : Bool) (dir : List Char → Option (List Char)) (hdir : ∀ nm, dir nm ≠ some [])
    {w w' : List P} (hw : Tame true false w) (h : Expands false dir true false w w') :
    expand E ⟨false, blank⟩ dir w = Ifs.expand E blank (w'.map P.toIfs) := by
  rw [expand, loop_expands (f := ⟨false, blank⟩) (fun h => (nomatch h)) hdir h _ _ (Nat.le_refl _) rfl rfl (fun h => (nomatch h))
    (fun _ => ⟨fun _ => rfl, fun _ => rfl⟩) hw]
  rfl

/-- The left side of an assignment in the simple case. -/
def plainLeft (n : List Char) : Prop := ∀ c ∈ n, c ≠ '=' ∧ c ≠ '~' ∧ c ≠ ':'

theorem left_run {E : Env} {dir : List Char → Option (List Char)} : ∀ (l : List Char) (n : Nat) (t : T) (w : List P), plainLeft l →
    t.s.quote = false → t.eq = false →
    ∃ t', loop E ⟨true, false⟩ dir (l.length + n) t (l.map P.char ++ w) = loop E ⟨true, false⟩ dir n t' w ∧
      t'.s = (l.map (P.toIfs ∘ P.char)).foldl (Ifs.piece E false) t.s ∧ t'.eq = false ∧ t'.s.quote = false ∧
      (t.s.fresh = false → t'.s.fresh = false)
  | [], n, t, w, _, hq, he => ⟨t, by simp, rfl, he, hq, id⟩
  | c :: l, n, t, w, hl, hq, he => by
    have hc := hl c (by simp)
    have he' : (piece E ⟨true, false⟩ t (.char c)).eq = false := by
      simp only [piece, put, Bool.false_and, Bool.false_eq_true, if_false, hq]
      rw [if_neg (fun h => hc.1 h.1), if_neg (fun h => hc.2.2 h.1)]
      exact he
    have hs := piece_s E ⟨true, false⟩ t (.char c)
    have hq' : (piece E ⟨true, false⟩ t (.char c)).s.quote = false := by rw [hs, piece_quote, hq]; rfl
    obtain ⟨t', h1, h2, h3, h4, h5⟩ := left_run l n (piece E ⟨true, false⟩ t (.char c)) w (fun d hd => hl d (by simp [hd])) hq' he'
    refine ⟨t', ?_, ?_, h3, h4, fun hf => h5 ?_⟩
    · rw [← h1, List.length_cons, show l.length + 1 + n = (l.length + n) + 1 by omega, List.map_cons, List.cons_append, loop]
      rw [if_neg]
      rintro ⟨h, _⟩
      exact hc.2.1 (by simpa using h)
    · rw [h2, hs]; rfl
    · rw [hs]; exact piece_fresh E false t.s (.char c) hf

/-- **C98**, assignments: the value is expanded at its beginning and after unquoted colons, names also end at colons, if no
unquoted substitution stands directly before a tilde, no directory is empty, and the left side contains no `=`, `:` or `~`. -/
theorem assignment_expanded_partial (E : Env) (dir : List Char → Option (List Char)) (hdir : ∀ nm, dir nm ≠ some [])
    {l : List Char} (hl : plainLeft l) {v v' : List P} (hv : Tame false false v) (h : Expands true dir true false v v') :
    expand E ⟨true, false⟩ dir (l.map P.char ++ .char '=' :: v) =
      Ifs.expand E false ((l.map P.char ++ .char '=' :: v').map P.toIfs) := by
  have hlen : (l.map P.char ++ P.char '=' :: v).length = l.length + (v.length + 1) := by simp
  obtain ⟨t', h1, h2, h3, h4, h5⟩ := left_run (E := E) (dir := dir) l (v.length + 1) ⟨Ifs.init false, 1, false⟩ (.char '=' :: v) hl
    rfl rfl
  rw [expand, hlen, h1, loop, if_neg (by simp)]
  have hs := piece_s E ⟨true, false⟩ t' (.char '=')
  have hfr : (piece E ⟨true, false⟩ t' (.char '=')).s.fresh = false := by
    rw [hs]; exact piece_fresh E false t'.s (.char '=') (h5 rfl)
  rw [loop_expands (f := ⟨true, false⟩) (fun _ => rfl) hdir h _ _ (Nat.le_refl _) (by rw [hs, piece_quote, h4]; rfl) hfr
    (fun _ => ?_) (fun _ => ?_) hv, hs, h2]
  · simp [Ifs.expand, List.foldl_append]
  · simp [piece, put, h4, h3]
  · simp [piece, put, h4, h3]

/-! ## Directories -/

/-- **C98**: which directory a name stands for. -/
theorem tilde_directory (d : Dirs) :
    (tilde d []).1 = d.home ∧ (tilde d ['+']).1 = d.pwd ∧ (tilde d ['-']).1 = d.oldpwd ∧
    ∀ nm, nm ≠ [] → nm ≠ ['+'] → nm ≠ ['-'] → (tilde d nm).1 = (d.cache.lookup nm).or (d.passwd nm) := by
  refine ⟨rfl, rfl, rfl, fun nm h1 h2 h3 => ?_⟩
  rw [tilde, if_neg h1, if_neg h2, if_neg h3, homedir]
  cases d.cache.lookup nm with
  | some dir => rfl
  | none => cases d.passwd nm <;> rfl

/-- Looking up a name does not change what any name stands for, and a name that was found keeps its directory when the password
file changes. -/
theorem tilde_cached (d : Dirs) (nm : List Char) : (∀ m, (tilde (tilde d nm).2 m).1 = (tilde d m).1) ∧
    ∀ dir, (tilde d nm).1 = some dir → nm ≠ [] → nm ≠ ['+'] → nm ≠ ['-'] → ∀ pw, (tilde { (tilde d nm).2 with passwd := pw } nm).1 =
      some dir := by
  have hcase : (tilde d nm).2 = d ∨ ∃ dir, d.cache.lookup nm = none ∧ d.passwd nm = some dir ∧
      (tilde d nm).2 = { d with cache := (nm, dir) :: d.cache } ∧ nm ≠ [] ∧ nm ≠ ['+'] ∧ nm ≠ ['-'] := by
    by_cases h1 : nm = []
    · left; rw [tilde, if_pos h1]
    by_cases h2 : nm = ['+']
    · left; rw [tilde, if_neg h1, if_pos h2]
    by_cases h3 : nm = ['-']
    · left; rw [tilde, if_neg h1, if_neg h2, if_pos h3]
    rw [tilde, if_neg h1, if_neg h2, if_neg h3, homedir]
    cases hl : d.cache.lookup nm with
    | some dir => exact .inl rfl
    | none => cases hp : d.passwd nm with
      | none => exact .inl rfl
      | some dir => exact .inr ⟨dir, rfl, rfl, rfl, h1, h2, h3⟩
  refine ⟨fun m => ?_, fun dir hdir n1 n2 n3 pw => ?_⟩
  · rcases hcase with h | ⟨dir, hl, hp, h, _, _, _⟩
    · rw [h]
    · rw [h]
      by_cases h1 : m = []
      · rw [h1]; rfl
      by_cases h2 : m = ['+']
      · rw [h2]; rfl
      by_cases h3 : m = ['-']
      · rw [h3]; rfl
      rw [(tilde_directory _).2.2.2 m h1 h2 h3, (tilde_directory d).2.2.2 m h1 h2 h3]
      by_cases hm : m = nm
      · subst hm
        simp [List.lookup, hl, hp]
      · have : (m == nm) = false := by simp [hm]
        simp [List.lookup, this]
  · rw [(tilde_directory _).2.2.2 nm n1 n2 n3]
    rw [(tilde_directory d).2.2.2 nm n1 n2 n3] at hdir
    rcases hcase with h | ⟨dir', hl, hp, h, _, _, _⟩
    · rw [h]
      rw [tilde, if_neg n1, if_neg n2, if_neg n3, homedir] at h
      cases hl : d.cache.lookup nm with
      | some x =>
        rw [hl] at hdir
        simp only [hl]
        exact hdir
      | none =>
        rw [hl] at h hdir
        simp only [Option.none_or] at hdir
        rw [hdir] at h
        have := congrArg (fun d => d.cache.length) h
        simp at this
    · rw [h]
      rw [hl, Option.none_or, hp] at hdir
      cases hdir
      simp [List.lookup]

/-! ## Cases -/

/-- Directories for the examples: HOME is /h, the user u has /u. -/
def dirs : List Char → Option (List Char) := fun nm => if nm = [] then some ['/', 'h'] else if nm = ['u'] then some ['/', 'u'] else none

/-- The default IFS. -/
def ifs : Env := ⟨fun c => c == ' ' || c == '\t' || c == '\n', some ' '⟩

example : expand ifs ⟨false, true⟩ dirs [.char '~', .char 'u', .char '/', .char '~'] = [['/', 'u', '/', '~']] := by decide +kernel
example : expand ifs ⟨false, true⟩ dirs [.char '~', .qchar 'u'] = [['~', 'u']] := by decide +kernel
example : expand ifs ⟨true, false⟩ dirs [.char 'P', .char '=', .char '~', .char ':', .char '~', .char 'u', .char ':', .qchar '~'] =
    [['P', '=', '/', 'h', ':', '/', 'u', ':', '~']] := by decide +kernel

/-- False of the code: `echo a=~` expands the tilde although the word does not begin with it and is no assignment. -/
theorem equals_in_word : expand ifs ⟨false, true⟩ dirs [.char 'a', .char '=', .char '~'] = [['a', '=', '/', 'h']] := by
  decide +kernel

/-- False of the code: `echo $x~` with x='a ' (or x='=') expands the tilde; so does `y=$x~` with x='a:'. -/
theorem substitution_before_tilde :
    expand ifs ⟨false, true⟩ dirs [.sub ['a', ' '], .char '~'] = [['a'], ['/', 'h']] ∧
    expand ifs ⟨false, true⟩ dirs [.sub ['='], .char '~'] = [['=', '/', 'h']] ∧
    expand ifs ⟨true, false⟩ dirs [.char 'y', .char '=', .sub ['a', ':'], .char '~'] = [['y', '=', 'a', ':', '/', 'h']] := by
  decide +kernel

/-- False of the code: in `a[i==1]=~` the tilde after the equals sign of the assignment is not expanded. -/
theorem equals_in_subscript : expand ifs ⟨true, false⟩ dirs
    [.char 'a', .char '[', .char 'i', .char '=', .char '=', .char '1', .char ']', .char '=', .char '~'] =
    [['a', '[', 'i', '=', '=', '1', ']', '=', '~']] := by decide +kernel

/-- False of the code: with HOME set to the empty string the word `~` disappears instead of being replaced by an empty word. -/
theorem empty_home : expand ifs ⟨false, true⟩ (fun _ => some []) [.char '~'] = [] := by decide +kernel

end Ksh.Tilde
