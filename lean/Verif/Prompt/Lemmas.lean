import Verif.Prompt.Model
/-!
# A prompt as a list of pieces
-/

namespace Ksh.Prompt

/-- What one round of the loop shows. -/
inductive Kind where
  | esc (x : Esc) (t : List Char)
  | num (t : List Char)
  | chr (c : Char)
  | stop

/-- One round: the character at cp, what follows it, and what it shows. -/
structure Tok where
  head : Char
  more : List Char
  kind : Kind

/-- The text a piece shows. -/
def Kind.text : Kind → List Char
  | .esc _ t => t
  | .num t => t
  | .chr c => [c]
  | .stop => []

/-- The piece at the front, strbuf after it, and the rest. -/
def tok (e : Env) (buf : Option (List Char)) (c : Char) (more : List Char) :
    Option (Kind × Option (List Char) × List Char) :=
  if c = '\\' then
    match more with
    | [] => some (.stop, buf, [])
    | d :: rest => match escape e buf d rest with
      | none => none
      | some x => match x.buf with
        | none => none
        | some t => some (.esc x t, x.buf, x.rest)
  else if c ≠ '!' then some (.chr c, buf, more)
  else if more.head? = some '!' then some (.chr '!', buf, more.drop 1)
  else some (.num (dec (e.line + 1)), buf, more)

/-- All pieces. -/
def toks (e : Env) : Nat → Option (List Char) → List Char → Option (List Tok)
  | _, _, [] => some []
  | 0, _, _ :: _ => none
  | n + 1, buf, c :: more =>
    match tok e buf c more with
    | none => none
    | some (k, buf', cp) => (toks e n buf' cp).map (⟨c, more, k⟩ :: ·)

/-- What a piece does to the state. -/
def applyKind (dt : Bool) (s : St) : Kind → St
  | .esc x t => emit (applyEsc s x) dt t
  | .num t => emit s dt t
  | .chr c => put s dt c
  | .stop => s

def stepTok (delim : Option Char) (s : St) (t : Tok) : St :=
  applyKind (look delim s t.head t.more).1 (look delim s t.head t.more).2 t.kind

theorem look_buf (delim : Option Char) (s : St) (c : Char) (more : List Char) : (look delim s c more).2.buf = s.buf := by
  simp only [look]
  split
  · rfl
  · split
    · rfl
    · split
      · split <;> rfl
      · split <;> rfl

theorem emit_buf (s : St) (dt : Bool) (t : List Char) : (emit s dt t).buf = s.buf := by
  simp only [emit]; split <;> rfl

theorem put_buf (s : St) (dt : Bool) (c : Char) : (put s dt c).buf = s.buf := by
  simp only [put]; split <;> rfl

theorem body_tok (e : Env) (dt : Bool) (s : St) (c : Char) (more : List Char) :
    body e dt s c more = (tok e s.buf c more).map fun r => (applyKind dt s r.1, r.2.2) := by
  simp only [body, tok]
  by_cases h1 : c = '\\'
  · simp only [h1, if_true]
    cases more with
    | nil => rfl
    | cons d rest =>
      simp only
      cases escape e s.buf d rest with
      | none => rfl
      | some x =>
        simp only
        cases hb : x.buf with
        | none => rfl
        | some t => simp [applyKind]
  · simp only [h1, if_false]
    by_cases h2 : c ≠ '!'
    · simp [h2, applyKind]
    · simp only [h2, if_false]
      split <;> rfl

theorem tok_buf {e : Env} {buf : Option (List Char)} {c : Char} {more : List Char} {r : Kind × Option (List Char) × List Char}
    (h : tok e buf c more = some r) (dt : Bool) (s : St) (hs : s.buf = buf) : (applyKind dt s r.1).buf = r.2.1 := by
  simp only [tok] at h
  split at h
  · split at h
    · cases h; exact hs
    · split at h
      · cases h
      · next x hx =>
        split at h
        · cases h
        · next t ht =>
          cases h
          simp only [applyKind, emit_buf, applyEsc]
  · split at h
    · cases h; simp only [applyKind, put_buf]; exact hs
    · split at h
      · cases h; simp only [applyKind, put_buf]; exact hs
      · cases h; simp only [applyKind, emit_buf]; exact hs

theorem loop_toks (e : Env) (delim : Option Char) : ∀ (n : Nat) (s : St) (cp : List Char),
    loop e delim n s cp = (toks e n s.buf cp).map (·.foldl (stepTok delim) s)
  | 0, s, [] => rfl
  | n + 1, s, [] => rfl
  | 0, s, _ :: _ => rfl
  | n + 1, s, c :: more => by
    rw [loop, toks, body_tok, look_buf]
    cases ht : tok e s.buf c more with
    | none => rfl
    | some r =>
      obtain ⟨k, b, cp⟩ := r
      simp only [Option.map_some]
      rw [loop_toks e delim n, tok_buf ht _ _ (look_buf delim s c more)]
      cases toks e n b cp with
      | none => rfl
      | some l => simp [stepTok]

/-- Each piece is taken from a non-empty rest. -/
theorem escape_rest {e : Env} {buf : Option (List Char)} {c : Char} {rest : List Char} {x : Esc}
    (h : escape e buf c rest = some x) : x.rest <:+ rest := by
  have hs : ∀ t x, some (simple t rest) = some x → x.rest <:+ rest := by
    intro t x h; cases h; exact List.suffix_refl _
  have hD : ∀ x, escD e rest = some x → x.rest <:+ rest := by
    intro x h
    cases rest with
    | nil => cases h
    | cons b r =>
      simp only [escD] at h
      split at h
      · cases h
        exact ((List.drop_suffix _ _).trans (List.dropWhile_suffix _)).trans (List.suffix_cons _ _)
      · cases h; exact List.suffix_refl _
  have hO : (escOct c rest).rest <:+ rest := by
    unfold escOct
    split
    · split
      · exact (List.suffix_cons _ _).trans (List.suffix_cons _ _)
      · exact List.suffix_refl _
    · exact List.suffix_refl _
  unfold escape at h
  split at h
  · exact hs _ _ h
  · split at h
    all_goals first
      | exact hs _ _ h
      | exact hD _ h
      | (cases h; exact List.suffix_refl _)
      | skip
    · split at h
      · exact hs _ _ h
      · cases h; exact List.suffix_refl _
    · split at h
      · cases h; exact hO
      · exact hs _ _ h

theorem tok_rest {e : Env} {buf : Option (List Char)} {c : Char} {more : List Char} {r : Kind × Option (List Char) × List Char}
    (h : tok e buf c more = some r) : r.2.2 <:+ more := by
  simp only [tok] at h
  split at h
  · split at h
    · cases h; exact List.suffix_refl _
    · split at h
      · cases h
      · next x hx =>
        split at h
        · cases h
        · cases h; exact (escape_rest hx).trans (List.suffix_cons _ _)
  · split at h
    · cases h; exact List.suffix_refl _
    · split at h
      · cases h; exact List.drop_suffix _ _
      · cases h; exact List.suffix_refl _

/-- More rounds than needed change nothing. -/
theorem toks_more (e : Env) : ∀ (n m : Nat) (buf : Option (List Char)) (cp : List Char), cp.length ≤ n → n ≤ m →
    toks e m buf cp = toks e n buf cp
  | 0, m, buf, [], _, _ => by cases m <;> rfl
  | n + 1, m, buf, [], _, _ => by cases m <;> rfl
  | n + 1, m + 1, buf, c :: more, h, hm => by
    rw [toks, toks]
    cases ht : tok e buf c more with
    | none => rfl
    | some r =>
      obtain ⟨k, b, cp⟩ := r
      simp only
      rw [toks_more e n m b cp (by have := (tok_rest ht).length_le; simp at h; simp at this; omega) (by omega)]

/-- With a terminal the buffer does not matter. -/
theorem escape_buf {e : Env} (hl : e.tty ≠ none) (b b' : Option (List Char)) (c : Char) (rest : List Char) :
    escape e b c rest = escape e b' c rest := by
  unfold escape
  cases ht : e.tty with
  | none => exact absurd ht hl
  | some t => rfl

theorem toks_buf {e : Env} (hl : e.tty ≠ none) : ∀ (n : Nat) (b b' : Option (List Char)) (cp : List Char),
    toks e n b cp = toks e n b' cp
  | 0, b, b', [] => rfl
  | n + 1, b, b', [] => rfl
  | 0, b, b', _ :: _ => rfl
  | n + 1, b, b', c :: more => by
    have : tok e b c more = (tok e b' c more).map fun r => (r.1, (if c = '\\' ∧ more ≠ [] then r.2.1 else b), r.2.2) := by
      simp only [tok]
      split
      · cases more with
        | nil => simp
        | cons d rest =>
          simp only
          rw [escape_buf hl b b']
          cases escape e b' d rest with
          | none => rfl
          | some x =>
            simp only
            cases hx : x.buf with
            | none => rfl
            | some t => simp [*]
      · next h1 =>
        split
        · simp [h1]
        · split <;> simp [h1]
    rw [toks, toks, this]
    cases tok e b' c more with
    | none => rfl
    | some r =>
      obtain ⟨k, b2, cp⟩ := r
      simp only [Option.map_some]
      rw [toks_buf hl n _ b2 cp]

/-- All texts one after the other. -/
def texts (l : List Tok) : List Char := l.flatMap (·.kind.text)

theorem texts_cons (t : Tok) (l : List Tok) : texts (t :: l) = t.kind.text ++ texts l := rfl

/-- The escape does not stop the counting. -/
def Counts (l : List Tok) : Prop := ∀ t ∈ l, ∀ x s, t.kind = .esc x s → x.count ≠ some false

end Ksh.Prompt
