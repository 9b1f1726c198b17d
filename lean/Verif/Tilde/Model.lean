import Verif.Ifs.Model
/-!
# Tilde expansion

Model of tilde_ok and saw_eq in expand (eval.c:195-198, 234, 241, 260, 312, 612-614, 635-636, 670-703), maybe_expand_tilde
(eval.c:1179-1208), tilde and homedir (eval.c:1216-1259), on top of the model of field splitting in `Verif/Ifs`.

Left out: the forms of `${..}` with a word (DOTEMP_), `$*` and `$@`, the marking of characters for globbing (a directory is copied
with its magic characters protected; here a word is the text without marks).  tilde_ok is an int that is shifted left for each
character; here it does not overflow.
-/

namespace Ksh.Tilde
open Ksh.Ifs (S Env)

/-- A compiled word: the pieces of `Ifs` without `$*` and `$@`. -/
inductive P where
  | char (c : Char)
  | qchar (c : Char)
  | oquote
  | cquote
  | sub (v : List Char)
  | com (v : List Char)
deriving DecidableEq

def P.toIfs : P → Ifs.Piece
  | .char c => .char c
  | .qchar c => .qchar c
  | .oquote => .oquote
  | .cquote => .cquote
  | .sub v => .sub v
  | .com v => .com v

/-- The variables HOME, PWD and OLDPWD (none if unset), the cache homedirs, and the password file. -/
structure Dirs where
  home : Option (List Char)
  pwd : Option (List Char)
  oldpwd : Option (List Char)
  cache : List (List Char × List Char)
  passwd : List Char → Option (List Char)

/-- homedir (eval.c:1242-1259): the directory, and the cache afterwards. -/
def homedir (d : Dirs) (name : List Char) : Option (List Char) × Dirs :=
  match d.cache.lookup name with
  | some dir => (some dir, d)
  | none => match d.passwd name with
    | none => (none, d)
    | some dir => (some dir, { d with cache := (name, dir) :: d.cache })

/-- tilde (eval.c:1216-1233). -/
def tilde (d : Dirs) (cp : List Char) : Option (List Char) × Dirs :=
  if cp = [] then (d.home, d)
  else if cp = ['+'] then (d.pwd, d)
  else if cp = ['-'] then (d.oldpwd, d)
  else homedir d cp

/-- The loop of maybe_expand_tilde (eval.c:1188-1194): the name, and what follows it. -/
def name (asn : Bool) : List P → List Char × List P
  | .char c :: r =>
    if c = '/' ∨ (asn = true ∧ c = ':') then ([], .char c :: r) else (c :: (name asn r).1, (name asn r).2)
  | w => ([], w)

/-- The test on what follows (eval.c:1196). -/
def endOk : List P → Bool
  | [] => true
  | .char _ :: _ => true
  | _ => false

theorem name_length (asn : Bool) : ∀ w, (name asn w).2.length ≤ w.length
  | [] => by simp [name]
  | .char c :: r => by
    rw [name]
    split
    · simp
    · have := name_length asn r; simp; omega
  | .qchar _ :: r => by simp [name]
  | .oquote :: r => by simp [name]
  | .cquote :: r => by simp [name]
  | .sub _ :: r => by simp [name]
  | .com _ :: r => by simp [name]

/-- The state of expand: that of `Ifs`, tilde_ok and saw_eq. -/
structure T where
  s : S
  ok : Nat
  eq : Bool
deriving DecidableEq

/-- The flags of expand. -/
structure F where
  /-- DOASNTILDE; otherwise DOTILDE -/
  asn : Bool
  /-- DOBLANK -/
  blank : Bool

/-- A character that is not a tilde to be expanded (eval.c:580-733).  `split` as in `Ifs`; `q` says that quote is not 0. -/
def put (E : Env) (f : F) (split q : Bool) (t : T) (c : Char) : T :=
  let s' := Ifs.put E split t.s c
  if split && E.ifs c then
    if s'.out.length = t.s.out.length then { t with s := s' } else ⟨s', 1, false⟩
  else if q then { t with s := s', ok := t.ok * 2 }
  else if c = '=' ∧ t.eq = false then ⟨s', 1, true⟩
  else if c = ':' ∧ f.asn = true then { t with s := s', ok := 1 }
  else { t with s := s', ok := t.ok * 2 }

/-- The pieces other than an unquoted `~` (eval.c:205-395 for these). -/
def piece (E : Env) (f : F) (t : T) : P → T
  | .char c => put E f false t.s.quote t c
  | .qchar c => put E f false true t c
  | .oquote => { t with s := Ifs.piece E f.blank t.s .oquote, ok := 0 }
  | .cquote => { t with s := Ifs.piece E f.blank t.s .cquote }
  | .sub v =>
    let s := if t.s.word = .quote then { t.s with word := .word } else t.s
    let t := v.foldl (put E f (!s.quote && f.blank) s.quote) { t with s := { s with fresh := true }, ok := 0 }
    { t with s := { t.s with fresh := false } }
  | .com v => v.foldl (put E f (!t.s.quote && f.blank) t.s.quote) { t with ok := 0 }

/-- What becomes of the state when a tilde is replaced (eval.c:697-701, 1199-1207). -/
def replaced (t : T) (dir : List Char) : T :=
  { t with s := { t.s with cur := t.s.cur ++ dir, word := if dir = [] then t.s.word else .word }, ok := t.ok * 2 }

/-- The loop of expand; `dir` gives the directory for a name.  Each round takes a piece, so the length is a sufficient bound. -/
def loop (E : Env) (f : F) (dir : List Char → Option (List Char)) : Nat → T → List P → T
  | 0, t, _ => t
  | _ + 1, t, [] => t
  | n + 1, t, p :: r =>
    if p = .char '~' ∧ t.s.quote = false ∧ t.ok % 2 = 1 ∧ endOk (name f.asn r).2 = true then
      match dir (name f.asn r).1 with
      | some d => loop E f dir n (replaced t d) (name f.asn r).2
      | none => loop E f dir n (piece E f t p) r
    else loop E f dir n (piece E f t p) r

/-- expand (eval.c:150-745). -/
def expand (E : Env) (f : F) (dir : List Char → Option (List Char)) (w : List P) : List (List Char) :=
  Ifs.finish (loop E f dir w.length ⟨Ifs.init f.blank, 1, false⟩ w).s

end Ksh.Tilde
