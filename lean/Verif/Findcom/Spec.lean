import Verif.Findcom.Model

/-! # What a command name stands for, read off the POSIX text -/

namespace Ksh.Findcom

variable {W : Type}

/-- The directories of a path list. -/
def Dirs (path : List Char) (ds : List (List Char)) : Prop := ds ≠ [] ∧ (∀ d ∈ ds, ':' ∉ d) ∧ path = [':'].intercalate ds

/-- A regular file that may be executed. -/
def Runs (fs : Name → Option Stat) (p : Name) : Prop := ∃ s, fs p = some s ∧ s.reg = true ∧ s.anyX = true ∧ s.accX = true

/-- A file that may be read. -/
def Reads (fs : Name → Option Stat) (p : Name) : Prop := ∃ s, fs p = some s ∧ s.accR = true

/-- The file of that name in a directory; an empty directory is the current one. -/
def place (d name : Name) : Name := match d with | [] => name | _ => d ++ ['/'] ++ name

/-- `p` is the first file that suits. -/
inductive First (ok : Name → Prop) (name : Name) : List (List Char) → Option Name → Prop
  | none : First ok name [] none
  | here {d ds} : ok (place d name) → First ok name (d :: ds) (some (place d name))
  | later {d ds r} : ¬ ok (place d name) → First ok name ds r → First ok name (d :: ds) r

inductive What
  | builtin (b : Bi)
  | function
  | autoload (file : Option Name)
  | program (p : Name)
  | notFound
  | notSearched
  deriving DecidableEq

def Found.what : Found → What
  | .null => .notSearched
  | .builtin b => .builtin b
  | .func true _ _ => .function
  | .func false p _ => .autoload p
  | .exec (some p) _ => .program p
  | .exec none _ => .notFound

/-- The order of lookup.  `autoload`: the function is only announced, or the file that defines it
is found in FPATH after everything else failed (an extension). -/
inductive Resolves (S : St W) (fl : Flags) (name : Name) : What → Prop
  | slash : '/' ∈ name → fl.path = true → Runs (S.fs S.cwd) name → Resolves S fl name (.program name)
  | slashNot : '/' ∈ name → fl.path = true → ¬ Runs (S.fs S.cwd) name → Resolves S fl name .notFound
  | special (b) : '/' ∉ name → fl.bi = true → S.bi name = some b → b.spec = true → Resolves S fl name (.builtin b)
  | function : '/' ∉ name → (∀ b, S.bi name = some b → b.spec = true → fl.bi = false) → fl.func = true → S.funs name = some true →
      Resolves S fl name .function
  | announced (ds r) : '/' ∉ name → (∀ b, S.bi name = some b → b.spec = true → fl.bi = false) → fl.func = true → S.funs name = some false →
      (S.fpath ≠ [] → Dirs S.fpath ds ∧ First (Reads (S.fs S.cwd)) name ds r) → (S.fpath = [] → r = none) → Resolves S fl name (.autoload r)
  | builtin (b) : '/' ∉ name → fl.bi = true → S.bi name = some b → b.spec = false → (fl.func = true → S.funs name = none) → Resolves S fl name (.builtin b)
  | program (ds p) : '/' ∉ name → (fl.bi = true → S.bi name = none) → (fl.func = true → S.funs name = none) → fl.path = true →
      Dirs (if fl.defPath = true then S.defPath else S.path) ds → First (Runs (S.fs S.cwd)) name ds (some p) → Resolves S fl name (.program p)
  | fallback (ds fs p) : '/' ∉ name → (fl.bi = true → S.bi name = none) → S.funs name = none → fl.path = true →
      Dirs (if fl.defPath = true then S.defPath else S.path) ds → First (Runs (S.fs S.cwd)) name ds none →
      fl.func = true → S.fpath ≠ [] → Dirs S.fpath fs → First (Reads (S.fs S.cwd)) name fs (some p) → Resolves S fl name (.autoload (some p))
  | notFound (ds fs) : '/' ∉ name → (fl.bi = true → S.bi name = none) → (fl.func = true → S.funs name = none) → fl.path = true →
      Dirs (if fl.defPath = true then S.defPath else S.path) ds → First (Runs (S.fs S.cwd)) name ds none →
      (fl.func = true → S.fpath ≠ [] → Dirs S.fpath fs ∧ First (Reads (S.fs S.cwd)) name fs none) → Resolves S fl name .notFound
  | notSearched : ('/' ∉ name → fl.bi = true → S.bi name = none) → ('/' ∉ name → fl.func = true → S.funs name = none) → fl.path = false →
      Resolves S fl name .notSearched

/-! ## The reading determines the answer -/

theorem First.unique {ok : Name → Prop} {name} : ∀ {ds r r'}, First ok name ds r → First ok name ds r' → r = r'
  | _, _, _, .none, h => by cases h; rfl
  | _, _, _, .here h1, h => by cases h with | here _ => rfl | later h2 _ => exact absurd h1 h2
  | _, _, _, .later h1 h2, h => by cases h with | here h3 => exact absurd h3 h1 | later _ h3 => exact h2.unique h3

theorem inter_cons (d : List Char) (ds : List (List Char)) (h : ds ≠ []) : [':'].intercalate (d :: ds) = d ++ ':' :: [':'].intercalate ds := by
  cases ds with
  | nil => exact absurd rfl h
  | cons e es => simp [List.intercalate, List.intersperse]

theorem cut_no (d : List Char) (h : ':' ∉ d) : cut d = (d, none) := by
  induction d with
  | nil => rfl
  | cons c s ih =>
    simp only [List.mem_cons, not_or] at h
    rw [cut, if_neg (Ne.symm h.1), ih h.2]

theorem cut_colon (d s : List Char) (h : ':' ∉ d) : cut (d ++ ':' :: s) = (d, some s) := by
  induction d with
  | nil => simp [cut]
  | cons c d ih =>
    simp only [List.mem_cons, not_or] at h
    rw [List.cons_append, cut, if_neg (Ne.symm h.1), ih h.2]

theorem Dirs.unique : ∀ {ds es : List (List Char)} {path}, Dirs path ds → Dirs path es → ds = es
  | [], _, _, h, _ => absurd rfl h.1
  | _, [], _, _, h => absurd rfl h.1
  | d :: ds, e :: es, path, ⟨_, h2, h3⟩, ⟨_, k2, k3⟩ => by
    have hd := h2 d (by simp)
    have he := k2 e (by simp)
    by_cases hds : ds = [] <;> by_cases hes : es = []
    · subst hds hes; simp [List.intercalate, List.intersperse] at h3 k3; rw [← h3, ← k3]
    · subst hds
      rw [inter_cons e es hes] at k3
      have : path = d := by simpa [List.intercalate, List.intersperse] using h3
      have c := cut_no d hd
      rw [← this, k3, cut_colon e _ he] at c; simp at c
    · subst hes
      rw [inter_cons d ds hds] at h3
      have : path = e := by simpa [List.intercalate, List.intersperse] using k3
      have c := cut_no e he
      rw [← this, h3, cut_colon d _ hd] at c; simp at c
    · rw [inter_cons d ds hds] at h3
      rw [inter_cons e es hes] at k3
      have c1 := cut_colon d ([':'].intercalate ds) hd
      have c2 := cut_colon e ([':'].intercalate es) he
      rw [← h3] at c1; rw [← k3, c1] at c2
      simp only [Prod.mk.injEq, Option.some.injEq] at c2
      have := Dirs.unique (ds := ds) (es := es) ⟨hds, fun x hx => h2 x (by simp [hx]), rfl⟩ ⟨hes, fun x hx => k2 x (by simp [hx]), c2.2⟩
      rw [c2.1, this]

theorem dirs_exist (path : List Char) : ∃ ds, Dirs path ds := by
  induction path with
  | nil => exact ⟨[[]], by simp, by simp, by simp [List.intercalate, List.intersperse]⟩
  | cons c s ih =>
    obtain ⟨ds, h1, h2, h3⟩ := ih
    by_cases hc : c = ':'
    · refine ⟨[] :: ds, by simp, ?_, ?_⟩
      · intro d hd; rcases List.mem_cons.1 hd with rfl | hd
        · simp
        · exact h2 d hd
      · rw [inter_cons _ _ h1, hc, h3]; rfl
    · cases ds with
      | nil => exact absurd rfl h1
      | cons d ds =>
        refine ⟨(c :: d) :: ds, by simp, ?_, ?_⟩
        · intro e he; rcases List.mem_cons.1 he with rfl | he
          · have := h2 d (by simp); simp [this, Ne.symm hc]
          · exact h2 e (by simp [he])
        · rw [h3]
          by_cases hds : ds = []
          · subst hds; simp [List.intercalate, List.intersperse]
          · rw [inter_cons _ _ hds, inter_cons _ _ hds]; rfl

end Ksh.Findcom
