import Verif.Findcom.Props
import Verif.Lex.Model

/-!
# `whence`, `type` and `command -v` say what would be run (C104)
-/

namespace Ksh.Findcom

variable {W : Type}

/-! ## Model -/

/-- What c_whence looks at besides findcom: the reserved words, the aliases that are set (text and
`EXPORT`), the flags `EXPORT` and `TRACE` of functions, and `EXPORT` of tracked aliases. -/
structure Names (W : Type) where
  st : St W
  kw : Name → Bool
  al : Name → Option (Name × Bool)
  fexp : Name → Bool
  ftrace : Name → Bool
  texp : Name → Bool

/-- The result of the lookup in c_whence: the type and what is printed of it. -/
inductive Thing
  | keyword
  | alias (text : Name) (exported : Bool)
  | func (isSet exported traced : Bool) (file : Option Name)
  | builtin (spec : Bool)
  | exec (path : Option Name) (tracked exported : Bool)
  /-- findcom returns NULL, which c_whence would dereference -/
  | null
  deriving DecidableEq

/-- `tp->type == CTALIAS` for a program (exec.c:883-905): there was a tracked alias or one is made -/
def tracked (S : St W) (name : Name) (fl : Flags) : Bool :=
  !('/' ∈ name) && !fl.defPath && ((S.ta name).isSome || S.track)

/-- c_whence's view of what findcom returned.  A function that is found in FPATH only is `temp`,
without flags (exec.c:926-930). -/
def thing (N : Names W) (id : Name) (fl : Flags) : Found → Thing
  | .null => .null
  | .builtin b => .builtin b.spec
  | .func s p _ =>
    if (N.st.funs id).isSome then .func s (N.fexp id) (N.ftrace id) p else .func s false false p
  | .exec p _ => .exec p (tracked N.st id fl) (N.texp id)

/-- `iam_whence`, `pflag`, `vflag` after c_ksh.c:434-462 -/
structure WOpt where
  iam : Bool
  p : Bool
  v : Bool
  deriving DecidableEq

/-- c_ksh.c:450-462 -/
def wflags (o : WOpt) : Flags :=
  if o.iam then ⟨!o.p, !o.p, true, false⟩ else ⟨true, true, true, o.p⟩

/-- c_ksh.c:465-474 -/
def lookup (N : Names W) (o : WOpt) (id : Name) : Thing × Names W :=
  if !(o.iam && o.p) && N.kw id then (.keyword, N)
  else
    match (if !(o.iam && o.p) then N.al id else none) with
    | some (t, x) => (.alias t x, N)
    | none =>
      let f := findcom N.st id (wflags o)
      (thing N id (wflags o) f.1, { N with st := f.2 })

/-- The texts of c_ksh.c:478-527 after the name -/
def tail (o : WOpt) (id : Name) : Thing → Name
  | .keyword => if o.v then " is a reserved word".toList else []
  | .alias t x =>
    (if o.v then " is an ".toList ++ (if x then "exported ".toList else []) ++ "alias for ".toList else []) ++
    (if !o.iam && !o.v then "alias ".toList ++ id ++ ['='] else []) ++ Lex.printQuoted t
  | .func s x tr p =>
    if o.v then
      " is a".toList ++ (if x then "n exported".toList else []) ++ (if tr then " traced".toList else []) ++
      (if s then [] else " undefined".toList ++ (match p with | some p => " (autoload from ".toList ++ p ++ [')'] | none => [])) ++
      " function".toList
    else []
  | .builtin sp => if o.v then " is a".toList ++ (if sp then " special".toList else []) ++ " shell builtin".toList else []
  | .exec (some p) t x =>
    (if o.v then " is ".toList ++ (if t then "a tracked ".toList ++ (if x then "exported ".toList else []) ++ "alias for ".toList else []) else []) ++ p
  | .exec none _ _ => if o.v then " not found".toList else []
  | .null => []

/-- `tp->type != CALIAS && tp->type != CEXEC && tp->type != CTALIAS` -/
def named : Thing → Bool
  | .alias .. | .exec .. => false
  | _ => true

def missing : Thing → Bool
  | .exec none _ _ => true
  | _ => false

/-- The loop of c_whence (c_ksh.c:464-536): the output, the status and the tables after it; `none` is
the use of a NULL pointer. -/
def whence (o : WOpt) : Names W → Bool → List Name → Option (Name × Bool × Names W)
  | N, ret, [] => some ([], ret, N)
  | N, ret, id :: ids =>
    if o.v || !ret then
      let l := lookup N o id
      if l.1 = .null then none
      else
        let ret := ret || missing l.1
        let here := (if o.v || named l.1 then id else []) ++ tail o id l.1 ++ (if o.v || !ret then ['\n'] else [])
        (whence o l.2 ret ids).map fun r => (here ++ r.1, r.2)
    else some ([], ret, N)

/-! ## Specification -/

/-- Spec: the kind, the file and the program of `t` are those of `w` -/
def Describes : What → Thing → Prop
  | .builtin b, t => t = .builtin b.spec
  | .function, t => ∃ x tr p, t = .func true x tr p
  | .autoload p, t => ∃ x tr, t = .func false x tr p
  | .program p, t => ∃ k x, t = .exec (some p) k x
  | .notFound, t => ∃ k x, t = .exec none k x
  | .notSearched, _ => False

/-- Spec: what `id` means to the shell: a reserved word, an alias, or what lookup finds. -/
inductive Means (N : Names W) (o : WOpt) (id : Name) : Thing → Prop
  | keyword : ¬ (o.iam = true ∧ o.p = true) → N.kw id = true → Means N o id .keyword
  | alias {t x} : ¬ (o.iam = true ∧ o.p = true) → N.kw id = false → N.al id = some (t, x) → Means N o id (.alias t x)
  | found {w t} : (o.iam = true ∧ o.p = true ∨ (N.kw id = false ∧ N.al id = none)) → Resolves N.st (wflags o) id w →
      Describes w t → Means N o id t
/-- Spec: the line for one operand -/
def lineFor (o : WOpt) (id : Name) (t : Thing) : Name :=
  if missing t && !o.v then [] else (if o.v || named t then id else []) ++ tail o id t ++ ['\n']

/-! ## Proofs -/

theorem describes_found (N : Names W) (id : Name) (fl : Flags) (f : Found) (h : f ≠ .null) :
    Describes f.what (thing N id fl f) := by
  cases f with
  | null => exact absurd rfl h
  | builtin b => exact rfl
  | func s p e =>
    simp only [thing]
    cases s <;> simp only [Found.what, Describes] <;> split <;> first | exact ⟨_, _, rfl⟩ | exact ⟨_, _, _, rfl⟩
  | exec p e => cases p <;> exact ⟨_, _, rfl⟩

theorem wflags_path (o : WOpt) : (wflags o).path = true := by
  simp only [wflags]; split <;> rfl

theorem findcom_not_null (S : St W) (hF : Fresh S) (name : Name) (fl : Flags) (hp : fl.path = true) : (findcom S name fl).1 ≠ .null := by
  intro h
  have := lookup_order S name fl (hF.weak name)
  rw [h] at this
  cases this with
  | notSearched _ _ h => rw [hp] at h; cases h

theorem lookup_means (N : Names W) (hF : Fresh N.st) (o : WOpt) (id : Name) :
    Means N o id (lookup N o id).1 ∧ (lookup N o id).1 ≠ .null ∧ Fresh (lookup N o id).2.st := by
  have nn := findcom_not_null N.st hF id (wflags o) (wflags_path o)
  have tn : thing N id (wflags o) (findcom N.st id (wflags o)).1 ≠ .null := by
    cases hf : (findcom N.st id (wflags o)).1 with
    | null => exact absurd hf nn
    | builtin b => simp [thing]
    | func s p e => simp only [thing]; split <;> simp
    | exec p e => simp [thing]
  have found : (o.iam = true ∧ o.p = true ∨ (N.kw id = false ∧ N.al id = none)) →
      Means N o id (thing N id (wflags o) (findcom N.st id (wflags o)).1) :=
    fun h => .found h (lookup_order N.st id (wflags o) (hF.weak id)) (describes_found N id _ _ nn)
  simp only [lookup]
  by_cases hip : o.iam = true ∧ o.p = true
  · simp only [hip.1, hip.2, Bool.and_self, Bool.not_true, Bool.false_and, Bool.false_eq_true, if_false]
    exact ⟨found (Or.inl hip), tn, hF.find _ _⟩
  · have hb : (!(o.iam && o.p)) = true := by
      cases h1 : o.iam <;> cases h2 : o.p <;> simp_all
    simp only [hb, Bool.true_and, if_true]
    cases hk : N.kw id with
    | true => exact ⟨.keyword hip hk, by simp, hF⟩
    | false =>
      simp only [Bool.false_eq_true, if_false]
      cases ha : N.al id with
      | some v => exact ⟨.alias hip hk ha, by simp, hF⟩
      | none => exact ⟨found (Or.inr ⟨hk, ha⟩), tn, hF.find _ _⟩

/-- What a name means does not depend on the tracked aliases. -/
theorem resolves_ta {S : St W} {t : Name → Option (Option Name)} {fl : Flags} {id : Name} {w : What}
    (h : Resolves { S with ta := t } fl id w) : Resolves S fl id w := by
  cases h with
  | slash a1 a2 a3 => exact .slash a1 a2 a3
  | slashNot a1 a2 a3 => exact .slashNot a1 a2 a3
  | special b a1 a2 a3 a4 => exact .special b a1 a2 a3 a4
  | function a1 a2 a3 a4 => exact .function a1 a2 a3 a4
  | announced ds r a1 a2 a3 a4 a5 a6 => exact .announced ds r a1 a2 a3 a4 a5 a6
  | builtin b a1 a2 a3 a4 a5 => exact .builtin b a1 a2 a3 a4 a5
  | program ds p a1 a2 a3 a4 a5 a6 => exact .program ds p a1 a2 a3 a4 a5 a6
  | fallback ds fs p a1 a2 a3 a4 a5 a6 a7 a8 a9 a10 => exact .fallback ds fs p a1 a2 a3 a4 a5 a6 a7 a8 a9 a10
  | notFound ds fs a1 a2 a3 a4 a5 a6 a7 => exact .notFound ds fs a1 a2 a3 a4 a5 a6 a7
  | notSearched a1 a2 a3 => exact .notSearched a1 a2 a3

/-- the tables are the same up to tracked aliases -/
def Same (N M : Names W) : Prop := ∃ t, M = { N with st := { N.st with ta := t } }

theorem Same.means {N M : Names W} (h : Same N M) {o : WOpt} {id : Name} {t : Thing} (m : Means M o id t) : Means N o id t := by
  obtain ⟨ta, rfl⟩ := h
  cases m with
  | keyword a b => exact .keyword a b
  | alias a b c => exact .alias a b c
  | found a b c => exact .found a (resolves_ta b) c

theorem lookup_same (N : Names W) (o : WOpt) (id : Name) : Same N (lookup N o id).2 := by
  simp only [lookup]
  split
  · exact ⟨N.st.ta, rfl⟩
  · split
    · exact ⟨N.st.ta, rfl⟩
    · obtain ⟨t, ht, _⟩ := findcom_state N.st id (wflags o)
      exact ⟨t, by rw [ht]⟩

theorem Same.trans {N M K : Names W} (h : Same N M) (g : Same M K) : Same N K := by
  obtain ⟨a, rfl⟩ := h
  obtain ⟨b, rfl⟩ := g
  exact ⟨b, rfl⟩

/-- **C104**: `whence`, `type` and `command -v` print a line for every operand, in order, that says
what the operand means (without `-v` they stop at the first that is not found), the status is 1
exactly if one of those is not found, and a NULL result is never used. -/
theorem whence_reports (o : WOpt) (N : Names W) (hF : Fresh N.st) (ids : List Name) :
    ∃ out ret M, whence o N false ids = some (out, ret, M) ∧
    ∃ done left ts, ids = done ++ left ∧ ts.length = done.length ∧ (∀ q ∈ done.zip ts, Means N o q.1 q.2) ∧
      out = ((done.zip ts).map fun q => lineFor o q.1 q.2).flatten ∧ ret = ts.any missing ∧
      (left ≠ [] → o.v = false ∧ ∃ t, ts.getLast? = some t ∧ missing t = true) ∧
      (o.v = false → ∀ t ∈ ts.dropLast, missing t = false) := by
  suffices H : ∀ (ids : List Name) (M : Names W) (ret : Bool), Same N M → Fresh M.st → (o.v = true ∨ ret = false) →
      ∃ out ret' K, whence o M ret ids = some (out, ret', K) ∧
      ∃ done left ts, ids = done ++ left ∧ ts.length = done.length ∧ (∀ q ∈ done.zip ts, Means N o q.1 q.2) ∧
        out = ((done.zip ts).map fun q => lineFor o q.1 q.2).flatten ∧ ret' = (ret || ts.any missing) ∧
        (left ≠ [] → o.v = false ∧ ∃ t, ts.getLast? = some t ∧ missing t = true) ∧
        (o.v = false → ∀ t ∈ ts.dropLast, missing t = false) by
    have := H ids N false ⟨N.st.ta, rfl⟩ hF (Or.inr rfl)
    simpa using this
  intro ids
  induction ids with
  | nil => intro M ret _ _ _; exact ⟨[], ret, M, rfl, [], [], [], rfl, rfl, by simp, by simp, by simp, by simp, by simp⟩
  | cons id ids ih =>
    intro M ret hs hf hr
    obtain ⟨m1, m2, m3⟩ := lookup_means M hf o id
    have hgo : (o.v || !ret) = true := by rcases hr with h | h <;> simp [h]
    simp only [whence, hgo, if_true, if_neg m2]
    have s2 := hs.trans (lookup_same M o id)
    have m1 := hs.means m1
    generalize hl : lookup M o id = l at *
    obtain ⟨t, K⟩ := l
    simp only at m1 m2 m3 s2 ⊢
    by_cases hstop : o.v = true ∨ (ret || missing t) = false
    · obtain ⟨out, ret', K', i1, done, left, ts, i2, i3, i4, i5, i6, i7, i8⟩ := ih K (ret || missing t) s2 m3 hstop
      rw [i1]
      refine ⟨_, _, _, rfl, id :: done, left, t :: ts, by rw [i2]; rfl, by simp [i3], ?_, ?_, ?_, ?_, ?_⟩
      · intro q hq
        rcases List.mem_cons.1 (by simpa using hq) with rfl | h
        · exact m1
        · exact i4 q h
      · have hnl : (o.v || !(ret || missing t)) = true := by
          rcases hstop with h | h <;> simp [h]
        have hmi : (missing t && !o.v) = false := by
          rcases hstop with h | h
          · simp [h]
          · simp at h; simp [h.2]
        simp only [List.zip_cons_cons, List.map_cons, List.flatten_cons, lineFor, hmi, hnl, if_true, Bool.false_eq_true, if_false, i5]
      · simp only [i6, List.any_cons, Bool.or_assoc]
      · intro h
        obtain ⟨j1, u, j2, j3⟩ := i7 h
        refine ⟨j1, u, ?_, j3⟩
        rw [List.getLast?_cons, j2]; rfl
      · intro hv u hu
        cases ts with
        | nil => simp at hu
        | cons x ts =>
          rw [List.dropLast_cons_cons] at hu
          rcases List.mem_cons.1 hu with rfl | hu
          · rcases hstop with h | h
            · rw [hv] at h; cases h
            · simp at h; exact h.2
          · exact i8 hv u hu
    · simp only [not_or] at hstop
      have hv : o.v = false := by simpa using hstop.1
      have hret : ret = false := by rcases hr with h | h
                                    · rw [hv] at h; cases h
                                    · exact h
      have hm : missing t = true := by
        have := hstop.2; rw [hret] at this; simpa using this
      have hw : whence o K true ids = some ([], true, K) := by
        cases ids <;> simp [whence, hv]
      rw [hret, hm]
      simp only [Bool.or_true, hw, Option.map_some]
      refine ⟨_, _, _, rfl, [id], ids, [t], rfl, rfl, ?_, ?_, ?_, ?_, ?_⟩
      · intro q hq
        simp at hq
        subst hq; exact m1
      · have hx : named t = false ∧ tail o id t = [] := by
          match t, hm with
          | .exec none _ _, _ => simp [named, tail, hv]
        simp [lineFor, hm, hv, hx.1, hx.2]
      · simp [hm]
      · intro _; exact ⟨hv, t, rfl, hm⟩
      · simp

/-- **C104**: for a name that is no reserved word and no alias, `type name` describes what the
command `name` runs. -/
theorem type_is_run (N : Names W) (hF : Fresh N.st) (w : Name) (ws : List Name) (hkw : N.kw w = false) (hal : N.al w = none)
    (hk : ∀ b, (findcom N.st w ⟨true, true, false, false⟩).1 = .builtin b → b.kind = .plain) (hr : N.st.restricted = true → '/' ∉ w)
    {o : WOpt} (ho : o.p = false) {t : Thing} (hm : Means N o w t) :
    ∃ f, (resolve N.st (w :: ws)).1 = .run f w false ∧ Describes f.what t := by
  obtain ⟨f, h1, h2⟩ := plain_command N.st hF w ws hk hr
  refine ⟨f, h1, ?_⟩
  cases hm with
  | keyword _ h => rw [hkw] at h; cases h
  | alias _ _ h => rw [hal] at h; cases h
  | found _ hres hd =>
    have e : wflags o = ⟨true, true, true, false⟩ := by simp only [wflags, ho]; split <;> rfl
    rw [e] at hres
    rw [h2.unique hres]
    exact hd

/-- `if` is reserved, `ll` an alias and `/b/ls` a program. -/
def demoN : Names Nat := ⟨demo, fun n => n == ['i', 'f'], fun n => if n = ['l', 'l'] then some (['l', 's', ' ', '-', 'l'], false) else none, fun _ => false, fun _ => false, fun _ => false⟩

example : (whence ⟨true, false, true⟩ demoN false [['i', 'f'], ['l', 'l'], ['n', 'o'], ['l', 's']]).map (fun r => (String.ofList r.1, r.2.1)) =
    some ("if is a reserved word\nll is an alias for 'ls -l'\nno not found\nls is a tracked alias for /b/ls\n", true) := by decide +kernel

/-- Without `-v` the operands after one that is not found are passed over. -/
example : (whence ⟨true, false, false⟩ demoN false [['i', 'f'], ['n', 'o'], ['l', 's']]).map (fun r => (String.ofList r.1, r.2.1)) =
    some ("if\n", true) := by decide +kernel

example : (whence ⟨false, false, false⟩ demoN false [['l', 'l'], ['l', 's']]).map (fun r => (String.ofList r.1, r.2.1)) =
    some ("alias ll='ls -l'\n/b/ls\n", false) := by decide +kernel

example : (whence ⟨true, true, true⟩ demoN false [['l', 'l']]).map (fun r => (String.ofList r.1, r.2.1)) =
    some ("ll not found\n", true) := by decide +kernel

end Ksh.Findcom
