import Verif.Findcom.Spec

/-!
# C35: the order of command lookup

`lookup_order` says that every lookup answers what the reading `Resolves` says, whatever is
defined, provided the tracked alias of the name, if there is one and it still can be executed, is not stale.
`lookup_order_partial` says that this is so after every history of assignments to PATH, changes of
directory, lookups and `hash` commands, if PATH has only absolute directories and the file system
does not change.  Without these conditions the property is false: `stale_after_cd`,
`stale_after_change`.
-/

namespace Ksh.Findcom

variable {W : Type}

def okFor (fs : Name → Option Stat) : Mode → Name → Prop
  | .x => Runs fs
  | .r => Reads fs

theorem access_ok (fs : Name → Option Stat) (p m) : searchAccess fs p m = none ↔ okFor fs m p := by
  unfold searchAccess
  cases h : fs p with
  | none => cases m <;> simp [okFor, Runs, Reads, h]
  | some s => cases m <;> rcases s with ⟨_ | _, _, _ | _, _ | _, _ | _⟩ <;> simp [okFor, Runs, Reads, h]

theorem place_eq (d name : Name) : (if d = [] then name else d ++ '/' :: name) = place d name := by
  cases d <;> simp [place]

/-- `search` takes the first file that suits, from left to right. -/
theorem search_first (fs : Name → Option Stat) (name m) : ∀ (ds : List (List Char)) (path) (err), Dirs path ds →
    First (okFor fs m) name ds (searchList fs name m path err).1
  | [], _, _, h => absurd rfl h.1
  | d :: ds, path, err, ⟨_, h2, h3⟩ => by
    have hd := h2 d (by simp)
    rw [searchList]
    have hc : (cut path).1 = d ∧ (cut path).2 = if ds = [] then none else some ([':'].intercalate ds) := by
      by_cases hds : ds = []
      · subst hds
        have : path = d := by simpa [List.intercalate, List.intersperse] using h3
        rw [this, cut_no d hd]; simp
      · rw [h3, inter_cons d ds hds, cut_colon d _ hd]; simp [hds]
    simp only [hc.1, place_eq]
    cases ha : searchAccess fs (place d name) m with
    | none => exact .here ((access_ok ..).1 ha)
    | some e =>
      simp only
      refine .later (fun hk => by rw [(access_ok ..).2 hk] at ha; cases ha) ?_
      split
      · rename_i rest hr
        rw [hc.2] at hr
        by_cases hds : ds = []
        · simp [hds] at hr
        · rw [if_neg hds] at hr
          exact search_first fs name m ds rest _ ⟨hds, fun x hx => h2 x (by simp [hx]), (Option.some.inj hr).symm⟩
      · rename_i hr
        rw [hc.2] at hr
        by_cases hds : ds = []
        · subst hds; exact .none
        · simp [hds] at hr

/-- The tracked alias of a name leads where a search leads. -/
def Fresh (S : St W) : Prop := ∀ n p, '/' ∉ n → S.ta n = some (some p) → (search (S.fs S.cwd) n S.path .x).1 = some p

theorem Fresh.weak {S : St W} (h : Fresh S) (name : Name) : ∀ p s, '/' ∉ name → S.ta name = some (some p) → S.fs S.cwd p = some s → s.accX = true →
    (search (S.fs S.cwd) name S.path .x).1 = some p := fun p _ h1 h2 _ _ => h name p h1 h2

theorem search_runs {fs : Name → Option Stat} {n path p} (hn : '/' ∉ n) (h : (search fs n path .x).1 = some p) : Runs fs p := by
  rw [search, if_neg hn] at h
  obtain ⟨ds, hd⟩ := dirs_exist path
  have := search_first fs n .x ds path none hd
  rw [h] at this
  clear hd h
  induction ds with
  | nil => cases this
  | cons d ds ih =>
    cases this with
    | here h => exact h
    | later _ h => exact ih h

theorem pathSearch_resolves (S : St W) (name fl) (ins func ht : Bool) (hn : '/' ∉ name) (hb : fl.bi = true → S.bi name = none)
    (hf : fl.func = true → S.funs name = none) (hp : fl.path = true) (hfunc : func = fl.func) :
    Resolves S fl name (pathSearch S name fl ins func ht).1.what := by
  subst hfunc
  obtain ⟨ds, hd⟩ := dirs_exist (if fl.defPath = true then S.defPath else S.path)
  obtain ⟨es, he⟩ := dirs_exist S.fpath
  have h1 := search_first (S.fs S.cwd) name .x ds _ none hd
  have h2 := search_first (S.fs S.cwd) name .r es _ none he
  simp only [pathSearch]
  have e1 : ∀ path m, search S.here name path m = searchList (S.fs S.cwd) name m path none := by
    intro path m; rw [search, if_neg hn]; rfl
  rw [e1, e1]
  rcases e : searchList (S.fs S.cwd) name .x (if fl.defPath = true then S.defPath else S.path) none with ⟨r, er⟩
  rw [e] at h1
  cases r with
  | some p => exact .program ds p hn hb hf hp hd h1
  | none =>
    simp only
    split
    · rename_i hc
      rcases e' : searchList (S.fs S.cwd) name .r S.fpath none with ⟨r2, er2⟩
      rw [e'] at h2
      cases r2 with
      | some p => exact .fallback ds es p hn hb (hf hc.1) hp hd h1 hc.1 hc.2 he h2
      | none => exact .notFound ds es hn hb hf hp hd h1 (fun _ _ => ⟨he, h2⟩)
    · rename_i hc
      refine .notFound ds es hn hb hf hp hd h1 (fun h3 h4 => absurd ⟨h3, h4⟩ hc)

theorem pathSearch_ta (S : St W) (v) (name fl) (ins func : Bool) :
    (pathSearch { S with ta := setTa S.ta name v } name fl ins func true).1 = (pathSearch S name fl ins func true).1 := by
  simp only [pathSearch, St.here]
  split
  · rfl
  · split
    · split <;> rfl
    · rfl

/-- **C35.** Every name, every set of definitions, every PATH and file system: a special builtin,
then a function, then another builtin, then the first executable regular file in PATH; a name with
a slash is used as it stands. -/
theorem lookup_order (S : St W) (name : Name) (fl : Flags)
    (hF : ∀ p s, '/' ∉ name → S.ta name = some (some p) → S.fs S.cwd p = some s → s.accX = true → (search (S.fs S.cwd) name S.path .x).1 = some p) : Resolves S fl name (findcom S name fl).1.what := by
  unfold findcom
  by_cases hs : '/' ∈ name
  · rw [if_pos hs]
    by_cases hp : fl.path = true
    · rw [if_pos hp]
      simp only [pathSearch, search, if_pos hs]
      cases ha : searchAccess S.here name .x with
      | none => exact .slash hs hp ((access_ok ..).1 ha)
      | some e =>
        simp only
        rw [if_neg (by simp)]
        exact .slashNot hs hp (fun hk => by rw [(access_ok S.here name .x).2 hk] at ha; cases ha)
    · rw [if_neg hp]
      exact .notSearched (fun h => absurd hs h) (fun h => absurd hs h) (by simpa using hp)
  · rw [if_neg hs]
    simp only
    -- the special builtin
    have key : ∀ (hsp : ∀ b, S.bi name = some b → b.spec = true → fl.bi = false),
        Resolves S fl name (match (if fl.func then S.funs name else none) with
          | some true => (Found.func true none none, S)
          | some false =>
            (if S.fpath = [] then .func false none none
            else match search S.here name S.fpath .r with | (p, e) => .func false p e, S)
          | none =>
            match (match (if fl.bi then S.bi name else none) with | some b => if b.reg then some b else none | none => none) with
            | some b => (.builtin b, S)
            | none =>
              match (if fl.bi then S.bi name else none) with
              | some b => (.builtin b, S)
              | none =>
                if fl.path then
                  match (if fl.defPath then none else S.ta name) with
                  | some (some p) =>
                    if accessX S p then (.exec (some p) none, S)
                    else pathSearch { S with ta := setTa S.ta name none } name fl S.track fl.func true
                  | some none => pathSearch S name fl S.track fl.func true
                  | none => pathSearch S name fl S.track fl.func false
                else (.null, S)).1.what := by
      intro hsp
      cases hfn : (if fl.func then S.funs name else none) with
      | some b =>
        have ⟨h1, h2⟩ : fl.func = true ∧ S.funs name = some b := by
          by_cases h : fl.func = true
          · rw [if_pos h] at hfn; exact ⟨h, hfn⟩
          · rw [if_neg h] at hfn; cases hfn
        cases b with
        | true => exact .function hs hsp h1 h2
        | false =>
          simp only
          by_cases hfp : S.fpath = []
          · rw [if_pos hfp]
            exact .announced [] none hs hsp h1 h2 (fun h => absurd hfp h) (fun _ => rfl)
          · rw [if_neg hfp]
            obtain ⟨es, he⟩ := dirs_exist S.fpath
            have h3 := search_first (S.fs S.cwd) name .r es _ none he
            rw [search, if_neg hs]
            exact .announced es _ hs hsp h1 h2 (fun _ => ⟨he, h3⟩) (fun h => absurd h hfp)
      | none =>
        simp only
        have hf : fl.func = true → S.funs name = none := by
          intro h; rw [if_pos h] at hfn; exact hfn
        have hbi : ∀ b, (if fl.bi then S.bi name else none) = some b → Resolves S fl name (.builtin b) := by
          intro b hb
          by_cases h : fl.bi = true
          · rw [if_pos h] at hb
            refine .builtin b hs h hb ?_ hf
            cases hsb : b.spec with
            | false => rfl
            | true => have := hsp b hb hsb; rw [h] at this; cases this
          · rw [if_neg h] at hb; cases hb
        cases hb : (if fl.bi then S.bi name else none) with
        | some b =>
          simp only
          cases hr : b.reg <;> exact hbi b hb
        | none =>
          simp only
          have hb' : fl.bi = true → S.bi name = none := by
            intro h; rw [if_pos h] at hb; exact hb
          by_cases hp : fl.path = true
          · rw [if_pos hp]
            cases ht : (if fl.defPath then none else S.ta name) with
            | none => exact pathSearch_resolves S name fl _ _ _ hs hb' hf hp rfl
            | some o =>
              have ⟨hdp, hta⟩ : fl.defPath = false ∧ S.ta name = some o := by
                cases hdp : fl.defPath
                · rw [hdp] at ht; exact ⟨rfl, ht⟩
                · rw [hdp] at ht; cases ht
              cases o with
              | none => exact pathSearch_resolves S name fl _ _ _ hs hb' hf hp rfl
              | some p =>
                simp only
                split
                · rename_i hacc
                  have hfr : (search (S.fs S.cwd) name S.path .x).1 = some p := by
                    unfold accessX at hacc
                    split at hacc
                    · rename_i s hst; exact hF p s hs hta hst hacc
                    · cases hacc
                  obtain ⟨ds, hd⟩ := dirs_exist S.path
                  have h1 := search_first (S.fs S.cwd) name .x ds _ none hd
                  rw [search, if_neg hs] at hfr
                  rw [hfr] at h1
                  exact .program ds p hs hb' hf hp (by rw [hdp]; exact hd) h1
                · rw [pathSearch_ta]
                  exact pathSearch_resolves S name fl _ _ _ hs hb' hf hp rfl
          · rw [if_neg hp]
            exact .notSearched (fun _ => hb') (fun _ => hf) (by simpa using hp)
    cases hb : (if fl.bi then S.bi name else none) with
    | none =>
      simp only
      have := key (by
        intro b h1 h2
        cases h : fl.bi with
        | false => rfl
        | true => rw [h, if_pos rfl, h1] at hb; cases hb)
      rw [hb] at this; exact this
    | some b =>
      simp only
      have ⟨h1, h2⟩ : fl.bi = true ∧ S.bi name = some b := by
        by_cases h : fl.bi = true
        · rw [if_pos h] at hb; exact ⟨h, hb⟩
        · rw [if_neg h] at hb; cases hb
      cases hsp : b.spec with
      | true => exact .special b hs h1 h2 hsp
      | false =>
        have := key (by
          intro b' h3 h4
          rw [h2] at h3; cases h3; rw [hsp] at h4; cases h4)
        rw [hb] at this; exact this

/-- The reading leaves no choice. -/
theorem Resolves.unique {S : St W} {fl name w w'} (h : Resolves S fl name w) (h' : Resolves S fl name w') : w = w' := by
  by_cases hfp : S.fpath = [] <;> cases h <;> cases h' <;> first
    | rfl
    | contradiction
    | (simp_all; done)
    | grind [Dirs.unique, First.unique]

/-! ## Tracked aliases stay fresh -/

/-- Only absolute directories. -/
def Abs (path : List Char) : Prop := ∀ ds, Dirs path ds → ∀ d ∈ ds, d.head? = some '/'

/-- Absolute names do not depend on the current directory. -/
def AbsFs (fs : W → Name → Option Stat) : Prop := ∀ w w' p, p.head? = some '/' → fs w p = fs w' p

theorem place_abs {d name : Name} (h : d.head? = some '/') : (place d name).head? = some '/' := by
  cases d with
  | nil => simp at h
  | cons c d => simpa [place] using h

theorem access_congr {fs fs' : Name → Option Stat} {p m} (h : fs p = fs' p) : searchAccess fs p m = searchAccess fs' p m := by
  simp [searchAccess, h]

theorem First.congr {ok ok' : Name → Prop} {name} : ∀ {ds r}, (∀ d ∈ ds, (ok (place d name) ↔ ok' (place d name))) → First ok name ds r → First ok' name ds r
  | _, _, _, .none => .none
  | _, _, h, .here h1 => .here ((h _ (by simp)).1 h1)
  | _, _, h, .later h1 h2 => .later (fun h3 => h1 ((h _ (by simp)).2 h3)) (h2.congr (fun d hd => h d (by simp [hd])))

theorem search_cwd {fs : W → Name → Option Stat} (hfs : AbsFs fs) {path} (hp : Abs path) (name) (hn : '/' ∉ name) (w w' : W) :
    (search (fs w) name path .x).1 = (search (fs w') name path .x).1 := by
  obtain ⟨ds, hd⟩ := dirs_exist path
  rw [search, if_neg hn, search, if_neg hn]
  have h1 := search_first (fs w) name .x ds path none hd
  have h2 := search_first (fs w') name .x ds path none hd
  refine (h1.congr ?_).unique h2
  intro d hdd
  rw [← access_ok, ← access_ok, access_congr (hfs w w' _ (place_abs (hp ds hd d hdd)))]

/-- What a lookup does to the state: only the tracked alias of that name, and it is fresh. -/
theorem pathSearch_state (S : St W) (name fl) (ins func ht : Bool) (hd : ht = true → fl.defPath = false) :
    ∃ t, (pathSearch S name fl ins func ht).2 = { S with ta := t } ∧ (∀ n, n ≠ name → t n = S.ta n) ∧
      (∀ p, t name = some (some p) → S.ta name = some (some p) ∨ (search (S.fs S.cwd) name S.path .x).1 = some p) := by
  simp only [pathSearch]
  have hs1 : ∀ (c : Bool) (v : Option Name), (∀ p, c = true → v = some p → (search (S.fs S.cwd) name S.path .x).1 = some p) →
      ∃ t, (if c = true then { S with ta := setTa S.ta name v } else S) = { S with ta := t } ∧ (∀ n, n ≠ name → t n = S.ta n) ∧
      (∀ p, t name = some (some p) → S.ta name = some (some p) ∨ (search (S.fs S.cwd) name S.path .x).1 = some p) := by
    intro c v hv
    cases c with
    | false => exact ⟨S.ta, rfl, fun _ _ => rfl, fun p h => .inl h⟩
    | true =>
      refine ⟨setTa S.ta name v, rfl, fun n hne => by simp [setTa, hne], ?_⟩
      intro p h
      simp only [setTa, if_true, Option.some.injEq] at h
      exact .inr (hv p rfl h)
  have hc : (ht || (ins && !fl.defPath)) = true → fl.defPath = false := by
    intro h
    cases hdp : fl.defPath with
    | false => rfl
    | true =>
      cases ht with
      | false => rw [hdp] at h; simp at h
      | true => have := hd rfl; rw [hdp] at this; cases this
  rcases e : search S.here name (if fl.defPath = true then S.defPath else S.path) .x with ⟨r, er⟩
  cases r with
  | some p =>
    refine hs1 _ _ ?_
    intro p' hcc hp
    rw [hc hcc, if_neg (by simp)] at e
    show (search S.here name S.path .x).1 = some p'
    rw [e]; exact hp
  | none =>
    simp only
    split
    · rcases search S.here name S.fpath .r with ⟨_ | _, _⟩
      · exact hs1 _ _ (fun p _ h => by cases h)
      · exact hs1 _ _ (fun p _ h => by cases h)
    · exact hs1 _ _ (fun p _ h => by cases h)

theorem findcom_state (S : St W) (name fl) : ∃ t, (findcom S name fl).2 = { S with ta := t } ∧ (∀ n, n ≠ name → t n = S.ta n) ∧
    ('/' ∉ name → ∀ p, t name = some (some p) → S.ta name = some (some p) ∨ (search (S.fs S.cwd) name S.path .x).1 = some p) ∧ ('/' ∈ name → t name = S.ta name) := by
  have id : ∀ f : Found, ∃ t, (f, S).2 = { S with ta := t } ∧ (∀ n, n ≠ name → t n = S.ta n) ∧
    ('/' ∉ name → ∀ p, t name = some (some p) → S.ta name = some (some p) ∨ (search (S.fs S.cwd) name S.path .x).1 = some p) ∧ ('/' ∈ name → t name = S.ta name) :=
    fun f => ⟨S.ta, rfl, fun _ _ => rfl, fun _ p h => .inl h, fun _ => rfl⟩
  unfold findcom
  by_cases hs : '/' ∈ name
  · rw [if_pos hs]
    split
    · refine ⟨S.ta, ?_, fun _ _ => rfl, fun h => absurd hs h, fun _ => rfl⟩
      simp only [pathSearch]
      rcases search S.here name (if fl.defPath = true then S.defPath else S.path) .x with ⟨_ | _, _⟩ <;> simp
    · exact id _
  · rw [if_neg hs]
    have ps : ∀ b, (b = true → fl.defPath = false) → ∃ t, (pathSearch S name fl S.track fl.func b).2 = { S with ta := t } ∧ (∀ n, n ≠ name → t n = S.ta n) ∧
      ('/' ∉ name → ∀ p, t name = some (some p) → S.ta name = some (some p) ∨ (search (S.fs S.cwd) name S.path .x).1 = some p) ∧ ('/' ∈ name → t name = S.ta name) := by
      intro b hb
      obtain ⟨t, h1, h2, h3⟩ := pathSearch_state S name fl S.track fl.func b hb
      exact ⟨t, h1, h2, fun _ => h3, fun h => absurd h hs⟩
    simp only
    split
    · exact id _
    · split
      · exact id _
      · exact id _
      · split
        · exact id _
        · split
          · exact id _
          · split
            · split
              · rename_i p hta
                have hdp : fl.defPath = false := by
                  cases h : fl.defPath
                  · rfl
                  · rw [h] at hta; cases hta
                split
                · exact id _
                · obtain ⟨t, h1, h2, h3⟩ := pathSearch_state { S with ta := setTa S.ta name none } name fl S.track fl.func true (fun _ => hdp)
                  refine ⟨t, by rw [h1], ?_, ?_, fun h => absurd h hs⟩
                  · intro n hne; rw [h2 n hne]; simp [setTa, hne]
                  · intro _ p hp
                    rcases h3 p hp with h | h
                    · simp [setTa] at h
                    · exact .inr h
              · rename_i hta
                refine ps true (fun _ => ?_)
                cases h : fl.defPath
                · rfl
                · rw [h] at hta; cases hta
              · exact ps false (fun h => by cases h)
            · exact id _

theorem Fresh.find {S : St W} (h : Fresh S) (name fl) : Fresh (findcom S name fl).2 := by
  obtain ⟨t, h1, h2, h3, h4⟩ := findcom_state S name fl
  rw [h1]
  intro n p hn hp
  simp only at hp ⊢
  by_cases he : n = name
  · subst he
    rcases h3 hn p hp with h5 | h5
    · exact h n p hn h5
    · exact h5
  · rw [h2 n he] at hp; exact h n p hn hp

theorem comexec_state (S : St W) : ∀ n tp ap fc x, (comexec S n tp ap fc x).2 = S ∨ ∃ name fl, (comexec S n tp ap fc x).2 = (findcom S name fl).2
  | 0, tp, ap, fc, x => .inl rfl
  | n + 1, tp, ap, fc, x => by
    have done : ∀ (tp : Found) (ap : List Name) (fc : Flags) (x : Bool), let r : Outcome × St W := (match ap with
      | [] => (.nothing, S)
      | cp :: _ =>
        if tp = .null then
          if S.restricted ∧ '/' ∈ cp then (.restricted, S)
          else match findcom S cp fc with | (f, S) => (.run f cp x, S)
        else (.run tp cp x, S))
        r.2 = S ∨ ∃ name fl, r.2 = (findcom S name fl).2 := by
      intro tp ap fc x
      cases ap with
      | nil => exact .inl rfl
      | cons cp ws =>
        simp only
        split
        · split
          · exact .inl rfl
          · exact .inr ⟨cp, fc, rfl⟩
        · exact .inl rfl
    unfold comexec
    cases tp with
    | null => exact done _ _ _ _
    | func a b c => exact done _ _ _ _
    | exec a b => exact done _ _ _ _
    | builtin b =>
      simp only
      cases b.kind with
      | plain => exact done _ _ _ _
      | builtin =>
        simp only
        split
        · exact .inl rfl
        · split
          · exact .inl rfl
          · exact comexec_state S n _ _ _ _
      | exec =>
        simp only
        split
        · exact done _ _ _ _
        · exact comexec_state S n _ _ _ _
      | command =>
        simp only
        split
        · exact .inl rfl
        · split
          · exact .inl rfl
          · split
            · exact .inl rfl
            · exact comexec_state S n _ _ _ _

theorem resolve_state (S : St W) (ws) : (resolve S ws).2 = S ∨ ∃ name fl, (resolve S ws).2 = (findcom S name fl).2 := by
  cases ws with
  | nil => exact .inl rfl
  | cons w ws => exact comexec_state S _ _ _ _ _

/-- What happens in a session, as far as lookup is concerned. -/
inductive Op (W : Type)
  | find (name : Name) (fl : Flags)
  | run (words : List Name)
  /-- an assignment to PATH (var.c:981-985) -/
  | setPath (p : List Char)
  /-- `unset PATH` (var.c:1103-1107) -/
  | unsetPath
  | setFpath (p : List Char)
  /-- `cd` (c_ksh.c:129) -/
  | cd (w : W)
  /-- `alias -t name` (c_ksh.c:958-976) -/
  | hash (name : Name)
  /-- `alias -tU name` at startup -/
  | announce (name : Name)
  /-- `unalias -ta` -/
  | forget
  /-- a function is defined, announced or removed -/
  | define (name : Name) (f : Option Bool)

def step (S : St W) : Op W → St W
  | .find n fl => (findcom S n fl).2
  | .run ws => (resolve S ws).2
  | .setPath p => flushcom true { S with path := p }
  | .unsetPath => flushcom true { S with path := S.defPath }
  | .setFpath p => { S with fpath := p }
  | .cd w => { flushcom false S with cwd := w }
  | .hash n => { S with ta := setTa S.ta n (search S.here n S.path .x).1 }
  | .announce n => { S with ta := fun m => if m = n then (match S.ta n with | some x => some x | none => some none) else S.ta m }
  | .forget => { S with ta := fun _ => none }
  | .define n f => { S with funs := fun m => if m = n then f else S.funs m }

/-- Only absolute directories are ever in PATH. -/
def Op.abs : Op W → Prop
  | .setPath p => Abs p
  | _ => True

def Inv (S : St W) : Prop := Fresh S ∧ Abs S.path ∧ Abs S.defPath ∧ AbsFs S.fs

theorem inv_find {S : St W} (h : Inv S) (name fl) : Inv (findcom S name fl).2 := by
  obtain ⟨t, h1, _⟩ := findcom_state S name fl
  refine ⟨h.1.find name fl, ?_⟩
  rw [h1]; exact h.2

theorem fresh_flush_all (S : St W) : Fresh (flushcom true S) := by
  intro n p _ h
  simp only [flushcom] at h
  split at h
  · simp at h
  · rename_i hx; exact absurd h (hx p)

theorem inv_step {S : St W} (h : Inv S) (o : Op W) (ho : o.abs) : Inv (step S o) := by
  obtain ⟨hF, hP, hD, hfs⟩ := h
  cases o with
  | find n fl => exact inv_find ⟨hF, hP, hD, hfs⟩ n fl
  | run ws =>
    simp only [step]
    rcases resolve_state S ws with e | ⟨n, fl, e⟩
    · rw [e]; exact ⟨hF, hP, hD, hfs⟩
    · rw [e]; exact inv_find ⟨hF, hP, hD, hfs⟩ n fl
  | setPath p => exact ⟨fresh_flush_all _, ho, hD, hfs⟩
  | unsetPath => exact ⟨fresh_flush_all _, hD, hD, hfs⟩
  | setFpath p => exact ⟨hF, hP, hD, hfs⟩
  | cd w =>
    refine ⟨?_, hP, hD, hfs⟩
    intro n p hn hp
    simp only [step, flushcom] at hp ⊢
    have : S.ta n = some (some p) := by
      split at hp
      · rename_i q hq
        split at hp
        · simp at hp
        · simp at hp; subst hp; exact hq
      · exact hp
    rw [← hF n p hn this]
    exact search_cwd hfs hP n hn _ _
  | hash n =>
    refine ⟨?_, hP, hD, hfs⟩
    intro m p hm hp
    simp only [step, setTa] at hp ⊢
    by_cases he : m = n
    · subst he
      rw [if_pos rfl] at hp
      exact Option.some.inj hp
    · rw [if_neg he] at hp; exact hF m p hm hp
  | announce n =>
    refine ⟨?_, hP, hD, hfs⟩
    intro m p hm hp
    simp only [step] at hp ⊢
    by_cases he : m = n
    · subst he
      rw [if_pos rfl] at hp
      cases ht : S.ta m with
      | none => rw [ht] at hp; simp at hp
      | some x => rw [ht] at hp; exact hF m p hm (by rw [ht]; exact hp)
    · rw [if_neg he] at hp; exact hF m p hm hp
  | forget =>
    refine ⟨?_, hP, hD, hfs⟩
    intro m p hm hp
    simp [step] at hp
  | define n f => exact ⟨hF, hP, hD, hfs⟩

/-- **C35 over histories.** From a state without tracked aliases, after any history in which PATH
has only absolute directories, every lookup is in order.  Missing: relative directories in PATH
(`stale_after_cd`) and a file system that changes (`stale_after_change`). -/
theorem lookup_order_partial (S : St W) (h0 : ∀ n, S.ta n = none) (hp : Abs S.path) (hd : Abs S.defPath) (hfs : AbsFs S.fs)
    (ops : List (Op W)) (ho : ∀ o ∈ ops, o.abs) (name : Name) (fl : Flags) :
    Resolves (ops.foldl step S) fl name (findcom (ops.foldl step S) name fl).1.what := by
  have : ∀ (ops : List (Op W)) (S : St W), Inv S → (∀ o ∈ ops, o.abs) → Inv (ops.foldl step S) := by
    intro ops
    induction ops with
    | nil => intro S h _; exact h
    | cons o ops ih => intro S h ho; exact ih _ (inv_step h o (ho o (by simp))) (fun o h => ho o (by simp [h]))
  exact lookup_order _ name fl ((this ops S ⟨fun n p _ h => (by rw [h0] at h; cases h), hp, hd, hfs⟩ ho).1.weak name)

/-! ## Whole commands -/

/-- The first word is looked up with everything searched, unless it is one of the prefix commands
or forbidden. -/
theorem plain_command (S : St W) (hF : Fresh S) (w : Name) (ws : List Name)
    (hk : ∀ b, (findcom S w ⟨true, true, false, false⟩).1 = .builtin b → b.kind = .plain) (hr : S.restricted = true → '/' ∉ w) :
    ∃ f, (resolve S (w :: ws)).1 = .run f w false ∧ Resolves S ⟨true, true, true, false⟩ w f.what := by
  have h1 := lookup_order S w ⟨true, true, false, false⟩ (hF.weak w)
  have h2 := lookup_order S w ⟨true, true, true, false⟩ (hF.weak w)
  have up : ∀ x, Resolves S ⟨true, true, false, false⟩ w x → x ≠ .notSearched → Resolves S ⟨true, true, true, false⟩ w x := by
    intro x hx hne
    cases hx with
    | slash _ h => cases h
    | slashNot _ h => cases h
    | special b a1 a2 a3 a4 => exact .special b a1 a2 a3 a4
    | function a1 a2 a3 a4 => exact .function a1 a2 a3 a4
    | announced ds r a1 a2 a3 a4 a5 a6 => exact .announced ds r a1 a2 a3 a4 a5 a6
    | builtin b a1 a2 a3 a4 a5 => exact .builtin b a1 a2 a3 a4 a5
    | program ds p _ _ _ h => cases h
    | fallback ds fs p _ _ _ h => cases h
    | notFound ds fs _ _ _ h => cases h
    | notSearched => exact absurd rfl hne
  simp only [resolve, comexec]
  generalize hf : (findcom S w ⟨true, true, false, false⟩).1 = f at h1 hk
  cases f with
  | null =>
    simp only [if_true]
    rw [if_neg (fun ⟨a, b⟩ => hr a b)]
    exact ⟨_, rfl, h2⟩
  | func a b c =>
    refine ⟨.func a b c, by simp, up _ h1 (by cases a <;> simp [Found.what])⟩
  | exec a b =>
    refine ⟨.exec a b, by simp, up _ h1 (by cases a <;> simp [Found.what])⟩
  | builtin b =>
    simp only [hk b rfl]
    exact ⟨.builtin b, by simp, up _ h1 (by simp [Found.what])⟩

/-- After `command`, functions are not considered. -/
theorem command_skips_functions (S : St W) (hF : Fresh S) (c w : Name) (ws : List Name) (b : Bi)
    (hc : (findcom S c ⟨true, true, false, false⟩).1 = .builtin b) (hb : b.kind = .command) (hw : w.head? ≠ some '-')
    (hk : ∀ b, (findcom S w ⟨true, false, false, false⟩).1 = .builtin b → b.kind = .plain) (hr : S.restricted = true → '/' ∉ w) :
    ∃ f, (resolve S (c :: w :: ws)).1 = .run f w false ∧ Resolves S ⟨true, false, true, false⟩ w f.what := by
  have h1 := lookup_order S w ⟨true, false, false, false⟩ (hF.weak w)
  have h2 := lookup_order S w ⟨true, false, true, false⟩ (hF.weak w)
  have up : ∀ x, Resolves S ⟨true, false, false, false⟩ w x → x ≠ .notSearched → Resolves S ⟨true, false, true, false⟩ w x := by
    intro x hx hne
    cases hx with
    | slash _ h => cases h
    | slashNot _ h => cases h
    | special b a1 a2 a3 a4 => exact .special b a1 a2 a3 a4
    | function a1 a2 a3 a4 => cases a3
    | announced ds r a1 a2 a3 a4 a5 a6 => cases a3
    | builtin b a1 a2 a3 a4 a5 => exact .builtin b a1 a2 a3 a4 a5
    | program ds p _ _ _ h => cases h
    | fallback ds fs p _ _ _ h => cases h
    | notFound ds fs _ _ _ h => cases h
    | notSearched => exact absurd rfl hne
  have ho : cmdOpts (w :: ws) false = some (w :: ws, false) := by
    unfold cmdOpts
    rw [if_neg (by rintro rfl; simp at hw)]
    split
    · simp at hw
    · rfl
  simp only [resolve, List.length_cons, comexec, hc, hb, List.tail_cons, ho, Bool.false_eq_true, false_and, if_false]
  generalize hf : (findcom S w ⟨true, false, false, false⟩).1 = f at h1 hk
  cases f with
  | null =>
    simp only [if_true]
    rw [if_neg (fun ⟨a, b⟩ => hr a b)]
    exact ⟨_, rfl, h2⟩
  | func a b c =>
    refine ⟨.func a b c, by simp, up _ h1 (by cases a <;> simp [Found.what])⟩
  | exec a b =>
    refine ⟨.exec a b, by simp, up _ h1 (by cases a <;> simp [Found.what])⟩
  | builtin b =>
    simp only [hk b rfl]
    exact ⟨.builtin b, by simp, up _ h1 (by simp [Found.what])⟩

theorem findcom_slash (S : St W) {w : Name} (h : '/' ∈ w) (a b : Bool) : (findcom S w ⟨a, b, false, false⟩).1 = .null := by
  simp [findcom, h]

/-- In a restricted shell no command word with a slash is ever run, behind prefix commands too. -/
theorem restricted_no_slash (S : St W) (hr : S.restricted = true) (words : List Name) (f : Found) (w : Name) (x : Bool)
    (h : (resolve S words).1 = .run f w x) : '/' ∉ w := by
  have key : ∀ n (tp : Found) (ap : List Name) fc x', (∀ cp ∈ ap.head?, '/' ∈ cp → tp = .null) → (comexec S n tp ap fc x').1 = .run f w x → '/' ∉ w := by
    intro n
    induction n with
    | zero => intro tp ap fc x' _ h; simp [comexec] at h
    | succ n ih =>
      intro tp ap fc x' hnull
      have done : ∀ (tp : Found) (ap : List Name) (fc : Flags) (x' : Bool), (∀ cp ∈ ap.head?, '/' ∈ cp → tp = .null) →
        (match ap with
        | [] => ((.nothing, S) : Outcome × St W)
        | cp :: _ =>
          if tp = Found.null then
            if S.restricted ∧ '/' ∈ cp then (Outcome.restricted, S)
            else match findcom S cp fc with | (f, S) => (Outcome.run f cp x', S)
          else (Outcome.run tp cp x', S)).1 = .run f w x → '/' ∉ w := by
        intro tp ap fc x' hn h
        cases ap with
        | nil => simp at h
        | cons cp ws =>
          simp only at h
          split at h
          · split at h
            · cases h
            · rename_i hx
              simp at h; obtain ⟨_, rfl, _⟩ := h
              exact fun hs => hx ⟨hr, hs⟩
          · rename_i hx
            simp at h; obtain ⟨_, rfl, _⟩ := h
            exact fun hs => hx (hn cp (by simp) hs)
      unfold comexec
      cases tp with
      | null => exact done _ _ _ _ hnull
      | func a b c => exact done _ _ _ _ hnull
      | exec a b => exact done _ _ _ _ hnull
      | builtin b =>
        simp only
        cases b.kind with
        | plain => exact done _ _ _ _ hnull
        | builtin =>
          simp only
          split
          · intro h; cases h
          · split
            · intro h; cases h
            · exact ih _ _ _ _ (by intro cp hcp hs; simp at hcp; subst hcp; exact findcom_slash S hs _ _)
        | exec =>
          simp only
          split
          · exact done _ _ _ _ hnull
          · exact ih _ _ _ _ (by intro cp hcp hs; simp at hcp; subst hcp; exact findcom_slash S hs _ _)
        | command =>
          simp only
          split
          · intro h; cases h
          · split
            · intro h; cases h
            · split
              · intro h; cases h
              · exact ih _ _ _ _ (by intro cp hcp hs; simp at hcp; subst hcp; exact findcom_slash S hs _ _)
  cases words with
  | nil => cases h
  | cons c ws => exact key _ _ _ _ _ (by intro cp hcp hs; simp at hcp; subst hcp; exact findcom_slash S hs _ _) h

/-! ## Where the code falls short -/

def exe : Stat := ⟨true, false, true, true, true⟩

/-- `/b/ls` is a program; in directory 1 there is also `ls`. -/
def files : Nat → Name → Option Stat := fun w p =>
  if p = ['/', 'b', '/', 'l', 's'] then some exe else if w = 1 ∧ p = ['l', 's'] then some exe else none

def demo : St Nat where
  fs := files
  cwd := 0
  bi := fun _ => none
  funs := fun _ => none
  ta := fun _ => none
  path := [':', '/', 'b']
  fpath := []
  defPath := ['/', 'b']
  track := true
  restricted := false

def every : Flags := ⟨true, true, true, false⟩

/-- With `PATH=:/b`, after `ls` has been run once from `/b`, changing to a directory that has its
own `ls` does not make that one found. -/
theorem stale_after_cd :
    let S := [Op.find ['l', 's'] every, .cd 1].foldl step demo
    (findcom S ['l', 's'] every).1.what = .program ['/', 'b', '/', 'l', 's'] ∧ Runs (S.fs S.cwd) ['l', 's'] ∧
    Resolves S every ['l', 's'] (.program ['l', 's']) := by
  refine ⟨by decide +kernel, ⟨exe, by decide +kernel⟩, ?_⟩
  refine .program [[], ['/', 'b']] ['l', 's'] (by decide) (fun _ => by decide +kernel) (fun _ => by decide +kernel) rfl ⟨by decide, by decide, by decide +kernel⟩ ?_
  exact .here (d := []) ⟨exe, by decide +kernel⟩

/-- A program that appears in an earlier directory of PATH is not found while the tracked alias
works. -/
theorem stale_after_change :
    let S := (findcom { demo with path := ['/', 'a', ':', '/', 'b'] } ['l', 's'] every).2
    let S' : St Nat := { S with fs := fun w p => if p = ['/', 'a', '/', 'l', 's'] then some exe else files w p }
    (findcom S' ['l', 's'] every).1.what = .program ['/', 'b', '/', 'l', 's'] ∧ Resolves S' every ['l', 's'] (.program ['/', 'a', '/', 'l', 's']) := by
  refine ⟨by decide +kernel, ?_⟩
  refine .program [['/', 'a'], ['/', 'b']] ['/', 'a', '/', 'l', 's'] (by decide) (fun _ => by decide +kernel) (fun _ => by decide +kernel) rfl ⟨by decide, by decide, by decide +kernel⟩ ?_
  exact .here (d := ['/', 'a']) ⟨exe, by decide +kernel⟩

/-- `command exec f` runs the function `f` although `command` suppresses functions. -/
theorem command_exec_function :
    let S : St Nat := { demo with
      bi := fun n => if n = ['c'] then some ⟨false, true, .command⟩ else if n = ['e'] then some ⟨true, false, .exec⟩ else none,
      funs := fun n => if n = ['f'] then some true else none }
    (resolve S [['c'], ['e'], ['f']]).1 = .run (.func true none none) ['f'] true ∧
    (resolve S [['c'], ['f']]).1 = .run (.exec none none) ['f'] false := by decide +kernel

/-- A file that is found but cannot be executed is reported as not found (status 127 instead of
126) when FPATH is set. -/
theorem fpath_hides_error :
    let S : St Nat := { demo with fs := fun _ p => if p = ['/', 'b', '/', 'l', 's'] then some ⟨true, false, false, false, true⟩ else none }
    (findcom S ['l', 's'] every).1 = .exec none (some .other) ∧
    (findcom { S with fpath := ['/', 'f'] } ['l', 's'] every).1 = .exec none none := by decide +kernel

/-! ## Examples -/

-- the empty directory at the front of PATH is the current one; a directory named ls is skipped
example : (findcom { demo with cwd := 1 } ['l', 's'] every).1.what = .program ['l', 's'] := by decide +kernel
example : (findcom { demo with fs := fun w p => if p = ['l', 's'] then some ⟨false, true, true, true, true⟩ else files w p } ['l', 's'] every).1.what =
    .program ['/', 'b', '/', 'l', 's'] := by decide +kernel
-- a function hides a builtin but not a special one
example : (findcom { demo with bi := fun _ => some ⟨false, true, .plain⟩, funs := fun _ => some true } ['x'] every).1.what = .function := by decide +kernel
example : (findcom { demo with bi := fun _ => some ⟨true, false, .plain⟩, funs := fun _ => some true } ['x'] every).1.what =
    .builtin ⟨true, false, .plain⟩ := by decide +kernel

end Ksh.Findcom
