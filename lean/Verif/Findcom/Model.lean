/-!
# Command lookup: `findcom`, `search`, `search_access`, `flushcom`, the prefix commands in `comexec`
-/

namespace Ksh.Findcom

abbrev Name := List Char

/-- What `stat` and `access` say about a path. -/
structure Stat where
  reg : Bool
  dir : Bool
  /-- some execute bit is set -/
  anyX : Bool
  accX : Bool
  accR : Bool
  deriving DecidableEq

inductive Err
  | acces | isdir | other
  deriving DecidableEq, Repr

inductive Mode
  | r | x
  deriving DecidableEq

/-- `search_access` (exec.c:956-980): `none` when the file is usable; otherwise the error that is
kept if it is the first (`some none` when there is no such file).  The error of `access` itself is
`Err.other`. -/
def searchAccess (fs : Name → Option Stat) (p : Name) (m : Mode) : Option (Option Err) :=
  match fs p with
  | none => some none
  | some s =>
    if (match m with | .r => s.accR | .x => s.accX) = false then some (some .other)
    else if m = .x ∧ (s.reg = false ∨ s.anyX = false) then some (some (if s.dir then .isdir else .acces))
    else none

/-- The text before the first colon and, if there is one, the text after it. -/
def cut : List Char → List Char × Option (List Char)
  | [] => ([], none)
  | c :: s => if c = ':' then ([], some s) else ((c :: (cut s).1), (cut s).2)

theorem cut_lt : ∀ s, ∀ t ∈ (cut s).2, t.length < s.length
  | [], t, h => by simp [cut] at h
  | c :: s, t, h => by
    unfold cut at h
    split at h
    · simp at h; subst h; simp
    · exact Nat.lt_succ_of_lt (cut_lt s t h)

/-- The loop of `search` over a path list (exec.c:1001-1024); `err` is `*errnop`. -/
def searchList (fs : Name → Option Stat) (name : Name) (m : Mode) (path : List Char) (err : Option Err) : Option Name × Option Err :=
  let d := (cut path).1
  let cand := if d = [] then name else d ++ '/' :: name
  match searchAccess fs cand m with
  | none => (some cand, err)
  | some e =>
    let err := match err with | some e => some e | none => e
    match _h : (cut path).2 with
    | some rest => searchList fs name m rest err
    | none => (none, err)
termination_by path.length
decreasing_by exact cut_lt path rest (by simp [_h])

/-- `search` (exec.c:982-1027). -/
def search (fs : Name → Option Stat) (name : Name) (path : List Char) (m : Mode) : Option Name × Option Err :=
  if '/' ∈ name then
    match searchAccess fs name m with
    | none => (some name, none)
    | some e => (none, e)
  else searchList fs name m path none

/-- The kinds of builtins `comexec` distinguishes. -/
inductive Kind
  | plain | builtin | exec | command
  deriving DecidableEq

structure Bi where
  spec : Bool
  reg : Bool
  kind : Kind
  deriving DecidableEq

/-- What lookup depends on. `funs` says whether a function with this name is defined (`some true`)
or marked for autoloading (`some false`); `ta` holds the tracked aliases. -/
structure St (W : Type) where
  fs : W → Name → Option Stat
  cwd : W
  bi : Name → Option Bi
  funs : Name → Option Bool
  ta : Name → Option (Option Name)
  path : List Char
  fpath : List Char
  defPath : List Char
  track : Bool
  restricted : Bool

/-- `FC_BI` (all three bits), `FC_FUNC`, `FC_PATH`, `FC_DEFPATH`. -/
structure Flags where
  bi : Bool
  func : Bool
  path : Bool
  defPath : Bool
  deriving DecidableEq

inductive Found
  | null
  | builtin (b : Bi)
  /-- `file` is where an autoloaded function is to be read from -/
  | func (isSet : Bool) (file : Option Name) (err : Option Err)
  /-- `CEXEC` or `CTALIAS`; no path: not found, or with an error found but not executable -/
  | exec (path : Option Name) (err : Option Err)
  deriving DecidableEq

variable {W : Type}

def St.here (S : St W) : Name → Option Stat := S.fs S.cwd

/-- `access(p, X_OK) == 0`. -/
def accessX (S : St W) (p : Name) : Bool := match S.here p with | some s => s.accX | none => false

def setTa (ta : Name → Option (Option Name)) (n : Name) (v : Option Name) : Name → Option (Option Name) := fun m => if m = n then some v else ta m

/-- The part from `Search:` on (exec.c:893-932).  `tp` is the tracked alias, if there is one, and
then it is not set. -/
def pathSearch (S : St W) (name : Name) (fl : Flags) (insert func : Bool) (hasTa : Bool) : Found × St W :=
  let S1 := if hasTa || (insert && !fl.defPath) then { S with ta := setTa S.ta name none } else S
  match search S.here name (if fl.defPath then S.defPath else S.path) .x with
  | (some p, e) =>
    (.exec (some p) e, if hasTa || (insert && !fl.defPath) then { S with ta := setTa S.ta name (some p) } else S)
  | (none, e) =>
    if func ∧ S.fpath ≠ [] then
      match search S.here name S.fpath .r with
      | (some p, _) => (.func false (some p) none, S1)
      | (none, e2) => (.exec none e2, S1)
    else (.exec none e, S1)

/-- `findcom` (exec.c:838-935). -/
def findcom (S : St W) (name : Name) (fl : Flags) : Found × St W :=
  if '/' ∈ name then
    if fl.path then pathSearch S name fl false false false else (.null, S)
  else
    let tbi := if fl.bi then S.bi name else none
    match (match tbi with | some b => if b.spec then some b else none | none => none) with
    | some b => (.builtin b, S)
    | none =>
      match (if fl.func then S.funs name else none) with
      | some true => (.func true none none, S)
      | some false =>
        (if S.fpath = [] then .func false none none
         else match search S.here name S.fpath .r with | (p, e) => .func false p e, S)
      | none =>
        match (match tbi with | some b => if b.reg then some b else none | none => none) with
        | some b => (.builtin b, S)
        | none =>
          match tbi with
          | some b => (.builtin b, S)
          | none =>
            if fl.path then
              match (if fl.defPath then none else S.ta name) with
              | some (some p) =>
                if accessX S p then (.exec (some p) none, S)
                else pathSearch { S with ta := setTa S.ta name none } name fl S.track fl.func true
              | some none => pathSearch S name fl S.track fl.func true
              | none => pathSearch S name fl S.track fl.func false
            else (.null, S)

/-- `flushcom` (exec.c:939-952). -/
def flushcom (all : Bool) (S : St W) : St W :=
  { S with ta := fun n => match S.ta n with
      | some (some p) => if all = true ∨ p.head? ≠ some '/' then some none else some (some p)
      | x => x }

/-! ## The prefix commands `builtin`, `exec` and `command` -/

inductive Outcome
  /-- no command word is left -/
  | nothing
  | run (f : Found) (word : Name) (xexec : Bool)
  /-- `command` with other options than `-p` -/
  | commandOpts
  | notBuiltin
  | restricted
  deriving DecidableEq

/-- The options of `command` as `comexec` scans them (exec.c:466-470): the rest of the words and
whether `-p` was there; `none` when another option comes. -/
def cmdOpts : List Name → Bool → Option (List Name × Bool)
  | w :: ws, p =>
    if w = ['-', '-'] then some (ws, p)
    else match w with
      | '-' :: c :: s => if (c :: s).all (· = 'p') then cmdOpts ws true else none
      | _ => some (w :: ws, p)
  | [], p => some ([], p)

theorem cmdOpts_len : ∀ ws p r q, cmdOpts ws p = some (r, q) → r.length ≤ ws.length
  | [], p, r, q, h => by simp [cmdOpts] at h; obtain ⟨rfl, _⟩ := h; simp
  | w :: ws, p, r, q, h => by
    unfold cmdOpts at h
    split at h
    · simp at h; obtain ⟨rfl, _⟩ := h; simp
    · split at h
      · split at h
        · have := cmdOpts_len ws true r q h; simp; omega
        · simp at h
      · simp at h; obtain ⟨rfl, _⟩ := h; simp

/-- The loop of `comexec` (exec.c:449-498) and the final lookup (exec.c:526-537).  `tp` is what
`findcom` without a path search gave for the first word. -/
def comexec (S : St W) : Nat → Found → List Name → Flags → Bool → Outcome × St W
  | 0, _, _, _, _ => (.nothing, S)
  | n + 1, tp, ap, fc, xexec =>
    let done (tp : Found) (ap : List Name) (fc : Flags) (xexec : Bool) : Outcome × St W :=
      match ap with
      | [] => (.nothing, S)
      | cp :: _ =>
        if tp = .null then
          if S.restricted ∧ '/' ∈ cp then (.restricted, S)
          else match findcom S cp fc with | (f, S) => (.run f cp xexec, S)
        else (.run tp cp xexec, S)
    let all : Flags := ⟨true, true, true, false⟩
    match tp with
    | .builtin b =>
      match b.kind with
      | .plain => done tp ap all xexec
      | .builtin =>
        match ap.tail with
        | [] => done .null [] all xexec
        | cp :: ws =>
          let t := (findcom S cp ⟨true, false, false, false⟩).1
          if t = .null then (.notBuiltin, S) else comexec S n t (cp :: ws) all xexec
      | .exec =>
        match ap.tail with
        | [] => done tp ap all xexec
        | cp :: ws => comexec S n (findcom S cp ⟨true, true, false, false⟩).1 (cp :: ws) all true
      | .command =>
        match cmdOpts ap.tail false with
        | none => (.commandOpts, S)
        | some (ws, p) =>
          if p ∧ S.restricted then (.restricted, S)
          else match ws with
            | [] => (.nothing, S)
            | cp :: ws => comexec S n (findcom S cp ⟨true, false, false, false⟩).1 (cp :: ws) ⟨true, false, true, p⟩ xexec
    | tp => done tp ap fc xexec

/-- `execute` for a simple command (exec.c:100-101) and `comexec`. -/
def resolve (S : St W) (words : List Name) : Outcome × St W :=
  match words with
  | [] => (.nothing, S)
  | w :: ws => comexec S (ws.length + 2) (findcom S w ⟨true, true, false, false⟩).1 (w :: ws) ⟨true, true, true, false⟩ false

end Ksh.Findcom
