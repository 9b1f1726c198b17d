import Verif.Joblist.Model

/-!
# What `jobs` says: specification and proofs
-/
namespace Ksh.Joblist

/-! ## Specification -/

/-- What a line of `jobs -l` says about one process. -/
structure Row where
  pid : Nat
  label : List Char
  cmd : List Char

/-- The words for a state. -/
def word (mess : Nat → List Char) : St → List Char
  | .running => ['R', 'u', 'n', 'n', 'i', 'n', 'g']
  | .stopped n => mess n
  | .exited 0 => ['D', 'o', 'n', 'e']
  | .exited (n + 1) => ['D', 'o', 'n', 'e', ' ', '('] ++ Nat.toDigits 10 (n + 1) ++ [')']
  | .signalled n _ => mess n

def note : St → List Char
  | .signalled _ true => [' ', '(', 'c', 'o', 'r', 'e', ' ', 'd', 'u', 'm', 'p', 'e', 'd', ')']
  | _ => []

/-- The commands of a pipeline, each but the last with a bar. -/
def barred : List Proc → List Proc
  | [] => []
  | [p] => [p]
  | p :: q :: ps => { p with cmd := p.cmd ++ ['|'] } :: barred (q :: ps)

/-- The rows of `jobs -l`: one for each process; the state is left blank when it is the same as
that of the process before. -/
def rows (mess : Nat → List Char) : Option St → List Proc → List Row
  | _, [] => []
  | prev, p :: ps =>
    (if prev = some p.st then ⟨p.pid, [], p.cmd⟩ else ⟨p.pid, word mess p.st, p.cmd ++ note p.st⟩) ::
      rows mess (some p.st) ps

/-- A number right-adjusted in five columns, then twenty columns for the state. -/
def Row.text (r : Row) : List Char :=
  List.replicate (5 - (Nat.toDigits 10 r.pid).length) ' ' ++ Nat.toDigits 10 r.pid ++ [' '] ++
    r.label ++ List.replicate (20 - r.label.length) ' ' ++ [' '] ++ r.cmd

/-- The head of an entry. -/
def heading (num : Int) (c : Char) : List Char := '[' :: decI num ++ [']', ' ', c, ' ']

/-- Spaces in place of the heading. -/
def indent (num : Int) : List Char := List.replicate (if num > 10 then 7 else 6) ' '

/-- An entry of several lines. -/
def entry (num : Int) (c : Char) : List (List Char) → List Char
  | [] => []
  | l :: ls => heading num c ++ l ++ (ls.flatMap fun x => '\n' :: indent num ++ x) ++ ['\n']

/-- `gs` cuts a list into the longest runs of processes in the same state. -/
inductive Runs : List (List Proc) → Prop
  | nil : Runs []
  | one (p : Proc) (g : List Proc) : (∀ q ∈ g, q.st = p.st) → Runs [p :: g]
  | more (p q : Proc) (g h : List Proc) (gs : List (List Proc)) : (∀ q ∈ g, q.st = p.st) →
      q.st ≠ p.st → Runs ((q :: h) :: gs) → Runs ((p :: g) :: (q :: h) :: gs)

/-- A line of `jobs`, for a run. -/
def lineM (mess : Nat → List Char) : List Proc → List Char
  | [] => []
  | p :: g => word mess p.st ++ List.replicate (20 - (word mess p.st).length) ' ' ++ [' '] ++
      p.cmd ++ note p.st ++ g.flatMap fun q => ' ' :: q.cmd

/-! ## Lemmas -/

theorem filler_eq (num : Int) : filler num = '\n' :: indent num := rfl

theorem buf_word (mess : Nat → List Char) (how : How) (h : how ≠ .short) (s : St) :
    buf mess how s = word mess s := by
  cases s with
  | running => rfl
  | stopped n => rfl
  | exited n =>
    cases n with
    | zero => simp [buf, word, h]
    | succ n => simp [buf, word, h, dec]
  | signalled n c => simp [buf, word, h]

theorem core_note (s : St) : coreText (coredumped s) = note s := by
  cases s with
  | signalled n c => cases c <;> rfl
  | _ => rfl

theorem same_rest (how : How) (fill : List Char) (st : St) : ∀ ps : List Proc,
    (same how fill st ps).2.length ≤ ps.length ∧
      ∀ p q, (same how fill st ps).2 = p :: q → p.st ≠ st
  | [] => by simp [same]
  | p :: ps => by
    by_cases h : p.st = st
    · have := same_rest how fill st ps
      simp only [same, h, if_true]
      exact ⟨Nat.le_succ_of_le this.1, this.2⟩
    · simp only [same, h, if_false]
      refine ⟨Nat.le_refl _, ?_⟩
      intro p' q e
      cases e
      exact h

/-- The rows with their indentation. -/
def tail (mess : Nat → List Char) (num : Int) (prev : Option St) (ps : List Proc) : List Char :=
  (rows mess prev (barred ps)).flatMap fun x => '\n' :: indent num ++ x.text

theorem barred_cons (p : Proc) (ps : List Proc) :
    barred (p :: ps) = { p with cmd := p.cmd ++ bar ps } :: barred ps := by
  cases ps <;> simp [barred, bar]

theorem tail_cons (mess : Nat → List Char) (num : Int) (prev : Option St) (p : Proc)
    (ps : List Proc) : tail mess num prev (p :: ps) =
      ('\n' :: indent num ++ (if prev = some p.st then (⟨p.pid, [], p.cmd ++ bar ps⟩ : Row)
        else ⟨p.pid, word mess p.st, p.cmd ++ bar ps ++ note p.st⟩).text) ++
      tail mess num (some p.st) ps := by
  simp only [tail, barred_cons, rows, List.flatMap_cons]

theorem same_long (mess : Nat → List Char) (num : Int) (st : St) : ∀ ps : List Proc,
    tail mess num (some st) ps = (same .long (filler num) st ps).1 ++
      tail mess num (some st) (same .long (filler num) st ps).2
  | [] => by simp [same, tail, rows, barred]
  | p :: ps => by
    by_cases h : p.st = st
    · rw [tail_cons]
      simp only [same, h, if_true, filler_eq]
      rw [same_long mess num st ps, filler_eq]
      simp [Row.text, pad5, pad20, dec, List.replicate_succ]
    · simp only [same, h, if_false, List.nil_append]

theorem loop_long (mess : Nat → List Char) (num : Int) (c : Char) :
    ∀ (fuel : Nat) (ps : List Proc) (prev : Option St), ps.length ≤ fuel →
      (∀ p q, ps = p :: q → prev ≠ some p.st) →
      (loop mess .long num c fuel false ps).1 = tail mess num prev ps
  | 0, ps, prev, hf, _ => by
    have : ps = [] := List.eq_nil_of_length_eq_zero (by omega)
    subst this
    rfl
  | fuel + 1, [], prev, _, _ => rfl
  | fuel + 1, p :: ps, prev, hf, hp => by
    rw [tail_cons, if_neg (hp p ps rfl), same_long]
    have hr := same_rest .long (filler num) p.st ps
    simp only [List.length_cons] at hf
    have ih := loop_long mess num c fuel (same .long (filler num) p.st ps).2 (some p.st)
      (by omega) (fun a b e => fun e' => hr.2 a b e (Option.some.inj e').symm)
    simp only [loop, ih]
    simp [Row.text, pad5, pad20, dec, buf_word, core_note, filler_eq]

theorem loop_out (mess : Nat → List Char) (how : How) (num : Int) (c : Char) (fuel : Nat)
    (first : Bool) (p : Proc) (ps : List Proc) (h : how ≠ .short) :
    (loop mess how num c (fuel + 1) first (p :: ps)).2 = true := by
  simp [loop, h]

/-! ## `jobs -l` -/

/-- `jobs -l` writes for each job an entry with one row for each of its processes. -/
theorem long_text (mess : Nat → List Char) (t : List Job) (j : Job) :
    jPrint mess .long t j =
      entry j.num (mark t j) ((rows mess none (barred j.procs)).map Row.text) := by
  simp only [jPrint]
  rw [if_neg (by simp)]
  cases hp : j.procs with
  | nil => simp [loop, barred, rows, entry]
  | cons p ps =>
    simp only [List.length_cons, loop_out mess .long j.num _ _ _ p ps (by simp), if_true]
    have hr := same_rest .long (filler j.num) p.st ps
    have ih := loop_long mess j.num (mark t j) ps.length (same .long (filler j.num) p.st ps).2
      (some p.st) (by omega) (fun a b e => fun e' => hr.2 a b e (Option.some.inj e').symm)
    have hs := same_long mess j.num p.st ps
    rw [barred_cons]
    simp only [rows, List.map_cons, entry, List.flatMap_map]
    have ht : (rows mess (some p.st) (barred ps)).flatMap
        (fun x => '\n' :: indent j.num ++ x.text) = tail mess j.num (some p.st) ps := rfl
    rw [ht, hs]
    simp only [loop, ih]
    simp [Row.text, pad5, pad20, dec, buf_word, core_note, heading]

/-- There is a row for each process, in order, with its number. -/
theorem rows_pids (mess : Nat → List Char) : ∀ (ps : List Proc) (prev : Option St),
    (rows mess prev ps).map Row.pid = ps.map Proc.pid
  | [], _ => rfl
  | p :: ps, prev => by
    simp only [rows, List.map_cons, rows_pids mess ps]
    split <;> rfl

/-- The state of a process is the nearest label at or above its row: some row at or above
carries the words for it, and the labels in between are blank. -/
theorem rows_state (mess : Nat → List Char) (ps : List Proc) (i : Nat) (p : Proc)
    (h : ps[i]? = some p) : ∃ k, k ≤ i ∧ ((rows mess none ps)[k]?.map Row.label =
      some (word mess p.st)) ∧ ∀ m, k < m → m ≤ i →
        (rows mess none ps)[m]?.map Row.label = some [] := by
  have key : ∀ (ps : List Proc) (prev : Option St) (i : Nat) (p : Proc), ps[i]? = some p →
      (∃ k, k ≤ i ∧ ((rows mess prev ps)[k]?.map Row.label = some (word mess p.st)) ∧
        ∀ m, k < m → m ≤ i → (rows mess prev ps)[m]?.map Row.label = some []) ∨
      (prev = some p.st ∧ ∀ m, m ≤ i → (rows mess prev ps)[m]?.map Row.label = some []) := by
    intro ps
    induction ps with
    | nil => intro _ i p h; simp at h
    | cons q ps ih =>
      intro prev i p h
      cases i with
      | zero =>
        simp only [List.getElem?_cons_zero, Option.some.injEq] at h
        subst h
        by_cases e : prev = some q.st
        · refine Or.inr ⟨e, ?_⟩
          intro m hm
          obtain rfl : m = 0 := by omega
          simp [rows, e]
        · refine Or.inl ⟨0, Nat.le_refl _, by simp [rows, e], ?_⟩
          intro m h1 h2
          omega
      | succ i =>
        simp only [List.getElem?_cons_succ] at h
        rcases ih (some q.st) i p h with ⟨k, hk, hl, hb⟩ | ⟨e, hb⟩
        · refine Or.inl ⟨k + 1, by omega, by simpa [rows] using hl, ?_⟩
          intro m h1 h2
          obtain ⟨m, rfl⟩ : ∃ n, m = n + 1 := ⟨m - 1, by omega⟩
          simpa [rows] using hb m (by omega) (by omega)
        · by_cases e' : prev = some q.st
          · refine Or.inr ⟨e' ▸ e, ?_⟩
            intro m hm
            cases m with
            | zero => simp [rows, e']
            | succ m => simpa [rows] using hb m (by omega)
          · refine Or.inl ⟨0, by omega, ?_, ?_⟩
            · simp only [Option.some.injEq] at e
              rw [e] at e'
              simp [rows, e', e]
            · intro m h1 h2
              obtain ⟨m, rfl⟩ : ∃ n, m = n + 1 := ⟨m - 1, by omega⟩
              simpa [rows] using hb m (by omega)
  rcases key ps none i p h with h | ⟨h, _⟩
  · exact h
  · cases h

/-! ## `jobs` -/

theorem runs_same (fill : List Char) (st : St) (rest : List Proc)
    (hr : ∀ p q, rest = p :: q → p.st ≠ st) : ∀ (g ps : List Proc), barred ps = g ++ rest →
      (∀ q ∈ g, q.st = st) →
      (same .medium fill st ps).1 = (g.flatMap fun q => ' ' :: q.cmd) ∧
        barred (same .medium fill st ps).2 = rest
  | [], ps, h, _ => by
    cases ps with
    | nil => simpa [same] using h
    | cons p ps =>
      have : p.st ≠ st := by
        rw [barred_cons] at h
        exact hr { p with cmd := p.cmd ++ bar ps } _ h.symm
      simp only [same, this, if_false]
      exact ⟨rfl, h⟩
  | q :: g, ps, h, hg => by
    cases ps with
    | nil => simp [barred] at h
    | cons p ps =>
      rw [barred_cons] at h
      simp only [List.cons_append, List.cons.injEq] at h
      obtain ⟨h1, h2⟩ := h
      have hst : p.st = st := by
        have := hg q List.mem_cons_self
        rw [← h1] at this
        exact this
      have ih := runs_same fill st rest hr g ps h2 (fun x hx => hg x (List.mem_cons_of_mem _ hx))
      simp only [same, hst, if_true, ih.1, ih.2, and_true, List.flatMap_cons]
      rw [← h1]
      simp

theorem Runs.tail {g : List Proc} {gs : List (List Proc)} (h : Runs (g :: gs)) : Runs gs := by
  cases h with
  | one => exact Runs.nil
  | more _ _ _ _ _ _ _ h => exact h

theorem Runs.head {g : List Proc} {gs : List (List Proc)} (h : Runs (g :: gs)) :
    ∃ p g', g = p :: g' ∧ (∀ q ∈ g', q.st = p.st) ∧
      ∀ a b, gs.flatten = a :: b → a.st ≠ p.st := by
  cases h with
  | one p g' hg => exact ⟨p, g', rfl, hg, by simp⟩
  | more p q g' h gs hg hq _ =>
    refine ⟨p, g', rfl, hg, ?_⟩
    intro a b e
    simp only [List.flatten_cons, List.cons_append, List.cons.injEq] at e
    exact e.1 ▸ hq

theorem loop_medium (mess : Nat → List Char) (num : Int) (c : Char) :
    ∀ (gs : List (List Proc)) (fuel : Nat) (ps : List Proc), ps.length ≤ fuel → Runs gs →
      gs.flatten = barred ps →
      (loop mess .medium num c fuel false ps).1 =
        gs.flatMap fun g => '\n' :: indent num ++ lineM mess g
  | [], fuel, ps, _, _, h => by
    have : ps = [] := by
      cases ps with
      | nil => rfl
      | cons p ps => rw [barred_cons] at h; simp at h
    subst this
    cases fuel <;> rfl
  | g :: gs, fuel, ps, hf, hg, h => by
    obtain ⟨p, g', rfl, h1, h2⟩ := hg.head
    cases ps with
    | nil => simp [barred] at h
    | cons q ps =>
      rw [barred_cons] at h
      simp only [List.flatten_cons, List.cons_append, List.cons.injEq] at h
      obtain ⟨h3, h4⟩ := h
      simp only [List.length_cons] at hf
      obtain ⟨fuel, rfl⟩ : ∃ n, fuel = n + 1 := ⟨fuel - 1, by omega⟩
      have hst : q.st = p.st := by rw [h3]
      have hcmd : p.cmd = q.cmd ++ bar ps := by rw [h3]
      have hs := runs_same (filler num) p.st gs.flatten h2 g' ps h4.symm h1
      have hl := (same_rest .medium (filler num) p.st ps).1
      have ih := loop_medium mess num c gs fuel (same .medium (filler num) p.st ps).2
        (by omega) hg.tail hs.2.symm
      simp only [loop, hst, ih, hs.1, List.flatMap_cons, lineM]
      simp [pad20, buf_word, core_note, filler_eq, hcmd]

/-- `jobs`, and the notices at the prompt, write for each job an entry with a line for each run
of processes in the same state. -/
theorem medium_text (mess : Nat → List Char) (t : List Job) (j : Job) (gs : List (List Proc))
    (hg : Runs gs) (hf : gs.flatten = barred j.procs) :
    jPrint mess .medium t j = entry j.num (mark t j) (gs.map (lineM mess)) := by
  simp only [jPrint]
  rw [if_neg (by simp)]
  cases gs with
  | nil =>
    have : j.procs = [] := by
      cases hp : j.procs with
      | nil => rfl
      | cons p ps => rw [hp, barred_cons] at hf; simp at hf
    simp [this, loop, entry]
  | cons g gs =>
    obtain ⟨p, g', rfl, h1, h2⟩ := hg.head
    cases hp : j.procs with
    | nil => simp [hp, barred] at hf
    | cons q ps =>
      rw [hp, barred_cons] at hf
      simp only [List.flatten_cons, List.cons_append, List.cons.injEq] at hf
      obtain ⟨h3, h4⟩ := hf
      have hst : q.st = p.st := by rw [h3]
      have hcmd : p.cmd = q.cmd ++ bar ps := by rw [h3]
      have hs := runs_same (filler j.num) p.st gs.flatten h2 g' ps h4.symm h1
      have hl := (same_rest .medium (filler j.num) p.st ps).1
      have ih := loop_medium mess j.num (mark t j) gs ps.length
        (same .medium (filler j.num) p.st ps).2 (by omega) hg.tail hs.2.symm
      simp only [List.length_cons, loop_out mess .medium j.num _ _ _ q ps (by simp), if_true]
      simp only [loop, hst, ih, hs.1, List.map_cons, entry, List.flatMap_map, lineM]
      simp [pad20, buf_word, core_note, heading, hcmd]

/-- The runs exist, for every list. -/
theorem runs_exist : ∀ ps : List Proc, ∃ gs, Runs gs ∧ gs.flatten = ps
  | [] => ⟨[], .nil, rfl⟩
  | p :: ps => by
    obtain ⟨gs, hg, hf⟩ := runs_exist ps
    cases gs with
    | nil =>
      refine ⟨[[p]], .one p [] (by simp), ?_⟩
      simp only [List.flatten_nil] at hf
      simp [← hf]
    | cons g gs =>
      obtain ⟨q, g', rfl, h1, h2⟩ := hg.head
      by_cases e : q.st = p.st
      · refine ⟨(p :: q :: g') :: gs, ?_, by simp [← hf]⟩
        have ha : ∀ x ∈ q :: g', x.st = p.st := by
          intro x hx
          rcases List.mem_cons.1 hx with rfl | hx
          · exact e
          · exact (h1 x hx).trans e
        cases hg with
        | one => exact .one _ _ ha
        | more _ r _ h gs' _ hr hg' => exact .more _ _ _ _ _ ha (e ▸ hr) hg'
      · exact ⟨[p] :: (q :: g') :: gs, .more p q [] g' gs (by simp) e hg, by simp [← hf]⟩

/-! ## The message about a foreground job -/

/-- What is said of a process in the foreground: nothing when it exited, and nothing when it
died of the keyboard interrupt or of a closed pipe, unless it left a core. -/
def brief (mess : Nat → List Char) : St → List Char
  | .exited _ => []
  | .signalled 2 false => []
  | .signalled 13 false => []
  | s => word mess s

def briefText (mess : Nat → List Char) (s : St) : List Char :=
  match brief mess s with
  | [] => []
  | m => m ++ note s ++ [' ']

theorem buf_brief (mess : Nat → List Char) (s : St) : buf mess .short s = brief mess s := by
  cases s with
  | running => rfl
  | stopped n => rfl
  | exited n => simp [buf, brief]
  | signalled n c =>
    cases c with
    | true => simp [buf, brief, word]
    | false =>
      by_cases h1 : n = 2
      · subst h1; simp [buf, brief]
      · by_cases h2 : n = 13
        · subst h2; simp [buf, brief]
        · have : brief mess (.signalled n false) = mess n := by
            unfold brief
            split
            · contradiction
            · rename_i e; injection e with e; exact absurd e h1
            · rename_i e; injection e with e; exact absurd e h2
            · rfl
          rw [this]
          simp [buf, h1, h2]

theorem runs_short (fill : List Char) (st : St) (rest : List Proc)
    (hr : ∀ p q, rest = p :: q → p.st ≠ st) : ∀ (g : List Proc),
      (∀ q ∈ g, q.st = st) → same .short fill st (g ++ rest) = ([], rest)
  | [], _ => by
    cases rest with
    | nil => rfl
    | cons p ps => simp [same, hr p ps rfl]
  | q :: g, hg => by
    have := runs_short fill st rest hr g (fun x hx => hg x (List.mem_cons_of_mem _ hx))
    simp [same, hg q List.mem_cons_self, this]

theorem loop_short (mess : Nat → List Char) (num : Int) (c : Char) :
    ∀ (gs : List (List Proc)) (fuel : Nat) (first : Bool), gs.flatten.length ≤ fuel → Runs gs →
      loop mess .short num c fuel first gs.flatten =
        (gs.flatMap fun g => (g.head?.map fun p => briefText mess p.st).getD [],
         gs.any fun g => (g.head?.map fun p => decide (brief mess p.st ≠ [])).getD false)
  | [], fuel, first, _, _ => by cases fuel <;> rfl
  | g :: gs, fuel, first, hf, hg => by
    obtain ⟨p, g', rfl, h1, h2⟩ := hg.head
    simp only [List.flatten_cons, List.cons_append, List.length_cons, List.length_append] at hf
    obtain ⟨fuel, rfl⟩ : ∃ n, fuel = n + 1 := ⟨fuel - 1, by omega⟩
    have ih := loop_short mess num c gs fuel false (by omega) hg.tail
    simp only [List.flatten_cons, List.cons_append, loop,
      runs_short (filler num) p.st gs.flatten h2 g' h1, ih, buf_brief, core_note]
    cases hb : brief mess p.st <;> simp [briefText, hb]

/-- After a foreground job ended or stopped, one message for each run of processes in the same
state that is worth one. -/
theorem short_text (mess : Nat → List Char) (t : List Job) (j : Job) (gs : List (List Proc))
    (hg : Runs gs) (hf : gs.flatten = j.procs) :
    jPrint mess .short t j =
      let m := gs.flatMap fun g => (g.head?.map fun p => briefText mess p.st).getD []
      if m = [] then [] else m ++ ['\n'] := by
  have h := loop_short mess j.num (mark t j) gs j.procs.length true (by rw [hf]; omega) hg
  rw [hf] at h
  simp only [jPrint]
  rw [if_neg (by simp), h]
  have hiff : (gs.any fun g => (g.head?.map fun p => decide (brief mess p.st ≠ [])).getD false)
      = true ↔ (gs.flatMap fun g => (g.head?.map fun p => briefText mess p.st).getD []) ≠ [] := by
    simp only [List.any_eq_true, ne_eq, List.flatMap_eq_nil_iff]
    constructor
    · rintro ⟨g, hg, hb⟩ ha
      have := ha g hg
      cases g with
      | nil => simp at hb
      | cons p g' =>
        simp only [List.head?_cons, Option.map_some, Option.getD_some, decide_eq_true_eq] at hb this
        unfold briefText at this
        split at this
        · contradiction
        · simp at this
    · intro ha
      apply Classical.byContradiction
      intro hn
      apply ha
      intro g hg
      cases g with
      | nil => rfl
      | cons p g' =>
        have : brief mess p.st = [] := by
          apply Classical.byContradiction
          intro hb
          exact hn ⟨_, hg, by simp [hb]⟩
        simp [briefText, this]
  simp only []
  by_cases hm : (gs.flatMap fun g => (g.head?.map fun p => briefText mess p.st).getD []) = []
  · rw [if_neg (fun e => (hiff.1 e) hm), if_pos hm, hm]
  · rw [if_pos (hiff.2 hm), if_neg hm]

/-! ## The columns -/

theorem digits_length (n : Nat) (h : n < 1000) : (Nat.toDigits 10 n).length =
    if n < 10 then 1 else if n < 100 then 2 else 3 := by
  have : ∀ n : Fin 1000, (Nat.toDigits 10 n.1).length =
    if n.1 < 10 then 1 else if n.1 < 100 then 2 else 3 := by decide +kernel
  exact this ⟨n, h⟩

/-- The lines of an entry stand in columns.  Partial: not for job 10, nor for job 100 and
above; see `column_slips`. -/
theorem columns_partial (n : Nat) (c : Char) (h : n < 10 ∨ 11 ≤ n ∧ n < 100) :
    (heading n c).length = (indent n).length := by
  have hl := digits_length n (by omega)
  have hd : decI (n : Int) = Nat.toDigits 10 n := by simp [decI, dec]
  simp only [heading, indent, hd, List.length_append, List.length_cons, List.length_nil,
    List.length_replicate, hl]
  rcases h with h | h
  · rw [if_pos h, if_neg (by omega)]
  · rw [if_neg (by omega), if_pos (by omega), if_pos (by omega)]

/-- The second line of job 10 is one column off, and those of job 100. -/
theorem column_slips (c : Char) : (heading 10 c).length = (indent 10).length + 1 ∧
    (heading 100 c).length = (indent 100).length + 1 := ⟨rfl, rfl⟩

/-! ## Which jobs -/

/-- `+` marks the job that `%+` names. -/
theorem plus (t : List Job) (j : Job) : mark t j = '+' ↔ look t ['%', '+'] = some j.id := by
  cases t with
  | nil => simp [mark, look, Jobs.lookup, Jobs.isDigit]
  | cons k t =>
    simp [mark, look, Jobs.lookup, Jobs.isDigit, toJob]
    by_cases h : k.id = j.id
    · simp [h]
    · simp only [h, iff_false]
      split <;> decide

/-- `-` marks the job that `%-` names. -/
theorem minus (t : List Job) (hd : (t.map Job.id).Nodup) (j : Job) :
    mark t j = '-' ↔ look t ['%', '-'] = some j.id := by
  match t, hd with
  | [], _ => simp [mark, look, Jobs.lookup, Jobs.isDigit]
  | [k], _ =>
    simp [mark, look, Jobs.lookup, Jobs.isDigit]
    split <;> decide
  | k :: l :: t, hd =>
    simp only [List.map_cons, List.nodup_cons, List.mem_cons, not_or] at hd
    simp [mark, look, Jobs.lookup, Jobs.isDigit, toJob]
    by_cases h : l.id = j.id
    · simp only [h, if_true, iff_true]
      rw [if_neg]
      rw [← h]
      exact hd.1.1
    · simp only [h, if_false, iff_false]
      split <;> decide

/-- A job is dropped from the list by `jobs` or `jobs -l` only after its entry was written, and
only when it had ended. -/
theorem told (mess : Nat → List Char) (t : List Job) (cp : Option (List Char)) (how : How)
    (n z : Bool) (j : Job) (hj : j ∈ t)
    (hg : j.id ∉ (jJobs mess t cp how n z).2.1.map Job.id) :
    j.ended = true ∧ ∃ a b, (jJobs mess t cp how n z).1 = a ++ jPrint mess how t j ++ b := by
  have hid : ∀ k, (clear how k).id = k.id := by
    intro k
    simp only [clear]
    split <;> rfl
  have main : ∀ (q : Job → Bool), j.id ∉ (listing mess how t q).2.map Job.id →
      j.ended = true ∧ ∃ a b, (listing mess how t q).1 = a ++ jPrint mess how t j ++ b := by
    intro q hq
    by_cases h : q j = true ∧ j.ended = true
    · refine ⟨h.2, ?_⟩
      obtain ⟨x, y, e⟩ := List.append_of_mem hj
      refine ⟨x.flatMap fun j => if q j then jPrint mess how t j else [],
        y.flatMap fun j => if q j then jPrint mess how t j else [], ?_⟩
      simp only [listing]
      generalize hf : (fun j => if q j = true then jPrint mess how t j else []) = f
      have hfj : f j = jPrint mess how t j := by rw [← hf]; simp [h.1]
      rw [← hfj, e]
      simp
    · exfalso
      apply hq
      simp only [listing, List.map_map, List.mem_map, List.mem_filter]
      refine ⟨j, ⟨hj, ?_⟩, ?_⟩
      · cases h1 : q j <;> cases h2 : j.ended <;> simp_all
      · simp only [Function.comp]
        split
        · exact hid j
        · rfl
  cases cp with
  | none => exact main _ hg
  | some cp =>
    simp only [jJobs] at hg ⊢
    split at hg
    · exact absurd (List.mem_map_of_mem hj) hg
    · exact main _ hg

/-- With `jobs` alone every job that is no zombie gets its entry, in the order of the list, and
no other text appears. -/
theorem all_listed (mess : Nat → List Char) (t : List Job) (l : Bool) :
    (cJobs mess (if l then ['l'] else []) [] t).1 = (t.filter fun j => !j.zombie).flatMap
      (jPrint mess (if l then .long else .medium) t) := by
  have : ∀ how : How, (t.flatMap fun j => if shown false false j then jPrint mess how t j else []) =
      (t.filter fun j => !j.zombie).flatMap (jPrint mess how t) := by
    intro how
    generalize jPrint mess how t = f
    induction t with
    | nil => rfl
    | cons j t ih =>
      simp only [List.flatMap_cons, List.filter_cons, ih]
      cases hz : j.zombie <;> simp [shown, hz]
  cases l
  · exact this .medium
  · exact this .long

/-- Two lists that differ at most in what was reported already. -/
def Sim (t t' : List Job) : Prop :=
  t'.map (fun j => { j with changed := false }) = t.map (fun j => { j with changed := false })

theorem Sim.cases {j : Job} {t t' : List Job} (h : Sim (j :: t) t') :
    ∃ j' s, t' = j' :: s ∧ { j' with changed := false } = { j with changed := false } ∧ Sim t s := by
  cases t' with
  | nil => simp [Sim] at h
  | cons j' s =>
    simp only [Sim, List.map_cons, List.cons.injEq] at h
    exact ⟨j', s, rfl, h.1, h.2⟩

theorem Sim.ids {t t' : List Job} (h : Sim t t') : t'.map Job.id = t.map Job.id := by
  have := congrArg (List.map Job.id) h
  simpa [List.map_map, Function.comp_def] using this

theorem Sim.look {t t' : List Job} (h : Sim t t') (cp : List Char) :
    look t' cp = look t cp := by
  have : t'.map toJob = t.map toJob := by
    have := congrArg (List.map toJob) h
    rw [List.map_map, List.map_map] at this
    exact this
  simp only [Joblist.look, this]

theorem mark_ids (t : List Job) (j : Job) : mark t j =
    if (t.map Job.id).head? = some j.id then '+'
    else if ((t.map Job.id).drop 1).head? = some j.id then '-' else ' ' := by
  simp [mark]

theorem Sim.print (mess : Nat → List Char) (how : How) {t t' : List Job} (h : Sim t t')
    {j j' : Job} (e : { j' with changed := false } = { j with changed := false }) :
    jPrint mess how t' j' = jPrint mess how t j := by
  simp only [Job.mk.injEq] at e
  obtain ⟨e1, e2, e3, e4, _, _⟩ := e
  have hm : mark t' j' = mark t j := by rw [mark_ids, mark_ids, h.ids, e1]
  simp only [jPrint, hm, e2, e3, e4]

theorem Sim.listing (mess : Nat → List Char) (how : How) (t t' : List Job) (h : Sim t t')
    (q : Job → Bool) (hq : ∀ j, q { j with changed := false } = q j) :
    (Joblist.listing mess how t' q).1 = (Joblist.listing mess how t q).1 := by
  have key : ∀ (s s' : List Job), Sim s s' →
      (s'.flatMap fun j => if q j then jPrint mess how t' j else []) =
      (s.flatMap fun j => if q j then jPrint mess how t j else []) := by
    intro s
    induction s with
    | nil =>
      intro s' hs
      cases s' with
      | nil => rfl
      | cons a b => simp [Sim] at hs
    | cons j s ih =>
      intro s' hs
      obtain ⟨j', r, rfl, e, hr⟩ := hs.cases
      have hq' : q j' = q j := by rw [← hq j', ← hq j, e]
      simp only [List.flatMap_cons, ih r hr, hq', h.print mess how e]
  exact key t t' h

/-- Several operands give what each of them gives alone.  Partial: no operand names a job that
has ended, and `-n` was not given; see `operand_shift`. -/
theorem operands_partial (mess : Nat → List Char) (how : How) (z : Bool) (t : List Job)
    (args : List (List Char))
    (he : ∀ cp ∈ args, ∀ i, look t cp = some i → ∀ j ∈ t, j.id = i → j.ended = false) :
    (operands mess (how, false, z) args t).1 =
      args.flatMap fun cp => (jJobs mess t (some cp) how false z).1 := by
  have hq : ∀ (i : Nat) (j : Job), ((fun j : Job => j.id == i && shown false z j)
      { j with changed := false }) = (fun j : Job => j.id == i && shown false z j) j := by
    intro i j
    simp [shown]
  have key : ∀ (args : List (List Char)) (t' : List Job), Sim t t' →
      (∀ cp ∈ args, ∀ i, look t cp = some i → ∀ j ∈ t, j.id = i → j.ended = false) →
      (operands mess (how, false, z) args t').1 =
        args.flatMap fun cp => (jJobs mess t (some cp) how false z).1 := by
    intro args
    induction args with
    | nil => intro _ _ _; rfl
    | cons cp args ih =>
      intro t' hs he
      have he' : ∀ cp ∈ args, ∀ i, look t cp = some i → ∀ j ∈ t, j.id = i → j.ended = false :=
        fun c hc => he c (List.mem_cons_of_mem _ hc)
      simp only [operands, List.flatMap_cons, jJobs, hs.look]
      cases hl : look t cp with
      | none =>
        simp only [List.nil_append]
        exact ih t' hs he'
      | some i =>
        simp only []
        rw [hs.listing mess how t t' _ (hq i)]
        congr 1
        apply ih _ _ he'
        -- nothing was removed
        have hrem : ∀ (s s' : List Job), Sim s s' → (∀ j ∈ s, j.id = i → j.ended = false) →
            Sim s ((s'.filter fun j => !((j.id == i && shown false z j) && j.ended)).map
              fun j => if (j.id == i && shown false z j) = true then clear how j else j) := by
          intro s
          induction s with
          | nil =>
            intro s' hs _
            cases s' with
            | nil => exact hs
            | cons a b => simp [Sim] at hs
          | cons j s ih =>
            intro s' hs hj
            obtain ⟨j', r, rfl, e, hr⟩ := hs.cases
            have := ih r hr (fun x hx => hj x (List.mem_cons_of_mem _ hx))
            have hne : ¬ (((j'.id == i && shown false z j') && j'.ended) = true) := by
              intro hc
              simp only [Bool.and_eq_true, beq_iff_eq] at hc
              simp only [Job.mk.injEq] at e
              have := hj j List.mem_cons_self (e.1 ▸ hc.1.1)
              rw [← e.2.2.2.2.1, hc.2] at this
              cases this
            simp only [List.filter_cons]
            rw [if_pos (by rw [Bool.eq_false_iff.2 hne]; rfl)]
            simp only [Sim, List.map_cons, List.cons.injEq]
            refine ⟨?_, this⟩
            rw [← e]
            split
            · simp only [clear]
              split <;> rfl
            · rfl
        exact hrem t t' hs (he cp List.mem_cons_self i hl)
  exact key args t rfl he

/-! ## Cases, and where the code falls short -/

/-- Messages as in `sigtraps`, as far as they are used here. -/
def msg : Nat → List Char
  | 11 => "Memory fault".toList
  | _ => "Stopped".toList

def pipeline : Job :=
  ⟨7, 2, 41, [⟨41, .exited 0, ['a']⟩, ⟨42, .exited 0, ['b']⟩, ⟨43, .signalled 11 true, ['c']⟩,
    ⟨44, .running, ['d']⟩], false, false, true⟩

def done : Job := ⟨8, 1, 50, [⟨50, .exited 3, ['x']⟩], true, false, true⟩
def third : Job := ⟨9, 3, 60, [⟨60, .running, ['y']⟩], false, false, false⟩

example : String.ofList (cJobs msg [] [] [done, pipeline]).1 =
    "[1] + Done (3)             x\n[2] - Done                 a| b|\n      Memory fault         c| (core dumped)\n      Running              d\n" := by
  decide +kernel
example : String.ofList (cJobs msg ['l'] [['%', '2']] [done, pipeline]).1 =
    "[2] -    41 Done                 a|\n         42                      b|\n         43 Memory fault         c| (core dumped)\n         44 Running              d\n" := by
  decide +kernel
example : String.ofList (jPrint msg .short [pipeline] pipeline) =
    "Memory fault (core dumped) Running \n" := by decide +kernel

/-- `jobs -p` drops a job that ended and says nothing but its number: how it ended is told by no
later command. -/
theorem pgrp_swallows : cJobs msg ['p'] [] [done] = (['5', '0', '\n'], [], 0) ∧
    (cJobs msg [] [] (cJobs msg ['p'] [] [done]).2.1).1 = [] := by decide +kernel

/-- `jobs %+ %-` does not list the current and the previous job: when the current job has ended
it is dropped at once, `%-` then names the third job, and the second is not shown. -/
theorem operand_shift :
    (cJobs msg [] [['%', '+'], ['%', '-']] [done, pipeline, third]).1 =
      jPrint msg .medium [done, pipeline, third] done ++
      jPrint msg .medium [pipeline, third] third ∧
    -- two jobs are marked as the current one
    (cJobs msg [] [['%', '1'], ['%', '3']] [done, third]).1 =
      jPrint msg .medium [done, third] done ++ jPrint msg .medium [third] third ∧
    mark [done, third] done = '+' ∧ mark [third] third = '+' := by decide +kernel

/-- When the first job of the list is a zombie no job is marked as the current one. -/
theorem zombie_current : (cJobs msg [] [] [{ done with zombie := true }, pipeline]).1 =
    jPrint msg .medium [done, pipeline] pipeline ∧ mark [done, pipeline] pipeline = '-' := by
  decide +kernel

/-- Of `-n` and `-z` only the last counts. -/
theorem last_flag (mess : Nat → List Char) (t : List Job) :
    cJobs mess ['n', 'z'] [] t = cJobs mess ['z'] [] t ∧
    cJobs mess ['z', 'n'] [] t = cJobs mess ['n'] [] t := ⟨rfl, rfl⟩

end Ksh.Joblist
