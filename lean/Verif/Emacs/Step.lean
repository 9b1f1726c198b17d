import Verif.Emacs.Exec
/-!
# Every command, and lines of commands
-/

namespace Ksh.Emacs

variable {size : Nat} {s : Ed} {a : Line} {env : Env}

/-- What is known between two commands. -/
structure Good (env : Env) (size : Nat) (s : Ed) (a : Line) : Prop where
  r : R size s a
  y : Y s a
  h : HistOk env a

/-- The commands that put the cursor at the mark, take text yanked before away, or read the history
or the words found without looking, and when they are safe. -/
def Polite (env : Env) (size : Nat) (a : Line) : Cmd → Option Nat → Prop
  | .metaYank, _ => a.yanked = true → ∀ k, a.kills[a.cur]? = some k → a.fit = true
  | .killRegion, _ => ∀ m, a.mark = some m → m ≤ a.text.length
  | .xchg, _ => ∀ m, a.mark = some m → m ≤ a.text.length
  | .searchHist _, _ => ∀ l ∈ env.hist, l.length < size
  | .prevHistword, none => ∀ l, env.hist.getLast? = some l → l ≠ []
  | .complete, _ => ∀ w ws, (env.glob a.text a.left.length).2.2 = w :: ws → w ≠ []
  | _, _ => True

/-- The commands that do one thing to the line, and what it is. -/
def Line.cmd (env : Env) (size : Nat) (a : Line) (c : Cmd) (arg : Option Nat) : Option Line :=
  let n := arg.getD 1
  match c with
  | .insert c => some (if c = '\x00' then a else a.insN size c n)
  | .insStr x => some (a.ins size (cstr x))
  | .delBack => some ((a.moveTo (a.left.length - backLen n a.left a.right)).cut (backLen n a.left a.right))
  | .delChar => some (a.cut (forwLen n a.right))
  | .mvBack => some (a.moveTo (a.left.length - backLen n a.left a.right))
  | .mvForw => some (a.moveTo (a.left.length + forwLen n a.right))
  | .delBword => some ((a.moveTo (a.bwordPos n)).kill (a.left.length - a.bwordPos n))
  | .delFword => some (a.kill (a.fwordLen n))
  | .mvBword => some (a.moveTo (a.bwordPos n))
  | .mvFword => some (a.moveTo (a.left.length + a.fwordLen n))
  | .mvBegin => some (a.moveTo 0)
  | .mvEnd => some (a.moveTo a.text.length)
  | .fold f => some (a.fold f n)
  | .searchForw c => some (a.search (c.bind (fun c => nthPos (nextPos a.ended c) n a.left.length)))
  | .searchBack c => some (a.search (c.bind (fun c => nthPos (prevPos7 a.ended c) n a.left.length)))
  | .begHist => some (a.load size env.hist 0)
  | .endHist => some (a.load size env.hist ((env.hist.length : Int) - 1))
  | .prevCom => some (a.load size env.hist (a.histp - n))
  | .nextCom => some (a.load size env.hist (a.histp + n))
  | .gotoHist line =>
    some (match arg with
      | none => a.load size env.hist 0
      | some n => a.load size env.hist ((env.hist.length : Int) - 1 + n - line))
  | .delLine => some a.killLine
  | .transpose => some (a.transpose env.gmacs)
  | .kill => some (a.killTo (a.column arg))
  | .yank => some (a.yank size)
  | .metaYank => some (a.yankPop size)
  | .setMark => some { a with mark := some a.left.length }
  | .killRegion => some a.killRegion
  | .xchg => some a.xchg
  | .prevHistword => some (a.histword size env.hist.getLast? arg)
  | .noop => some a
  | _ => none

theorem cut_histp (a : Line) (n : Nat) : (a.cut n).histp = a.histp := rfl
theorem moveTo_histp (a : Line) (n : Nat) : (a.moveTo n).histp = a.histp := rfl
theorem kill_histp (a : Line) (n : Nat) : (a.kill n).histp = a.histp := by
  simp only [Line.kill, Line.remember]; split <;> rfl
theorem ins_histp (a : Line) (x : List Char) : (a.ins size x).histp = a.histp := by
  simp only [Line.ins]; split <;> rfl

theorem histOk_of (h : HistOk env a) {b : Line} (hb : b.histp = a.histp) : HistOk env b := by
  simpa [HistOk, hb] using h

/-- None of these commands leaves the history. -/
theorem cmd_hist (h : HistOk env a) (c : Cmd) (arg : Option Nat) (b : Line) (hb : a.cmd env size c arg = some b) :
    HistOk env b := by
  cases c <;> simp only [Line.cmd, Option.some.injEq, reduceCtorEq] at hb <;> subst hb
  case insert => split; exact h; exact histOk_of h (by simp only [Line.insN]; repeat' split; all_goals rfl)
  case insStr => exact histOk_of h (ins_histp _ _)
  case delBword => exact histOk_of h (kill_histp _ _)
  case delFword => exact histOk_of h (kill_histp _ _)
  case searchForw => exact histOk_of h (by simp only [Line.search]; split <;> rfl)
  case searchBack => exact histOk_of h (by simp only [Line.search]; split <;> rfl)
  case begHist => exact load_hist_ok h
  case endHist => exact load_hist_ok h
  case prevCom => exact load_hist_ok h
  case nextCom => exact load_hist_ok h
  case gotoHist => split <;> exact load_hist_ok h
  case delLine => exact histOk_of h (by simp only [Line.killLine, Line.remember])
  case transpose => exact histOk_of h (by unfold Line.transpose; split <;> split <;> rfl)
  case kill => exact histOk_of h (by simp only [Line.killTo]; split <;> exact kill_histp _ _)
  case yank => exact histOk_of h (by simp only [Line.yank]; split; rfl; exact ins_histp _ _)
  case metaYank => exact histOk_of h (by simp only [Line.yankPop]; split; rfl; exact ins_histp _ _)
  case killRegion => exact histOk_of h (by simp only [Line.killRegion]; split; rfl; exact kill_histp _ _)
  case xchg => exact histOk_of h (by simp only [Line.xchg]; split <;> rfl)
  case prevHistword => exact histOk_of h (by unfold Line.histword; split; rfl; exact ins_histp _ _; exact ins_histp _ _)
  all_goals exact h

/-- A command that does one thing to the line does it in the buffer. -/
theorem exec_cmd (he : EnvOk env) (g : Good env size s a) (c : Cmd) (arg : Option Nat) (hp : Polite env size a c arg)
    (b : Line) (hb : a.cmd env size c arg = some b) :
    ∃ s', exec env s c arg = some (s', .std) ∧ R size s' b ∧
      (isYank c = true → ∀ y, Y s' { b with yanked := y }) := by
  have lift : ∀ {f : Option Ed} {b : Line}, (∃ s', f = some s' ∧ R size s' b) → isYank c = false →
      ∃ s', std f = some (s', .std) ∧ R size s' b ∧ (isYank c = true → ∀ y, Y s' { b with yanked := y }) := by
    rintro f b ⟨s', rfl, h2⟩ hc
    exact ⟨s', rfl, h2, fun h => by rw [hc] at h; cases h⟩
  have h := g.r
  cases c <;> simp only [Line.cmd, Option.some.injEq, reduceCtorEq] at hb <;> subst hb <;> simp only [exec]
  case insert c => exact lift (insert_spec h c _) rfl
  case insStr x =>
    refine lift (ins_spec h _ ?_) rfl
    intro hm
    have := takeWhile_all _ _ _ hm
    simp at this
  case delBack => exact lift (delBack_spec h _) rfl
  case delChar => exact lift (delChar_spec h _) rfl
  case mvBack => exact lift (mvBack_spec h _) rfl
  case mvForw => exact lift (mvForw_spec h _) rfl
  case delBword => exact lift (delBword_spec h _) rfl
  case delFword => exact lift (delFword_spec h _) rfl
  case mvBword => exact lift (mvBword_spec h _) rfl
  case mvFword => exact lift (mvFword_spec h _) rfl
  case mvBegin => exact lift (goto_spec h 0 (by omega)) rfl
  case mvEnd => rw [h.ep']; exact lift (goto_spec h _ (Nat.le_refl _)) rfl
  case fold f => exact lift (foldCase_spec h f _) rfl
  case searchForw c => exact lift (searchForw_spec h c _) rfl
  case searchBack c => exact lift (searchBack_spec h c _) rfl
  case begHist => exact lift (loadHist_spec he h _) rfl
  case endHist => exact lift (loadHist_spec he h _) rfl
  case prevCom => rw [h.histp]; exact lift (loadHist_spec he h _) rfl
  case nextCom => rw [h.histp]; exact lift (loadHist_spec he h _) rfl
  case gotoHist line => cases arg <;> exact lift (loadHist_spec he h _) rfl
  case delLine => exact lift (delLine_spec h) rfl
  case transpose => exact lift (transpose_spec h) rfl
  case kill => exact lift (kill_spec h arg) rfl
  case yank =>
    obtain ⟨s', h1, h2, h3⟩ := yank_spec h
    exact ⟨s', by rw [h1]; rfl, h2, fun _ => h3⟩
  case metaYank =>
    obtain ⟨s', h1, h2, h3⟩ := metaYank_spec h g.y hp
    exact ⟨s', by rw [h1]; rfl, h2, fun _ => h3⟩
  case setMark =>
    exact ⟨_, rfl, { h with mem := h.mem, mark := by simp only [h.cp] }, fun hc => by cases hc⟩
  case killRegion => exact lift (killRegion_spec h hp) rfl
  case xchg => exact lift (xchg_spec h hp) rfl
  case prevHistword =>
    refine lift (prevHistword_spec he h arg ?_) rfl
    intro h0; subst h0; exact hp
  case noop => exact ⟨_, rfl, h, fun hc => by cases hc⟩

theorem step_cmd (he : EnvOk env) (g : Good env size s a) (c : Cmd) (arg : Option Nat) (hp : Polite env size a c arg)
    (b : Line) (hb : a.cmd env size c arg = some b) :
    ∃ s', step env s c arg = some (s', .std) ∧ Good env size s' { b with yanked := isYank c } := by
  obtain ⟨s1, h1, h2, h3⟩ := exec_cmd he g c arg hp b hb
  refine ⟨{ s1 with yanked := isYank c }, by simp [step, h1], { h2 with mem := h2.mem, yanked := rfl }, ?_, cmd_hist g.h c arg b hb⟩
  by_cases hy : isYank c = true
  · have := h3 hy true
    rw [hy]
    exact ⟨this.tp, this.suf⟩
  · exact ⟨fun hc => absurd hc hy, fun hc => absurd hc hy⟩

/-- A command never leaves the buffer; a line being edited stays one. -/
theorem step_good (he : EnvOk env) (g : Good env size s a) (c : Cmd) (arg : Option Nat) (hp : Polite env size a c arg) :
    ∃ s' r, step env s c arg = some (s', r) ∧ Done size s' ∧ (r = .std → ∃ a', Good env size s' a') := by
  have h := g.r
  have fin : ∀ {b : Line} {s1 : Ed}, exec env s c arg = some (s1, .std) → R size s1 b →
      HistOk env b → (isYank c = true → ∀ y, Y s1 { b with yanked := y }) →
      ∃ s' r, step env s c arg = some (s', r) ∧ Done size s' ∧ (r = .std → ∃ a', Good env size s' a') := by
    intro b s1 h1 h2 h3 h4
    have hr : R size { s1 with yanked := isYank c } { b with yanked := isYank c } := { h2 with mem := h2.mem, yanked := rfl }
    refine ⟨{ s1 with yanked := isYank c }, .std, by simp [step, h1], ?_, fun _ => ⟨{ b with yanked := isYank c }, hr, ?_, h3⟩⟩
    · exact ⟨h2.size, Nat.le_of_lt h2.ep_lt, ⟨_, h2.ring⟩⟩
    · by_cases hy : isYank c = true
      · have := h4 hy true
        rw [hy]
        exact ⟨this.tp, this.suf⟩
      · exact ⟨fun hc => absurd hc hy, fun hc => absurd hc hy⟩
  have done : ∀ {s1 : Ed} {r : Ret}, exec env s c arg = some (s1, r) → r ≠ .std → Done size s1 →
      ∃ s' r, step env s c arg = some (s', r) ∧ Done size s' ∧ (r = .std → ∃ a', Good env size s' a') := by
    intro s1 r h1 h2 h3
    exact ⟨{ s1 with yanked := isYank c }, r, by simp [step, h1], ⟨h3.len, h3.ep, h3.ring⟩, fun hr => absurd hr h2⟩
  cases hb : a.cmd env size c arg with
  | some b =>
    obtain ⟨s1, h1, h2, h3⟩ := exec_cmd he g c arg hp b hb
    exact fin h1 h2 (cmd_hist g.h c arg b hb) h3
  | none =>
    cases c <;> simp only [Line.cmd, reduceCtorEq] at hb
    case newline =>
      obtain ⟨s1, h1, _, h3⟩ := newline_spec h
      exact done (r := .eol) h1 (by simp) h3
    case eot => exact done rfl (by simp) ⟨h.size, Nat.le_of_lt h.ep_lt, ⟨_, h.ring⟩⟩
    case eotDel =>
      by_cases hc : s.ep = 0 ∧ arg = none
      · exact done (s1 := s) (r := .eol) (by simp only [exec]; rw [if_pos hc]) (by simp) ⟨h.size, Nat.le_of_lt h.ep_lt, ⟨_, h.ring⟩⟩
      · obtain ⟨s1, h1, h2⟩ := delChar_spec h (arg.getD 1)
        exact fin (b := a.cut (Line.forwLen (arg.getD 1) a.right)) (s1 := s1)
          (by simp only [exec]; rw [if_neg hc, h1]; rfl) h2 g.h (fun hc => by cases hc)
    case abort =>
      have hs := h.ep_lt
      exact done (s1 := { s with mem := s.mem.set 0 '\x00', cp := 0, ep := 0 }) (r := .intr) (by simp only [exec]; rw [if_pos (by rw [h.size]; omega)]) (by simp)
        ⟨by simpa using h.size, Nat.zero_le _, ⟨_, h.ring⟩⟩
    case searchHist ks =>
      obtain ⟨s1, a1, h1, h2, h3⟩ := searchKeys_safe he hp ks [] none h g.h (fun hc => absurd rfl hc) (fun hc => by cases hc)
      exact fin (by simp only [exec, h1]; rfl) h2 h3 (fun hc => by cases hc)
    case complete =>
      have hq := complete_spec he h
      cases hw : env.glob a.text a.left.length with
      | mk start r =>
        obtain ⟨stop, ws⟩ := r
        rw [hw] at hq
        cases ws with
        | nil => exact fin (by simp only [exec, hq]; rfl) h g.h (fun hc => by cases hc)
        | cons w ws =>
          obtain ⟨s1, a1, n, h1, h2, _, h3⟩ := hq (hp w ws (by rw [hw]))
          refine fin (by simp only [exec, h1]; rfl) h2 ?_ (fun hc => by cases hc)
          split at h3
          · rw [h3]; exact g.h
          · obtain ⟨y, ⟨f, h4⟩, _⟩ := h3
            rw [h4]; exact g.h
    case expand =>
      have hq := expand_spec he h
      cases hw : env.glob a.text a.left.length with
      | mk start r =>
        obtain ⟨stop, ws⟩ := r
        rw [hw] at hq
        cases ws with
        | nil => exact fin (by simp only [exec, hq]; rfl) h g.h (fun hc => by cases hc)
        | cons w ws =>
          obtain ⟨s1, a1, y, h1, h2, ⟨f, h4⟩, _⟩ := hq
          refine fin (by simp only [exec, h1]; rfl) h2 ?_ (fun hc => by cases hc)
          rw [h4]; exact g.h
    case comment =>
      obtain ⟨c1, c2, c3, c4⟩ := comment_spec h
      by_cases hh : a.text.head? = some '#'
      · obtain ⟨s1, h1, h2⟩ := c1 hh
        exact fin (by simp only [exec, h1]) h2 g.h (fun hc => by cases hc)
      · by_cases h0 : a.text = []
        · obtain ⟨s1, h1, _, h3⟩ := c4 h0
          exact done (r := .eol) (by simp only [exec, h1]) (by simp) h3
        · by_cases hroom : a.text.length + Edit.nlines a.text < size
          · obtain ⟨s1, h1, _, h3⟩ := c2 hh h0 hroom
            exact done (r := .eol) (by simp only [exec, h1]) (by simp) h3
          · exact fin (s1 := s) (by simp only [exec, c3 hh h0 (by omega)]) h g.h (fun hc => by cases hc)

/-- A run in which every command is given only when it is safe. -/
def PoliteRun (env : Env) (size : Nat) : List (Cmd × Option Nat) → Ed → Prop
  | [], _ => True
  | (c, arg) :: ks, s =>
    (∀ a, Good env size s a → Polite env size a c arg) ∧ ∀ s', step env s c arg = some (s', .std) → PoliteRun env size ks s'

theorem run_good (he : EnvOk env) : ∀ (ks : List (Cmd × Option Nat)) {s : Ed} {a : Line}, Good env size s a →
    PoliteRun env size ks s →
    ∃ s' r, run env ks s = some (s', r) ∧ Done size s' ∧ (r = .std → ∃ a', Good env size s' a') := by
  intro ks
  induction ks with
  | nil =>
    intro s a g _
    exact ⟨s, .std, rfl, ⟨g.r.size, Nat.le_of_lt g.r.ep_lt, ⟨_, g.r.ring⟩⟩, fun _ => ⟨a, g⟩⟩
  | cons k ks ih =>
    intro s a g hp
    obtain ⟨c, arg⟩ := k
    obtain ⟨s1, r, h1, h2, h3⟩ := step_good he g c arg (hp.1 a g)
    simp only [run, h1]
    cases r with
    | std =>
      obtain ⟨a1, g1⟩ := h3 rfl
      exact ih g1 (hp.2 s1 h1)
    | eol => exact ⟨s1, .eol, rfl, h2, fun hc => by cases hc⟩
    | intr => exact ⟨s1, .intr, rfl, h2, fun hc => by cases hc⟩

/-- The line as it begins. -/
theorem start_good (env : Env) (m : List Char) (ring : List (Option (List Char))) (sp tp : Nat) (kills : List (List Char))
    (hm : 0 < m.length) (hr : Ring ring sp kills) :
    Good env m.length (start env m ring sp tp)
      { left := [], right := [], mark := none, kills := kills, cur := 0, histp := env.hist.length, yanked := false, fit := true } := by
  refine ⟨{ mem := ⟨m.drop 1, ?_⟩, size := by simp [start], cp := rfl, ep := rfl, nl := by simp [NoNul], nr := by simp [NoNul],
            mark := rfl, ring := hr, histp := rfl, yanked := rfl, fit := rfl }, ⟨by simp, by simp⟩, ⟨?_, ?_⟩⟩
  · cases m with
    | nil => simp at hm
    | cons c m => rfl
  · show (-1 : Int) ≤ (env.hist.length : Int); omega
  · exact Int.le_refl _

theorem ring_empty : Ring (List.replicate 20 none) 0 [] := by
  refine ⟨by simp, by omega, ?_, by simp, by simp⟩
  intro k hk
  rw [List.getElem?_replicate, if_pos (by omega)]
  simp

/-- The commands that are always safe. -/
def simple : Cmd → Option Nat → Bool
  | .metaYank, _ => false
  | .killRegion, _ => false
  | .xchg, _ => false
  | .searchHist _, _ => false
  | .prevHistword, none => false
  | .complete, _ => false
  | _, _ => true

theorem simple_polite (env : Env) (size : Nat) (a : Line) (c : Cmd) (arg : Option Nat) (h : simple c arg = true) :
    Polite env size a c arg := by
  cases c <;> try trivial
  all_goals (try (simp at h))
  case prevHistword => cases arg with
    | none => simp [simple] at h
    | some n => trivial

theorem simple_run (env : Env) (size : Nat) : ∀ (ks : List (Cmd × Option Nat)) (s : Ed),
    (∀ k ∈ ks, simple k.1 k.2 = true) → PoliteRun env size ks s := by
  intro ks
  induction ks with
  | nil => intro s _; trivial
  | cons k ks ih =>
    intro s h
    obtain ⟨c, arg⟩ := k
    exact ⟨fun a _ => simple_polite env size a c arg (h _ List.mem_cons_self),
      fun s' _ => ih s' (fun k hk => h k (List.mem_cons_of_mem _ hk))⟩

end Ksh.Emacs
