import Verif.Emacs.Step
/-!
# Theorems about emacs editing mode
-/

namespace Ksh.Emacs

variable {size : Nat} {s : Ed} {a : Line} {env : Env}

/-! ## C79: the buffer -/

/-- **C79** From an empty line of any buffer and with any texts killed before, any list of commands
runs inside the buffer, provided each command that trusts the mark, the text yanked last, the length of
history lines or the words found is given only when that trust is justified. -/
theorem edit_safe_partial (he : EnvOk env) (m : List Char) (hm : 0 < m.length) (ring : List (Option (List Char)))
    (sp tp : Nat) (kills : List (List Char)) (hr : Ring ring sp kills) (ks : List (Cmd × Option Nat))
    (hp : PoliteRun env m.length ks (start env m ring sp tp)) :
    ∃ s' r, run env ks (start env m ring sp tp) = some (s', r) ∧ s'.mem.length = m.length ∧ s'.ep ≤ m.length ∧
      (∃ kills', Ring s'.ring s'.sp kills') ∧
      (r = .std → s'.cp ≤ s'.ep ∧ s'.ep < m.length ∧ s'.mem[s'.ep]? = some '\x00' ∧ '\x00' ∉ s'.mem.take s'.ep) := by
  obtain ⟨s', r, h1, h2, h3⟩ := run_good he ks (start_good env m ring sp tp kills hm hr) hp
  refine ⟨s', r, h1, h2.len, h2.ep, h2.ring, fun hstd => ?_⟩
  obtain ⟨a', g⟩ := h3 hstd
  obtain ⟨j, hj⟩ := g.r.memText
  refine ⟨g.r.cp_le, g.r.ep_lt, ?_, ?_⟩
  · rw [hj, g.r.ep']; simp
  · rw [hj, g.r.ep', List.take_left]; exact g.r.nt

/-- **C79** Without those commands nothing has to be assumed. -/
theorem edit_safe_simple (he : EnvOk env) (m : List Char) (hm : 0 < m.length) (ring : List (Option (List Char)))
    (sp tp : Nat) (kills : List (List Char)) (hr : Ring ring sp kills) (ks : List (Cmd × Option Nat))
    (hs : ∀ k ∈ ks, simple k.1 k.2 = true) :
    ∃ s' r, run env ks (start env m ring sp tp) = some (s', r) ∧ s'.mem.length = m.length ∧ s'.ep ≤ m.length := by
  obtain ⟨s', r, h1, h2, h3, _⟩ := edit_safe_partial he m hm ring sp tp kills hr ks (simple_run env m.length ks _ hs)
  exact ⟨s', r, h1, h2, h3⟩

theorem run_append (ks ks' : List (Cmd × Option Nat)) : ∀ {s s1 : Ed}, run env ks s = some (s1, .std) →
    run env (ks ++ ks') s = run env ks' s1 := by
  induction ks with
  | nil => intro s s1 h; simp only [run] at h; cases h; rfl
  | cons k ks ih =>
    intro s s1 h
    obtain ⟨c, arg⟩ := k
    simp only [run, List.cons_append] at h ⊢
    cases hst : step env s c arg with
    | none => rw [hst] at h; cases h
    | some r =>
      obtain ⟨s2, r⟩ := r
      rw [hst] at h
      cases r with
      | std => exact ih h
      | eol => cases h
      | intr => cases h

/-- **C79** The line handed over by RETURN is the line that was being edited and a newline. -/
theorem enter_partial (he : EnvOk env) (m : List Char) (hm : 0 < m.length) (ring : List (Option (List Char)))
    (sp tp : Nat) (kills : List (List Char)) (hr : Ring ring sp kills) (ks : List (Cmd × Option Nat)) (arg : Option Nat)
    (hp : PoliteRun env m.length ks (start env m ring sp tp)) (s1 : Ed)
    (h1 : run env ks (start env m ring sp tp) = some (s1, .std)) :
    ∃ s', run env (ks ++ [(.newline, arg)]) (start env m ring sp tp) = some (s', .eol) ∧
      s'.mem.take s'.ep = s1.mem.take s1.ep ++ ['\n'] := by
  obtain ⟨s', r, e1, _, e3⟩ := run_good he ks (start_good env m ring sp tp kills hm hr) hp
  rw [h1] at e1
  cases e1
  obtain ⟨a', g⟩ := e3 rfl
  obtain ⟨s2, n1, n2, _⟩ := newline_spec g.r
  rw [run_append _ _ h1]
  refine ⟨{ s2 with yanked := false }, ?_, ?_⟩
  · simp [run, step, exec, n1, isYank]
  · obtain ⟨j, hj⟩ := g.r.memText
    rw [n2, hj, g.r.ep', List.take_left]

/-! ## C80: killing and yanking -/

/-- The text being edited. -/
def Ed.text (s : Ed) : List Char := s.mem.take s.ep

theorem R.text (h : R size s a) : s.text = a.text := by
  obtain ⟨j, hj⟩ := h.memText
  rw [Ed.text, hj, h.ep', List.take_left]

/-- The commands that kill text. -/
def kills : Cmd → Bool
  | .kill => true
  | .delBword => true
  | .delFword => true
  | .delLine => true
  | .killRegion => true
  | _ => false

/-- What killing does: a piece `k` is cut out, kept, and the cursor is where it was. -/
def Killed (a b : Line) : Prop :=
  (b.text = a.text) ∨ ∃ k, k ≠ [] ∧ a.text = b.left ++ k ++ b.right ∧ b.kills = (k :: a.kills).take 20

theorem kill_killed (a : Line) (n : Nat) (b0 : Line) (ht : b0.text = a.text) (hk : b0.kills = a.kills) :
    Killed a (b0.kill n) := by
  simp only [Line.kill]
  by_cases h0 : n = 0
  · rw [if_pos h0]; exact Or.inl ht
  · rw [if_neg h0]
    by_cases hr : b0.right = []
    · left; rw [← ht]; simp [Line.cut, Line.remember, Line.text, hr]
    · right
      refine ⟨b0.right.take n, by simp [hr, h0], ?_, by simp [Line.cut, Line.remember, hk]⟩
      rw [← ht]
      simp [Line.cut, Line.remember, Line.text, List.append_assoc, List.take_append_drop]

theorem moveTo_text (a : Line) (p : Nat) : (a.moveTo p).text = a.text := by
  simp [Line.moveTo, Line.text, List.take_append_drop]

theorem cmd_killed (c : Cmd) (arg : Option Nat) (hc : kills c = true) (b : Line) (hb : a.cmd env size c arg = some b) :
    Killed a b := by
  cases c <;> simp only [kills, Bool.false_eq_true] at hc <;>
    simp only [Line.cmd, Option.some.injEq] at hb <;> subst hb
  case delBword => exact kill_killed a _ _ (moveTo_text _ _) rfl
  case delFword => exact kill_killed a _ _ rfl rfl
  case delLine =>
    by_cases h0 : a.text = []
    · left; rw [h0]; simp [Line.killLine, Line.remember, Line.text]
    · right; exact ⟨a.text, h0, by simp [Line.killLine, Line.remember], by simp [Line.killLine, Line.remember]⟩
  case kill =>
    simp only [Line.killTo]
    split
    · exact kill_killed a _ _ (moveTo_text _ _) rfl
    · exact kill_killed a _ _ rfl rfl
  case killRegion =>
    simp only [Line.killRegion]
    split
    · exact Or.inl rfl
    · exact kill_killed a _ _ (moveTo_text _ _) rfl

/-- **C80** What was killed comes back with the next yank: the line is what it was before. -/
theorem kill_yank_partial (he : EnvOk env) (g : Good env size s a) (c : Cmd) (arg : Option Nat) (hc : kills c = true)
    (hp : Polite env size a c arg) :
    ∃ s1 s2, step env s c arg = some (s1, .std) ∧ step env s1 .yank none = some (s2, .std) ∧
      (s1.text ≠ s.text → s2.text = s.text ∧ s2.mark = some s1.cp) := by
  have hb : ∃ b, a.cmd env size c arg = some b := by
    cases c <;> simp only [kills, Bool.false_eq_true] at hc <;> exact ⟨_, rfl⟩
  obtain ⟨b, hb⟩ := hb
  obtain ⟨s1, h1, g1⟩ := step_cmd he g c arg hp b hb
  obtain ⟨s2, h2, g2⟩ := step_cmd he g1 .yank none trivial _ rfl
  refine ⟨s1, s2, h1, h2, ?_⟩
  rw [g1.r.text, g.r.text, g2.r.text, g2.r.mark, g1.r.cp]
  intro hne
  rcases cmd_killed c arg hc b hb with hk | ⟨k, h0, hk, hks⟩
  · exact absurd hk hne
  · have hlt := g.r.text_lt
    rw [hk] at hlt
    simp only [List.length_append] at hlt
    simp only [Line.yank, hks, List.take_succ_cons, Line.ins]
    rw [if_pos (by simp only [Line.text, List.length_append]; omega)]
    exact ⟨by rw [hk]; simp [Line.text], rfl⟩

/-- The line `a` after one of the killed texts was put at the cursor. -/
structure Yanked (a : Line) (i : Nat) (b : Line) : Prop where
  left : b.left = a.left ++ a.kills.getD i []
  right : b.right = a.right
  kills : b.kills = a.kills
  cur : b.cur = i
  yanked : b.yanked = true
  fit : b.fit = true

theorem getD_mem {α : Type} (l : List α) (d : α) (i : Nat) (h : i < l.length) : l[i]? = some (l.getD i d) ∧ l.getD i d ∈ l := by
  simp only [List.getD, List.getElem?_eq_getElem h, Option.getD_some]
  exact ⟨trivial, List.getElem_mem h⟩

theorem pop_yanked (he : EnvOk env) (a : Line) (i : Nat) (hi : i < a.kills.length)
    (hfit : ∀ k ∈ a.kills, a.text.length + k.length < size) {s : Ed} {b : Line} (g : Good env size s b) (hb : Yanked a i b) :
    ∃ s' b', step env s .metaYank none = some (s', .std) ∧ Good env size s' b' ∧ Yanked a ((i + 1) % a.kills.length) b' := by
  obtain ⟨s', h1, g1⟩ := step_cmd he g .metaYank none (fun _ _ _ => hb.fit) _ rfl
  refine ⟨s', _, h1, g1, ?_⟩
  have hnl : (i + 1) % a.kills.length < a.kills.length := Nat.mod_lt _ (by omega)
  have hlen : (a.kills.getD i []).length ≤ b.left.length := by rw [hb.left]; simp
  obtain ⟨m1, m2⟩ := moveTo_left (a := b) hlen
  have hl : b.left.take (b.left.length - (a.kills.getD i []).length) = a.left := by rw [hb.left]; simp
  have hr : b.left.drop (b.left.length - (a.kills.getD i []).length) = a.kills.getD i [] := by rw [hb.left]; simp
  rw [hl] at m1
  rw [hr, hb.right] at m2
  have hcut : ((b.moveTo (b.left.length - (a.kills.getD i []).length)).cut (a.kills.getD i []).length).right = a.right := by
    simp only [Line.cut, m2, List.drop_left]
  have hcutl : ((b.moveTo (b.left.length - (a.kills.getD i []).length)).cut (a.kills.getD i []).length).left = a.left := by
    simp only [Line.cut, m1]
  have hroom := hfit _ (getD_mem a.kills [] _ hnl).2
  simp only [Line.yankPop, hb.yanked, if_true, hb.cur, hb.kills, (getD_mem a.kills [] i hi).1, Line.ins]
  simp only [Line.text, List.length_append] at hroom
  rw [if_pos (by simp only [Line.text, hcut, hcutl, List.length_append]; omega)]
  exact ⟨by simp only [hcutl], hcut, hb.kills, rfl, rfl, rfl⟩

/-- **C80** `n` yank-pops after a yank put the `n`th text killed before at the cursor, over and over
again, and nothing else on the line changes. -/
theorem yank_pop_partial (he : EnvOk env) (g : Good env size s a) (hk : a.kills ≠ [])
    (hfit : ∀ k ∈ a.kills, a.text.length + k.length < size) (n : Nat) :
    ∃ s', run env ((.yank, none) :: List.replicate n (.metaYank, none)) s = some (s', .std) ∧
      s'.text = a.left ++ a.kills.getD (n % a.kills.length) [] ++ a.right ∧
      s'.cp = a.left.length + (a.kills.getD (n % a.kills.length) []).length := by
  have hpos : 0 < a.kills.length := List.length_pos_iff.2 hk
  have pops : ∀ (n i : Nat) {s : Ed} {b : Line}, i < a.kills.length → Good env size s b → Yanked a i b →
      ∃ s' b', run env (List.replicate n (.metaYank, none)) s = some (s', .std) ∧ Good env size s' b' ∧
        Yanked a ((i + n) % a.kills.length) b' := by
    intro n
    induction n with
    | zero => intro i s b hi g hy; exact ⟨s, b, rfl, g, by rw [Nat.add_zero, Nat.mod_eq_of_lt hi]; exact hy⟩
    | succ n ih =>
      intro i s b hi g hy
      obtain ⟨s1, b1, h1, g1, y1⟩ := pop_yanked he a i hi hfit g hy
      obtain ⟨s2, b2, h2, g2, y2⟩ := ih _ (Nat.mod_lt _ hpos) g1 y1
      refine ⟨s2, b2, by simp only [List.replicate_succ, run, h1, h2], g2, ?_⟩
      rw [Nat.mod_add_mod] at y2
      rw [show i + (n + 1) = i + 1 + n by omega]; exact y2
  obtain ⟨s1, h1, g1⟩ := step_cmd he g .yank none trivial _ rfl
  have y1 : Yanked a 0 { (a.yank size) with yanked := true } := by
    cases hks : a.kills with
    | nil => exact absurd hks hk
    | cons k ks =>
      have hroom := hfit k (by rw [hks]; exact List.mem_cons_self)
      simp only [Line.yank, hks, Line.ins]
      rw [if_pos (by simpa [Line.text] using hroom)]
      exact ⟨by simp [hks], rfl, hks.symm, rfl, rfl, rfl⟩
  obtain ⟨s2, b2, h2, g2, y2⟩ := pops n 0 hpos g1 y1
  rw [Nat.zero_add] at y2
  refine ⟨s2, by simp only [run, h1, h2], ?_, ?_⟩
  · rw [g2.r.text, Line.text, y2.left, y2.right]
  · rw [g2.r.cp, y2.left]; simp

/-! ## C81: characters of more than one byte -/

/-- A character: a byte that is no continuation and the continuations after it. -/
def IsChar (x : List Char) : Prop := ∃ b ys, x = b :: ys ∧ cont b = false ∧ ∀ y ∈ ys, cont y = true

/-- The text left of the cursor and the text from there on. -/
def Holds (s : Ed) (l r : List Char) : Prop := s.mem.take s.cp = l ∧ s.text.drop s.cp = r

theorem R.holds (h : R size s a) : Holds s a.left a.right := by
  refine ⟨h.take_cp, ?_⟩
  rw [h.text, h.cp, Line.text, List.drop_left]

theorem forwLen_char {c r : List Char} (hc : IsChar c) (hr : ∀ x, r.head? = some x → cont x = false) :
    Line.forwLen 1 (c ++ r) = c.length := by
  obtain ⟨b, ys, rfl, _, hys⟩ := hc
  simp only [Line.forwLen, List.cons_append, List.drop_succ_cons, List.drop_zero, List.length_cons]
  rw [(takeWhile_exact cont ys r hys hr).1]
  omega

theorem backLen_char {l c r : List Char} (hc : IsChar c) :
    Line.backLen 1 (l ++ c) r = c.length := by
  obtain ⟨b, ys, rfl, hb, hys⟩ := hc
  simp only [Line.backLen, List.length_append, List.length_cons]
  rw [show min 1 (l.length + (ys.length + 1)) = 1 by omega]
  rw [show (r.headD '\x00' :: (l ++ b :: ys).reverse) = r.headD '\x00' :: (ys.reverse ++ (b :: l.reverse)) by simp]
  rw [show l.length + (ys.length + 1) = (l.length + ys.length) + 1 by omega, List.take_succ_cons, List.drop_succ_cons, List.drop_zero]
  rw [List.take_append]
  rw [List.take_of_length_le (by simp)]
  have : ((ys.reverse ++ (b :: l.reverse).take (l.length + ys.length - ys.reverse.length)).takeWhile cont) = ys.reverse := by
    refine (takeWhile_exact cont ys.reverse _ (fun x hx => hys x (List.mem_reverse.1 hx)) ?_).1
    intro x hx
    cases hl' : l.length + ys.length - ys.reverse.length with
    | zero => rw [hl'] at hx; simp at hx
    | succ k => rw [hl'] at hx; simp only [List.take_succ_cons, List.head?_cons, Option.some.injEq] at hx; rw [← hx]; exact hb
  rw [this]
  simp; omega

theorem Good.line (g : Good env size s a) {l r : List Char} (h : Holds s l r) : a.left = l ∧ a.right = r := by
  obtain ⟨h1, h2⟩ := g.r.holds
  exact ⟨h1.symm.trans h.1, h2.symm.trans h.2⟩

/-- **C81** Without an argument these four commands delete or pass exactly one character, however
many bytes it has. -/
theorem one_char (he : EnvOk env) (g : Good env size s a) (l c r : List Char) (hc : IsChar c)
    (hr : ∀ x, r.head? = some x → cont x = false) :
    (Holds s l (c ++ r) →
      (∃ s', step env s .delChar none = some (s', .std) ∧ Holds s' l r) ∧
      (∃ s', step env s .mvForw none = some (s', .std) ∧ Holds s' (l ++ c) r)) ∧
    (Holds s (l ++ c) r →
      (∃ s', step env s .delBack none = some (s', .std) ∧ Holds s' l r) ∧
      (∃ s', step env s .mvBack none = some (s', .std) ∧ Holds s' l (c ++ r))) := by
  have fwd := forwLen_char (c := c) (r := r) hc hr
  have bwd := backLen_char (l := l) (c := c) (r := r) hc
  constructor
  · intro h
    obtain ⟨hl, hr⟩ := g.line h
    obtain ⟨s1, h1, g1⟩ := step_cmd he g .delChar none trivial _ rfl
    obtain ⟨s2, h2, g2⟩ := step_cmd he g .mvForw none trivial _ rfl
    refine ⟨⟨s1, h1, ?_⟩, ⟨s2, h2, ?_⟩⟩
    · have := g1.r.holds
      simpa [Line.cut, hl, hr, fwd] using this
    · have := g2.r.holds
      simp only [Option.getD_none, hl, hr, fwd, Line.moveTo, Line.text] at this
      rw [← List.append_assoc, List.take_left' (by simp), List.drop_left' (by simp)] at this
      exact this
  · intro h
    obtain ⟨hl, hr⟩ := g.line h
    obtain ⟨s1, h1, g1⟩ := step_cmd he g .delBack none trivial _ rfl
    obtain ⟨s2, h2, g2⟩ := step_cmd he g .mvBack none trivial _ rfl
    refine ⟨⟨s1, h1, ?_⟩, ⟨s2, h2, ?_⟩⟩
    · have := g1.r.holds
      simp only [Option.getD_none, hl, hr, bwd, Line.moveTo, Line.text, Line.cut, List.length_append, Nat.add_sub_cancel] at this
      rw [List.append_assoc, List.take_left, List.drop_left, List.drop_left] at this
      exact this
    · have := g2.r.holds
      simp only [Option.getD_none, hl, hr, bwd, Line.moveTo, Line.text, List.length_append, Nat.add_sub_cancel] at this
      rw [List.append_assoc, List.take_left, List.drop_left] at this
      exact this

/-- **C81** With any argument, moving and deleting forwards ends before a character. -/
theorem forward_boundary (he : EnvOk env) (g : Good env size s a) (c : Cmd) (hc : c = .delChar ∨ c = .mvForw) (arg : Option Nat) :
    ∃ s' l r, step env s c arg = some (s', .std) ∧ Holds s' l r ∧ ∀ x, r.head? = some x → cont x = false := by
  have key : ∀ (n : Nat) (r : List Char) x, (r.drop (Line.forwLen n r)).head? = some x → cont x = false := by
    intro n r x hx
    simp only [Line.forwLen] at hx
    by_cases hn : n ≤ r.length
    · rw [Nat.min_eq_left hn, ← List.drop_drop] at hx
      have e : ∀ l : List Char, l.drop (l.takeWhile cont).length = l.dropWhile cont := by
        intro l
        induction l with
        | nil => rfl
        | cons c l ih => by_cases hc : cont c = true <;> simp [hc, ih]
      rw [e] at hx
      have := List.head?_dropWhile_not cont (r.drop n)
      rw [hx] at this
      simpa using this
    · rw [List.drop_eq_nil_of_le (by omega)] at hx; cases hx
  rcases hc with rfl | rfl
  · obtain ⟨s1, h1, g1⟩ := step_cmd he g .delChar arg trivial _ rfl
    exact ⟨s1, _, _, h1, g1.r.holds, fun x hx => key _ _ x hx⟩
  · obtain ⟨s1, h1, g1⟩ := step_cmd he g .mvForw arg trivial _ rfl
    refine ⟨s1, _, _, h1, g1.r.holds, fun x hx => key (arg.getD 1) a.right x ?_⟩
    simp only [Line.moveTo, Line.text] at hx
    rw [← hx, ← List.drop_drop, List.drop_left]

/-! ## C82: what the commands do -/

/-- **C82** Each of the commands below does to the line what the specification says, and the
buffer, the pointers and the array of killed texts represent the result. -/
theorem does_partial (he : EnvOk env) (g : Good env size s a) (c : Cmd) (arg : Option Nat) (hp : Polite env size a c arg)
    (b : Line) (hb : a.cmd env size c arg = some b) :
    ∃ s', step env s c arg = some (s', .std) ∧ Holds s' b.left b.right ∧ s'.mark = b.mark ∧ s'.histp = b.histp ∧
      Good env size s' { b with yanked := isYank c } := by
  obtain ⟨s', h1, g1⟩ := step_cmd he g c arg hp b hb
  exact ⟨s', h1, g1.r.holds, g1.r.mark, g1.r.histp, g1⟩

/-- **C82** Completion puts the longest text all words begin with in place of the word, quoted, and a blank
after a single word that is no directory; nothing else changes. -/
theorem completes_partial (he : EnvOk env) (g : Good env size s a) (arg : Option Nat) (start stop : Nat) (w : List Char)
    (ws : List (List Char)) (hg : env.glob a.text a.left.length = (start, stop, w :: ws)) (hw : w ≠ []) :
    ∃ s' n, step env s .complete arg = some (s', .std) ∧ Edit.IsLongest (w :: ws) n ∧
      ((ws = [] ∨ stop - start < n) →
        a.text.length - (stop - start) + (Line.completion env.ifs n w (ws ≠ [])).length < size →
        Holds s' (a.text.take start ++ Line.completion env.ifs n w (ws ≠ [])) (a.text.drop stop)) := by
  have hq := complete_spec he g.r
  have hrange := he.range a.text a.left.length (by simp [Line.text])
  rw [hg] at hq hrange
  obtain ⟨s1, a1, n, h1, h2, h3, h4⟩ := hq hw
  refine ⟨{ s1 with yanked := false }, n, by simp [step, exec, h1, std, isYank], h3, fun hc hroom => ?_⟩
  have hh : Holds { s1 with yanked := false } a1.left a1.right := h2.holds
  rw [if_neg (by
    rintro ⟨q1, q2⟩
    rcases hc with hc | hc
    · exact q1 hc
    · omega)] at h4
  obtain ⟨y, ⟨f, h5⟩, h6⟩ := h4
  simp only at hrange
  have hy := h6 (by
    simp only [Line.replaced, Line.cut, Line.moveTo, Line.text, List.length_append, List.length_take, List.length_drop] at hroom ⊢
    simp only [Line.text, List.length_append] at hrange
    omega)
  rw [h5, hy] at hh
  simp only [Line.replaced, Line.cut, Line.moveTo, List.drop_drop] at hh
  rw [show start + (stop - start) = stop by omega] at hh
  exact hh

/-- **C82** A step of the incremental search shows the nearest earlier line of the history that
matches, with the cursor after the match. -/
theorem searches_partial (he : EnvOk env) (g : Good env size s a) (pat : List Char)
    (hlong : ∀ l ∈ env.hist, l.length < size) (i : Nat) (s' : Ed) (h : search env s pat false = some (some i, s')) :
    ∃ (n : Nat) (l : List Char), env.hist[n]? = some l ∧ body pat <+: l.drop i ∧ (n : Int) < s.histp ∧
      (∀ m : Nat, n < m → (m : Int) < s.histp → ∀ l', env.hist[m]? = some l' → xmatch l' pat = none) ∧
      s'.histp = n ∧ s'.text = l ∧ s'.cp = i + (body pat).length := by
  obtain ⟨o, s1, a1, e1, e2, _, _, e5, _⟩ := search_spec he g.r g.h pat false hlong (by intro h; cases h)
  rw [h] at e1
  cases e1
  obtain ⟨n, l, f1, f2, f3, f4, f5, f6, f7, _⟩ := e5 i rfl
  have hc := caret_le pat
  simp only [Bool.false_eq_true, if_false] at f3 f4
  refine ⟨n, l, f1, (xmatch_spec f2).1, by rw [g.r.histp]; omega, ?_, by rw [e2.histp, f5], by rw [e2.text, f6], ?_⟩
  · intro m h1 h2
    rw [g.r.histp] at h2
    exact f4 m h1 (by omega)
  · rw [e2.cp, f7]; simp only [body, List.length_drop]; omega

/-! ## Concrete lines -/

def env0 : Env := { hist := [['e', 'c', 'h', 'o', ' ', 'a'], ['l', 's']], gmacs := false, ifs := [' ', '\t', '\n'],
                    glob := fun t _ => (0, t.length, [['a', ' ', 'b', '1'], ['a', ' ', 'b', '2']]) }

theorem env0_ok : EnvOk env0 := by
  refine ⟨?_, ?_, ?_⟩
  · intro h hh; simp only [env0, List.mem_cons, List.not_mem_nil, or_false] at hh; rcases hh with rfl | rfl <;> simp [NoNul]
  · intro t p _; simp [env0]
  · intro t p w hw; simp only [env0, List.mem_cons, List.not_mem_nil, or_false] at hw; rcases hw with rfl | rfl <;> simp [NoNul]

def ring0 : List (Option (List Char)) := List.replicate 20 none

/-- A new line in a buffer of `n` bytes. -/
def fresh (env : Env) (n : Nat) : Ed := start env (List.replicate n 'x') ring0 0 0

/-- Text, cursor and how it ended. -/
def look (r : Option (Ed × Ret)) : Option (List Char × Nat × Ret) := r.map (fun r => (r.1.text, r.1.cp, r.2))

def keys (l : List Cmd) : List (Cmd × Option Nat) := l.map (fun c => (c, none))

/-- Typing, moving, case, entering. -/
example : look (run env0 (keys [.insert 'l', .insert 's', .insert ' ', .insert 'a', .mvBegin, .fold .cap, .newline]) (fresh env0 16))
    = some (['L', 's', ' ', 'a', '\n'], 2, .eol) := by decide +kernel

/-- Killed words come back, one after the other. -/
example : look (run env0 (keys [.insStr ['a', 'b', ' ', 'c', 'd', ' ', 'e'], .delBword, .delBword, .yank, .metaYank]) (fresh env0 16))
    = some (['a', 'b', ' ', 'e'], 4, .std) := by decide +kernel

example : ∀ n, ∃ s', run env0 ((.yank, none) :: List.replicate n (.metaYank, none))
    (start env0 (List.replicate 16 'x') (some ['a', 'b'] :: some ['c'] :: List.replicate 18 none) 2 0) = some (s', .std) ∧
    s'.text = ([['c'], ['a', 'b']] : List (List Char)).getD (n % 2) [] := by
  intro n
  have hr : Ring (some ['a', 'b'] :: some ['c'] :: List.replicate 18 none) 2 [['c'], ['a', 'b']] := by
    refine ⟨by simp, by omega, by decide, by simp, ?_⟩
    intro w hw; simp only [List.mem_cons, List.not_mem_nil, or_false] at hw; rcases hw with rfl | rfl <;> simp [NoNul]
  obtain ⟨s', h1, h2, _⟩ := yank_pop_partial env0_ok (start_good env0 (List.replicate 16 'x') _ 2 0 _ (by simp) hr) (by simp)
    (by intro k hk; simp only [List.mem_cons, List.not_mem_nil, or_false] at hk; rcases hk with rfl | rfl <;> simp [Line.text]) n
  exact ⟨s', h1, by simpa using h2⟩

/-- A character of two bytes is one character; the word is completed and quoted; a line is found. -/
example : look (run env0 (keys [.insStr ['a', 'Ã', '©'], .delBack]) (fresh env0 16)) = some (['a'], 1, .std) := by decide +kernel
example : look (run env0 (keys [.insert 'a', .complete]) (fresh env0 16)) = some (['a', '\\', ' ', 'b'], 4, .std) := by decide +kernel
example : look (run env0 [(.searchHist [.char 'c', .char 'h'], none)] (fresh env0 16)) = some (['e', 'c', 'h', 'o', ' ', 'a'], 3, .std) := by
  decide +kernel

/-- The premisses of `edit_safe_partial` hold in an ordinary session with all the commands in question. -/
example : (run env0 (keys [.insStr ['a', 'b', ' ', 'c'], .setMark, .mvBegin, .xchg, .delBword, .mvBegin, .yank, .metaYank, .killRegion,
    .prevHistword, .searchHist [.char 'c'], .complete]) (fresh env0 64)).isSome = true := by decide +kernel

/-! ## Where the editor leaves the buffer -/

/-- A yank that does not fit counts as a yank: yank-pop then takes away bytes before the buffer… -/
theorem pop_unfit_before : run env0 (keys [.insert 'a', .insert 'b', .mvBegin, .kill, .insStr ['c', 'c', 'c', 'c', 'c', 'c'], .mvBegin,
    .yank, .metaYank]) (fresh env0 8) = none := by decide +kernel

/-- … or text that was never yanked. -/
theorem pop_unfit_loses : look (run env0 (keys [.insert 'a', .insert 'b', .mvBegin, .kill, .insStr ['c', 'd', 'e', 'f', 'g', 'h'],
    .yank, .metaYank]) (fresh env0 8)) = some (['c', 'd', 'e', 'f', 'a', 'b'], 6, .std) := by decide +kernel

/-- A yank-pop that was refused counts as a yank once twenty texts have been killed. -/
theorem pop_refused : run env0 (keys ((List.replicate 20 [Cmd.insert 'a', .insert 'b', .delBword]).flatten ++ [.noop, .metaYank, .metaYank]))
    (fresh env0 8) = none := by decide +kernel

/-- The mark is kept when a shorter line of the history is shown: the cursor ends up behind the line and
the next character is inserted with a negative length. -/
theorem mark_stale : run env0 (keys [.insStr ['a', 'b', 'c', 'd', 'e'], .setMark, .prevCom, .xchg, .insert 'x']) (fresh env0 16) = none := by
  decide +kernel

theorem mark_stale_cursor : look (run env0 (keys [.insStr ['a', 'b', 'c', 'd', 'e'], .setMark, .prevCom, .xchg]) (fresh env0 16))
    = some (['l', 's'], 5, .std) := by decide +kernel

theorem mark_stale_kill : run env0 (keys [.insStr ['a', 'b', 'c', 'd', 'e'], .setMark, .prevCom, .killRegion]) (fresh env0 16) = none := by
  decide +kernel

/-- A line of the history longer than the buffer: the cursor is put where the match would be. -/
theorem search_long : run { env0 with hist := [['a', 'b', 'c', 'd', 'e', 'f', 'g', 'h', 'i', 'j']] } (keys [.searchHist [.char 'j'], .insert 'x'])
    (fresh env0 6) = none := by decide +kernel

/-- The last word of an empty history line. -/
theorem histword_empty : run { env0 with hist := [[]] } (keys [.prevHistword]) (fresh env0 6) = none := by decide +kernel

/-- A single empty word to complete with. -/
theorem complete_empty : run { env0 with glob := fun t _ => (t.length, t.length, [[]]) } (keys [.complete]) (fresh env0 6) = none := by
  decide +kernel

/-- Two characters of two bytes: an argument of two moves over one of them, and transposing splits one. -/
theorem arg_bytes : look (run env0 [(.insStr ['Ã', '©', 'Ã', '¨'], none), (.mvBegin, none), (.mvForw, some 2)] (fresh env0 16))
    = some (['Ã', '©', 'Ã', '¨'], 2, .std) := by decide +kernel

theorem transpose_splits : look (run env0 (keys [.insStr ['a', 'Ã', '©'], .transpose]) (fresh env0 16))
    = some (['a', '©', 'Ã'], 3, .std) := by decide +kernel

/-- A byte beyond ASCII is found forwards and not backwards. -/
theorem search_signed : look (run env0 (keys [.insStr ['a', 'Ã', 'b'], .searchForw (some 'Ã')]) (fresh env0 16)) = some (['a', 'Ã', 'b'], 1, .std) ∧
    look (run env0 (keys [.insStr ['a', 'Ã', 'b'], .searchBack (some 'Ã')]) (fresh env0 16)) = some (['a', 'Ã', 'b'], 3, .std) := by decide +kernel

end Ksh.Emacs
