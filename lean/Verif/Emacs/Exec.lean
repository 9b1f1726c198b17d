import Verif.Emacs.Cmds
import Verif.Edit.Complete
/-!
# Completion, the history, and all commands together
-/

namespace Ksh.Emacs

variable {size : Nat} {s : Ed} {a : Line} {env : Env}

/-- `b` is `a` with `x` inserted (and perhaps the note about the room changed). -/
def Inserted (a : Line) (x : List Char) (b : Line) : Prop := ∃ f, b = { a with left := a.left ++ x, fit := f }

theorem Inserted.trans {a b c : Line} {x y : List Char} (h1 : Inserted a x b) (h2 : Inserted b y c) :
    Inserted a (x ++ y) c := by
  obtain ⟨f, rfl⟩ := h1
  obtain ⟨g, rfl⟩ := h2
  exact ⟨g, by simp⟩

theorem Inserted.length {a b : Line} {x : List Char} (h : Inserted a x b) : b.text.length = a.text.length + x.length := by
  obtain ⟨f, rfl⟩ := h
  simp [Line.text]; omega

theorem ins_inserted (a : Line) (x : List Char) :
    ∃ y, Inserted a y (a.ins size x) ∧ (a.text.length + x.length < size → y = x) := by
  simp only [Line.ins]
  by_cases h : a.text.length + x.length < size
  · rw [if_pos h]; exact ⟨x, ⟨true, rfl⟩, fun _ => rfl⟩
  · rw [if_neg h]; exact ⟨[], ⟨false, by simp⟩, fun hh => absurd hh h⟩

theorem doIns_ins (h : R size s a) (x : List Char) (hx : NoNul x) :
    ∃ b s' a' y, doIns s x = some (b, s') ∧ R size s' a' ∧ Inserted a y a' ∧
      (a.text.length + x.length < size → b = true ∧ y = x) := by
  obtain ⟨s', h1, r1⟩ := doIns_spec h x hx
  obtain ⟨y, i1, i2⟩ := ins_inserted (size := size) a x
  exact ⟨_, s', _, y, h1, r1, i1, fun hr => ⟨by simpa using hr, i2 hr⟩⟩

theorem quoted_cons (ifs : List Char) (c : Char) (w : List Char) :
    Line.quoted ifs (c :: w) = (if special ifs c then ['\\', c] else [c]) ++ Line.quoted ifs w := by
  simp [Line.quoted]

theorem escape_spec (ifs : List Char) : ∀ (w pre : List Char) {s : Ed} {a : Line}, R size s a → NoNul pre → NoNul w →
    ∃ b s' a' y, escape ifs pre w s = some (b, s') ∧ R size s' a' ∧ Inserted a y a' ∧
      (a.text.length + pre.length + (Line.quoted ifs w).length < size → b = true ∧ y = pre ++ Line.quoted ifs w) := by
  intro w
  induction w with
  | nil =>
    intro pre s a h hp _
    simp only [escape]
    by_cases h0 : pre = []
    · rw [if_pos h0]
      exact ⟨true, s, a, [], rfl, h, ⟨a.fit, by simp⟩, fun _ => ⟨rfl, by simp [h0, Line.quoted]⟩⟩
    · rw [if_neg h0]
      obtain ⟨b, s', a', y, e1, e2, e3, e4⟩ := doIns_ins h pre hp
      exact ⟨b, s', a', y, e1, e2, e3, fun hr => by simpa [Line.quoted] using e4 (by omega)⟩
  | cons c w ih =>
    intro pre s a h hp hw
    simp only [NoNul, List.mem_cons, not_or] at hw
    simp only [escape]
    by_cases hs : special ifs c = true
    · rw [if_pos hs, quoted_cons, if_pos hs]
      obtain ⟨b1, s1, a1, y1, d1, r1, i1, f1⟩ := doIns_ins h pre hp
      rw [d1]
      cases b1 with
      | false =>
        exact ⟨false, s1, a1, y1, rfl, r1, i1, fun hr => by
          have := (f1 (by simp only [List.length_append] at hr; omega)).1; cases this⟩
      | true =>
        obtain ⟨b2, s2, a2, y2, d2, r2, i2, f2⟩ := doIns_ins r1 ['\\'] (by simp [NoNul])
        obtain ⟨b3, s3, a3, y3, d3, r3, i3, f3⟩ := doIns_ins r2 [c] (by simpa [NoNul] using hw.1)
        obtain ⟨b4, s4, a4, y4, d4, r4, i4, f4⟩ := ih [] r3 (by simp [NoNul]) hw.2
        simp only [d2, d3]
        refine ⟨b4, s4, a4, y1 ++ (y2 ++ (y3 ++ y4)), d4, r4, i1.trans (i2.trans (i3.trans i4)), ?_⟩
        intro hr
        simp only [List.length_append, List.length_cons, List.length_nil] at hr
        have l1 := i1.length
        have g1 := (f1 (by omega)).2
        rw [g1] at l1
        have g2 := (f2 (by simp only [List.length_cons, List.length_nil]; omega)).2
        have l2 := i2.length
        rw [g2] at l2
        simp only [List.length_cons, List.length_nil] at l2
        have g3 := (f3 (by simp only [List.length_cons, List.length_nil]; omega)).2
        have l3 := i3.length
        rw [g3] at l3
        simp only [List.length_cons, List.length_nil] at l3
        obtain ⟨g4, g5⟩ := f4 (by simp only [List.length_nil]; omega)
        exact ⟨g4, by rw [g1, g2, g3, g5]; simp⟩
    · rw [if_neg hs, quoted_cons, if_neg hs]
      obtain ⟨b, s', a', y, e1, e2, e3, e4⟩ := ih (pre ++ [c]) h
        (by simp only [NoNul, List.mem_append, not_or]; exact ⟨hp, by simpa using hw.1⟩) hw.2
      refine ⟨b, s', a', y, e1, e2, e3, fun hr => ?_⟩
      simp only [List.length_append, List.length_cons, List.length_nil] at hr e4
      obtain ⟨g1, g2⟩ := e4 (by omega)
      exact ⟨g1, by rw [g2]; simp⟩

/-- What completion puts in place of the word: as much as the words have in common, quoted, and a
blank after a single word that is no directory. -/
def Line.completion (ifs : List Char) (n : Nat) (w : List Char) (many : Bool) : List Char :=
  Line.quoted ifs (w.take n) ++ (if many || (w.take n).getLast? = some '/' then [] else [' '])

/-- The text of the word is replaced. -/
def Line.replaced (a : Line) (start stop : Nat) : Line := (a.moveTo start).cut (stop - start)

theorem replaced_left (a : Line) (start stop : Nat) : (a.replaced start stop).left = a.text.take start := rfl

theorem complete1_spec (h : R size s a) (start stop nlen : Nat) (w : List Char) (many : Bool) (hw : NoNul w)
    (h1 : start ≤ stop) (h2 : stop ≤ a.text.length) :
    ∃ s' a' y, complete1 env s start (stop - start) nlen w many = some s' ∧ R size s' a' ∧
      (if many = true ∧ nlen ≤ stop - start then a' = a
       else Inserted (a.replaced start stop) y a' ∧
        ((a.replaced start stop).text.length + (Line.quoted env.ifs (w.take nlen)).length < size →
          y = Line.quoted env.ifs (w.take nlen))) := by
  simp only [complete1]
  by_cases hm : many = true ∧ nlen ≤ stop - start
  · rw [if_neg (by simp [hm.1]; omega)]
    exact ⟨s, a, [], rfl, h, by rw [if_pos hm]⟩
  · rw [if_pos (by
      simp only [Bool.or_eq_true, Bool.not_eq_true', decide_eq_true_eq]
      cases many with
      | false => left; rfl
      | true => right; simp at hm; omega)]
    obtain ⟨s1, g1, r1⟩ := goto_spec h start (by omega)
    obtain ⟨s2, g2, r2⟩ := del_spec r1 (stop - start) (by simp [Line.moveTo]; omega)
    obtain ⟨b, s3, a3, y, e1, e2, e3, e4⟩ := escape_spec (size := size) env.ifs (w.take nlen) [] r2
      (by simp [NoNul]) (fun hm => hw (List.mem_of_mem_take hm))
    simp only [g1, g2, e1, Option.map_some]
    refine ⟨s3, a3, y, rfl, e2, ?_⟩
    rw [if_neg hm]
    refine ⟨e3, fun hr => ?_⟩
    have := (e4 (by simpa [Line.replaced] using hr)).2
    simpa using this

theorem complete_spec (he : EnvOk env) (h : R size s a) :
    match env.glob a.text a.left.length with
    | (_, _, []) => complete env s = some s
    | (start, stop, w :: ws) =>
      w ≠ [] →
      ∃ s' a' n, complete env s = some s' ∧ R size s' a' ∧ Edit.IsLongest (w :: ws) n ∧
        (if ws ≠ [] ∧ n ≤ stop - start then a' = a
         else ∃ y, Inserted (a.replaced start stop) y a' ∧
          ((a.replaced start stop).text.length + (Line.completion env.ifs n w (ws ≠ [])).length < size →
            y = Line.completion env.ifs n w (ws ≠ []))) := by
  have htext : s.mem.take s.ep = a.text := by
    obtain ⟨j, hj⟩ := h.memText
    rw [hj, h.ep', List.take_left]
  simp only [complete, htext, h.cp]
  have hr := he.range a.text a.left.length (by simp [Line.text])
  have hw := he.words a.text a.left.length
  generalize env.glob a.text a.left.length = g at hr hw
  obtain ⟨start, stop, words⟩ := g
  cases words with
  | nil => rfl
  | cons w ws =>
    intro hne
    simp only at hr hw ⊢
    obtain ⟨n, hn, hlong⟩ := Edit.longestPrefix_spec (w :: ws) (by simp) hw
    rw [hn]
    simp only
    obtain ⟨s1, a1, y, c1, r1, c2⟩ := complete1_spec (env := env) h start stop n w (ws ≠ []) (hw w List.mem_cons_self) hr.1 hr.2
    rw [c1]
    simp only [complete2]
    by_cases hmany : ws ≠ []
    · rw [if_pos (by simpa using hmany)]
      refine ⟨s1, a1, n, rfl, r1, hlong, ?_⟩
      by_cases hlen : n ≤ stop - start
      · rw [if_pos ⟨by simpa using hmany, hlen⟩] at c2
        rw [if_pos ⟨hmany, hlen⟩]; exact c2
      · rw [if_neg (fun hh => hlen hh.2)] at c2
        rw [if_neg (fun hh => hlen hh.2)]
        refine ⟨y, c2.1, fun hr => ?_⟩
        simp only [Line.completion, hmany, ne_eq, not_false_eq_true, decide_true, Bool.true_or, if_true, List.append_nil] at hr ⊢
        exact c2.2 hr
    · have hws : ws = [] := by simpa using hmany
      subst hws
      rw [if_neg (by simp)]
      have hfull : n = w.length := by
        have l1 := hlong.1 w (by simp)
        have l2 := hlong.2.2 w.length (by simp) (by simp)
        omega
      have hpos : 0 < w.length := List.length_pos_iff.2 hne
      rw [if_neg (by omega)]
      have hlast : w[n - 1]? = w.getLast? := by rw [hfull, List.getLast?_eq_getElem?]
      have htake : w.take n = w := by rw [hfull]; simp
      rw [if_neg (by simp)] at c2
      rw [hlast, List.getLast?_eq_some_getLast hne]
      simp only
      by_cases hd : w.getLast hne = '/'
      · rw [if_pos hd]
        refine ⟨s1, a1, n, rfl, r1, hlong, ?_⟩
        rw [if_neg (by simp)]
        refine ⟨y, c2.1, fun hr => ?_⟩
        have hl : (w.take n).getLast? = some '/' := by rw [htake, List.getLast?_eq_some_getLast hne, hd]
        simp only [Line.completion, hl, decide_true, Bool.or_true, if_true, List.append_nil] at hr ⊢
        exact c2.2 hr
      · rw [if_neg hd]
        obtain ⟨s2, e1, r2⟩ := ins_spec r1 [' '] (by simp [NoNul])
        rw [e1]
        refine ⟨s2, _, n, rfl, r2, hlong, ?_⟩
        rw [if_neg (by simp)]
        obtain ⟨z, i1, i2⟩ := ins_inserted (size := size) a1 [' ']
        refine ⟨y ++ z, c2.1.trans i1, fun hr => ?_⟩
        have hl : (w.take n).getLast? ≠ some '/' := by
          rw [htake, List.getLast?_eq_some_getLast hne]
          intro hh; injection hh with hh; exact hd hh
        simp only [Line.completion, ne_eq, not_true_eq_false, decide_false, Bool.false_or, hl, Bool.false_eq_true,
          if_false, List.length_append, List.length_cons, List.length_nil] at hr ⊢
        have q1 := c2.2 (by omega)
        have q2 := c2.1.length
        rw [q1] at q2
        rw [q1, i2 (by simp only [List.length_cons, List.length_nil]; omega)]

/-- The words that replace a pattern: quoted, with a blank between them. -/
def Line.expansion (ifs : List Char) : List (List Char) → List Char
  | [] => []
  | [w] => Line.quoted ifs w
  | w :: ws => Line.quoted ifs w ++ ' ' :: Line.expansion ifs ws

theorem expandLoop_spec (ifs : List Char) : ∀ (ws : List (List Char)) {s : Ed} {a : Line}, R size s a → (∀ w ∈ ws, NoNul w) →
    ∃ s' a' y, expandLoop ifs ws s = some s' ∧ R size s' a' ∧ Inserted a y a' ∧
      (a.text.length + (Line.expansion ifs ws).length < size → y = Line.expansion ifs ws) := by
  intro ws
  induction ws with
  | nil => intro s a h _; exact ⟨s, a, [], rfl, h, ⟨a.fit, by simp⟩, fun _ => rfl⟩
  | cons w ws ih =>
    intro s a h hn
    obtain ⟨b1, s1, a1, y1, d1, r1, i1, f1⟩ := escape_spec (size := size) ifs w [] h (by simp [NoNul]) (hn w List.mem_cons_self)
    simp only [expandLoop, d1]
    have hexp : (Line.quoted ifs w).length ≤ (Line.expansion ifs (w :: ws)).length := by
      cases ws <;> simp [Line.expansion]
    cases b1 with
    | false =>
      refine ⟨s1, a1, y1, rfl, r1, i1, fun hr => ?_⟩
      have := (f1 (by simp only [List.length_nil]; omega)).1
      cases this
    | true =>
      simp only
      cases ws with
      | nil =>
        rw [if_pos rfl]
        refine ⟨s1, a1, y1, rfl, r1, i1, fun hr => ?_⟩
        have := (f1 (by simp only [List.length_nil]; omega)).2
        simpa [Line.expansion] using this
      | cons w2 ws =>
        rw [if_neg (by simp)]
        obtain ⟨b2, s2, a2, y2, d2, r2, i2, f2⟩ := doIns_ins r1 [' '] (by simp [NoNul])
        rw [d2]
        have key : a.text.length + (Line.expansion ifs (w :: w2 :: ws)).length < size →
            y1 = Line.quoted ifs w ∧ b2 = true ∧ y2 = [' '] ∧ a2.text.length + (Line.expansion ifs (w2 :: ws)).length < size := by
          intro hr
          simp only [Line.expansion, List.length_append, List.length_cons] at hr
          have g1 := (f1 (by simp only [List.length_nil]; omega)).2
          simp only [List.nil_append] at g1
          have l1 := i1.length
          rw [g1] at l1
          obtain ⟨g2, g3⟩ := f2 (by simp only [List.length_cons, List.length_nil]; omega)
          have l2 := i2.length
          rw [g3] at l2
          simp only [List.length_cons, List.length_nil] at l2
          exact ⟨g1, g2, g3, by omega⟩
        cases b2 with
        | false =>
          refine ⟨s2, a2, y1 ++ y2, rfl, r2, i1.trans i2, fun hr => ?_⟩
          have := (key hr).2.1; cases this
        | true =>
          obtain ⟨s3, a3, y3, d3, r3, i3, f3⟩ := ih r2 (fun w hw => hn w (List.mem_cons_of_mem _ hw))
          refine ⟨s3, a3, y1 ++ (y2 ++ y3), d3, r3, i1.trans (i2.trans i3), fun hr => ?_⟩
          obtain ⟨k1, _, k3, k4⟩ := key hr
          rw [k1, k3, f3 k4]
          simp [Line.expansion]

theorem expand_spec (he : EnvOk env) (h : R size s a) :
    match env.glob a.text a.left.length with
    | (_, _, []) => expand env s = some s
    | (start, stop, w :: ws) =>
      ∃ s' a' y, expand env s = some s' ∧ R size s' a' ∧ Inserted (a.replaced start stop) y a' ∧
        ((a.replaced start stop).text.length + (Line.expansion env.ifs (w :: ws)).length < size →
          y = Line.expansion env.ifs (w :: ws)) := by
  have htext : s.mem.take s.ep = a.text := by
    obtain ⟨j, hj⟩ := h.memText
    rw [hj, h.ep', List.take_left]
  simp only [expand, htext, h.cp]
  have hr := he.range a.text a.left.length (by simp [Line.text])
  have hw := he.words a.text a.left.length
  generalize env.glob a.text a.left.length = g at hr hw
  obtain ⟨start, stop, words⟩ := g
  cases words with
  | nil => rfl
  | cons w ws =>
    simp only at hr hw ⊢
    obtain ⟨s1, g1, r1⟩ := goto_spec h start (by omega)
    obtain ⟨s2, g2, r2⟩ := del_spec r1 (stop - start) (by simp [Line.moveTo]; omega)
    rw [g1]
    simp only [g2]
    exact expandLoop_spec env.ifs (w :: ws) r2 hw

/-! ## Comments, words of the history -/

/-- What a line that is handed over still has in common with one being edited. -/
structure Done (size : Nat) (s : Ed) : Prop where
  len : s.mem.length = size
  ep : s.ep ≤ size
  ring : ∃ kills, Ring s.ring s.sp kills

theorem newline_spec (h : R size s a) :
    ∃ s', newline s = some (s', .eol) ∧ s'.mem.take s'.ep = a.text ++ ['\n'] ∧ Done size s' := by
  obtain ⟨j, hj⟩ := h.memText
  have hs := h.ep_lt
  refine ⟨{ s with mem := s.mem.set s.ep '\n', ep := s.ep + 1 }, ?_, ?_, ⟨?_, ?_, ⟨_, h.ring⟩⟩⟩
  · simp only [newline]; rw [if_pos (by rw [h.size]; exact hs)]
  · simp only
    rw [hj, h.ep']
    rw [show (a.text ++ '\x00' :: j).set a.text.length '\n' = (a.text ++ ['\n']) ++ j by simp]
    rw [List.take_left' (by simp)]
  · simpa using h.size
  · simp only; omega

theorem text_head (h : R size s a) (hne : a.text ≠ []) : s.mem[0]? = a.text.head? := by
  obtain ⟨j, hj⟩ := h.memText
  rw [hj]
  cases ht : a.text with
  | nil => exact absurd ht hne
  | cons c l => rfl

theorem uncommented_nul {t : List Char} (h : NoNul t) : NoNul (Edit.uncommented t) := by
  have hl : ∀ t : List Char, NoNul t → ∀ x ∈ Edit.lines t, NoNul x := by
    intro t
    induction t with
    | nil => intro _ x hx; simp [Edit.lines] at hx; subst hx; simp [NoNul]
    | cons c t ih =>
      intro hn x hx
      simp only [NoNul, List.mem_cons, not_or] at hn
      simp only [Edit.lines] at hx
      split at hx
      · simp only [List.mem_cons] at hx
        rcases hx with rfl | hx
        · simp [NoNul]
        · exact ih hn.2 x hx
      · split at hx
        · simp only [List.mem_cons, List.not_mem_nil, or_false] at hx
          subst hx
          simpa [NoNul] using hn.1
        · next y ys hy =>
          simp only [List.mem_cons] at hx
          rcases hx with rfl | hx
          · have := ih hn.2 y (by rw [hy]; exact List.mem_cons_self)
            simp only [NoNul, List.mem_cons, not_or]; exact ⟨hn.1, this⟩
          · exact ih hn.2 x (by rw [hy]; exact List.mem_cons_of_mem _ hx)
  have hu : ∀ ls : List (List Char), (∀ x ∈ ls, NoNul x) → NoNul (Edit.unlines ls) := by
    intro ls
    induction ls with
    | nil => intro _; simp [NoNul, Edit.unlines]
    | cons x xs ih =>
      intro hn
      cases xs with
      | nil => simpa [Edit.unlines] using hn x (by simp)
      | cons y ys =>
        simp only [Edit.unlines]
        have := ih (fun z hz => hn z (List.mem_cons_of_mem _ hz))
        simp only [NoNul, List.mem_append, List.mem_cons, not_or]
        exact ⟨hn x List.mem_cons_self, by decide, this⟩
  simp only [Edit.uncommented]
  apply hu
  intro x hx
  obtain ⟨y, hy, rfl⟩ := List.mem_map.1 hx
  have := hl t h y hy
  unfold Edit.dropHash
  split
  · simp only [NoNul, List.mem_cons, not_or] at this; exact this.2
  · exact this

/-- `comment`: an uncommented line is edited further, a commented one is entered. -/
theorem comment_spec (h : R size s a) :
    (a.text.head? = some '#' → ∃ s', comment s = some (s', .std) ∧
      R size s' { a with left := [], right := Edit.uncommented a.text }) ∧
    (a.text.head? ≠ some '#' → a.text ≠ [] → a.text.length + Edit.nlines a.text < size →
      ∃ s', comment s = some (s', .eol) ∧ s'.mem.take s'.ep = Edit.commented a.text ++ ['\n'] ∧ Done size s') ∧
    (a.text.head? ≠ some '#' → a.text ≠ [] → size ≤ a.text.length + Edit.nlines a.text → comment s = some (s, .std)) ∧
    (a.text = [] → ∃ s', comment s = some (s', .eol) ∧ s'.mem.take s'.ep = ['\n'] ∧ Done size s') := by
  have hs := h.ep_lt
  have htext : s.mem.take s.ep = a.text := by
    obtain ⟨j, hj⟩ := h.memText
    rw [hj, h.ep', List.take_left]
  have hlen0 : a.text ≠ [] → 0 < s.ep := by
    intro hne; rw [h.ep']; exact List.length_pos_iff.2 hne
  refine ⟨?_, ?_, ?_, ?_⟩
  · intro hh
    have hne : a.text ≠ [] := by intro h0; rw [h0] at hh; cases hh
    obtain ⟨m, l, d1, d2, d3, d4, d5⟩ := Edit.uncomments s.mem s.mem.length s.ep (Nat.le_refl _) (by rw [h.size]; omega)
      (hlen0 hne) (by rw [text_head h hne, hh])
    simp only [comment, d1]
    rw [if_neg (by omega), if_pos (by rw [d4, h.size]; omega), if_neg (by omega)]
    refine ⟨_, rfl, ?_⟩
    rw [htext] at d2
    have hl : (Edit.uncommented a.text).length = l := by
      rw [← d2, List.length_take, d4, h.size]; omega
    refine { h with mem := ⟨m.drop (l+1), ?_⟩, size := ?_, cp := rfl, ep := ?_, nl := ?_, nr := ?_ }
    · simp only [List.nil_append]
      rw [← d2]
      rw [List.set_eq_take_append_cons_drop, if_pos (by rw [d4, h.size]; omega)]
    · simpa [d4] using h.size
    · simp [hl]
    · simp [NoNul]
    · exact uncommented_nul h.nt
  · intro hh hne hroom
    obtain ⟨m, l, d1, d2, d3, d4, d5⟩ := Edit.comments s.mem s.mem.length s.ep (Nat.le_refl _) (by rw [h.size]; omega)
      (hlen0 hne) (by rw [text_head h hne]; exact hh) (by rw [htext, h.size, h.ep']; exact hroom)
    rw [htext, h.ep'] at d5
    simp only [comment, d1]
    rw [if_neg (by omega), if_pos (by rw [d4, h.size]; omega), if_pos (by omega)]
    simp only [newline]
    rw [if_pos (by simp only [List.length_set, d4, h.size]; omega)]
    refine ⟨_, rfl, ?_, ⟨?_, ?_, ⟨_, h.ring⟩⟩⟩
    · simp only [List.set_set]
      rw [htext] at d2
      rw [← d2]
      rw [List.set_eq_take_append_cons_drop, if_pos (by rw [d4, h.size]; omega)]
      rw [show m.take l ++ '\n' :: m.drop (l+1) = (m.take l ++ ['\n']) ++ m.drop (l+1) by simp, List.take_left']
      simp only [List.length_append, List.length_take, List.length_cons, List.length_nil, d4, h.size]; omega
    · simpa [d4] using h.size
    · simp only; omega
  · intro hh hne hroom
    have := Edit.no_room s.mem s.mem.length s.ep (Nat.le_refl _) (by rw [h.size]; omega)
      (hlen0 hne) (by rw [text_head h hne]; exact hh) (by rw [htext, h.size, h.ep']; exact hroom)
    simp only [comment, this]
    rw [if_pos (by omega)]
  · intro h0
    have hep : s.ep = 0 := by rw [h.ep', h0]; rfl
    simp only [comment, Edit.doComment, hep, if_true]
    rw [if_neg (by omega), if_pos (by rw [h.size]; omega), if_pos (by omega)]
    simp only [newline]
    rw [if_pos (by simp only [List.length_set, h.size]; omega)]
    refine ⟨_, rfl, ?_, ⟨?_, ?_, ⟨_, h.ring⟩⟩⟩
    · simp only [List.set_set]
      cases hm : s.mem with
      | nil => rw [← h.size, hm] at hs; simp at hs
      | cons c l => rfl
    · simpa using h.size
    · simp only; omega

theorem wordLoop_spec (h : List Char) (p : Char → Bool) : ∀ r, r < h.length →
    ∃ q, wordLoop h p r = some q ∧ q ≤ r ∧ (∀ i, q < i → i ≤ r → ∃ c, h[i]? = some c ∧ p c = true) ∧
      (q = 0 ∨ ∃ c, h[q]? = some c ∧ p c = false) := by
  intro r
  induction r with
  | zero => intro _; exact ⟨0, rfl, Nat.le_refl _, fun i h1 h2 => by omega, Or.inl rfl⟩
  | succ r ih =>
    intro hlt
    simp only [wordLoop]
    rw [List.getElem?_eq_getElem hlt]
    simp only
    cases hc : p h[r+1] with
    | false =>
      simp only [Bool.false_eq_true, if_false]
      exact ⟨r+1, rfl, Nat.le_refl _, fun i h1 h2 => by omega, Or.inr ⟨_, List.getElem?_eq_getElem hlt, hc⟩⟩
    | true =>
      simp only [if_true]
      obtain ⟨q, h1, h2, h3, h4⟩ := ih (by omega)
      refine ⟨q, h1, by omega, ?_, h4⟩
      intro i hi1 hi2
      by_cases he : i = r + 1
      · exact ⟨h[r+1], by rw [he, List.getElem?_eq_getElem hlt], hc⟩
      · exact h3 i hi1 (by omega)

theorem lastWord_some (h : List Char) (hne : h ≠ []) : ∃ w, lastWord h = some w ∧ w <:+ h := by
  have hpos : 0 < h.length := List.length_pos_iff.2 hne
  simp only [lastWord]
  rw [if_neg hne]
  obtain ⟨q1, a1, a2, _, _⟩ := wordLoop_spec h cfs (h.length - 1) (by omega)
  obtain ⟨q2, b1, b2, _, _⟩ := wordLoop_spec h (fun c => !cfs c) q1 (by omega)
  rw [a1]; simp only [b1]
  rw [List.getElem?_eq_getElem (show q2 < h.length by omega)]
  exact ⟨_, rfl, List.drop_suffix _ _⟩

theorem nthWord_infix : ∀ (n : Nat) (h : List Char), NoNul h → NoNul (nthWord n h) := by
  intro n
  induction n using Nat.strongRecOn with
  | ind n ih =>
    intro h hn
    match n with
    | 0 => exact fun hm => hn ((List.takeWhile_sublist _).subset hm)
    | 1 => exact fun hm => hn ((List.takeWhile_sublist _).subset hm)
    | n+2 =>
      simp only [nthWord]
      apply ih (n+1) (by omega)
      exact fun hm => hn ((List.dropWhile_sublist _).subset ((List.dropWhile_sublist _).subset hm))

theorem wordLoop_eq (h : List Char) (p : Char → Bool) (q : Nat) : ∀ r, r < h.length → q ≤ r →
    (∀ i, q < i → i ≤ r → ∃ c, h[i]? = some c ∧ p c = true) → (q = 0 ∨ ∃ c, h[q]? = some c ∧ p c = false) →
    wordLoop h p r = some q := by
  intro r
  induction r with
  | zero => intro _ h1 _ _; simp [wordLoop]; omega
  | succ r ih =>
    intro hlt hq hall hend
    simp only [wordLoop, List.getElem?_eq_getElem hlt]
    by_cases he : q = r + 1
    · rcases hend with h0 | ⟨c, h1, h2⟩
      · omega
      · rw [he, List.getElem?_eq_getElem hlt] at h1
        injection h1 with h1
        rw [h1, h2]; simp [he]
    · obtain ⟨c, h1, h2⟩ := hall (r+1) (by omega) (Nat.le_refl _)
      rw [List.getElem?_eq_getElem hlt] at h1
      injection h1 with h1
      rw [h1, h2, if_pos rfl]
      exact ih (by omega) (by omega) (fun i h1 h2 => hall i h1 (by omega)) hend

theorem takeWhile_exact {α : Type} (p : α → Bool) (l r : List α) (h1 : ∀ x ∈ l, p x = true) (h2 : ∀ x, r.head? = some x → p x = false) :
    (l ++ r).takeWhile p = l ∧ (l ++ r).dropWhile p = r := by
  induction l with
  | nil =>
    cases r with
    | nil => exact ⟨rfl, rfl⟩
    | cons x r => simp [h2 x rfl]
  | cons x l ih =>
    obtain ⟨i1, i2⟩ := ih (fun y hy => h1 y (List.mem_cons_of_mem _ hy))
    simp [h1 x List.mem_cons_self, i1, i2]

theorem takeWhile_all {α : Type} (p : α → Bool) : ∀ (l : List α) (x : α), x ∈ l.takeWhile p → p x = true := by
  intro l
  induction l with
  | nil => intro x hx; simp at hx
  | cons y l ih =>
    intro x hx
    simp only [List.takeWhile_cons] at hx
    split at hx
    · next hy =>
      rcases List.mem_cons.1 hx with rfl | hx
      · exact hy
      · exact ih x hx
    · simp at hx

/-- Every line that has a word is what precedes its last word, that word and separators. -/
theorem word_split (h : List Char) : (∀ c ∈ h, cfs c = true) ∨
    ∃ pre w tail, h = pre ++ (w ++ tail) ∧ w ≠ [] ∧ (∀ c ∈ w, cfs c = false) ∧ (∀ c ∈ tail, cfs c = true) ∧
      ∀ c, pre.getLast? = some c → cfs c = true := by
  by_cases hall : ∀ c ∈ h, cfs c = true
  · exact Or.inl hall
  · right
    refine ⟨((h.reverse.dropWhile cfs).dropWhile (fun c => !cfs c)).reverse,
      ((h.reverse.dropWhile cfs).takeWhile (fun c => !cfs c)).reverse, (h.reverse.takeWhile cfs).reverse, ?_, ?_, ?_, ?_, ?_⟩
    · rw [← List.append_assoc, ← List.reverse_append, List.takeWhile_append_dropWhile, ← List.reverse_append,
        List.takeWhile_append_dropWhile, List.reverse_reverse]
    · intro h0
      cases hd : h.reverse.dropWhile cfs with
      | nil =>
        apply hall
        intro c hc
        have : ∀ c ∈ h.reverse, cfs c = true := by
          have hh := List.takeWhile_append_dropWhile (p := cfs) (l := h.reverse)
          rw [hd, List.append_nil] at hh
          intro c hc
          rw [← hh] at hc
          exact takeWhile_all _ _ _ hc
        exact this c (List.mem_reverse.2 hc)
      | cons x l =>
        have hx : cfs x = false := by
          have := List.head?_dropWhile_not cfs h.reverse
          rw [hd] at this
          simpa using this
        rw [hd] at h0
        simp [hx] at h0
    · intro c hc
      have := takeWhile_all _ _ _ (List.mem_reverse.1 hc)
      simpa using this
    · intro c hc
      exact takeWhile_all _ _ _ (List.mem_reverse.1 hc)
    · intro c hc
      rw [List.getLast?_reverse] at hc
      have := List.head?_dropWhile_not (fun c => !cfs c) (h.reverse.dropWhile cfs)
      rw [hc] at this
      simpa using this

theorem lastWord_spec (h : List Char) (hne : h ≠ []) : lastWord h = some (Line.lastWord h) := by
  have hpos : 0 < h.length := List.length_pos_iff.2 hne
  simp only [lastWord]
  rw [if_neg hne]
  rcases word_split h with hall | ⟨pre, w, tail, rfl, hw, hwn, ht, hp⟩
  · have get : ∀ i, i < h.length → ∃ c, h[i]? = some c ∧ cfs c = true := fun i hi =>
      ⟨h[i], List.getElem?_eq_getElem hi, hall _ (List.getElem_mem hi)⟩
    rw [wordLoop_eq h cfs 0 (h.length - 1) (by omega) (by omega) (fun i _ hi => get i (by omega)) (Or.inl rfl)]
    simp only [wordLoop]
    obtain ⟨c, hc1, hc2⟩ := get 0 hpos
    rw [hc1]
    simp only [hc2, if_true]
    have e := takeWhile_exact cfs h.reverse [] (fun x hx => hall x (List.mem_reverse.1 hx)) (by simp)
    rw [List.append_nil] at e
    simp [Line.lastWord, e.1, e.2]
  · have hwl : 0 < w.length := List.length_pos_iff.2 hw
    have hget : ∀ i, i < w.length → ∃ c, (pre ++ (w ++ tail))[pre.length + i]? = some c ∧ cfs c = false := fun i hi =>
      ⟨w[i], by rw [List.getElem?_append_right (by omega), Nat.add_sub_cancel_left, List.getElem?_append_left hi,
        List.getElem?_eq_getElem hi], hwn _ (List.getElem_mem hi)⟩
    have htl : ∀ i, i < tail.length → ∃ c, (pre ++ (w ++ tail))[pre.length + w.length + i]? = some c ∧ cfs c = true := fun i hi =>
      ⟨tail[i], by rw [List.getElem?_append_right (by omega), List.getElem?_append_right (by omega),
        show pre.length + w.length + i - pre.length - w.length = i by omega,
        List.getElem?_eq_getElem hi], ht _ (List.getElem_mem hi)⟩
    have hlen : (pre ++ (w ++ tail)).length = pre.length + w.length + tail.length := by simp; omega
    rw [wordLoop_eq _ cfs (pre.length + w.length - 1) _ (by omega) (by omega)
      (fun i h1 h2 => by
        obtain ⟨c, a1, a2⟩ := htl (i - (pre.length + w.length)) (by omega)
        rw [show pre.length + w.length + (i - (pre.length + w.length)) = i by omega] at a1
        exact ⟨c, a1, a2⟩)
      (Or.inr (by
        obtain ⟨c, a1, a2⟩ := hget (w.length - 1) (by omega)
        rw [show pre.length + (w.length - 1) = pre.length + w.length - 1 by omega] at a1
        exact ⟨c, a1, a2⟩))]
    simp only
    have hspec : Line.lastWord (pre ++ (w ++ tail)) = w ++ tail := by
      have e1 := takeWhile_exact cfs tail.reverse (w.reverse ++ pre.reverse) (fun x hx => ht x (List.mem_reverse.1 hx)) (by
        intro x hx
        rw [List.head?_append, List.head?_reverse, List.getLast?_eq_some_getLast hw, Option.some_or] at hx
        injection hx with hx
        exact hwn x (hx ▸ List.getLast_mem hw))
      have e2 := takeWhile_exact (fun c => !cfs c) w.reverse pre.reverse (fun x hx => by simp [hwn x (List.mem_reverse.1 hx)]) (by
        intro x hx
        rw [List.head?_reverse] at hx
        simp [hp x hx])
      have er : (pre ++ (w ++ tail)).reverse = tail.reverse ++ (w.reverse ++ pre.reverse) := by simp
      simp only [Line.lastWord, er, e1.1, e1.2, List.reverse_reverse, e2.1]
      rw [if_neg (by simp [hw])]
    rw [hspec]
    by_cases hpre : pre = []
    · subst hpre
      rw [wordLoop_eq _ _ 0 _ (by simp; omega) (by omega)
        (fun i h1 h2 => by
          obtain ⟨c, a1, a2⟩ := hget i (by simp at h2; omega)
          simp only [List.length_nil, Nat.zero_add] at a1
          exact ⟨c, a1, by simp [a2]⟩) (Or.inl rfl)]
      simp only
      obtain ⟨c, a1, a2⟩ := hget 0 hwl
      simp only [List.length_nil, Nat.add_zero] at a1
      rw [a1]
      simp [a2]
    · have hpl : 0 < pre.length := List.length_pos_iff.2 hpre
      have hlast : (pre ++ (w ++ tail))[pre.length - 1]? = some (pre.getLast hpre) := by
        rw [List.getElem?_append_left (by omega), ← List.getLast?_eq_getElem?, List.getLast?_eq_some_getLast hpre]
      have hsep := hp _ (List.getLast?_eq_some_getLast hpre)
      rw [wordLoop_eq _ _ (pre.length - 1) _ (by omega) (by omega)
        (fun i h1 h2 => by
          obtain ⟨c, a1, a2⟩ := hget (i - pre.length) (by omega)
          rw [show pre.length + (i - pre.length) = i by omega] at a1
          exact ⟨c, a1, by simp [a2]⟩) (Or.inr ⟨_, hlast, by simp [hsep]⟩)]
      simp only [hlast, hsep, if_true]
      rw [show pre.length - 1 + 1 = pre.length by omega, List.drop_left]

theorem lastWord_nul {h : List Char} (hn : NoNul h) (hne : h ≠ []) : NoNul (Line.lastWord h) := by
  obtain ⟨w, h1, h2⟩ := lastWord_some h hne
  rw [lastWord_spec h hne] at h1
  injection h1 with h1
  rw [h1]
  exact fun hm => hn (h2.subset hm)

/-- `prev-hist-word`: the last word of the last line of the history, or its `n`th word. -/
def Line.histword (size : Nat) (a : Line) : Option (List Char) → Option Nat → Line
  | none, _ => a
  | some l, none => a.ins size (Line.lastWord l)
  | some l, some n => a.ins size (nthWord n (l.dropWhile cfs))

theorem prevHistword_spec (he : EnvOk env) (h : R size s a) (arg : Option Nat)
    (hok : arg = none → ∀ l, env.hist.getLast? = some l → l ≠ []) :
    ∃ s', prevHistword env s arg = some s' ∧
      R size s' (a.histword size env.hist.getLast? arg) := by
  simp only [prevHistword]
  cases hl : env.hist.getLast? with
  | none => exact ⟨s, rfl, h⟩
  | some l =>
    have hn : NoNul l := he.hist l (List.mem_of_getLast? hl)
    cases arg with
    | none =>
      have hne := hok rfl l hl
      simp only [lastWord_spec l hne]
      exact ins_spec h _ (lastWord_nul hn hne)
    | some n =>
      exact ins_spec h _ (nthWord_infix n _ (fun hm => hn ((List.dropWhile_sublist _).subset hm)))

/-! ## Searching the history -/

theorem strstr_spec (pat : List Char) : ∀ (l : List Char) (i : Nat), strstr pat l = some i → pat <+: l.drop i := by
  intro l
  induction l with
  | nil =>
    intro i h
    simp only [strstr] at h
    split at h
    · cases h; next h0 => simp [h0]
    · cases h
  | cons c l ih =>
    intro i h
    simp only [strstr] at h
    split at h
    · cases h; next h0 => simpa using h0
    · cases hs : strstr pat l with
      | none => rw [hs] at h; cases h
      | some k =>
        rw [hs] at h
        simp only [Option.map_some, Option.some.injEq] at h
        subst h
        exact ih k hs

/-- What the pattern stands for: without the `^`. -/
def body (pat : List Char) : List Char := pat.drop (caret pat)

theorem xmatch_spec {l pat : List Char} {i : Nat} (h : xmatch l pat = some i) :
    body pat <+: l.drop i ∧ (caret pat = 1 → i = 0) := by
  unfold xmatch at h
  split at h
  · split at h
    · cases h
      next hp => exact ⟨by simpa [body, caret] using hp, fun _ => rfl⟩
    · cases h
  · next hne =>
    have hc : caret pat = 0 := by
      simp only [caret]
      rw [if_neg]
      intro hh
      cases pat with
      | nil => cases hh
      | cons c p =>
        simp only [List.head?_cons, Option.some.injEq] at hh
        exact hne p (by rw [hh])
    refine ⟨?_, fun h1 => by omega⟩
    simpa [body, hc] using strstr_spec pat l i h

theorem caret_le (pat : List Char) : caret pat ≤ pat.length := by
  simp only [caret]
  split
  · cases pat with
    | nil => next h => cases h
    | cons c p => simp
  · omega

theorem xmatch_le {l pat : List Char} {i : Nat} (h : xmatch l pat = some i) : i + pat.length - caret pat ≤ l.length := by
  have hp := (xmatch_spec h).1.length_le
  have hc := caret_le pat
  simp only [body, List.length_drop] at hp
  by_cases hz : pat.length = caret pat
  · -- an empty body: `i` is inside all the same
    unfold xmatch at h
    split at h
    · split at h
      · next p hp' =>
        cases h
        have : caret ('^' :: p) = 1 := rfl
        omega
      · cases h
    · have hi : ∀ (l : List Char) (i : Nat), strstr pat l = some i → i ≤ l.length := by
        intro l
        induction l with
        | nil => intro i h; simp only [strstr] at h; split at h <;> cases h; simp
        | cons c l ih =>
          intro i h
          simp only [strstr] at h
          split at h
          · cases h; omega
          · cases hs : strstr pat l with
            | none => rw [hs] at h; cases h
            | some k => rw [hs] at h; cases h; have := ih k hs; simp; omega
      have := hi l i h
      omega
  · omega

theorem searchLoop_spec (hist : List (List Char)) (pat : List Char) : ∀ k, k ≤ hist.length →
    ∃ r, searchLoop hist pat k = some r ∧
      (∀ n i, r = some (n, i) → n < k ∧ (∃ l, hist[n]? = some l ∧ xmatch l pat = some i) ∧
        ∀ m, n < m → m < k → ∀ l, hist[m]? = some l → xmatch l pat = none) ∧
      (r = none → ∀ m, m < k → ∀ l, hist[m]? = some l → xmatch l pat = none) := by
  intro k
  induction k with
  | zero => intro _; exact ⟨none, rfl, (by intro n i h; cases h), fun _ m hm => by omega⟩
  | succ k ih =>
    intro hk
    have hlt : k < hist.length := by omega
    simp only [searchLoop]
    rw [List.getElem?_eq_getElem hlt]
    simp only
    cases hx : xmatch hist[k] pat with
    | some i =>
      refine ⟨_, rfl, ?_, (by intro h; cases h)⟩
      intro n i' h
      cases h
      exact ⟨by omega, ⟨_, List.getElem?_eq_getElem hlt, hx⟩, fun m h1 h2 => by omega⟩
    | none =>
      obtain ⟨r, h1, h2, h3⟩ := ih (by omega)
      have last : ∀ m l, ¬ m < k → m < k + 1 → hist[m]? = some l → xmatch l pat = none := by
        intro m l hm1 hm2 hl
        have : m = k := by omega
        subst this
        rw [List.getElem?_eq_getElem hlt] at hl
        cases hl; exact hx
      refine ⟨r, h1, ?_, ?_⟩
      · intro n i hr
        obtain ⟨a1, a2, a3⟩ := h2 n i hr
        refine ⟨by omega, a2, fun m hm1 hm2 l hl => ?_⟩
        by_cases hm : m < k
        · exact a3 m hm1 hm l hl
        · exact last m l hm hm2 hl
      · intro hr m hm l hl
        by_cases hm' : m < k
        · exact h3 hr m hm' l hl
        · exact last m l hm' hm hl

/-- The history position is a line of the history, before the first or after the last. -/
def HistOk (env : Env) (a : Line) : Prop := -1 ≤ a.histp ∧ a.histp ≤ env.hist.length

theorem load_hist_ok {hp : Int} (h : HistOk env a) : HistOk env (a.load size env.hist hp) := by
  simp only [Line.load]
  split
  · simp only [HistOk]; omega
  · exact h

/-- `x_search`: the nearest earlier line that matches is shown, with the cursor after the match. -/
theorem search_spec (he : EnvOk env) (h : R size s a) (hh : HistOk env a) (pat : List Char) (same : Bool)
    (hlong : ∀ l ∈ env.hist, l.length < size) (hsame : same = true → a.histp < env.hist.length) :
    ∃ o s' a', search env s pat same = some (o, s') ∧ R size s' a' ∧ HistOk env a' ∧ a'.histp < env.hist.length ∧
      (∀ i, o = some i → ∃ (n : Nat) (l : List Char), env.hist[n]? = some l ∧ xmatch l pat = some i ∧
        (n : Int) ≤ a.histp - (if same then 0 else 1) ∧
        (∀ m : Nat, n < m → (m : Int) ≤ a.histp - (if same then 0 else 1) → ∀ l', env.hist[m]? = some l' → xmatch l' pat = none) ∧
        a'.histp = n ∧ a'.text = l ∧ a'.left.length = i + pat.length - caret pat ∧
        a' = { a with left := a'.left, right := a'.right, histp := n }) ∧
      (o = none → a' = { a with histp := (env.hist.length : Int) - 1 } ∧
        ∀ m : Nat, (m : Int) ≤ a.histp - (if same then 0 else 1) → ∀ l', env.hist[m]? = some l' → xmatch l' pat = none) := by
  have hk : (a.histp - (if same then 0 else 1) + 1).toNat ≤ env.hist.length := by
    have := hh.2
    cases same with
    | true => have := hsame rfl; simp; omega
    | false => simp; omega
  obtain ⟨r, h1, h2, h3⟩ := searchLoop_spec env.hist pat _ hk
  simp only [search, h.histp, h1]
  cases r with
  | none =>
    refine ⟨none, _, { a with histp := (env.hist.length : Int) - 1 }, rfl, { h with mem := h.mem, histp := rfl }, ?_, ?_, ?_, ?_⟩
    · exact ⟨by show (-1 : Int) ≤ (env.hist.length : Int) - 1; omega, by show (env.hist.length : Int) - 1 ≤ env.hist.length; omega⟩
    · show (env.hist.length : Int) - 1 < env.hist.length; omega
    · intro i hi; cases hi
    · intro _
      refine ⟨rfl, fun m hm l' hl' => h3 rfl m (by omega) l' hl'⟩
  | some r =>
    obtain ⟨n, i⟩ := r
    obtain ⟨a1, ⟨l, a2, a3⟩, a4⟩ := h2 n i rfl
    have hnlt : n < env.hist.length := by omega
    obtain ⟨s1, b1, r1⟩ := loadHist_spec he h (n : Int)
    simp only [b1]
    have hload : a.load size env.hist n = { a with left := l, right := [], histp := n } := by
      simp only [Line.load]
      rw [if_pos (by omega)]
      simp only [Int.toNat_natCast, List.getD, a2, Option.getD_some]
      have := hlong l (List.mem_of_getElem? a2)
      rw [List.take_of_length_le (by omega)]
    rw [hload] at r1
    have hcl := caret_le pat
    have hxl := xmatch_le a3
    obtain ⟨s2, c1, r2⟩ := goto_spec r1 (i + pat.length - caret pat) (by simpa [Line.text] using hxl)
    rw [show ((i + pat.length - caret pat : Nat) : Int) = (i : Int) + pat.length - caret pat by omega] at c1
    rw [c1]
    refine ⟨some i, s2, _, rfl, r2, ?_, ?_, ?_, ?_⟩
    · simp only [HistOk, Line.moveTo]; omega
    · simp only [Line.moveTo]; omega
    · intro i' hi'
      cases hi'
      refine ⟨n, l, a2, a3, by omega, fun m hm1 hm2 l' hl' => a4 m hm1 (by omega) l' hl', rfl, ?_, ?_, ?_⟩
      · simp [Line.moveTo, Line.text]
      · simp only [Line.moveTo, Line.text, List.append_nil, List.length_take]; omega
      · simp [Line.moveTo]
    · intro hc; cases hc

theorem cstr_spec (t j : List Char) (h : NoNul t) : cstr (t ++ '\x00' :: j) = t := by
  simp only [cstr]
  rw [List.takeWhile_append_of_pos]
  · simp
  · intro c hc; simp only [ne_eq, decide_eq_true_eq]; intro hh; exact h (hh ▸ hc)

theorem addKey_safe (he : EnvOk env) (h : R size s a) (hh : HistOk env a) (pat : List Char) (o : Option Nat) (c : Char)
    (hlong : ∀ l ∈ env.hist, l.length < size) (hpat : pat ≠ [] → a.histp < env.hist.length)
    (ho : o.isSome → pat ≠ [] ∨ a.histp < env.hist.length) :
    ∃ pat' o' s' a', addKey env s pat o c = some (pat', o', s') ∧ R size s' a' ∧ HistOk env a' ∧
      pat' ≠ [] ∧ a'.histp < env.hist.length := by
  simp only [addKey]
  by_cases hl : pat.length ≥ 256
  · rw [if_pos hl]
    have hne : pat ≠ [] := by intro h0; rw [h0] at hl; simp at hl
    exact ⟨pat, o, s, a, rfl, h, hh, hne, hpat hne⟩
  · rw [if_neg hl]
    obtain ⟨j, hj⟩ := h.memText
    have hc : cstr s.mem = a.text := by rw [hj]; exact cstr_spec _ _ h.nt
    rw [hc]
    cases hx : (if o.isSome = true then xmatch a.text (pat ++ [c]) else none) with
    | some i =>
      simp only
      split at hx
      · next hs =>
        have hle := xmatch_le hx
        have hcl := caret_le (pat ++ [c])
        obtain ⟨s1, b1, r1⟩ := goto_spec h (i + (pat ++ [c]).length - caret (pat ++ [c])) hle
        rw [show ((i + (pat ++ [c]).length - caret (pat ++ [c]) : Nat) : Int) =
          (i : Int) + (pat ++ [c]).length - caret (pat ++ [c]) by omega] at b1
        rw [b1]
        exact ⟨_, _, s1, _, rfl, r1, hh, by simp, (ho hs).elim hpat id⟩
      · cases hx
    | none =>
      simp only
      obtain ⟨o', s', a', e1, e2, e3, e4, _⟩ := search_spec he h hh (pat ++ [c]) false hlong (by intro h; cases h)
      rw [e1]
      exact ⟨_, o', s', a', rfl, e2, e3, by simp, e4⟩

theorem searchKeys_safe (he : EnvOk env) (hlong : ∀ l ∈ env.hist, l.length < size) : ∀ (ks : List SKey) {s : Ed} {a : Line}
    (pat : List Char) (o : Option Nat), R size s a → HistOk env a → (pat ≠ [] → a.histp < env.hist.length) →
    (o.isSome → pat ≠ [] ∨ a.histp < env.hist.length) →
    ∃ s' a', searchKeys env ks s pat o = some s' ∧ R size s' a' ∧ HistOk env a' := by
  intro ks
  induction ks with
  | nil => intro s a pat o h hh _ _; exact ⟨s, a, rfl, h, hh⟩
  | cons k ks ih =>
    intro s a pat o h hh hpat ho
    cases k with
    | again =>
      obtain ⟨o', s', a', e1, e2, e3, e4, _⟩ := search_spec he h hh pat false hlong (by intro h; cases h)
      simp only [searchKeys, e1]
      exact ih pat o' e2 e3 (fun _ => e4) (fun _ => Or.inr e4)
    | back =>
      simp only [searchKeys]
      by_cases hp : pat = []
      · rw [if_pos hp]; exact ⟨s, a, rfl, h, hh⟩
      · rw [if_neg hp]
        by_cases hd : pat.dropLast = []
        · rw [if_pos hd]
          exact ih [] none h hh (fun hc => absurd rfl hc) (fun hc => by cases hc)
        · rw [if_neg hd]
          obtain ⟨o', s', a', e1, e2, e3, e4, _⟩ := search_spec he h hh pat.dropLast true hlong (fun _ => hpat hp)
          rw [e1]
          exact ih pat.dropLast o' e2 e3 (fun _ => e4) (fun _ => Or.inr e4)
    | char c =>
      simp only [searchKeys]
      by_cases hc : c = '\x00'
      · rw [if_pos hc]; exact ⟨s, a, rfl, h, hh⟩
      · rw [if_neg hc]
        obtain ⟨pat', o', s', a', e1, e2, e3, e4, e5⟩ := addKey_safe he h hh pat o c hlong hpat ho
        rw [e1]
        exact ih pat' o' e2 e3 (fun _ => e5) (fun _ => Or.inr e5)

end Ksh.Emacs
