import Verif.Mail.Model
/-!
# C55: parsing of MAILPATH; C70: release of its memory
-/

namespace Ksh.Mail

/-! ## Specification -/

/-- The texts between colons. -/
def segments : List Char → List (List Char)
  | [] => [[]]
  | c :: r =>
    if c = ':' then [] :: segments r
    else
      match segments r with
      | [] => [[c]]
      | s :: ss => (c :: s) :: ss

/-- Path and message: `\%` is a percent sign, the first other one begins the message. -/
def pct : List Char → List Char × Option (List Char)
  | [] => ([], none)
  | [c] => if c = '%' then ([], some []) else ([c], none)
  | c :: d :: r =>
    if c = '%' then ([], some (d :: r))
    else if c = '\\' ∧ d = '%' then ('%' :: (pct r).1, (pct r).2)
    else (c :: (pct (d :: r)).1, (pct (d :: r)).2)

/-- An empty message is none. -/
def nonempty : List Char → Option (List Char)
  | [] => none
  | m => some m

/-- A mailbox as the manual describes it. -/
def entry (posix : Bool) (seg : List Char) : List Char × Option (List Char) :=
  match pct seg with
  | (path, some m) => (path, nonempty m)
  | (path, none) =>
    if posix then (path, none)
    else (path.takeWhile (· ≠ '?'), nonempty ((path.dropWhile (· ≠ '?')).drop 1))

/-- The mailboxes of a MAILPATH. -/
def boxes (posix : Bool) (s : List Char) : List (List Char × Option (List Char)) :=
  ((segments s).map (entry posix)).filter (fun e => e.1 ≠ [])

/-- A list of mailboxes as one reads it in memory. -/
def readBox (buf : Buf) (b : Box) : List Char × Option (List Char) := (cstr buf b.path, b.msg.map (cstr buf))

/-! ## Strings in memory -/

def noNul (s : List Char) : Prop := '\x00' ∉ s

theorem strchr_found (c : Char) : ∀ (a r : List Char) (p : Nat), noNul a → c ∉ a →
    strchr c (a ++ c :: r) p = some (some (p + a.length)) := by
  intro a
  induction a with
  | nil => intro r p _ _; simp [strchr]
  | cons x a ih =>
    intro r p h1 h2
    simp only [noNul, List.mem_cons, not_or] at h1 h2
    simp only [List.cons_append, strchr]
    rw [if_neg (Ne.symm h2.1), if_neg (Ne.symm h1.1), ih r _ h1.2 h2.2]
    simp; omega

theorem strchr_null (c : Char) (hc : c ≠ '\x00') : ∀ (a r : List Char) (p : Nat), noNul a → c ∉ a →
    strchr c (a ++ '\x00' :: r) p = some none := by
  intro a
  induction a with
  | nil => intro r p _ _; simp only [List.nil_append, strchr]; rw [if_neg (Ne.symm hc)]; simp
  | cons x a ih =>
    intro r p h1 h2
    simp only [noNul, List.mem_cons, not_or] at h1 h2
    simp only [List.cons_append, strchr]
    rw [if_neg (Ne.symm h2.1), if_neg (Ne.symm h1.1), ih r _ h1.2 h2.2]

theorem strlen_eq : ∀ (a r : List Char), noNul a → strlen (a ++ '\x00' :: r) = some a.length := by
  intro a
  induction a with
  | nil => intro r _; simp [strlen]
  | cons x a ih =>
    intro r h
    simp only [noNul, List.mem_cons, not_or] at h
    simp only [List.cons_append, strlen]
    rw [if_neg (Ne.symm h.1), ih r h.2]; simp

theorem cstr_eq (pre a r : List Char) (h : noNul a) : cstr (pre ++ (a ++ '\x00' :: r)) pre.length = a := by
  simp only [cstr, List.drop_left]
  rw [List.takeWhile_append_of_pos]
  · simp
  · intro x hx
    simp only [decide_eq_true_eq]
    intro hxe; subst hxe; exact h hx

/-- Split at the first occurrence. -/
theorem first_occ (c : Char) : ∀ s : List Char, c ∉ s ∨ ∃ a r, s = a ++ c :: r ∧ c ∉ a := by
  intro s
  induction s with
  | nil => left; simp
  | cons x s ih =>
    by_cases hx : x = c
    · right; exact ⟨[], s, by simp [hx], by simp⟩
    · rcases ih with h | ⟨a, r, h1, h2⟩
      · left; simp [h, Ne.symm hx]
      · right; exact ⟨x :: a, r, by simp [h1], by simp [h2, Ne.symm hx]⟩

/-! ## The specification's `pct` by its first percent sign -/

theorem pct_none : ∀ (s : List Char), '%' ∉ s → pct s = (s, none) := by
  intro s
  induction s with
  | nil => intro _; rfl
  | cons c r ih =>
    intro h
    simp only [List.mem_cons, not_or] at h
    cases r with
    | nil => simp only [pct]; rw [if_neg (Ne.symm h.1)]
    | cons d r =>
      have hd : d ≠ '%' := by have := h.2; simp at this; exact fun he => this.1 he.symm
      simp only [pct]
      rw [if_neg (Ne.symm h.1), if_neg (fun x => hd x.2), ih h.2]

/-- The first percent sign begins the message unless a backslash stands before it. -/
theorem pct_first : ∀ (a r : List Char), '%' ∉ a →
    pct (a ++ '%' :: r) =
      if a.getLast? = some '\\' then (a.dropLast ++ '%' :: (pct r).1, (pct r).2) else (a, some r) := by
  intro a
  induction a with
  | nil => intro r _; cases r <;> simp [pct]
  | cons c a ih =>
    intro r h
    simp only [List.mem_cons, not_or] at h
    cases a with
    | nil =>
      simp only [List.cons_append, List.nil_append, pct]
      rw [if_neg (Ne.symm h.1)]
      by_cases hc : c = '\\'
      · subst hc; simp
      · rw [if_neg (fun x => hc x.1)]
        have := ih r (by simp)
        simp only [List.nil_append] at this
        rw [this]; simp [hc]
    | cons d a =>
      have hd : d ≠ '%' := by have := h.2; simp at this; exact fun he => this.1 he.symm
      simp only [List.cons_append, pct]
      rw [if_neg (Ne.symm h.1), if_neg (fun x => hd x.2)]
      have := ih r h.2
      rw [List.cons_append] at this
      rw [this]
      simp only [List.getLast?_cons_cons]
      split <;> simp

/-! ## The loop over percent signs -/

theorem shift_eq (pre a r post : List Char) (b : Char) :
    shiftLeft (pre ++ a ++ [b] ++ '%' :: r ++ '\x00' :: post) (pre.length + a.length + 1) (r.length + 1 + 1) =
      pre ++ a ++ '%' :: r ++ '\x00' :: '\x00' :: post := by
  simp only [shiftLeft]
  have e1 : (pre ++ a ++ [b] ++ '%' :: r ++ '\x00' :: post).take (pre.length + a.length + 1 - 1) = pre ++ a := by
    rw [show pre ++ a ++ [b] ++ '%' :: r ++ '\x00' :: post = (pre ++ a) ++ ([b] ++ '%' :: r ++ '\x00' :: post) by simp]
    exact List.take_left' (by simp)
  have e2 : ((pre ++ a ++ [b] ++ '%' :: r ++ '\x00' :: post).drop (pre.length + a.length + 1)).take (r.length + 1 + 1) =
      '%' :: r ++ ['\x00'] := by
    rw [show pre ++ a ++ [b] ++ '%' :: r ++ '\x00' :: post = (pre ++ a ++ [b]) ++ (('%' :: r ++ ['\x00']) ++ post) by simp]
    rw [List.drop_left' (by simp; omega)]
    exact List.take_left' (by simp)
  have e3 : (pre ++ a ++ [b] ++ '%' :: r ++ '\x00' :: post).drop (pre.length + a.length + 1 - 1 + (r.length + 1 + 1)) =
      '\x00' :: post := by
    rw [show pre ++ a ++ [b] ++ '%' :: r ++ '\x00' :: post = (pre ++ a ++ [b] ++ '%' :: r) ++ ('\x00' :: post) by simp]
    exact List.drop_left' (by simp; omega)
  rw [e1, e2, e3]
  simp

/-- What the buffer holds after the loop over `%`: the text read so far and the path as
specified, then the message; bytes behind the end of the segment are not touched. -/
theorem percent_spec (pre : List Char) : ∀ (fuel : Nat) (done todo post : List Char),
    noNul done → noNul todo → done.getLast? ≠ some '\\' → todo.length < fuel →
    ∃ junk, todo.length = (pct todo).1.length + (match (pct todo).2 with | none => 0 | some m => m.length + 1) + junk.length ∧
      percent pre.length fuel (pre ++ (done ++ todo) ++ '\x00' :: post) (pre.length + done.length) =
      match pct todo with
      | (a, none) => some (pre ++ (done ++ a) ++ '\x00' :: junk ++ post, none)
      | (a, some m) => some (pre ++ (done ++ a ++ '%' :: m) ++ '\x00' :: junk ++ post, some (pre.length + (done ++ a).length)) := by
  intro fuel
  induction fuel with
  | zero => intro _ _ _ _ _ _ h; omega
  | succ fuel ih =>
    intro done todo post hd ht hl hf
    have hdrop : (pre ++ (done ++ todo) ++ '\x00' :: post).drop (pre.length + done.length) = todo ++ '\x00' :: post := by
      rw [show pre ++ (done ++ todo) ++ '\x00' :: post = (pre ++ done) ++ (todo ++ '\x00' :: post) by simp]
      exact List.drop_left' (by simp)
    simp only [percent, hdrop]
    rcases first_occ '%' todo with hn | ⟨a, r, rfl, ha⟩
    · rw [strchr_null '%' (by decide) _ _ _ ht hn, pct_none _ hn]
      exact ⟨[], by simp, by simp⟩
    · have hna : noNul a := fun hx => ht (by simp [hx])
      have hnr : noNul r := fun hx => ht (by simp [hx])
      rw [List.append_assoc, List.cons_append, strchr_found '%' a _ _ hna ha, pct_first a r ha]
      simp only
      by_cases hb : a.getLast? = some '\\'
      · rw [if_pos hb]
        obtain ⟨a', rfl⟩ : ∃ a', a = a' ++ ['\\'] := by
          rw [List.getLast?_eq_some_iff] at hb; exact hb
        have hg : (pre ++ (done ++ ((a' ++ ['\\']) ++ '%' :: r)) ++ '\x00' :: post)[pre.length + done.length + (a' ++ ['\\']).length - 1]? = some '\\' := by
          rw [show pre ++ (done ++ ((a' ++ ['\\']) ++ '%' :: r)) ++ '\x00' :: post =
            (pre ++ done ++ a') ++ '\\' :: ('%' :: r ++ '\x00' :: post) by simp]
          rw [List.getElem?_append_right (by simp; omega)]
          rw [show pre.length + done.length + (a' ++ ['\\']).length - 1 - (pre ++ done ++ a').length = 0 by simp; omega]
          rfl
        rw [if_pos ⟨by simp; omega, hg⟩]
        have hdr : (pre ++ (done ++ ((a' ++ ['\\']) ++ '%' :: r)) ++ '\x00' :: post).drop
            (pre.length + done.length + (a' ++ ['\\']).length) = ('%' :: r) ++ '\x00' :: post := by
          rw [show pre ++ (done ++ ((a' ++ ['\\']) ++ '%' :: r)) ++ '\x00' :: post =
            (pre ++ done ++ (a' ++ ['\\'])) ++ (('%' :: r) ++ '\x00' :: post) by simp]
          exact List.drop_left' (by simp; omega)
        rw [hdr, strlen_eq _ _ (by simp only [noNul, List.mem_cons, not_or]; exact ⟨by decide, hnr⟩)]
        simp only [List.length_cons]
        have hsh := shift_eq pre (done ++ a') r post '\\'
        have hs1 : shiftLeft (pre ++ (done ++ ((a' ++ ['\\']) ++ '%' :: r)) ++ '\x00' :: post)
            (pre.length + done.length + (a' ++ ['\\']).length) (r.length + 1 + 1) =
            pre ++ ((done ++ a' ++ ['%']) ++ r) ++ '\x00' :: ('\x00' :: post) := by
          have e : pre.length + done.length + (a' ++ ['\\']).length = pre.length + (done ++ a').length + 1 := by simp; omega
          rw [e, show pre ++ (done ++ ((a' ++ ['\\']) ++ '%' :: r)) ++ '\x00' :: post =
            pre ++ (done ++ a') ++ ['\\'] ++ '%' :: r ++ '\x00' :: post by simp, hsh]
          simp
        rw [hs1]
        have hp : pre.length + done.length + (a' ++ ['\\']).length = pre.length + (done ++ a' ++ ['%']).length := by
          simp; omega
        rw [hp]
        have hna' : noNul a' := fun hx => hna (by simp [hx])
        obtain ⟨junk, hlen, hj⟩ := ih (done ++ a' ++ ['%']) r ('\x00' :: post)
          (by simp only [noNul, List.mem_append, not_or, List.mem_singleton]
              exact ⟨⟨hd, hna'⟩, by decide⟩) hnr (by simp) (by simp at hf; omega)
        rw [hj]
        refine ⟨junk ++ ['\x00'], ?_, ?_⟩
        · simp at hlen ⊢; omega
        · rcases hpr : pct r with ⟨x, y⟩
          cases y <;> simp
      · rw [if_neg hb]
        have hg : ¬ (pre.length + done.length + a.length > pre.length ∧
            (pre ++ (done ++ (a ++ '%' :: r)) ++ '\x00' :: post)[pre.length + done.length + a.length - 1]? = some '\\') := by
          rintro ⟨h1, h2⟩
          have h3 : (done ++ a).getLast? = some '\\' := by
            rw [show pre ++ (done ++ (a ++ '%' :: r)) ++ '\x00' :: post =
              pre ++ ((done ++ a) ++ ('%' :: r ++ '\x00' :: post)) by simp] at h2
            rw [List.getElem?_append_right (by omega), List.getElem?_append_left (by simp; omega)] at h2
            rw [List.getLast?_eq_getElem?, ← h2]
            congr 1; simp; omega
          rw [List.getLast?_append] at h3
          cases hal : a.getLast? with
          | none => rw [hal] at h3; exact hl (by simpa using h3)
          | some z => rw [hal] at h3 hb; exact hb (by simpa using h3)
        rw [if_neg hg]
        exact ⟨[], by simp, by simp; omega⟩

/-! ## One segment -/

theorem pct_noNul : ∀ (n : Nat) (s : List Char), s.length ≤ n → noNul s →
    noNul (pct s).1 ∧ ∀ m, (pct s).2 = some m → noNul m := by
  intro n
  induction n with
  | zero => intro s h _; simp at h; subst h; simp [pct, noNul]
  | succ n ih =>
    intro s hl hs
    rcases first_occ '%' s with hn | ⟨a, r, rfl, ha⟩
    · rw [pct_none _ hn]; exact ⟨hs, by simp⟩
    · have hna : noNul a := fun hx => hs (by simp [hx])
      have hnr : noNul r := fun hx => hs (by simp [hx])
      rw [pct_first a r ha]
      split
      · obtain ⟨h1, h2⟩ := ih r (by simp at hl; omega) hnr
        refine ⟨?_, h2⟩
        simp only [noNul, List.mem_append, List.mem_cons, not_or]
        exact ⟨fun hx => hna ((List.dropLast_sublist a).subset hx), by decide, h1⟩
      · exact ⟨hna, by rintro m h; injection h with h; rw [← h]; exact hnr⟩

theorem getElem?_mid (pre a post : List Char) (c : Char) (n : Nat) (h : n = pre.length + a.length) :
    (pre ++ (a ++ c :: post))[n]? = some c := by
  subst h
  rw [List.getElem?_append_right (by omega), List.getElem?_append_right (by omega)]
  rw [show pre.length + a.length - pre.length - a.length = 0 by omega]; rfl

theorem set_mid (pre a post : List Char) (c d : Char) (n : Nat) (h : n = pre.length + a.length) :
    (pre ++ (a ++ c :: post)).set n d = pre ++ (a ++ d :: post) := by
  subst h
  rw [List.set_append_right _ _ (by omega), List.set_append_right _ _ (by omega)]
  rw [show pre.length + a.length - pre.length - a.length = 0 by omega]; rfl

/-- `mb_path` and `mb_msg` for a path followed by a separator and a message. -/
theorem fin_some (pre x m rest : List Char) (c : Char) (l : List Box) (hx : noNul x) (hm : noNul m) :
    let r := message (pre ++ (x ++ c :: (m ++ '\x00' :: rest))) (some (pre.length + x.length))
    r.1 = pre ++ (x ++ '\x00' :: (m ++ '\x00' :: rest)) ∧
    enter r.1 pre.length r.2 l =
      if x = [] then l else ⟨pre.length, if m = [] then none else some (pre.length + x.length + 1)⟩ :: l := by
  simp only [message]
  rw [set_mid _ _ _ _ _ _ rfl]
  refine ⟨rfl, ?_⟩
  have h1 : ((pre ++ (x ++ '\x00' :: (m ++ '\x00' :: rest)))[pre.length + x.length + 1]? = some '\x00') ↔ m = [] := by
    have e : pre ++ (x ++ '\x00' :: (m ++ '\x00' :: rest)) = (pre ++ (x ++ ['\x00'])) ++ (m ++ '\x00' :: rest) := by simp
    rw [e, List.getElem?_append_right (by simp; omega)]
    rw [show pre.length + x.length + 1 - (pre ++ (x ++ ['\x00'])).length = 0 by simp; omega]
    cases m with
    | nil => simp
    | cons z m =>
      simp only [List.cons_append, List.getElem?_cons_zero, Option.some.injEq, reduceCtorEq, iff_false]
      intro hz; apply hm; simp [hz]
  have h2 : ((pre ++ (x ++ '\x00' :: (m ++ '\x00' :: rest)))[pre.length]? = some '\x00') ↔ x = [] := by
    rw [List.getElem?_append_right (by omega), Nat.sub_self]
    cases x with
    | nil => simp
    | cons z x =>
      simp only [List.cons_append, List.getElem?_cons_zero, Option.some.injEq, reduceCtorEq, iff_false]
      intro hz; apply hx; simp [hz]
  simp only [enter, h1, h2]

theorem fin_none (pre x rest : List Char) (l : List Box) (hx : noNul x) :
    enter (pre ++ (x ++ '\x00' :: rest)) pre.length none l = if x = [] then l else ⟨pre.length, none⟩ :: l := by
  have h2 : ((pre ++ (x ++ '\x00' :: rest))[pre.length]? = some '\x00') ↔ x = [] := by
    rw [List.getElem?_append_right (by omega), Nat.sub_self]
    cases x with
    | nil => simp
    | cons z x =>
      simp only [List.cons_append, List.getElem?_cons_zero, Option.some.injEq, reduceCtorEq, iff_false]
      intro hz; apply hx; simp [hz]
  simp only [enter, h2]

/-- The mailbox reads as specified, whatever follows in the buffer. -/
def reads (pre body : List Char) (b : Box) (e : List Char × Option (List Char)) : Prop :=
  ∀ post, readBox (pre ++ (body ++ post)) b = e

theorem segment_spec (posix : Bool) (fuel : Nat) (pre seg post : List Char) (l : List Box)
    (hs : noNul seg) (hf : seg.length < fuel) :
    ∃ body, body.length = seg.length + 1 ∧ ∃ b : Box, b.path = pre.length ∧ reads pre body b (entry posix seg) ∧
      segment posix fuel (pre ++ (seg ++ '\x00' :: post)) pre.length l =
        some (pre ++ (body ++ post), if (entry posix seg).1 = [] then l else b :: l) := by
  obtain ⟨junk, hlen, hp⟩ := percent_spec pre fuel [] seg post (by simp [noNul]) hs (by simp) hf
  obtain ⟨hn1, hn2⟩ := pct_noNul seg.length seg (Nat.le_refl _) hs
  simp only [segment]
  simp only [List.nil_append, List.length_nil, Nat.add_zero] at hp
  rw [show pre ++ (seg ++ '\x00' :: post) = pre ++ seg ++ '\x00' :: post by simp, hp]
  have withMsg : ∀ (x m : List Char) (c : Char), noNul x → noNul m → seg.length = x.length + (m.length + 1) + junk.length →
      ∃ body, body.length = seg.length + 1 ∧ ∃ b : Box, b.path = pre.length ∧
        reads pre body b (x, nonempty m) ∧
        (let r := message (pre ++ (x ++ c :: (m ++ '\x00' :: (junk ++ post)))) (some (pre.length + x.length))
         some (r.1, enter r.1 pre.length r.2 l) =
          some (pre ++ (body ++ post), if x = [] then l else b :: l)) := by
    intro x m c hx hm hl
    obtain ⟨f1, f2⟩ := fin_some pre x m (junk ++ post) c l hx hm
    refine ⟨x ++ '\x00' :: (m ++ '\x00' :: junk), by simp; omega,
      ⟨pre.length, if m = [] then none else some (pre.length + x.length + 1)⟩, rfl, ?_, ?_⟩
    · intro post'
      simp only [readBox]
      have e1 : pre ++ (x ++ '\x00' :: (m ++ '\x00' :: junk) ++ post') =
          pre ++ (x ++ '\x00' :: (m ++ '\x00' :: (junk ++ post'))) := by simp
      rw [e1, cstr_eq _ _ _ hx]
      by_cases hm0 : m = []
      · simp [hm0, nonempty]
      · rw [if_neg hm0]
        have e2 : pre ++ (x ++ '\x00' :: (m ++ '\x00' :: (junk ++ post'))) =
            (pre ++ x ++ ['\x00']) ++ (m ++ '\x00' :: (junk ++ post')) := by simp
        have e3 : pre.length + x.length + 1 = (pre ++ x ++ ['\x00']).length := by simp; omega
        rw [e2, e3]
        simp only [Option.map_some]
        rw [cstr_eq _ _ _ hm]
        cases m with
        | nil => exact absurd rfl hm0
        | cons _ _ => rfl
    · simp only
      rw [f2, f1]; simp
  rcases hpr : pct seg with ⟨a, y⟩
  rw [hpr] at hlen hn1 hn2
  cases y with
  | some m =>
    simp only [entry, hpr, question]
    obtain ⟨body, h1, b, h2, h3, h4⟩ := withMsg a m '%' hn1 (hn2 m rfl) hlen
    refine ⟨body, h1, b, h2, h3, ?_⟩
    have e : pre ++ (a ++ '%' :: m) ++ '\x00' :: junk ++ post = pre ++ (a ++ '%' :: (m ++ '\x00' :: (junk ++ post))) := by simp
    rw [e]; exact h4
  | none =>
    have noMsg : ∃ body, body.length = seg.length + 1 ∧ ∃ b : Box, b.path = pre.length ∧
        reads pre body b (a, none) ∧
        some (pre ++ (a ++ '\x00' :: (junk ++ post)), enter (pre ++ (a ++ '\x00' :: (junk ++ post))) pre.length none l) =
          some (pre ++ (body ++ post), if a = [] then l else b :: l) := by
      refine ⟨a ++ '\x00' :: junk, by simp at hlen ⊢; omega, ⟨pre.length, none⟩, rfl, ?_, ?_⟩
      · intro post'
        simp only [readBox]
        rw [show pre ++ (a ++ '\x00' :: junk ++ post') = pre ++ (a ++ '\x00' :: (junk ++ post')) by simp, cstr_eq _ _ _ hn1]
        rfl
      · rw [fin_none _ _ _ _ hn1]; simp
    have e : pre ++ a ++ '\x00' :: junk ++ post = pre ++ (a ++ '\x00' :: (junk ++ post)) := by simp
    simp only [entry, hpr, question]
    rw [e]
    cases posix with
    | true => simpa [message] using noMsg
    | false =>
      simp only [Bool.false_eq_true, if_false, List.drop_left]
      rcases first_occ '?' a with hq | ⟨x, m, rfl, hx⟩
      · rw [strchr_null '?' (by decide) _ _ _ hn1 hq]
        have hall : ∀ z ∈ a, (decide (z ≠ '?')) = true := by
          intro z hz; simp only [decide_eq_true_eq]; intro h; subst h; exact hq hz
        have t1 : a.takeWhile (· ≠ '?') = a := by
          have := List.takeWhile_append_of_pos (l₂ := []) hall
          simpa using this
        have t2 : a.dropWhile (· ≠ '?') = [] := by
          have := List.dropWhile_append_of_pos (l₂ := []) hall
          simpa using this
        rw [t1, t2]
        simpa [message, nonempty] using noMsg
      · have hnx : noNul x := fun h => hn1 (by simp [h])
        have hnm : noNul m := fun h => hn1 (by simp [h])
        rw [List.append_assoc, List.cons_append, strchr_found '?' x _ _ hnx hx]
        have hall : ∀ z ∈ x, (decide (z ≠ '?')) = true := by
          intro z hz; simp only [decide_eq_true_eq]; intro h; subst h; exact hx hz
        have t1 : (x ++ '?' :: m).takeWhile (· ≠ '?') = x := by
          rw [List.takeWhile_append_of_pos hall]; simp
        have t2 : (x ++ '?' :: m).dropWhile (· ≠ '?') = '?' :: m := by
          rw [List.dropWhile_append_of_pos hall]; simp
        rw [t1, t2]
        obtain ⟨body, h1, b, h2, h3, h4⟩ := withMsg x m '?' hnx hnm (by simpa using hlen)
        exact ⟨body, h1, b, h2, by simpa using h3, h4⟩

/-! ## The whole value -/

theorem segments_none : ∀ s : List Char, ':' ∉ s → segments s = [s] := by
  intro s
  induction s with
  | nil => intro _; rfl
  | cons c r ih =>
    intro h
    simp only [List.mem_cons, not_or] at h
    simp only [segments]
    rw [if_neg (Ne.symm h.1), ih h.2]

theorem segments_first : ∀ a r : List Char, ':' ∉ a → segments (a ++ ':' :: r) = a :: segments r := by
  intro a
  induction a with
  | nil => intro r _; simp [segments]
  | cons c a ih =>
    intro r h
    simp only [List.mem_cons, not_or] at h
    simp only [List.cons_append, segments]
    rw [if_neg (Ne.symm h.1), ih r h.2]

/-- The list so far reads as `es`, whatever follows the part of the buffer already done. -/
def readsAll (pre : List Char) (l : List Box) (es : List (List Char × Option (List Char))) : Prop :=
  ∀ post, l.map (readBox (pre ++ post)) = es

theorem readsAll_step {pre body : List Char} {l : List Box} {es : List (List Char × Option (List Char))}
    {b : Box} {e : List Char × Option (List Char)} (h1 : readsAll pre l es) (h2 : reads pre body b e) :
    readsAll (pre ++ body) (if e.1 = [] then l else b :: l) (if e.1 = [] then es else e :: es) := by
  intro post
  by_cases h : e.1 = []
  · rw [if_pos h, if_pos h, List.append_assoc]; exact h1 _
  · rw [if_neg h, if_neg h, List.append_assoc, List.map_cons, h2 post, h1]

theorem boxes_cons (posix : Bool) (seg : List Char) (rest : List (List Char)) (es : List (List Char × Option (List Char))) :
    (((seg :: rest).map (entry posix)).filter (fun e => e.1 ≠ [])).reverse ++ es =
    ((rest.map (entry posix)).filter (fun e => e.1 ≠ [])).reverse ++
      (if (entry posix seg).1 = [] then es else entry posix seg :: es) := by
  by_cases h : (entry posix seg).1 = []
  · simp [h]
  · simp [h]

/-- Offsets of the last node: unchanged if there is one already. -/
theorem loop_spec (posix : Bool) : ∀ (fuel : Nat) (pre s : List Char) (l : List Box)
    (es : List (List Char × Option (List Char))), noNul s → s.length < fuel → readsAll pre l es →
    ∃ buf' l', loop posix fuel (pre ++ (s ++ ['\x00'])) pre.length l = some (buf', l') ∧
      buf'.length = pre.length + s.length + 1 ∧
      l'.map (readBox buf') = (boxes posix s).reverse ++ es ∧
      ∃ new, l' = new ++ l ∧ (∀ b ∈ new, pre.length ≤ b.path ∧ b.path < buf'.length) ∧
        ∀ e rest, segments s = e :: rest →
          ((entry posix e).1 ≠ [] → ∃ n b, new = n ++ [b] ∧ b.path = pre.length) ∧
          ((entry posix e).1 = [] → ∀ b ∈ new, pre.length < b.path) := by
  intro fuel
  induction fuel with
  | zero => intro _ _ _ _ _ h; omega
  | succ fuel ih =>
    intro pre s l es hs hf hl
    simp only [loop, List.drop_left]
    rcases first_occ ':' s with hn | ⟨a, r, rfl, ha⟩
    · rw [strchr_null ':' (by decide) _ _ _ hs hn]
      simp only
      obtain ⟨body, h1, b, h2, h3, h4⟩ := segment_spec posix (fuel + 1) pre s [] l hs hf
      rw [h4]
      refine ⟨_, _, rfl, by simp; omega, ?_, ?_⟩
      · have := readsAll_step hl h3 []
        rw [List.append_nil]
        simp only [List.append_nil] at this
        rw [this]
        simp only [boxes, segments_none _ hn]
        rw [boxes_cons]; simp
      · rw [segments_none _ hn]
        split
        · next he =>
          refine ⟨[], rfl, by simp, ?_⟩
          intro e rest her
          injection her with h5 _; subst h5
          exact ⟨fun h => absurd he h, by simp⟩
        · next he =>
          refine ⟨[b], rfl, by simp [h2]; omega, ?_⟩
          intro e rest her
          injection her with h5 _; subst h5
          exact ⟨fun _ => ⟨[], b, rfl, h2⟩, fun h => absurd h he⟩
    · have hna : noNul a := fun hx => hs (by simp [hx])
      have hnr : noNul r := fun hx => hs (by simp [hx])
      rw [List.append_assoc, List.cons_append, strchr_found ':' a _ _ hna ha]
      simp only
      rw [set_mid _ _ _ _ _ _ rfl]
      obtain ⟨body, h1, b, h2, h3, h4⟩ := segment_spec posix (fuel + 1) pre a (r ++ ['\x00']) l hna (by simp at hf; omega)
      rw [h4]
      simp only
      have hpos : pre.length + a.length + 1 = (pre ++ body).length := by simp; omega
      rw [hpos, ← List.append_assoc]
      obtain ⟨buf', l', k1, k2, k3, new, k4, k5, _⟩ := ih (pre ++ body) r _ _ hnr (by simp at hf; omega) (readsAll_step hl h3)
      rw [k1]
      refine ⟨buf', l', rfl, by rw [k2]; simp; omega, ?_, ?_⟩
      · rw [k3]
        simp only [boxes, segments_first _ _ ha]
        rw [boxes_cons]
      · rw [segments_first _ _ ha]
        split at k4
        · next he =>
          refine ⟨new, k4, fun x hx => by have := k5 x hx; simp at this; omega, ?_⟩
          intro e rest her
          injection her with h5 _; subst h5
          exact ⟨fun h => absurd he h, fun _ x hx => by have := k5 x hx; simp at this; omega⟩
        · next he =>
          refine ⟨new ++ [b], by rw [k4]; simp, ?_, ?_⟩
          · intro x hx
            simp only [List.mem_append, List.mem_singleton] at hx
            rcases hx with hx | hx
            · have := k5 x hx; simp at this; omega
            · rw [hx, h2, k2]; simp; omega
          · intro e rest her
            injection her with h5 _; subst h5
            exact ⟨fun _ => ⟨new, b, rfl, h2⟩, fun h => absurd h he⟩

/-- C55: every value is parsed without leaving its copy in memory, and the mailboxes are
exactly the segments with a path, each with the message the manual describes. -/
theorem mpset_spec (posix : Bool) (s : List Char) (hs : noNul s) :
    ∃ buf l, mpset posix s = some (buf, l) ∧ buf.length = s.length + 1 ∧
      (l.map (readBox buf)).reverse = boxes posix s := by
  obtain ⟨buf, l, h1, h2, h3, _⟩ := loop_spec posix (s.length + 1) [] s [] [] hs (by omega)
    (by intro post; rfl)
  refine ⟨buf, l, by simpa [mpset] using h1, by simpa using h2, ?_⟩
  rw [h3]; simp

/-- A percent sign in a path must be written `\\%`, the rest of a segment stands for itself:
every path and every message can be expressed, unless the path ends in a backslash or one of
them contains a colon. -/
def escape : List Char → List Char
  | [] => []
  | c :: r => if c = '%' then '\\' :: '%' :: escape r else c :: escape r

theorem pct_escape : ∀ (path m : List Char), path.getLast? ≠ some '\\' →
    pct (escape path ++ '%' :: m) = (path, some m) := by
  intro path
  induction path with
  | nil => intro m _; cases m <;> simp [escape, pct]
  | cons c r ih =>
    intro m h
    have hr : r.getLast? ≠ some '\\' := by
      cases r with
      | nil => simp
      | cons d r => simpa using h
    simp only [escape]
    by_cases hc : c = '%'
    · subst hc
      rw [if_pos rfl]
      simp [pct, ih m hr]
    · rw [if_neg hc]
      cases r with
      | nil =>
        have hb : c ≠ '\\' := by simpa using h
        have := ih m hr
        simp only [escape, List.nil_append] at this
        simp [escape, pct, hc, hb, this]
      | cons d r =>
        have := ih m hr
        have hne : ∃ x y, escape (d :: r) ++ '%' :: m = x :: y ∧ x ≠ '%' := by
          simp only [escape]
          by_cases hd : d = '%'
          · rw [if_pos hd]; exact ⟨_, _, rfl, by decide⟩
          · rw [if_neg hd]; exact ⟨_, _, rfl, hd⟩
        obtain ⟨x, y, he, hx⟩ := hne
        rw [he] at this
        rw [List.cons_append, he]
        simp [pct, hc, hx, this]

theorem entry_escape (posix : Bool) (path m : List Char) (h : path.getLast? ≠ some '\\') (hm : m ≠ []) :
    entry posix (escape path ++ '%' :: m) = (path, some m) := by
  simp only [entry, pct_escape path m h]
  cases m with
  | nil => exact absurd rfl hm
  | cons _ _ => rfl

/-! ## C70: the memory of the value -/

theorem munset_last : ∀ (l : List Box) (b : Box), munset (l ++ [b]) = some b.path := by
  intro l
  induction l with
  | nil => intro b; rfl
  | cons x l ih =>
    intro b
    rw [List.cons_append]
    cases hl : l ++ [b] with
    | nil => simp at hl
    | cons y r => rw [munset, ← hl, ih]; simp

theorem munset_mem : ∀ (l : List Box), l ≠ [] → ∃ b ∈ l, munset l = some b.path := by
  intro l h
  obtain ⟨l', b, rfl⟩ : ∃ l' b, l = l' ++ [b] := by
    exact ⟨l.dropLast, l.getLast h, (List.dropLast_concat_getLast h).symm⟩
  exact ⟨b, by simp, munset_last l' b⟩

/-- C70: what `munset` releases of a value parsed by `mpset`: the allocation itself (offset
0) exactly if the first segment has a path; nothing at all (a leak) if no segment has one;
and otherwise a pointer into the middle of the allocation. -/
theorem munset_spec (posix : Bool) (s : List Char) (hs : noNul s) :
    ∃ buf l, mpset posix s = some (buf, l) ∧
      (boxes posix s = [] → munset l = none) ∧
      ((∃ e rest, segments s = e :: rest ∧ (entry posix e).1 ≠ []) → munset l = some 0) ∧
      (boxes posix s ≠ [] → (∃ e rest, segments s = e :: rest ∧ (entry posix e).1 = []) →
        ∃ p, munset l = some p ∧ 0 < p ∧ p < buf.length) := by
  obtain ⟨buf, l, h1, h2, h3, new, h4, h5, h6⟩ := loop_spec posix (s.length + 1) [] s [] [] hs (by omega)
    (by intro post; rfl)
  simp only [List.append_nil] at h3 h4
  subst h4
  refine ⟨buf, l, by simpa [mpset] using h1, ?_, ?_, ?_⟩
  · intro hb
    rw [hb] at h3
    simp only [List.reverse_nil, List.map_eq_nil_iff] at h3
    rw [h3]; rfl
  · rintro ⟨e, rest, he, hne⟩
    obtain ⟨n, b, hn, hb⟩ := (h6 e rest he).1 hne
    rw [hn, munset_last, hb]; rfl
  · rintro hb ⟨e, rest, he, hne⟩
    have hl : l ≠ [] := by
      rintro rfl
      apply hb
      simpa using h3.symm
    obtain ⟨b, hbm, hbp⟩ := munset_mem l hl
    have := (h6 e rest he).2 hne b hbm
    exact ⟨b.path, hbp, by simpa using this, (h5 b hbm).2⟩

/-- The part of C70 that holds: a value whose first segment has a path is released as a
whole. -/
theorem released_partial (posix : Bool) (s e : List Char) (rest : List (List Char)) (hs : noNul s)
    (h : segments s = e :: rest) (hne : (entry posix e).1 ≠ []) :
    ∃ buf l, mpset posix s = some (buf, l) ∧ munset l = some 0 := by
  obtain ⟨buf, l, h1, _, h2, _⟩ := munset_spec posix s hs
  exact ⟨buf, l, h1, h2 ⟨e, rest, h, hne⟩⟩

/-- `MAILPATH=:/x` and then any other value: `afree` of a pointer that is no allocation. -/
theorem bad_free : (mpset false ":/x".toList).map (fun r => munset r.2) = some (some 1) := by decide +kernel

/-- `MAILPATH=` and then any other value: the copy is lost. -/
theorem leak : (mpset false []).map (fun r => munset r.2) = some none := by decide +kernel

/-! ## Concrete cases -/

example : boxes false "/a:/b%hi there:/c?x:\\%d:%lost::/e%".toList =
    [("/a".toList, none), ("/b".toList, some "hi there".toList), ("/c".toList, some "x".toList),
     ("%d".toList, none), ("/e".toList, none)] := by decide +kernel

example : (mpset false "/a:/b\\%\\%c%hi?:/c?x".toList).map (fun r => r.2.map (readBox r.1)) =
    some [("/c".toList, some "x".toList), ("/b%%c".toList, some "hi?".toList), ("/a".toList, none)] := by decide +kernel

example : (mpset true "/c?x".toList).map (fun r => r.2.map (readBox r.1)) = some [("/c?x".toList, none)] := by decide +kernel

end Ksh.Mail
