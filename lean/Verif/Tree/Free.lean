import Verif.Tree.Props

/-!
# Freeing trees (C48)
-/

namespace Ksh.Tree

/-- `m` without the objects `l` -/
def without (m : Mem) (l : List Nat) : Mem := fun a => if a ∈ l then none else m a

theorem without_nil (m : Mem) : without m [] = m := by funext a; simp [without]

theorem without_append (m : Mem) (l1 l2 : List Nat) : without (without m l1) l2 = without m (l1 ++ l2) := by
  funext a; simp only [without, List.mem_append]; by_cases h1 : a ∈ l1 <;> by_cases h2 : a ∈ l2 <;> simp [h1, h2]

theorem without_other {m : Mem} {l : List Nat} {a : Nat} (h : a ∉ l) : without m l a = m a := by simp [without, h]

theorem free_spec {m : Mem} {a : Nat} (h0 : a ≠ 0) (h : (m a).isSome) : free m a = some (without m [a]) := by
  simp only [free, if_neg h0]
  cases hm : m a with
  | none => rw [hm] at h; simp at h
  | some o =>
    simp only [Option.some.injEq]
    funext b; simp [upd, without]

theorem frees_spec : ∀ (l : List Nat) (m : Mem), l.Nodup → Live m l → frees m l = some (without m l)
  | [], m, _, _ => by rw [frees, without_nil]
  | a :: l, m, hn, hl => by
    simp only [List.nodup_cons] at hn
    have ha := hl a (by simp)
    rw [frees, free_spec ha.1 ha.2, Option.bind_some, frees_spec l _ hn.2, without_append]
    · rfl
    · intro b hb
      have := hl b (by simp [hb])
      rw [without_other (by simp only [List.mem_singleton]; rintro rfl; exact hn.1 hb)]
      exact this

theorem frees_zero (m : Mem) (l : List Nat) : frees m (0 :: l) = frees m l := by simp [frees, free]

theorem frees_app : ∀ (l1 l2 : List Nat) (m : Mem), frees m (l1 ++ l2) = (frees m l1).bind (frees · l2)
  | [], l2, m => by simp [frees]
  | a :: l1, l2, m => by
    simp only [List.cons_append, frees]
    cases free m a with
    | none => rfl
    | some m' => simp [frees_app l1 l2 m']

theorem optWord_frees {m m' : Mem} {p : Nat} {w : Option Bytes} {l : List Nat} (h : OptWord m p w l) : frees m' [p] = frees m' l := by
  cases w with
  | none => obtain ⟨rfl, rfl⟩ := h; simp [frees, free]
  | some w => obtain ⟨-, -, rfl⟩ := h; rfl

theorem optStr_frees {m m' : Mem} {p : Nat} {w : Option Bytes} {l : List Nat} (h : OptStr m p w l) : frees m' [p] = frees m' l := by
  cases w with
  | none => obtain ⟨rfl, rfl⟩ := h; simp [frees, free]
  | some w => obtain ⟨-, -, rfl⟩ := h; rfl

theorem strRep_frees {m m' : Mem} {ty p : Nat} {s : Option Bytes} {l : List Nat} (h : StrRep m ty p s l) : free m' p = frees m' l := by
  have e : free m' p = frees m' [p] := by simp only [frees]; cases free m' p <;> rfl
  rw [e]
  unfold StrRep at h
  split at h
  · exact optWord_frees h.2
  · exact optStr_frees h

theorem live_without {m : Mem} {l1 l2 : List Nat} (hn : (l1 ++ l2).Nodup) (h : Live m l2) : Live (without m l1) l2 := by
  intro a ha
  rw [without_other]
  · exact h a ha
  · intro h1
    exact (List.nodup_append.1 hn).2.2 a h1 a ha rfl

theorem freeArr_spec {m : Mem} {p : Nat} {ws : Option (List Bytes)} {l : List Nat} (h : ArrRep m p ws l) (hn : l.Nodup) :
    freeArr m p = some (without m l) := by
  have hl := arrRep_live h
  cases ws with
  | none => obtain ⟨rfl, rfl⟩ := h; simp [freeArr, without_nil]
  | some ws =>
    obtain ⟨h0, ps, h1, h2, rfl⟩ := h
    have hps : Live m ps := fun a ha => hl a (by simp [ha])
    have hp : Live (without m ps) [p] := live_without hn (fun a ha => hl a (by simp at ha; simp [ha]))
    simp only [freeArr, if_neg h0, h1, Option.bind_eq_bind, Option.bind_some, frees_spec ps m (List.nodup_append.1 hn).1 hps,
      free_spec h0 (hp p (by simp)).2, without_append]

theorem freeIos_spec : ∀ {ps : List Nat} {ds : List IoD} {l : List Nat} (m : Mem), (∀ p ∈ ps, p ≠ 0) → Ios m ps ds l → l.Nodup →
    freeIos m ps = some (without m l)
  | [], [], l, m, _, h, _ => by have h : l = [] := h; subst h; rw [freeIos, without_nil]
  | p :: ps, d :: ds, l, m, h0, ⟨l1, l2, h1, h2, e⟩, hn => by
    subst e
    have hlive := ioRep_live (h0 p (by simp)) h1
    obtain ⟨o, k1, k2, k3, hp, -, -, a1, a2, a3, rfl⟩ := h1
    have hn1 := (List.nodup_append.1 hn).1
    have e1 : frees m [o.name, o.delim, o.heredoc, p] = frees m (k1 ++ k2 ++ k3 ++ [p]) := by
      rw [frees_app, frees_app, frees_app, ← optWord_frees (m' := m) a1]
      rw [show [o.name, o.delim, o.heredoc, p] = [o.name] ++ ([o.delim] ++ ([o.heredoc] ++ [p])) from rfl, frees_app]
      cases frees m [o.name] with
      | none => rfl
      | some m1 =>
        simp only [Option.bind_some]
        rw [frees_app, optWord_frees a2]
        cases frees m1 k2 with
        | none => rfl
        | some m2 =>
          simp only [Option.bind_some]
          rw [frees_app, optStr_frees a3]
    have ih := freeIos_spec (ps := ps) (ds := ds) (l := l2) (without m (k1 ++ k2 ++ k3 ++ [p])) (fun q hq => h0 q (by simp [hq]))
      (ios_frame h2 (fun a ha => without_other (fun h1 => (List.nodup_append.1 hn).2.2 a h1 a ha rfl))) (List.nodup_append.1 hn).2.1
    simp only [freeIos, hp, Option.bind_eq_bind, e1, frees_spec _ m hn1 hlive, Option.bind_some, ih, without_append]
  | [], _ :: _, _, _, _, h, _ => h.elim
  | _ :: _, [], _, _, _, h, _ => h.elim

theorem iofree_spec {m : Mem} {p : Nat} {ds : Option (List IoD)} {l : List Nat} (h : IosRep m p ds l) (hn : l.Nodup) :
    iofree m p = some (without m l) := by
  have hl := iosRep_live h
  cases ds with
  | none => obtain ⟨rfl, rfl⟩ := h; simp [iofree, without_nil]
  | some ws =>
    obtain ⟨h0, ps, l1, h1, h2, rfl⟩ := h
    have hp : Live (without m l1) [p] := live_without hn (fun a ha => hl a (by simp at ha; simp [ha]))
    simp only [iofree, if_neg h0, h1, Option.bind_eq_bind, Option.bind_some, freeIos_spec m (readPtrs_live h1).2 h2 (List.nodup_append.1 hn).1,
      free_spec h0 (hp p (by simp)).2, without_append]

/-- `tfree` of a tree whose objects are all different frees each of them once, and nothing else; it
does not use an object after it has been freed. -/
theorem tfree_spec : ∀ (t : T) (n : Nat) (m : Mem) (p : Nat) (l : List Nat), Rep m p t l → l.Nodup → t.depth ≤ n →
    tfree n m p = some (without m l) := by
  intro t
  induction t with
  | nil =>
    intro n m p l h _ hd
    obtain ⟨rfl, rfl⟩ := h
    cases n with
    | zero => simp [T.depth] at hd
    | succ n => simp [tfree, without_nil]
  | node ty ev ln str vars args io left right ihl ihr =>
    intro n m p l h hn hd
    cases n with
    | zero => simp [T.depth] at hd
    | succ n =>
      simp only [T.depth] at hd
      have hlive := rep_live h
      obtain ⟨h0, o, l1, l2, l3, l4, l5, l6, hm, rfl, rfl, rfl, r1, r2, r3, r4, r5, r6, rfl⟩ := h
      have n6 := List.nodup_append.1 hn
      have n5 := List.nodup_append.1 n6.1
      have n4 := List.nodup_append.1 n5.1
      have n3 := List.nodup_append.1 n4.1
      have n2 := List.nodup_append.1 n3.1
      have n1 := List.nodup_append.1 n2.1
      have keep : ∀ {k k' : List Nat}, (∀ a ∈ k, ∀ b ∈ k', a ≠ b) → ∀ a ∈ k', without m k a = m a :=
        fun h a ha => without_other (fun h1 => h a h1 a ha rfl)
      simp only [tfree, if_neg h0, hm, Option.bind_eq_bind]
      rw [strRep_frees r1, frees_spec l1 m n1.1 (fun a ha => hlive a (by simp [ha])), Option.bind_some,
        freeArr_spec (arrRep_frame r2 (keep n1.2.2)) n1.2.1, Option.bind_some, without_append,
        freeArr_spec (arrRep_frame r3 (keep n2.2.2)) n2.2.1, Option.bind_some, without_append,
        iofree_spec (iosRep_frame r4 (keep n3.2.2)) n3.2.1, Option.bind_some, without_append,
        ihl n _ _ l5 (rep_frame r5 (keep n4.2.2)) n4.2.1 (by omega), Option.bind_some, without_append,
        ihr n _ _ l6 (rep_frame r6 (keep n5.2.2)) n5.2.1 (by omega), Option.bind_some, without_append,
        free_spec h0, without_append]
      rw [keep n6.2.2 p (by simp), hm]; rfl

/-- Freeing the copy gives back exactly what copying had taken: the memory is as before. -/
theorem tfree_tcopy (t : T) (h : Heap) (p : Nat) (l : List Nat) (w : WF h) (hp : Rep h.mem p t l) (n : Nat) (hn : t.depth ≤ n)
    {h' : Heap} {p' : Nat} (e : tcopy n h p = some (h', p')) : tfree n h'.mem p' = some h.mem := by
  obtain ⟨h2, a, l', e2, g, o, r⟩ := tcopy_spec t n h p l w hp hn
  rw [e] at e2
  simp only [Option.some.injEq, Prod.mk.injEq] at e2
  obtain ⟨rfl, rfl⟩ := e2
  rw [tfree_spec t n _ _ l' r o.nodup hn]
  simp only [Option.some.injEq]
  funext x
  simp only [without]
  by_cases hx : x < h.next
  · rw [if_neg (fun hm => by have := (o.mem x).1 hm; omega), g.frame x hx (by simp)]
  · by_cases hx2 : x < h'.next
    · rw [if_pos ((o.mem x).2 ⟨by omega, hx2⟩), w.fresh x (by omega)]
    · rw [if_neg (fun hm => by have := (o.mem x).1 hm; omega), g.wf.fresh x (by omega), w.fresh x (by omega)]

/-- The copy of a word written by the lexer is that word, every character and every mark of it, up
to its end and no further. -/
theorem wdcopy_word (h : Heap) (p : Nat) (w : List Item) (hw : ∀ i ∈ w, i.ok) (r : Bytes) (hp : h.mem p = some (.bytes (enc w ++ EOS :: r))) :
    wdcopy h p = some (alloc h (.bytes (enc w ++ [EOS]))) := by
  simp only [wdcopy, hp, wdscan_end w hw r, Option.map_some]
  rw [show enc w ++ EOS :: r = (enc w ++ [EOS]) ++ r by simp, List.take_left' (by simp)]

/-! ## Cases -/

/-- the word `a"${b}"` and a string, `case` with a pattern and a redirection -/
def wd : Bytes := [CHAR, 97, OQUOTE, OSUBST, 123, 98, 0, CSUBST, 125, CQUOTE, EOS]

def mem0 : Mem := fun a =>
  match a with
  | 1 => some (.op ⟨11, 0, 0, 0, 4, 2, 0, 3, 7⟩)
  | 2 => some (.op ⟨1, 3, 6, 0, 0, 0, 0, 0, 8⟩)
  | 3 => some (.bytes (wd ++ [99, 99]))
  | 4 => some (.ptrs [5, 0])
  | 5 => some (.io ⟨1, 2, 3, 0, 7⟩)
  | 6 => some (.ptrs [3, 3, 0, 9])
  | 7 => some (.bytes [104, 105, 0, 5])
  | _ => none

def tree0 : T := .node 11 0 7 (some wd) none none (some [⟨1, 2, some wd, none, some [104, 105]⟩])
  (.node 1 3 8 none none (some [wd, wd]) none .nil .nil) .nil

theorem rep0 : Rep mem0 1 tree0 [3, 3, 7, 5, 4, 3, 3, 6, 2, 1] := by
  have hw : WordAt mem0 3 wd := ⟨wd ++ [99, 99], 11, rfl, by decide, by decide⟩
  refine ⟨by decide, _, [3], [], [], [3, 7, 5, 4], [3, 3, 6, 2], [], rfl, rfl, rfl, rfl, ?_, ⟨rfl, rfl⟩, ⟨rfl, rfl⟩, ?_, ?_, ⟨rfl, rfl⟩, rfl⟩
  · rw [StrRep, if_pos (by decide)]; exact ⟨rfl, by decide, hw, rfl⟩
  · exact ⟨by decide, [5], [3, 7, 5], rfl, ⟨[3, 7, 5], [], ⟨_, [3], [], [7], rfl, rfl, rfl, ⟨by decide, hw, rfl⟩, ⟨rfl, rfl⟩,
      ⟨by decide, ⟨[5], rfl, by decide⟩, rfl⟩, rfl⟩, rfl, rfl⟩, rfl⟩
  · refine ⟨by decide, _, [], [], [3, 3, 6], [], [], [], rfl, rfl, rfl, rfl, ?_, ⟨rfl, rfl⟩, ?_, ⟨rfl, rfl⟩, ⟨rfl, rfl⟩, ⟨rfl, rfl⟩, rfl⟩
    · rw [StrRep, if_neg (by decide)]; exact ⟨rfl, rfl⟩
    · exact ⟨by decide, [3, 3], rfl, ⟨hw, hw, trivial⟩, rfl⟩

theorem wf0 : WF ⟨mem0, 8⟩ := ⟨by decide, fun a ha => by
  have ha : 8 ≤ a := ha
  simp only [mem0]
  split <;> first | omega | rfl⟩

/-- The copy has ten objects of its own, where the original used the word at 3 four times; the
slack behind the word and the string is left behind. -/
example : ((tcopy 3 ⟨mem0, 8⟩ 1).map fun (h, p) => (p, h.next, h.mem 9, h.mem 13)) =
    some (8, 18, some (.bytes wd), some (.bytes [104, 105, 0])) := by decide +kernel

example : ∃ h' p' l', tcopy 3 ⟨mem0, 8⟩ 1 = some (h', p') ∧ Rep h'.mem p' tree0 l' := by
  obtain ⟨h', p', l', h1, h2, _⟩ := tcopy_faithful tree0 ⟨mem0, 8⟩ 1 _ wf0 rep0 3 (by decide)
  exact ⟨h', p', l', h1, h2⟩

/-- A word without its end: the scan would leave the object. -/
example : wdscan [CHAR, 97] EOS = none ∧ wdscan [COMSUB, 108, 115] EOS = none := by decide

/-- `x${y}z}`, scanned from inside the outer braces -/
example : wdscan [CHAR, 120, OSUBST, 123, 121, 0, CSUBST, 125, CHAR, 122, CSUBST, 125, CHAR, 33, EOS] CSUBST = some 12 := by decide

end Ksh.Tree
