import Verif.Tree.Word

/-!
# Copies of trees (C48)
-/

namespace Ksh.Tree

/-! ## Frames -/

theorem wordAt_frame {m m' : Mem} {p : Nat} {w : Bytes} (h : WordAt m p w) (e : m' p = m p) : WordAt m' p w := by
  obtain ⟨s, n, h1, h2⟩ := h
  exact ⟨s, n, e.trans h1, h2⟩

theorem strAt_frame {m m' : Mem} {p : Nat} {w : Bytes} (h : StrAt m p w) (e : m' p = m p) : StrAt m' p w := by
  obtain ⟨r, h1, h2⟩ := h
  exact ⟨r, e.trans h1, h2⟩

theorem optWord_frame {m m' : Mem} {p : Nat} {w : Option Bytes} {l : List Nat} (h : OptWord m p w l) (e : ∀ a ∈ l, m' a = m a) : OptWord m' p w l := by
  cases w with
  | none => exact h
  | some w =>
    obtain ⟨h1, h2, rfl⟩ := h
    exact ⟨h1, wordAt_frame h2 (e p (by simp)), rfl⟩

theorem optStr_frame {m m' : Mem} {p : Nat} {w : Option Bytes} {l : List Nat} (h : OptStr m p w l) (e : ∀ a ∈ l, m' a = m a) : OptStr m' p w l := by
  cases w with
  | none => exact h
  | some w =>
    obtain ⟨h1, h2, rfl⟩ := h
    exact ⟨h1, strAt_frame h2 (e p (by simp)), rfl⟩

theorem words_frame {m m' : Mem} : ∀ {ps : List Nat} {ws : List Bytes}, Words m ps ws → (∀ a ∈ ps, m' a = m a) → Words m' ps ws
  | [], [], _, _ => trivial
  | p :: ps, w :: ws, h, e => ⟨wordAt_frame h.1 (e p (by simp)), words_frame h.2 (fun a ha => e a (by simp [ha]))⟩
  | [], _ :: _, h, _ => h.elim
  | _ :: _, [], h, _ => h.elim

theorem readPtrs_frame {m m' : Mem} {p : Nat} (e : m' p = m p) : readPtrs m' p = readPtrs m p := by simp only [readPtrs, e]

theorem arrRep_frame {m m' : Mem} {p : Nat} {ws : Option (List Bytes)} {l : List Nat} (h : ArrRep m p ws l) (e : ∀ a ∈ l, m' a = m a) : ArrRep m' p ws l := by
  cases ws with
  | none => exact h
  | some ws =>
    obtain ⟨h1, ps, h2, h3, rfl⟩ := h
    exact ⟨h1, ps, by rw [readPtrs_frame (e p (by simp)), h2], words_frame h3 (fun a ha => e a (by simp [ha])), rfl⟩

theorem ioRep_frame {m m' : Mem} {p : Nat} {d : IoD} {l : List Nat} (h : IoRep m p d l) (e : ∀ a ∈ l, m' a = m a) : IoRep m' p d l := by
  obtain ⟨o, l1, l2, l3, h1, h2, h3, h4, h5, h6, rfl⟩ := h
  exact ⟨o, l1, l2, l3, (e p (by simp)).trans h1, h2, h3, optWord_frame h4 (fun a ha => e a (by simp [ha])),
    optWord_frame h5 (fun a ha => e a (by simp [ha])), optStr_frame h6 (fun a ha => e a (by simp [ha])), rfl⟩

theorem ios_frame {m m' : Mem} : ∀ {ps : List Nat} {ds : List IoD} {l : List Nat}, Ios m ps ds l → (∀ a ∈ l, m' a = m a) → Ios m' ps ds l
  | [], [], _, h, _ => h
  | p :: ps, d :: ds, l, h, e => by
    obtain ⟨l1, l2, h1, h2, rfl⟩ := h
    exact ⟨l1, l2, ioRep_frame h1 (fun a ha => e a (by simp [ha])), ios_frame h2 (fun a ha => e a (by simp [ha])), rfl⟩
  | [], _ :: _, _, h, _ => h.elim
  | _ :: _, [], _, h, _ => h.elim

theorem iosRep_frame {m m' : Mem} {p : Nat} {ds : Option (List IoD)} {l : List Nat} (h : IosRep m p ds l) (e : ∀ a ∈ l, m' a = m a) : IosRep m' p ds l := by
  cases ds with
  | none => exact h
  | some ds =>
    obtain ⟨h1, ps, l1, h2, h3, rfl⟩ := h
    exact ⟨h1, ps, l1, by rw [readPtrs_frame (e p (by simp)), h2], ios_frame h3 (fun a ha => e a (by simp [ha])), rfl⟩

theorem strRep_frame {m m' : Mem} {ty p : Nat} {s : Option Bytes} {l : List Nat} (h : StrRep m ty p s l) (e : ∀ a ∈ l, m' a = m a) : StrRep m' ty p s l := by
  unfold StrRep at *
  split
  · rename_i hc; rw [if_pos hc] at h; exact ⟨h.1, optWord_frame h.2 e⟩
  · rename_i hc; rw [if_neg hc] at h; exact optStr_frame h e

/-- A tree in memory stays what it is whatever happens to objects it is not made of. -/
theorem rep_frame {m m' : Mem} : ∀ {t : T} {p : Nat} {l : List Nat}, Rep m p t l → (∀ a ∈ l, m' a = m a) → Rep m' p t l
  | .nil, p, l, h, _ => h
  | .node .., p, l, h, e => by
    obtain ⟨h0, o, l1, l2, l3, l4, l5, l6, h1, h2, h3, h4, h5, h6, h7, h8, h9, h10, rfl⟩ := h
    exact ⟨h0, o, l1, l2, l3, l4, l5, l6, (e p (by simp)).trans h1, h2, h3, h4,
      strRep_frame h5 (fun a ha => e a (by simp [ha])), arrRep_frame h6 (fun a ha => e a (by simp [ha])),
      arrRep_frame h7 (fun a ha => e a (by simp [ha])), iosRep_frame h8 (fun a ha => e a (by simp [ha])),
      rep_frame h9 (fun a ha => e a (by simp [ha])), rep_frame h10 (fun a ha => e a (by simp [ha])), rfl⟩

/-! ## Everything that is part of a tree is allocated -/

theorem upto_ne : ∀ {l ps : List Nat}, upto l = some ps → ∀ p ∈ ps, p ≠ 0
  | [], ps, h => by simp [upto] at h
  | a :: r, ps, h => by
    simp only [upto] at h
    split at h
    · simp at h; subst h; simp
    · rename_i h0
      cases hu : upto r with
      | none => rw [hu] at h; simp at h
      | some qs =>
        rw [hu] at h
        simp only [Option.map_some, Option.some.injEq] at h
        subst h
        intro p hp
        rcases List.mem_cons.1 hp with rfl | hp
        · exact h0
        · exact upto_ne hu p hp

theorem readPtrs_live {m : Mem} {p : Nat} {ps : List Nat} (h : readPtrs m p = some ps) : (m p).isSome ∧ ∀ q ∈ ps, q ≠ 0 := by
  simp only [readPtrs] at h
  split at h
  · rename_i l hl; exact ⟨by simp [hl], upto_ne h⟩
  · simp at h

def Live (m : Mem) (l : List Nat) : Prop := ∀ a ∈ l, a ≠ 0 ∧ (m a).isSome

theorem optWord_live {m : Mem} {p : Nat} {w : Option Bytes} {l : List Nat} (h : OptWord m p w l) : Live m l := by
  cases w with
  | none => obtain ⟨-, rfl⟩ := h; intro a ha; simp at ha
  | some w =>
    obtain ⟨h1, ⟨s, n, h2, -⟩, rfl⟩ := h
    intro a ha; simp at ha; subst ha; exact ⟨h1, by simp [h2]⟩

theorem optStr_live {m : Mem} {p : Nat} {w : Option Bytes} {l : List Nat} (h : OptStr m p w l) : Live m l := by
  cases w with
  | none => obtain ⟨-, rfl⟩ := h; intro a ha; simp at ha
  | some w =>
    obtain ⟨h1, ⟨r, h2, -⟩, rfl⟩ := h
    intro a ha; simp at ha; subst ha; exact ⟨h1, by simp [h2]⟩

theorem words_live {m : Mem} : ∀ {ps : List Nat} {ws : List Bytes}, Words m ps ws → ∀ a ∈ ps, (m a).isSome
  | [], [], _ => by simp
  | p :: ps, w :: ws, ⟨⟨s, n, h, _⟩, h2⟩ => by
    intro a ha
    rcases List.mem_cons.1 ha with rfl | ha
    · simp [h]
    · exact words_live h2 a ha
  | [], _ :: _, h => h.elim
  | _ :: _, [], h => h.elim

theorem live_append {m : Mem} {l1 l2 : List Nat} (h1 : Live m l1) (h2 : Live m l2) : Live m (l1 ++ l2) := by
  intro a ha
  rcases List.mem_append.1 ha with ha | ha
  · exact h1 a ha
  · exact h2 a ha

theorem arrRep_live {m : Mem} {p : Nat} {ws : Option (List Bytes)} {l : List Nat} (h : ArrRep m p ws l) : Live m l := by
  cases ws with
  | none => obtain ⟨-, rfl⟩ := h; intro a ha; simp at ha
  | some ws =>
    obtain ⟨h1, ps, h2, h3, rfl⟩ := h
    have := readPtrs_live h2
    refine live_append (fun a ha => ⟨this.2 a ha, words_live h3 a ha⟩) ?_
    intro a ha; simp at ha; subst ha; exact ⟨h1, this.1⟩

theorem ioRep_live {m : Mem} {p : Nat} (h0 : p ≠ 0) {d : IoD} {l : List Nat} (h : IoRep m p d l) : Live m l := by
  obtain ⟨o, l1, l2, l3, h1, h2, h3, h4, h5, h6, rfl⟩ := h
  refine live_append (live_append (live_append (optWord_live h4) (optWord_live h5)) (optStr_live h6)) ?_
  intro a ha; simp at ha; subst ha; exact ⟨h0, by simp [h1]⟩

theorem ios_live {m : Mem} : ∀ {ps : List Nat} {ds : List IoD} {l : List Nat}, (∀ p ∈ ps, p ≠ 0) → Ios m ps ds l → Live m l
  | [], [], l, _, h => by have h : l = [] := h; subst h; intro a ha; simp at ha
  | p :: ps, d :: ds, l, h0, ⟨l1, l2, h1, h2, e⟩ => by
    subst e
    exact live_append (ioRep_live (h0 p (by simp)) h1) (ios_live (fun q hq => h0 q (by simp [hq])) h2)
  | [], _ :: _, _, _, h => h.elim
  | _ :: _, [], _, _, h => h.elim

theorem iosRep_live {m : Mem} {p : Nat} {ds : Option (List IoD)} {l : List Nat} (h : IosRep m p ds l) : Live m l := by
  cases ds with
  | none => obtain ⟨-, rfl⟩ := h; intro a ha; simp at ha
  | some ds =>
    obtain ⟨h1, ps, l1, h2, h3, rfl⟩ := h
    have := readPtrs_live h2
    refine live_append (ios_live this.2 h3) ?_
    intro a ha; simp at ha; subst ha; exact ⟨h1, this.1⟩

theorem strRep_live {m : Mem} {ty p : Nat} {s : Option Bytes} {l : List Nat} (h : StrRep m ty p s l) : Live m l := by
  unfold StrRep at h
  split at h
  · exact optWord_live h.2
  · exact optStr_live h

theorem rep_live {m : Mem} : ∀ {t : T} {p : Nat} {l : List Nat}, Rep m p t l → Live m l
  | .nil, p, l, ⟨_, e⟩ => by subst e; intro a ha; simp at ha
  | .node .., p, l, h => by
    obtain ⟨h0, o, l1, l2, l3, l4, l5, l6, h1, h2, h3, h4, h5, h6, h7, h8, h9, h10, rfl⟩ := h
    refine live_append (live_append (live_append (live_append (live_append (live_append
      (strRep_live h5) (arrRep_live h6)) (arrRep_live h7)) (iosRep_live h8)) (rep_live h9)) (rep_live h10)) ?_
    intro a ha; simp at ha; subst ha; exact ⟨h0, by simp [h1]⟩

/-! ## Growing heaps -/

/-- Nothing is allocated from `next` on, and `NULL` is no address. -/
structure WF (h : Heap) : Prop where
  pos : 1 ≤ h.next
  fresh : ∀ a, h.next ≤ a → h.mem a = none

/-- `h'` is `h` with more objects; of the old ones only those in `xs` may have been written. -/
structure G (xs : List Nat) (h h' : Heap) : Prop where
  wf : WF h'
  le : h.next ≤ h'.next
  frame : ∀ a, a < h.next → a ∉ xs → h'.mem a = h.mem a

/-- The objects `l` are, each once, those `h'` has more than `h`. -/
structure Own (h h' : Heap) (l : List Nat) : Prop where
  nodup : l.Nodup
  mem : ∀ a, a ∈ l ↔ h.next ≤ a ∧ a < h'.next

theorem G.refl {h : Heap} (w : WF h) (xs : List Nat) : G xs h h := ⟨w, Nat.le_refl _, fun _ _ _ => rfl⟩

theorem Own.refl (h : Heap) : Own h h [] := ⟨List.nodup_nil, fun a => by simp⟩

theorem G.trans {xs ys : List Nat} {h h1 h2 : Heap} (g1 : G xs h h1) (g2 : G ys h1 h2) (hy : ∀ y ∈ ys, y ∈ xs ∨ h.next ≤ y) : G xs h h2 := by
  refine ⟨g2.wf, Nat.le_trans g1.le g2.le, fun a ha hx => ?_⟩
  rw [g2.frame a (Nat.lt_of_lt_of_le ha g1.le) ?_, g1.frame a ha hx]
  intro hy'
  rcases hy a hy' with h | h
  · exact hx h
  · omega

theorem Own.trans {h h1 h2 : Heap} {l1 l2 : List Nat} (o1 : Own h h1 l1) (o2 : Own h1 h2 l2) (e1 : h.next ≤ h1.next) (e2 : h1.next ≤ h2.next) :
    Own h h2 (l1 ++ l2) := by
  refine ⟨List.nodup_append.2 ⟨o1.nodup, o2.nodup, ?_⟩, ?_⟩
  · intro a ha b hb e
    subst e
    have := (o1.mem a).1 ha
    have := (o2.mem a).1 hb
    omega
  · intro a
    rw [List.mem_append, o1.mem, o2.mem]
    omega

theorem Own.perm {h h' : Heap} {l l' : List Nat} (o : Own h h' l) (p : l.Perm l') : Own h h' l' :=
  ⟨p.nodup_iff.1 o.nodup, fun a => by rw [← p.mem_iff, o.mem]⟩

theorem alloc_G {h : Heap} (w : WF h) (o : Obj) : G [] h (alloc h o).1 := by
  refine ⟨⟨by simp [alloc], ?_⟩, by simp [alloc], ?_⟩
  · intro a ha
    simp only [alloc] at ha ⊢
    simp only [upd, if_neg (show a ≠ h.next by omega)]
    exact w.fresh a (by omega)
  · intro a ha _
    simp only [alloc, upd, if_neg (show a ≠ h.next by omega)]

theorem alloc_Own (h : Heap) (o : Obj) : Own h (alloc h o).1 [h.next] := ⟨by simp, fun a => by simp [alloc]; omega⟩

theorem alloc_mem (h : Heap) (o : Obj) : (alloc h o).1.mem h.next = some o := by simp [alloc, upd]

theorem store_G {h : Heap} (w : WF h) {a : Nat} (ha : a < h.next) (o : Obj) : G [a] h (store h a o) := by
  refine ⟨⟨w.pos, ?_⟩, Nat.le_refl _, ?_⟩
  · intro b hb
    have hb : h.next ≤ b := hb
    simp only [store, upd, if_neg (show b ≠ a by omega)]
    exact w.fresh b hb
  · intro b _ hb
    simp only [List.mem_singleton] at hb
    simp only [store, upd, if_neg hb]

theorem Own.store {h h' : Heap} {l : List Nat} (o : Own h h' l) (a : Nat) (x : Obj) : Own h (store h' a x) l := ⟨o.nodup, o.mem⟩

theorem lt_of_live {h : Heap} (w : WF h) {a : Nat} (ha : (h.mem a).isSome) : a < h.next := by
  rcases Nat.lt_or_ge a h.next with h1 | h1
  · exact h1
  · rw [w.fresh a h1] at ha; simp at ha

theorem write_eq {h : Heap} {p i v : Nat} {l : List Nat} (hp : h.mem p = some (.ptrs l)) (hi : i < l.length) :
    write h p i v = some (store h p (.ptrs (l.set i v))) := by
  simp only [write, hp, if_pos hi]

/-! ## Single objects -/

theorem wdcopy_spec {h : Heap} (w : WF h) {p : Nat} {s : Bytes} (hp : WordAt h.mem p s) :
    ∃ h' a, wdcopy h p = some (h', a) ∧ G [] h h' ∧ Own h h' [a] ∧ WordAt h'.mem a s ∧ a = h.next := by
  obtain ⟨b, n, h1, h2, rfl⟩ := hp
  refine ⟨_, _, ?_, alloc_G w (.bytes (b.take n)), alloc_Own h _, ?_, rfl⟩
  · simp [wdcopy, h1, h2]; rfl
  · refine ⟨_, n, alloc_mem h _, ?_, ?_⟩
    · simpa using wdscan_take h2 []
    · rw [List.take_take, Nat.min_self]

theorem strlen_append {s : Bytes} (hs : (0 : UInt8) ∉ s) (r : Bytes) : strlen (s ++ 0 :: r) = some s.length := by
  induction s with
  | nil => simp [strlen]
  | cons b s ih =>
    simp only [List.mem_cons, not_or] at hs
    simp only [List.cons_append, strlen, if_neg (fun e : b = 0 => hs.1 e.symm), ih hs.2, Option.map_some, List.length_cons]

theorem strSave_spec {h : Heap} (w : WF h) {p : Nat} {s : Option Bytes} {l : List Nat} (hp : OptStr h.mem p s l) :
    ∃ h' a l', strSave h p = some (h', a) ∧ G [] h h' ∧ Own h h' l' ∧ OptStr h'.mem a s l' := by
  cases s with
  | none =>
    obtain ⟨rfl, rfl⟩ := hp
    exact ⟨h, 0, [], by simp [strSave], G.refl w _, Own.refl h, rfl, rfl⟩
  | some s =>
    obtain ⟨h0, ⟨r, h1, h2⟩, rfl⟩ := hp
    have hw := w.pos
    refine ⟨_, _, [h.next], ?_, alloc_G w (.bytes (s ++ [0])), alloc_Own h _, (show h.next ≠ 0 by omega), ⟨[], alloc_mem h _, h2⟩, rfl⟩
    simp [strSave, h0, h1, strlen_append h2]; rfl

theorem copyWord?_spec {h : Heap} (w : WF h) {p : Nat} {s : Option Bytes} {l : List Nat} (hp : OptWord h.mem p s l) :
    ∃ h' a l', copyWord? h p = some (h', a) ∧ G [] h h' ∧ Own h h' l' ∧ OptWord h'.mem a s l' := by
  cases s with
  | none =>
    obtain ⟨rfl, rfl⟩ := hp
    exact ⟨h, 0, [], by simp [copyWord?], G.refl w _, Own.refl h, rfl, rfl⟩
  | some s =>
    obtain ⟨h0, h1, rfl⟩ := hp
    obtain ⟨h', a, g1, g2, g3, g4, g5⟩ := wdcopy_spec w h1
    have hw := w.pos
    exact ⟨h', a, [a], by simp [copyWord?, h0, g1], g2, g3, by omega, g4, rfl⟩

/-! ## Arrays -/

theorem set_take {α : Type} (L : List α) (i : Nat) (v : α) (hi : i < L.length) : (L.set i v).take (i + 1) = L.take i ++ [v] := by
  rw [List.take_succ, List.take_set_of_le (Nat.le_refl i)]
  simp [hi]

theorem set_split {α : Type} (L : List α) (i : Nat) (v : α) (hi : i < L.length) : ∃ R, L.set i v = L.take i ++ v :: R := by
  refine ⟨L.drop (i + 1), ?_⟩
  rw [List.set_eq_take_append_cons_drop, if_pos hi]

theorem copyLoop_spec (arr : Nat) : ∀ (ws : List Nat) (bs : List Bytes) (h : Heap) (i : Nat) (L : List Nat), WF h → arr < h.next →
    h.mem arr = some (.ptrs L) → i + ws.length < L.length → Words h.mem ws bs → arr ∉ ws →
    ∃ h' as R, copyLoop h arr i ws = some h' ∧ G [arr] h h' ∧ Own h h' as ∧ h'.mem arr = some (.ptrs (L.take i ++ (as ++ 0 :: R))) ∧ Words h'.mem as bs := by
  intro ws
  induction ws with
  | nil =>
    intro bs h i L w harr hm hi hw _
    cases bs with
    | cons => exact hw.elim
    | nil =>
      obtain ⟨R, hR⟩ := set_split L i 0 (by simpa using hi)
      refine ⟨_, [], R, write_eq hm (by simpa using hi), store_G w harr _, (Own.refl h).store _ _, ?_, trivial⟩
      simp [store, upd, hR]
  | cons p ws ih =>
    intro bs h i L w harr hm hi hw ha
    cases bs with
    | nil => exact hw.elim
    | cons b bs =>
      simp only [List.length_cons] at hi
      simp only [List.mem_cons, not_or] at ha
      obtain ⟨hb, hws⟩ := hw
      obtain ⟨h1, a, e1, g1, o1, w1, ea⟩ := wdcopy_spec w hb
      have hm1 : h1.mem arr = some (.ptrs L) := by rw [g1.frame arr harr (by simp), hm]
      have harr1 : arr < h1.next := Nat.lt_of_lt_of_le harr g1.le
      have e2 := write_eq (h := h1) (v := a) hm1 (show i < L.length by omega)
      generalize hh2 : store h1 arr (.ptrs (L.set i a)) = h2 at e2
      have g2 : G [arr] h1 h2 := hh2 ▸ store_G g1.wf harr1 _
      have hm2 : h2.mem arr = some (.ptrs (L.set i a)) := by subst hh2; simp [store, upd]
      have n2 : h2.next = h1.next := by subst hh2; rfl
      have g12 : G [arr] h h2 := G.trans ⟨g1.wf, g1.le, fun a ha _ => g1.frame a ha (by simp)⟩ g2 (by simp)
      have hws2 : Words h2.mem ws bs := words_frame hws (fun x hx => g12.frame x (lt_of_live w (words_live hws x hx)) (by
        simp only [List.mem_singleton]; rintro rfl; exact ha.2 hx))
      obtain ⟨h3, as, R, e3, g3, o3, m3, w3⟩ := ih bs h2 (i + 1) (L.set i a) g2.wf (by omega) hm2 (by simp; omega) hws2 ha.2
      refine ⟨h3, a :: as, R, ?_, G.trans g12 g3 (by simp), ?_, ?_, ?_, w3⟩
      · simp only [copyLoop, e1]; simp [e2, e3]
      · have o1' : Own h h2 [a] := hh2 ▸ o1.store _ _
        exact o1'.trans o3 g12.le g3.le
      · rw [m3, set_take L i a (by omega)]; simp
      · refine wordAt_frame w1 ?_
        have hlt : a < h1.next := ((o1.mem a).1 (by simp)).2
        have hne : a ≠ arr := by omega
        rw [g3.frame a (by omega) (by simpa using hne), g2.frame a hlt (by simpa using hne)]

theorem upto_app : ∀ {as : List Nat} (R : List Nat), (∀ a ∈ as, a ≠ 0) → upto (as ++ 0 :: R) = some as
  | [], R, _ => by simp [upto]
  | a :: as, R, h => by
    have := upto_app (as := as) R (fun b hb => h b (by simp [hb]))
    simp only [List.cons_append, upto, if_neg (h a (by simp)), this, Option.map_some]

theorem copyArr_spec {h : Heap} (w : WF h) {p : Nat} {ws : Option (List Bytes)} {l : List Nat} (hp : ArrRep h.mem p ws l) :
    ∃ h' a l', copyArr h p = some (h', a) ∧ G [] h h' ∧ Own h h' l' ∧ ArrRep h'.mem a ws l' := by
  have hw := w.pos
  cases ws with
  | none =>
    obtain ⟨rfl, rfl⟩ := hp
    exact ⟨h, 0, [], by simp [copyArr], G.refl w _, Own.refl h, rfl, rfl⟩
  | some ws =>
    obtain ⟨h0, ps, h1, h2, rfl⟩ := hp
    have hlive : ∀ a ∈ ps, a < h.next := fun a ha => lt_of_live w (words_live h2 a ha)
    have ga := alloc_G w (.ptrs (List.replicate (ps.length + 2) 1))
    have oa := alloc_Own h (.ptrs (List.replicate (ps.length + 2) 1))
    have ma := alloc_mem h (.ptrs (List.replicate (ps.length + 2) 1))
    have e0 : alloc h (.ptrs (List.replicate (ps.length + 2) 1)) = ((alloc h (.ptrs (List.replicate (ps.length + 2) 1))).1, h.next) := rfl
    have na : (alloc h (.ptrs (List.replicate (ps.length + 2) 1))).1.next = h.next + 1 := rfl
    generalize hx : (alloc h (.ptrs (List.replicate (ps.length + 2) 1))).1 = hA at *
    have hws : Words hA.mem ps ws := words_frame h2 (fun x hx => ga.frame x (hlive x hx) (by simp))
    obtain ⟨h', as, R, e1, g1, o1, m1, w1⟩ := copyLoop_spec h.next ps ws hA 0 _ ga.wf (by omega) ma (by simp) hws (by
      intro hm; have := hlive _ hm; omega)
    have hne : ∀ a ∈ as, a ≠ 0 := fun a ha => by have := ((o1.mem a).1 ha).1; omega
    refine ⟨h', h.next, as ++ [h.next], ?_, G.trans ga g1 (by simp), ?_, by omega, as, ?_, w1, rfl⟩
    · simp only [copyArr, if_neg h0, h1]
      simp [e0, e1]
    · exact (oa.trans o1 ga.le g1.le).perm (List.perm_append_comm)
    · simp only [List.take_zero, List.nil_append] at m1
      simp only [readPtrs, m1, upto_app R hne]

end Ksh.Tree
