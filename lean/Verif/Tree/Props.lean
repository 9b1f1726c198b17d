import Verif.Tree.Copy

/-!
# Copies of trees (C48), the main theorems
-/

namespace Ksh.Tree

theorem G.weaken {xs : List Nat} {h h' : Heap} (g : G [] h h') : G xs h h' := ⟨g.wf, g.le, fun a ha _ => g.frame a ha (by simp)⟩

theorem ioLoop_spec (arr : Nat) : ∀ (ps : List Nat) (ds : List IoD) (l : List Nat) (h : Heap) (i : Nat) (L : List Nat), WF h → arr < h.next →
    h.mem arr = some (.ptrs L) → i + ps.length < L.length → (∀ p ∈ ps, p ≠ 0) → Ios h.mem ps ds l → arr ∉ l →
    ∃ h' qs l' R, ioLoop h arr i ps = some h' ∧ G [arr] h h' ∧ Own h h' l' ∧ h'.mem arr = some (.ptrs (L.take i ++ (qs ++ 0 :: R))) ∧
      Ios h'.mem qs ds l' ∧ ∀ q ∈ qs, q ≠ 0 := by
  intro ps
  induction ps with
  | nil =>
    intro ds l h i L w harr hm hi _ hw _
    cases ds with
    | cons => exact hw.elim
    | nil =>
      obtain ⟨R, hR⟩ := set_split L i 0 (by simpa using hi)
      refine ⟨_, [], [], R, write_eq hm (by simpa using hi), store_G w harr _, (Own.refl h).store _ _, ?_, rfl, by simp⟩
      simp [store, upd, hR]
  | cons p ps ih =>
    intro ds l h i L w harr hm hi hp0 hw ha
    cases ds with
    | nil => exact hw.elim
    | cons d ds =>
      have hpos := w.pos
      simp only [List.length_cons] at hi
      obtain ⟨ld, lr, hio, hios, rfl⟩ := hw
      simp only [List.mem_append, not_or] at ha
      have hio' := hio
      obtain ⟨o, l1, l2, l3, hp, hu, hf, hn, hd, hh, rfl⟩ := hio
      have live1 : ∀ a ∈ l1 ++ l2 ++ l3 ++ [p], a < h.next := fun a ha => lt_of_live w (ioRep_live (hp0 p (by simp)) hio' a ha).2
      have live2 : ∀ a ∈ lr, a < h.next := fun a ha => lt_of_live w (ios_live (fun q hq => hp0 q (by simp [hq])) hios a ha).2
      -- the copy of the structure
      have gA := alloc_G w (.io o)
      have oA := alloc_Own h (.io o)
      have mA := alloc_mem h (.io o)
      have e0 : alloc h (.io o) = ((alloc h (.io o)).1, h.next) := rfl
      have nA : (alloc h (.io o)).1.next = h.next + 1 := rfl
      generalize hx : (alloc h (.io o)).1 = hA at *
      have hmA : hA.mem arr = some (.ptrs L) := by rw [gA.frame arr harr (by simp), hm]
      have eB := write_eq (h := hA) (v := h.next) hmA (show i < L.length by omega)
      generalize hhB : store hA arr (.ptrs (L.set i h.next)) = hB at eB
      have gB' : G [arr] hA hB := hhB ▸ store_G gA.wf (by omega) _
      have nB : hB.next = h.next + 1 := by subst hhB; exact nA
      have mB : hB.mem arr = some (.ptrs (L.set i h.next)) := by subst hhB; simp [store, upd]
      have gB : G [arr] h hB := gA.weaken.trans gB' (by simp)
      have oB : Own h hB [h.next] := hhB ▸ oA.store _ _
      have fr : ∀ {hX : Heap}, G [arr] h hX → ∀ a ∈ l1 ++ l2 ++ l3 ++ [p], hX.mem a = h.mem a := fun g a hx =>
        g.frame a (live1 a hx) (by simp only [List.mem_singleton]; rintro rfl; exact ha.1 (by simpa using hx))
      -- its parts
      obtain ⟨h1, a1, k1, e1, g1, o1, r1⟩ := copyWord?_spec gB.wf (optWord_frame hn (fun a hx => fr gB a (by simp [hx])))
      have G1 : G [arr] h h1 := gB.trans g1 (by simp)
      obtain ⟨h2, a2, k2, e2, g2, o2, r2⟩ := copyWord?_spec G1.wf (optWord_frame hd (fun a hx => fr G1 a (by simp [hx])))
      have G2 : G [arr] h h2 := G1.trans g2 (by simp)
      obtain ⟨h3, a3, k3, e3, g3, o3, r3⟩ := strSave_spec G2.wf (optStr_frame hh (fun a hx => fr G2 a (by simp [hx])))
      have G3 : G [arr] h h3 := G2.trans g3 (by simp)
      have O3 : Own h h3 ([h.next] ++ k1 ++ k2 ++ k3) :=
        ((oB.trans o1 gB.le g1.le).trans o2 G1.le g2.le).trans o3 G2.le g3.le
      have hq3 : h.next < h3.next := ((O3.mem h.next).1 (by simp)).2
      generalize hh4 : store h3 h.next (.io { o with name := a1, delim := a2, heredoc := a3 }) = h4
      have g4 : G [h.next] h3 h4 := hh4 ▸ store_G G3.wf hq3 _
      have G4 : G [arr] h h4 := G3.trans g4 (by simp)
      have O4 : Own h h4 (k1 ++ k2 ++ k3 ++ [h.next]) := by
        refine (hh4 ▸ O3.store _ _ : Own h h4 _).perm ?_
        rw [List.append_assoc, List.append_assoc, ← List.append_assoc k1]
        exact List.perm_append_comm
      have n4 : h4.next = h3.next := by subst hh4; rfl
      have m4 : h4.mem h.next = some (.io { o with name := a1, delim := a2, heredoc := a3 }) := by subst hh4; simp [store, upd]
      have m4' : ∀ a, a ≠ h.next → h4.mem a = h3.mem a := by intro a hx; subst hh4; simp [store, upd, hx]
      have rk1 : OptWord h4.mem a1 d.name k1 := optWord_frame r1 (fun a hx => by
        have h1 := (o1.mem a).1 hx
        rw [m4' a (by omega), g3.frame a (by have := g2.le; omega) (by simp), g2.frame a h1.2 (by simp)])
      have rk2 : OptWord h4.mem a2 d.delim k2 := optWord_frame r2 (fun a hx => by
        have h1 := (o2.mem a).1 hx
        have := g1.le
        rw [m4' a (by omega), g3.frame a h1.2 (by simp)])
      have rk3 : OptStr h4.mem a3 d.heredoc k3 := optStr_frame r3 (fun a hx => by
        have h1 := (o3.mem a).1 hx
        have := g1.le; have := g2.le
        rw [m4' a (by omega)])
      have hrep : IoRep h4.mem h.next d (k1 ++ k2 ++ k3 ++ [h.next]) :=
        ⟨_, k1, k2, k3, m4, hu, hf, rk1, rk2, rk3, rfl⟩
      have marr : h4.mem arr = some (.ptrs (L.set i h.next)) := by
        have := g1.le; have := g2.le; have := g3.le
        rw [m4' arr (by omega), g3.frame arr (by omega) (by simp), g2.frame arr (by omega) (by simp), g1.frame arr (by omega) (by simp), mB]
      have hios4 : Ios h4.mem ps ds lr := ios_frame hios (fun a hx => G4.frame a (live2 a hx) (by
        simp only [List.mem_singleton]; rintro rfl; exact ha.2 hx))
      obtain ⟨h', qs, l', R, e5, g5, o5, m5, r5, z5⟩ := ih ds lr h4 (i + 1) (L.set i h.next) g4.wf (by have := G4.le; omega) marr (by simp; omega)
        (fun q hq => hp0 q (by simp [hq])) hios4 ha.2
      refine ⟨h', h.next :: qs, k1 ++ k2 ++ k3 ++ [h.next] ++ l', R, ?_, G4.trans g5 (by simp), O4.trans o5 G4.le g5.le, ?_, ?_, ?_⟩
      · simp only [ioLoop, hp, e0]
        simp only [eB, Option.bind_eq_bind, Option.bind_some, e1, e2, e3, hh4, e5]
      · rw [m5, set_take L i _ (by omega)]; simp
      · refine ⟨_, l', ioRep_frame hrep ?_, r5, rfl⟩
        intro a hx
        have := (O4.mem a).1 hx
        exact g5.frame a this.2 (by simp only [List.mem_singleton]; omega)
      · intro q hq
        rcases List.mem_cons.1 hq with rfl | hq
        · omega
        · exact z5 q hq

theorem iocopy_spec {h : Heap} (w : WF h) {p : Nat} {ds : Option (List IoD)} {l : List Nat} (hp : IosRep h.mem p ds l) :
    ∃ h' a l', iocopy h p = some (h', a) ∧ G [] h h' ∧ Own h h' l' ∧ IosRep h'.mem a ds l' := by
  have hw := w.pos
  cases ds with
  | none =>
    obtain ⟨rfl, rfl⟩ := hp
    exact ⟨h, 0, [], by simp [iocopy], G.refl w _, Own.refl h, rfl, rfl⟩
  | some ds =>
    obtain ⟨h0, ps, l1, h1, h2, rfl⟩ := hp
    have hz := (readPtrs_live h1).2
    have hlive : ∀ a ∈ l1, a < h.next := fun a ha => lt_of_live w (ios_live hz h2 a ha).2
    have ga := alloc_G w (.ptrs (List.replicate (ps.length + 2) 1))
    have oa := alloc_Own h (.ptrs (List.replicate (ps.length + 2) 1))
    have ma := alloc_mem h (.ptrs (List.replicate (ps.length + 2) 1))
    have e0 : alloc h (.ptrs (List.replicate (ps.length + 2) 1)) = ((alloc h (.ptrs (List.replicate (ps.length + 2) 1))).1, h.next) := rfl
    have na : (alloc h (.ptrs (List.replicate (ps.length + 2) 1))).1.next = h.next + 1 := rfl
    generalize hx : (alloc h (.ptrs (List.replicate (ps.length + 2) 1))).1 = hA at *
    have hws : Ios hA.mem ps ds l1 := ios_frame h2 (fun x hx => ga.frame x (hlive x hx) (by simp))
    obtain ⟨h', qs, l', R, e1, g1, o1, m1, w1, z1⟩ := ioLoop_spec h.next ps ds l1 hA 0 _ ga.wf (by omega) ma (by simp) hz hws (by
      intro hm; have := hlive _ hm; omega)
    refine ⟨h', h.next, l' ++ [h.next], ?_, G.trans ga g1 (by simp), ?_, by omega, qs, l', ?_, w1, rfl⟩
    · simp only [iocopy, if_neg h0, h1]
      simp [e0, e1]
    · exact (oa.trans o1 ga.le g1.le).perm (List.perm_append_comm)
    · simp only [List.take_zero, List.nil_append] at m1
      simp only [readPtrs, m1, upto_app R z1]

theorem strCopy_spec {h : Heap} (w : WF h) {ty p : Nat} {s : Option Bytes} {l : List Nat} (hp : StrRep h.mem ty p s l) :
    ∃ h' a l', copyStr h ty p = some (h', a) ∧ G [] h h' ∧ Own h h' l' ∧ StrRep h'.mem ty a s l' := by
  unfold StrRep at *
  by_cases hc : ty = TCASE
  · rw [if_pos hc] at hp
    obtain ⟨h1, h2⟩ := hp
    cases s with
    | none => simp at h1
    | some s =>
      obtain ⟨g0, g1, rfl⟩ := h2
      obtain ⟨h', a, k1, k2, k3, k4, k5⟩ := wdcopy_spec w g1
      have := w.pos
      exact ⟨h', a, [a], by rw [copyStr, if_pos hc, k1], k2, k3, by rw [if_pos hc]; exact ⟨rfl, by omega, k4, rfl⟩⟩
  · rw [if_neg hc] at hp
    obtain ⟨h', a, l', k1, k2, k3, k4⟩ := strSave_spec w hp
    exact ⟨h', a, l', by rw [copyStr, if_neg hc, k1], k2, k3, by rw [if_neg hc]; exact k4⟩

theorem tcopy_spec : ∀ (t : T) (n : Nat) (h : Heap) (p : Nat) (l : List Nat), WF h → Rep h.mem p t l → t.depth ≤ n →
    ∃ h' a l', tcopy n h p = some (h', a) ∧ G [] h h' ∧ Own h h' l' ∧ Rep h'.mem a t l' := by
  intro t
  induction t with
  | nil =>
    intro n h p l w hp hn
    obtain ⟨rfl, rfl⟩ := hp
    cases n with
    | zero => simp [T.depth] at hn
    | succ n => exact ⟨h, 0, [], by simp [tcopy], G.refl w _, Own.refl h, rfl, rfl⟩
  | node ty ev ln str vars args io left right ihl ihr =>
    intro n h p l w hp hn
    cases n with
    | zero => simp [T.depth] at hn
    | succ n =>
      have hpos := w.pos
      simp only [T.depth] at hn
      have hlive := rep_live hp
      obtain ⟨h0, o, l1, l2, l3, l4, l5, l6, hm, rfl, rfl, rfl, r1, r2, r3, r4, r5, r6, rfl⟩ := hp
      have fr : ∀ {hX : Heap}, G [] h hX → ∀ a ∈ l1 ++ l2 ++ l3 ++ l4 ++ l5 ++ l6 ++ [p], hX.mem a = h.mem a := fun g a hx =>
        g.frame a (lt_of_live w (hlive a hx).2) (by simp)
      have gA := alloc_G w (.op ⟨0, 0, 1, 1, 1, 1, 1, 1, 0⟩)
      have oA := alloc_Own h (.op ⟨0, 0, 1, 1, 1, 1, 1, 1, 0⟩)
      have e0 : alloc h (.op ⟨0, 0, 1, 1, 1, 1, 1, 1, 0⟩) = ((alloc h (.op ⟨0, 0, 1, 1, 1, 1, 1, 1, 0⟩)).1, h.next) := rfl
      generalize hx : (alloc h (.op ⟨0, 0, 1, 1, 1, 1, 1, 1, 0⟩)).1 = hA at *
      obtain ⟨h1, a1, k1, e1, g1, o1, s1⟩ := strCopy_spec gA.wf (strRep_frame r1 (fun a hx => fr gA a (by simp [hx])))
      have G1 : G [] h h1 := gA.trans g1 (by simp)
      obtain ⟨h2, a2, k2, e2, g2, o2, s2⟩ := copyArr_spec G1.wf (arrRep_frame r2 (fun a hx => fr G1 a (by simp [hx])))
      have G2 : G [] h h2 := G1.trans g2 (by simp)
      obtain ⟨h3, a3, k3, e3, g3, o3, s3⟩ := copyArr_spec G2.wf (arrRep_frame r3 (fun a hx => fr G2 a (by simp [hx])))
      have G3 : G [] h h3 := G2.trans g3 (by simp)
      obtain ⟨h4, a4, k4, e4, g4, o4, s4⟩ := iocopy_spec G3.wf (iosRep_frame r4 (fun a hx => fr G3 a (by simp [hx])))
      have G4 : G [] h h4 := G3.trans g4 (by simp)
      obtain ⟨h5, a5, k5, e5, g5, o5, s5⟩ := ihl n h4 o.left l5 G4.wf (rep_frame r5 (fun a hx => fr G4 a (by simp [hx]))) (by omega)
      have G5 : G [] h h5 := G4.trans g5 (by simp)
      obtain ⟨h6, a6, k6, e6, g6, o6, s6⟩ := ihr n h5 o.right l6 G5.wf (rep_frame r6 (fun a hx => fr G5 a (by simp [hx]))) (by omega)
      have G6 : G [] h h6 := G5.trans g6 (by simp)
      have O6 : Own h h6 ([h.next] ++ k1 ++ k2 ++ k3 ++ k4 ++ k5 ++ k6) :=
        (((((oA.trans o1 gA.le g1.le).trans o2 G1.le g2.le).trans o3 G2.le g3.le).trans o4 G3.le g4.le).trans o5 G4.le g5.le).trans o6 G5.le g6.le
      have hq : h.next < h6.next := ((O6.mem h.next).1 (by simp)).2
      generalize hh7 : store h6 h.next (.op ⟨o.type, o.evalflags, a3, a2, a4, a5, a6, a1, o.lineno⟩) = h7
      have g7 : G [h.next] h6 h7 := hh7 ▸ store_G G6.wf hq _
      have m7 : h7.mem h.next = some (.op ⟨o.type, o.evalflags, a3, a2, a4, a5, a6, a1, o.lineno⟩) := by subst hh7; simp [store, upd]
      have m7' : ∀ a, a ≠ h.next → h7.mem a = h6.mem a := by intro a hx; subst hh7; simp [store, upd, hx]
      have c1 := g1.le; have c2 := g2.le; have c3 := g3.le; have c4 := g4.le; have c5 := g5.le; have c6 := g6.le
      have hA1 : h.next < hA.next := ((oA.mem h.next).1 (by simp)).2
      -- an object made on the way is not touched later
      have later : ∀ a, hA.next ≤ a → h7.mem a = h6.mem a := fun a ha => m7' a (by omega)
      have f1 : ∀ a ∈ k1, h7.mem a = h1.mem a := fun a hx => by
        have := (o1.mem a).1 hx
        rw [later a (by omega), g6.frame a (by omega) (by simp), g5.frame a (by omega) (by simp), g4.frame a (by omega) (by simp),
          g3.frame a (by omega) (by simp), g2.frame a (by omega) (by simp)]
      have f2 : ∀ a ∈ k2, h7.mem a = h2.mem a := fun a hx => by
        have := (o2.mem a).1 hx
        rw [later a (by omega), g6.frame a (by omega) (by simp), g5.frame a (by omega) (by simp), g4.frame a (by omega) (by simp),
          g3.frame a (by omega) (by simp)]
      have f3 : ∀ a ∈ k3, h7.mem a = h3.mem a := fun a hx => by
        have := (o3.mem a).1 hx
        rw [later a (by omega), g6.frame a (by omega) (by simp), g5.frame a (by omega) (by simp), g4.frame a (by omega) (by simp)]
      have f4 : ∀ a ∈ k4, h7.mem a = h4.mem a := fun a hx => by
        have := (o4.mem a).1 hx
        rw [later a (by omega), g6.frame a (by omega) (by simp), g5.frame a (by omega) (by simp)]
      have f5 : ∀ a ∈ k5, h7.mem a = h5.mem a := fun a hx => by
        have := (o5.mem a).1 hx
        rw [later a (by omega), g6.frame a (by omega) (by simp)]
      have f6 : ∀ a ∈ k6, h7.mem a = h6.mem a := fun a hx => by
        have := (o6.mem a).1 hx
        rw [later a (by omega)]
      refine ⟨h7, h.next, k1 ++ k2 ++ k3 ++ k4 ++ k5 ++ k6 ++ [h.next], ?_, G6.trans g7 (by simp), ?_, ?_⟩
      · simp only [tcopy, if_neg h0, hm, e0]
        simp only [e1, Option.bind_eq_bind, Option.bind_some, e2, e3, e4, e5, e6, hh7]
      · refine (hh7 ▸ O6.store _ _ : Own h h7 _).perm ?_
        simp only [List.append_assoc]
        have := List.perm_append_comm (l₁ := [h.next]) (l₂ := k1 ++ (k2 ++ (k3 ++ (k4 ++ (k5 ++ k6)))))
        simpa only [List.append_assoc] using this
      · exact ⟨by omega, _, k1, k2, k3, k4, k5, k6, m7, rfl, rfl, rfl, strRep_frame s1 f1, arrRep_frame s2 f2, arrRep_frame s3 f3,
          iosRep_frame s4 f4, rep_frame s5 f5, rep_frame s6 f6, rfl⟩

/-- **C48**: `tcopy` of any tree succeeds, without reading or writing outside of an object, and at
its result there is the same tree: every word with every mark, every string, redirection, flag and
line number.  The copy is made of new objects only, and of all that were allocated, each once; no
old object has changed. -/
theorem tcopy_faithful (t : T) (h : Heap) (p : Nat) (l : List Nat) (w : WF h) (hp : Rep h.mem p t l) (n : Nat) (hn : t.depth ≤ n) :
    ∃ h' p' l', tcopy n h p = some (h', p') ∧ Rep h'.mem p' t l' ∧
      l'.Nodup ∧ (∀ a, a ∈ l' ↔ h.next ≤ a ∧ a < h'.next) ∧ (∀ a, a < h.next → h'.mem a = h.mem a) ∧ Rep h'.mem p t l := by
  obtain ⟨h', a, l', e, g, o, r⟩ := tcopy_spec t n h p l w hp hn
  refine ⟨h', a, l', e, r, o.nodup, o.mem, fun a ha => g.frame a ha (by simp), ?_⟩
  exact rep_frame hp (fun a ha => g.frame a (lt_of_live w (rep_live hp a ha).2) (by simp))

/-- The copy outlives the original: whatever is done to the memory there was before, for example
freeing all of it, the copy is still the same tree. -/
theorem tcopy_independent (t : T) (h : Heap) (p : Nat) (l : List Nat) (w : WF h) (hp : Rep h.mem p t l) (n : Nat) (hn : t.depth ≤ n)
    {h' : Heap} {p' : Nat} (e : tcopy n h p = some (h', p')) (m : Mem) (hm : ∀ a, h.next ≤ a → m a = h'.mem a) :
    ∃ l', Rep m p' t l' := by
  obtain ⟨h2, a, l', e2, g, o, r⟩ := tcopy_spec t n h p l w hp hn
  rw [e] at e2
  simp only [Option.some.injEq, Prod.mk.injEq] at e2
  obtain ⟨rfl, rfl⟩ := e2
  exact ⟨l', rep_frame r (fun x hx => hm x ((o.mem x).1 hx).1)⟩

theorem wordAt_unique {m : Mem} {p : Nat} {w w' : Bytes} (h : WordAt m p w) (h' : WordAt m p w') : w = w' := by
  obtain ⟨s, n, h1, h2, rfl⟩ := h
  obtain ⟨s', n', h1', h2', rfl⟩ := h'
  rw [h1] at h1'
  simp only [Option.some.injEq, Obj.bytes.injEq] at h1'
  subst h1'
  rw [h2] at h2'
  simp only [Option.some.injEq] at h2'
  rw [h2']

theorem strAt_unique {m : Mem} {p : Nat} {w w' : Bytes} (h : StrAt m p w) (h' : StrAt m p w') : w = w' := by
  obtain ⟨r, h1, h2⟩ := h
  obtain ⟨r', h1', h2'⟩ := h'
  rw [h1] at h1'
  simp only [Option.some.injEq, Obj.bytes.injEq] at h1'
  have e1 := strlen_append h2 r
  have e2 := strlen_append h2' r'
  rw [h1', e2] at e1
  simp only [Option.some.injEq] at e1
  have := congrArg (List.take w.length) h1'
  rw [List.take_left' rfl, List.take_left' e1] at this
  exact this

theorem words_unique {m : Mem} : ∀ {ps : List Nat} {w w' : List Bytes}, Words m ps w → Words m ps w' → w = w'
  | [], [], [], _, _ => rfl
  | p :: ps, a :: w, b :: w', ⟨h1, h2⟩, ⟨h3, h4⟩ => by rw [wordAt_unique h1 h3, words_unique h2 h4]
  | [], _ :: _, _, h, _ => h.elim
  | [], [], _ :: _, _, h => h.elim
  | _ :: _, [], _, h, _ => h.elim
  | _ :: _, _ :: _, [], _, h => h.elim

theorem optWord_unique {m : Mem} {p : Nat} {w w' : Option Bytes} {l l' : List Nat} (h : OptWord m p w l) (h' : OptWord m p w' l') : w = w' := by
  cases w <;> cases w'
  · rfl
  · exact absurd h.1 h'.1
  · exact absurd h'.1 h.1
  · rw [wordAt_unique h.2.1 h'.2.1]

theorem optStr_unique {m : Mem} {p : Nat} {w w' : Option Bytes} {l l' : List Nat} (h : OptStr m p w l) (h' : OptStr m p w' l') : w = w' := by
  cases w <;> cases w'
  · rfl
  · exact absurd h.1 h'.1
  · exact absurd h'.1 h.1
  · rw [strAt_unique h.2.1 h'.2.1]

theorem arrRep_unique {m : Mem} {p : Nat} {w w' : Option (List Bytes)} {l l' : List Nat} (h : ArrRep m p w l) (h' : ArrRep m p w' l') : w = w' := by
  cases w <;> cases w'
  · rfl
  · exact absurd h.1 h'.1
  · exact absurd h'.1 h.1
  · obtain ⟨-, ps, h1, h2, -⟩ := h
    obtain ⟨-, ps', h1', h2', -⟩ := h'
    rw [h1] at h1'
    simp only [Option.some.injEq] at h1'
    subst h1'
    rw [words_unique h2 h2']

theorem ioRep_unique {m : Mem} {p : Nat} {d d' : IoD} {l l' : List Nat} (h : IoRep m p d l) (h' : IoRep m p d' l') : d = d' := by
  obtain ⟨o, _, _, _, h1, h2, h3, h4, h5, h6, _⟩ := h
  obtain ⟨o', _, _, _, h1', h2', h3', h4', h5', h6', _⟩ := h'
  rw [h1] at h1'
  simp only [Option.some.injEq, Obj.io.injEq] at h1'
  subst h1'
  cases d; cases d'
  simp only at *
  subst h2 h3 h2' h3'
  rw [optWord_unique h4 h4', optWord_unique h5 h5', optStr_unique h6 h6']

theorem ios_unique {m : Mem} : ∀ {ps : List Nat} {w w' : List IoD} {l l' : List Nat}, Ios m ps w l → Ios m ps w' l' → w = w'
  | [], [], [], _, _, _, _ => rfl
  | p :: ps, a :: w, b :: w', _, _, ⟨_, _, h1, h2, _⟩, ⟨_, _, h3, h4, _⟩ => by rw [ioRep_unique h1 h3, ios_unique h2 h4]
  | [], _ :: _, _, _, _, h, _ => h.elim
  | [], [], _ :: _, _, _, _, h => h.elim
  | _ :: _, [], _, _, _, h, _ => h.elim
  | _ :: _, _ :: _, [], _, _, _, h => h.elim

theorem iosRep_unique {m : Mem} {p : Nat} {w w' : Option (List IoD)} {l l' : List Nat} (h : IosRep m p w l) (h' : IosRep m p w' l') : w = w' := by
  cases w <;> cases w'
  · rfl
  · exact absurd h.1 h'.1
  · exact absurd h'.1 h.1
  · obtain ⟨-, ps, _, h1, h2, -⟩ := h
    obtain ⟨-, ps', _, h1', h2', -⟩ := h'
    rw [h1] at h1'
    simp only [Option.some.injEq] at h1'
    subst h1'
    rw [ios_unique h2 h2']

theorem strRep_unique {m : Mem} {ty p : Nat} {s s' : Option Bytes} {l l' : List Nat} (h : StrRep m ty p s l) (h' : StrRep m ty p s' l') : s = s' := by
  unfold StrRep at h h'
  by_cases hc : ty = TCASE
  · rw [if_pos hc] at h h'; exact optWord_unique h.2 h'.2
  · rw [if_neg hc] at h h'; exact optStr_unique h h'

/-- A tree is determined by the memory: there is one tree at a pointer only. -/
theorem rep_unique {m : Mem} : ∀ {t t' : T} {p : Nat} {l l' : List Nat}, Rep m p t l → Rep m p t' l' → t = t'
  | .nil, .nil, _, _, _, _, _ => rfl
  | .nil, .node .., _, _, _, h, h' => absurd h.1 h'.1
  | .node .., .nil, _, _, _, h, h' => absurd h'.1 h.1
  | .node .., .node .., p, l, l', h, h' => by
    obtain ⟨_, o, _, _, _, _, _, _, h1, rfl, rfl, rfl, r1, r2, r3, r4, r5, r6, -⟩ := h
    obtain ⟨_, o', _, _, _, _, _, _, h1', e1, e2, e3, r1', r2', r3', r4', r5', r6', -⟩ := h'
    rw [h1] at h1'
    simp only [Option.some.injEq, Obj.op.injEq] at h1'
    subst h1' e1 e2 e3
    rw [strRep_unique r1 r1', arrRep_unique r2 r2', arrRep_unique r3 r3', iosRep_unique r4 r4', rep_unique r5 r5', rep_unique r6 r6']

end Ksh.Tree
