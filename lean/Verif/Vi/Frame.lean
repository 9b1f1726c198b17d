import Verif.Vi.Model
/-!
# What no command touches: the undo buffer, and the macros below the running one
-/

namespace Ksh.Vi

variable {e : Env} {s s' : Ed}

/-- The undo buffer is left alone, and the macros are left alone or all of them ended. -/
structure Fr (s s' : Ed) : Prop where
  undo : s'.undo = s.undo
  mac : s'.mac = s.mac ∨ s'.mac = none

theorem Fr.refl (s : Ed) : Fr s s := ⟨rfl, .inl rfl⟩

theorem Fr.trans {a b c : Ed} (h1 : Fr a b) (h2 : Fr b c) : Fr a c := by
  refine ⟨h2.undo.trans h1.undo, ?_⟩
  rcases h2.mac with h | h
  · rcases h1.mac with h' | h'
    · exact .inl (h.trans h')
    · exact .inr (h.trans h')
  · exact .inr h

theorem Fr.err (s : Ed) : Fr s (Vi.err s) := ⟨rfl, .inr rfl⟩

/-- Frames for `Option`al results. -/
def FrO {α : Type} (p : α → Ed) (s : Ed) (o : Option α) : Prop := ∀ x, o = some x → Fr s (p x)

theorem FrO.none {α : Type} {p : α → Ed} : FrO p s none := fun _ h => nomatch h
theorem FrO.some {α : Type} {p : α → Ed} {x : α} (h : Fr s (p x)) : FrO p s (some x) := by rintro _ ⟨⟩; exact h
theorem FrO.map {α β : Type} {p : α → Ed} {q : β → Ed} {o : Option α} {f : α → β} (h : FrO p s o) (hf : ∀ x, Fr (p x) (q (f x))) :
    FrO q s (o.map f) := by
  cases o with
  | none => exact FrO.none
  | some x => exact FrO.some ((h x rfl).trans (hf x))

theorem FrO.pre {α : Type} {p : α → Ed} {s1 : Ed} {o : Option α} (h : FrO p s1 o) (h1 : Fr s s1) : FrO p s o :=
  fun x hx => h1.trans (h x hx)

theorem put_fr (x : List Char) (r : Bool) : FrO Prod.snd s (put s x r) := by
  simp only [put]
  split
  · exact .none
  · exact .some ⟨rfl, .inl rfl⟩

theorem redoLoop_fr (x : List Char) (r : Bool) : ∀ (n : Nat) (s : Ed), FrO Prod.snd s (redoLoop x r n s) := by
  intro n
  induction n with
  | zero => intro s; exact .some (.refl s)
  | succ n ih =>
    intro s
    simp only [redoLoop]
    have hp := put_fr (s := s) x r
    split
    · exact .none
    · next h => exact .some (hp _ h)
    · next h => intro y hy; exact (hp _ h).trans (ih _ y hy)

theorem redoInsert_fr (n : Nat) : FrO Prod.snd s (redoInsert e s n) := by
  simp only [redoInsert]
  have hp := redoLoop_fr (s.ibuf.take s.inslen) (decide (s.mode = .rep)) n s
  split
  · exact .none
  · split
    · exact .none
    · next h => exact .some (hp _ h)
    · next h =>
      split
      · split
        · exact .none
        · exact .some ⟨(hp _ h).undo, (hp _ h).mac⟩
      · exact .some ⟨(hp _ h).undo, (hp _ h).mac⟩

theorem escape_fr (ifs : List Char) : ∀ (w pre : List Char) (s : Ed), FrO Prod.snd s (escape ifs pre w s) := by
  intro w
  induction w with
  | nil => intro pre s; exact put_fr _ _
  | cons c l ih =>
    intro pre s
    simp only [escape]
    split
    · have h1 := put_fr (s := s) pre false
      split
      · exact .none
      · next h => exact .some (h1 _ h)
      · next s1 h =>
        have h2 := put_fr (s := s1) ['\\'] false
        split
        · exact .none
        · next s2 h' =>
          have h3 := put_fr (s := s2) [c] false
          split
          · exact .none
          · next h'' => intro y hy; exact (((h1 _ h).trans (h2 _ h')).trans (h3 _ h'')).trans (ih _ _ y hy)
    · exact ih _ _

theorem expandLoop_fr (ifs : List Char) : ∀ (ws : List (List Char)) (s : Ed), FrO Prod.snd s (expandLoop ifs ws s) := by
  intro ws
  induction ws with
  | nil => intro s; exact .some (.refl s)
  | cons w ws ih =>
    intro s
    simp only [expandLoop]
    have h1 := escape_fr ifs w [] s
    split
    · exact .none
    · next h => exact .some (h1 _ h)
    · next s1 h =>
      split
      · exact .some (h1 _ h)
      · have h2 := put_fr (s := s1) [' '] false
        split
        · exact .none
        · next h' => exact .some ((h1 _ h).trans (h2 _ h'))
        · next h' => intro y hy; exact ((h1 _ h).trans (h2 _ h')).trans (ih _ y hy)

theorem cutWord_fr (x y : Nat) : FrO id s (cutWord s x y) := by
  simp only [cutWord]
  split
  · exact .none
  · exact .some ⟨rfl, .inl rfl⟩

theorem expandNew_fr : FrO id s (expandNew e s) := by
  simp only [expandNew]
  split
  · exact .some ⟨rfl, .inr rfl⟩
  · next start stop _ w ws _ =>
    have h1 := cutWord_fr (s := { s with xbuf := some s.es, expanded := .expand }) start stop
    split
    · exact .none
    · next s1 h =>
      have h2 := expandLoop_fr e.ifs (w :: ws) s1
      split
      · exact .none
      · next h' =>
        have := (h1 _ h).trans (h2 _ h')
        exact .some ⟨this.undo, this.mac⟩

theorem expandWord_fr (b : Bool) : FrO id s (expandWord e s b) := by
  simp only [expandWord]
  split
  · exact expandNew_fr
  · split
    · split
      · exact .none
      · exact .some ⟨rfl, .inl rfl⟩
    · exact expandNew_fr

theorem completePut_fr (x y : Nat) (m : List Char) (u : Bool) : FrO id s (completePut e s x y m u) := by
  simp only [completePut]
  have h1 := cutWord_fr (s := { s with cbuf := some s.es }) x y
  split
  · exact .none
  · next s1 h =>
    have h2 := escape_fr e.ifs m [] s1
    split
    · exact .none
    · next r s2 h' =>
      have h3 := (h1 _ h).trans (h2 _ h')
      split
      · split
        · have h4 := put_fr (s := { s2 with expanded := .none }) [' '] false
          split
          · exact .none
          · next h'' =>
            have h5 := h4 _ h''
            have h6 := h3.trans (Fr.mk h5.undo h5.mac)
            exact .some ⟨h6.undo, h6.mac⟩
        · exact .some ⟨h3.undo, h3.mac⟩
      · exact .some ⟨h3.undo, h3.mac⟩

theorem completeNew_fr (n : Nat) : FrO id s (completeNew e s n) := by
  simp only [completeNew]
  split
  · exact .some ⟨rfl, .inr rfl⟩
  · split
    · split
      · exact .some ⟨rfl, .inr rfl⟩
      · exact (completePut_fr (s := { s with cbuf := none }) _ _ _ _).pre ⟨rfl, .inl rfl⟩
    · split
      · exact .none
      · exact (completePut_fr (s := { s with cbuf := none, expanded := .complete }) _ _ _ _).pre ⟨rfl, .inl rfl⟩

theorem printExp_fr (b : Buf) : Fr s (printExp e s b) := by
  simp only [printExp]
  split
  · exact .err s
  · exact .refl s

theorem completeWord_fr (c : Bool) (n : Nat) : FrO id s (completeWord e s c n) := by
  simp only [completeWord]
  split
  · exact completeNew_fr n
  · next old _ =>
    split
    · have := printExp_fr (e := e) (s := s) old
      exact .some ⟨this.undo, this.mac⟩
    · split
      · split
        · exact .none
        · exact .some ⟨rfl, .inl rfl⟩
      · exact completeNew_fr n

theorem saveCbuf_fr : FrO id s (saveCbuf e s) := by
  simp only [saveCbuf]
  split
  · exact .none
  · exact .some ⟨rfl, .inl rfl⟩

theorem restoreCbuf_fr : FrO id s (restoreCbuf s) := by
  simp only [restoreCbuf]
  split
  · exact .none
  · exact .some ⟨rfl, .inl rfl⟩

theorem grabLine_fr (b : Bool) (l : List Char) : FrO id s (grabLine e s b l) := by
  simp only [grabLine]
  have h1 : FrO id s (if b = true then saveCbuf e s else some s) := by
    split
    · exact saveCbuf_fr
    · exact .some (.refl s)
  split
  · exact .none
  · next h =>
    split
    · exact .none
    · exact .some ⟨(h1 _ h).undo, (h1 _ h).mac⟩

theorem grabhist_fr (b : Bool) (n : Int) : FrO Prod.snd s (grabhist e s b n) := by
  simp only [grabhist]
  split
  · exact .some (.refl s)
  · split
    · have h1 := restoreCbuf_fr (s := s)
      split
      · exact .none
      · next h => exact .some ⟨(h1 _ h).undo, (h1 _ h).mac⟩
    · split
      · exact .none
      · next l _ =>
        have h1 := grabLine_fr (e := e) (s := s) b l
        split
        · exact .none
        · next h => exact .some ⟨(h1 _ h).undo, (h1 _ h).mac⟩

theorem grabsearch_fr (b : Bool) : FrO Prod.snd s (grabsearch e s b) := by
  simp only [grabsearch]
  split
  · exact .some (.refl s)
  · generalize (if s.srchpat.head? = some '^' then s.srchpat.tail else s.srchpat) = pat
    generalize (if b = true then s.hnum + 1 else s.hnum - 1) = start
    split
    · split
      · have h1 := restoreCbuf_fr (s := s)
        split
        · exact .none
        · next h => exact .some (h1 _ h)
      · exact .some (.refl s)
    · split
      · exact .none
      · next l _ =>
        have h1 := grabLine_fr (e := e) (s := s) s.modified l
        split
        · exact .none
        · next h => exact .some (h1 _ h)

/-! ## Insert mode -/

theorem eraseChar_fr : FrO id s (eraseChar e s) := by
  simp only [eraseChar]
  repeat' split
  all_goals first | exact .none | exact .some ⟨rfl, .inl rfl⟩

theorem insErase_fr : FrO id s (insErase e s) := by
  simp only [insErase]
  repeat' split
  all_goals first | exact eraseChar_fr | exact .some (.refl s) | exact .some (.err s)

theorem insKill_fr : FrO id s (insKill s) := by
  simp only [insKill]
  repeat' split
  all_goals first | exact .none | exact .some ⟨rfl, .inl rfl⟩

theorem insWerase_fr : FrO id s (insWerase s) := by
  simp only [insWerase]
  repeat' split
  all_goals first | exact .none | exact .some ⟨rfl, .inl rfl⟩

theorem insEsc_fr : FrO Prod.snd s (insEsc e s) := by
  simp only [insEsc]
  repeat' split
  all_goals exact (redoInsert_fr _).pre ⟨rfl, .inl rfl⟩

theorem insChar_fr (c : Char) : FrO Prod.snd s (insChar e s c) := by
  simp only [insChar]
  repeat' split
  all_goals first | exact .none | exact .some ⟨rfl, .inl rfl⟩

theorem insKey_fr (c : Char) : FrO Prod.snd s (insKey e s c) := by
  simp only [insKey]
  have h0 : Fr s (if s.first = true ∧ c ≠ '\x1b' then { s with saved := 0 } else s) := by
    split <;> exact ⟨rfl, .inl rfl⟩
  generalize (if s.first = true ∧ c ≠ '\x1b' then { s with saved := 0 } else s) = s1 at *
  refine FrO.pre ?_ h0
  split
  · exact .some (printExp_fr _)
  · split
    · exact .some (.refl _)
    · exact .some (.refl _)
    · have h1 := insEsc_fr (e := e) (s := s1)
      split
      · exact .none
      · next h => exact .some (h1 _ h)
    · exact (expandWord_fr _).map (fun _ => .refl _)
    · exact (completeWord_fr _ _).map (fun _ => .refl _)
    · exact .some (.refl _)
    · have h1 := insChar_fr (e := e) (s := s1) c
      split
      · exact .none
      · next h => exact .some (h1 _ h)

theorem insert_fr (c : Char) : FrO Prod.snd s (insert e s c) := by
  simp only [insert]
  split
  · exact insErase_fr.map (fun _ => .refl _)
  · split
    · exact insKill_fr.map (fun _ => .refl _)
    · split
      · exact insWerase_fr.map (fun _ => .refl _)
      · exact insKey_fr c

/-! ## Commands -/

theorem setCur_fr (x : Nat) : Fr s (setCur s x) := ⟨rfl, .inl rfl⟩

theorem dirty_fr : Fr s (dirty s) := ⟨rfl, .inl rfl⟩

theorem del_fr (x y : Nat) : FrO id s (del s x y) := by
  simp only [del]
  split
  · exact .none
  · exact .some ⟨rfl, .inl rfl⟩

theorem setFind_fr (c a : Char) : Fr s (setFind s c a) := by
  simp only [setFind]
  split <;> exact ⟨rfl, .inl rfl⟩

theorem opDo_fr (o : Char) (x y : Nat) : FrO id s (opDo e s o x y) := by
  simp only [opDo]
  have h1 : FrO id s (if o ≠ 'c' ∧ x ≠ y then (yankRange e s.es x y).map (fun t => { s with ybuf := t }) else some s) := by
    split
    · intro y hy
      rw [Option.map_eq_some_iff] at hy
      obtain ⟨a, _, rfl⟩ := hy
      exact ⟨rfl, .inl rfl⟩
    · exact .some (.refl s)
  split
  · exact .none
  · next s1 h =>
    have h2 : FrO id s1 (if o ≠ 'y' then (del s1 x y).map (fun s2 => setCur s2 x) else some s1) := by
      split
      · exact (del_fr _ _).map (fun _ => setCur_fr _)
      · exact .some (.refl s1)
    split
    · exact .none
    · next h' =>
      have h3 := (h1 _ h).trans (h2 _ h')
      refine .some ?_
      split
      · exact ⟨h3.undo, h3.mac⟩
      · exact h3

theorem opCmd_fr (n : Nat) (o m a : Char) : FrO Prod.snd s (opCmd e s n o m a) := by
  simp only [opCmd]
  have h0 : Fr s (if o = m ∨ isMove m = false then s else setFind s m a) := by
    split
    · exact .refl s
    · exact setFind_fr _ _
  generalize (if o = m ∨ isMove m = false then s else setFind s m a) = s1 at *
  refine FrO.pre ?_ h0
  split
  · exact .none
  · exact .some (.refl _)
  · next x y _ =>
    have h1 := opDo_fr (e := e) (s := s1) o x y
    split
    · exact .none
    · next h => exact .some (h1 _ h)

theorem putLoop_fr (x : List Char) : ∀ (n : Nat) (s : Ed), FrO Prod.snd s (putLoop x n s) := by
  intro n
  induction n with
  | zero =>
    intro s
    simp only [putLoop]
    have h1 := put_fr (s := s) x false
    split
    · exact .none
    · next h => exact .some (h1 _ h)
  | succ n ih =>
    intro s
    simp only [putLoop]
    have h1 := put_fr (s := s) x false
    split
    · exact .none
    · next h => exact .some (h1 _ h)
    · next h =>
      split
      · exact .some (h1 _ h)
      · exact (ih _).pre (h1 _ h)

theorem putCmd_fr (n : Nat) : FrO Prod.snd s (putCmd e s n) := by
  simp only [putCmd]
  have h1 := putLoop_fr s.ybuf n s
  split
  · exact .none
  · next h =>
    split
    · exact .none
    · exact .some ((h1 _ h).trans (setCur_fr _))

theorem putAfter_fr (n : Nat) : FrO Prod.snd s (putAfter e s n) := by
  simp only [putAfter]
  split
  · exact .none
  · exact (putCmd_fr n).pre (dirty_fr.trans (setCur_fr _))

theorem histCmd_fr (n : Int) : FrO Prod.snd s (histCmd e s n) := by
  simp only [histCmd]
  have h1 := grabhist_fr (e := e) (s := s) s.modified n
  split
  · exact .none
  · next h => exact .some (h1 _ h)
  · next h => exact .some ⟨(h1 _ h).undo, (h1 _ h).mac⟩

theorem replaceCmd_fr (n : Nat) (c : Char) : FrO Prod.snd s (replaceCmd e s n c) := by
  simp only [replaceCmd]
  split
  · exact .some (.refl s)
  · split
    · exact .some (dirty_fr.trans (.err _))
    · split
      · exact .none
      · next x _ _ =>
        split
        · exact .some dirty_fr
        · have h1 := del_fr (s := dirty s) (dirty s).es.cur x
          split
          · exact .none
          · next s1 h =>
            have h2 := redoLoop_fr [c] false n s1
            split
            · exact .none
            · next h' =>
              have := (dirty_fr.trans (h1 _ h)).trans (h2 _ h')
              split
              · exact .none
              · split
                · exact .none
                · exact .some ⟨this.undo, this.mac⟩

theorem substCmd_fr (n : Nat) : FrO Prod.snd s (substCmd e s n) := by
  simp only [substCmd]
  split
  · exact .some (.refl s)
  · split
    · exact .none
    · exact ((del_fr (s := dirty s) _ _).pre dirty_fr).map (fun _ => ⟨rfl, .inl rfl⟩)

theorem xCmd_fr (n : Nat) : FrO Prod.snd s (xCmd e s n) := by
  simp only [xCmd]
  split
  · exact .some (.refl s)
  · split
    · exact .none
    · split
      · exact .none
      · next t _ => exact FrO.map (p := id) (q := Prod.snd) (f := fun x => (Ret.ok, x)) ((del_fr (s := { dirty s with ybuf := t }) _ _).pre ⟨rfl, .inl rfl⟩) (fun _ => .refl _)

theorem xBackCmd_fr (n : Nat) : FrO Prod.snd s (xBackCmd e s n) := by
  simp only [xBackCmd]
  split
  · exact .some (.refl s)
  · split
    · exact .none
    · split
      · exact .none
      · next t _ => exact FrO.map (p := id) (q := Prod.snd) (f := fun x => (Ret.ok, setCur x _)) ((del_fr (s := { dirty s with ybuf := t }) _ _).pre ⟨rfl, .inl rfl⟩) (fun _ => setCur_fr _)

theorem editCmd_fr (n : Nat) : FrO Prod.snd s (editCmd e s n) := by
  simp only [editCmd]
  split
  · exact .some (.refl s)
  · split
    · exact .none
    · split
      · exact .none
      · exact .some ⟨rfl, .inl rfl⟩

theorem searchCmd_fr (c : Char) : FrO Prod.snd s (searchCmd e s c) := by
  simp only [searchCmd]
  have h0 : Fr s (if c = '/' ∨ c = '?' then
      { (if c = '?' ∧ s.hnum = s.hlast then { s with hnum := -1 } else s) with srchlen := 0, lastsearch := c }
      else if c = '?' ∧ s.hnum = s.hlast then { s with hnum := -1 } else s) := by
    repeat' split
    all_goals exact ⟨rfl, .inl rfl⟩
  generalize (if c = '/' ∨ c = '?' then
      { (if c = '?' ∧ s.hnum = s.hlast then { s with hnum := -1 } else s) with srchlen := 0, lastsearch := c }
      else if c = '?' ∧ s.hnum = s.hlast then { s with hnum := -1 } else s) = s1 at *
  refine FrO.pre ?_ h0
  split
  · exact .some (.refl _)
  · have h1 := grabsearch_fr (e := e) (s := s1) (decide (s1.lastsearch = '?') != decide (c = 'N'))
    split
    · exact .none
    · next s2 h =>
      split
      · exact (restoreCbuf_fr.pre (h1 _ h)).map (fun _ => .refl _)
      · exact .some (h1 _ h)
    · next h => exact .some ⟨(h1 _ h).undo, (h1 _ h).mac⟩

theorem underCmd_fr (n : Nat) : FrO Prod.snd s (underCmd e s n) := by
  simp only [underCmd]
  split
  · exact .some (.refl s)
  · next p0 _ =>
    generalize (if n ≠ 0 then dropWords (n - 1) (dropBlank p0) else lastField p0 false p0) = sp
    split
    · exact .some (.refl s)
    · have h0 : Fr s (setCur (dirty s) (if s.es.cur ≠ s.es.len then s.es.cur + 1 else s.es.cur)) := ⟨rfl, .inl rfl⟩
      generalize setCur (dirty s) (if s.es.cur ≠ s.es.len then s.es.cur + 1 else s.es.cur) = s1 at *
      refine FrO.pre ?_ h0
      have h1 := put_fr (s := s1) [' '] false
      split
      · exact .none
      · next h => exact .some ((h1 _ h).trans (setCur_fr _))
      · next s2 h =>
        have h2 := fun x => put_fr (s := s2) x false
        split
        · exact .none
        · next h' => exact .some (((h1 _ h).trans (h2 _ _ h')).trans (setCur_fr _))
        · next h' =>
          have := (h1 _ h).trans (h2 _ _ h')
          exact .some ⟨this.undo, this.mac⟩

theorem tildeLoop_fr : ∀ (n : Nat) (s : Ed), FrO id s (tildeLoop n s) := by
  intro n
  induction n with
  | zero => intro s; exact .some (.refl s)
  | succ n ih =>
    intro s
    simp only [tildeLoop]
    split
    · exact .none
    · refine (ih _).pre ⟨?_, .inl ?_⟩ <;> (dsimp only; split <;> rfl)

theorem commentCmd_fr : FrO Prod.snd s (commentCmd s) := by
  simp only [commentCmd]
  repeat' split
  all_goals first | exact .none | exact .some ⟨rfl, .inl rfl⟩

theorem firstCmd_fr (b : Bool) : FrO Prod.snd s (firstCmd e s b) := by
  simp only [firstCmd]
  split
  · exact .none
  · exact .none
  · split
    · exact ((del_fr _ _).pre (setCur_fr _)).map (fun _ => ⟨rfl, .inl rfl⟩)
    · exact .some ⟨rfl, .inl rfl⟩

theorem appendCmd_fr : FrO Prod.snd s (appendCmd e s) := by
  simp only [appendCmd]
  repeat' split
  all_goals first | exact .none | exact .some ⟨rfl, .inl rfl⟩

/-- Everything but `u` and `@`. -/
theorem switch_fr (n : Nat) {cmd : List Char} (hu : ckind (cmd.headD '\x00') ≠ .u) (hm : ckind (cmd.headD '\x00') ≠ .macro) :
    FrO Prod.snd s (switch e s n cmd) := by
  simp only [switch]
  split
  · exact .some (.refl s)
  · next h => exact absurd h hm
  · exact appendCmd_fr
  · exact .some ⟨rfl, .inl rfl⟩
  · exact firstCmd_fr _
  · exact opCmd_fr _ _ _ _
  · exact opCmd_fr _ _ _ _
  · exact putAfter_fr _
  · exact (putCmd_fr _).pre dirty_fr
  · exact ((del_fr (s := dirty s) _ _).pre dirty_fr).map (fun _ => ⟨rfl, .inl rfl⟩)
  · split
    · exact .none
    · next t _ => exact FrO.map (p := id) (q := Prod.snd) (f := fun x => (Ret.ok, x)) ((del_fr (s := { s with ybuf := t }) _ _).pre ⟨rfl, .inl rfl⟩) (fun _ => .refl _)
  · exact histCmd_fr _
  · exact histCmd_fr _
  · exact .some ⟨rfl, .inl rfl⟩
  · exact firstCmd_fr _
  · exact histCmd_fr _
  · exact histCmd_fr _
  · exact replaceCmd_fr _ _
  · exact .some ⟨rfl, .inl rfl⟩
  · exact substCmd_fr _
  · exact editCmd_fr _
  · exact xCmd_fr _
  · exact xBackCmd_fr _
  · next h => exact absurd h hu
  · split
    · exact .some (.refl s)
    · exact histCmd_fr _
  · exact searchCmd_fr _
  · exact underCmd_fr _
  · split
    · exact .some (.refl s)
    · exact (tildeLoop_fr _ _).map (fun _ => .refl _)
  · exact commentCmd_fr
  · exact .some (printExp_fr _)
  · split
    · exact (completeWord_fr _ _).map (fun _ => .refl _)
    · exact .some (.refl s)
  · split
    · exact (completeWord_fr _ _).map (fun _ => .refl _)
    · exact .some (.refl s)
  · exact (completeWord_fr _ _).map (fun _ => .refl _)
  · exact (expandWord_fr _).map (fun _ => .refl _)
  · exact .some (.refl s)

theorem clamp_fr (c : Char) (r : Ret) : FrO Prod.snd s (clamp e c (r, s)) := by
  cases r <;> simp only [clamp]
  case ok =>
    split
    · intro y hy
      rw [Option.map_eq_some_iff] at hy
      obtain ⟨a, _, rfl⟩ := hy
      exact setCur_fr _
    · exact .some (.refl s)
  all_goals exact .some (.refl s)

theorem moveCmd_fr (n : Nat) (cmd : List Char) : FrO Prod.snd s (moveCmd e s n cmd) := by
  simp only [moveCmd]
  have h0 := setFind_fr (s := s) (cmd.headD '\x00') (cmd.getD 1 '\x00')
  generalize setFind s (cmd.headD '\x00') (cmd.getD 1 '\x00') = s1 at *
  refine FrO.pre ?_ h0
  split
  · exact .none
  · exact .some (.refl _)
  · split
    · intro y hy
      rw [Option.map_eq_some_iff] at hy
      obtain ⟨a, _, rfl⟩ := hy
      exact setCur_fr _
    · exact .some (setCur_fr _)

end Ksh.Vi
