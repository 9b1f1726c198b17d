import Verif.Keys.Bind
/-!
# Memory: when reading keys and binding them stays inside its objects
-/

namespace Ksh.Keys

/-- The entry has not been released. -/
def Live (kb : List Entry) (id : Nat) : Prop := kb.any (·.id == id) = true

/-- macro_args points into an entry of the table. -/
def Points (kb : List Entry) (i : In) : Prop := ∀ id r, i.mac = some (id, r) → Live kb id

theorem xgetc_size (i : In) : (xgetc i).1 = -1 ∧ (xgetc i).2 = i ∨ (xgetc i).2.size + 1 = i.size := by
  simp only [xgetc]
  split
  · exact .inl ⟨rfl, rfl⟩
  · next b t h => right; simp [In.size, h]; omega

theorem xgetc_mac (i : In) : (xgetc i).2.mac = i.mac := by
  simp only [xgetc]; split <;> rfl

theorem xgetc_unget (i : In) : (xgetc i).2.unget = i.unget := by
  simp only [xgetc]; split <;> rfl

/-- x_e_getc is safe if the text it reads from is there, and it takes a character away unless it returns -1. -/
theorem getc_ok {kb : List Entry} {i : In} (h : Points kb i) :
    ∃ c i', getc kb i = some (c, i') ∧ Points kb i' ∧ i'.unget < 0 ∧ i'.size ≤ i.size ∧
      (c ≠ -1 → i'.size + 1 ≤ i.size) := by
  rw [getc]
  by_cases hu : 0 ≤ i.unget
  · rw [if_pos hu]
    refine ⟨_, _, rfl, h, by simp, ?_⟩
    simp only [In.size, if_pos hu]
    rw [if_neg (by decide)]
    omega
  · rw [if_neg hu]
    have hx : ∀ j : In, j.unget = i.unget → j.size ≤ i.size → Points kb j → ∃ c i', some (xgetc j) = some (c, i') ∧
        Points kb i' ∧ i'.unget < 0 ∧ i'.size ≤ i.size ∧ (c ≠ -1 → i'.size + 1 ≤ i.size) := by
      intro j hju hj hp
      refine ⟨(xgetc j).1, (xgetc j).2, rfl, ?_, ?_, ?_⟩
      · intro id r hm; rw [xgetc_mac] at hm; exact hp id r hm
      · rw [xgetc_unget]; omega
      · rcases xgetc_size j with ⟨h1, h2⟩ | h1
        · rw [h2]; exact ⟨hj, fun hc => absurd h1 hc⟩
        · omega
    cases hm : i.mac with
    | none => exact hx i rfl (Nat.le_refl _) h
    | some p =>
      obtain ⟨id, r⟩ := p
      have hl : kb.any (·.id == id) = true := h id r hm
      simp only [hl, if_true]
      cases r with
      | nil =>
        refine hx _ rfl ?_ (fun _ _ h => nomatch h)
        simp [In.size, hm]
      | cons b r =>
        refine ⟨_, _, rfl, ?_, by simpa using hu, ?_⟩
        · intro id' r' hm'
          simp only [Option.some.injEq, Prod.mk.injEq] at hm'
          rw [← hm'.1]; exact hl
        · simp only [In.size, hm]
          simp
          omega

theorem conts_ok {kb : List Entry} {c : Int} : ∀ (n : Nat) (buf : List Nat) (i : In), Points kb i → i.unget < 0 →
    ∃ buf' i', conts kb c n buf i = some (buf', i') ∧ Points kb i' ∧ buf'.length ≤ buf.length + (n - 1) ∧ i'.size ≤ i.size
  | 0, buf, i, h, _ => ⟨buf, i, rfl, h, by omega, Nat.le_refl _⟩
  | 1, buf, i, h, _ => ⟨buf, i, rfl, h, by omega, Nat.le_refl _⟩
  | n + 2, buf, i, h, hu => by
    obtain ⟨cc, i1, e, h1, hu1, hs, hs'⟩ := getc_ok h
    rw [conts, e]
    simp only
    by_cases hc : cc = -1
    · rw [if_pos hc]; exact ⟨_, _, rfl, h1, by omega, hs⟩
    · rw [if_neg hc]
      by_cases hr : reject c (n + 2) cc = true
      · rw [if_pos hr]
        refine ⟨_, _, rfl, h1, by omega, ?_⟩
        have := hs' hc
        simp only [In.size] at this ⊢
        rw [if_neg (show ¬ 0 ≤ i1.unget by omega)] at this
        split <;> omega
      · rw [if_neg hr]
        obtain ⟨b', i', e', hp, hl, hz⟩ := conts_ok (c := c) (n + 1) (buf ++ [byte cc]) i1 h1 hu1
        refine ⟨b', i', e', hp, ?_, by omega⟩
        simp at hl
        omega

theorem ulen_le (c : Int) : ulen c ≤ 4 := by
  simp only [ulen]
  split
  · omega
  · split
    · omega
    · split <;> omega

theorem getu8_ok {kb : List Entry} {buf : List Nat} {i : In} (h : Points kb i) (hb : buf.length + 4 ≤ LINE) :
    ∃ o i', getu8 kb buf i = some (o, i') ∧ Points kb i' ∧ i'.size ≤ i.size ∧ (o ≠ none → i'.size + 1 ≤ i.size) := by
  obtain ⟨c, i1, e, h1, hu1, hs, hs'⟩ := getc_ok h
  rw [getu8, e]
  simp only
  by_cases hc : c = -1
  · rw [if_pos hc]; exact ⟨_, _, rfl, h1, hs, fun h => absurd rfl h⟩
  · rw [if_neg hc]
    obtain ⟨b', i', e', hp, hl, hz⟩ := conts_ok (c := c) (ulen c) (buf ++ [byte c]) i1 h1 hu1
    have := ulen_le c
    have hs' := hs' hc
    simp only [List.length_append, List.length_singleton] at hl
    simp only [e']
    rw [if_pos (by omega)]
    exact ⟨_, _, rfl, hp, by omega, fun _ => by omega⟩

theorem fire_points {text : Nat} {kb : List Entry} {k : Entry} {line : List Nat} {i : In} (h : Points kb i)
    (hk : k ∈ kb) : Points kb (fire text k line i).2 := by
  simp only [fire]
  cases ha : k.args with
  | none => exact h
  | some a =>
    simp only
    split
    · intro id r hm
      simp only [Option.some.injEq, Prod.mk.injEq] at hm
      rw [← hm.1]
      simp only [Live, List.any_eq_true, beq_iff_eq]
      exact ⟨k, hk, rfl⟩
    · exact h

theorem fire_act {text : Nat} {k : Entry} {line : List Nat} {i : In} :
    (∃ c, (fire text k line i).1 = .call k c ∨ (fire text k line i).1 = .text k) := by
  simp only [fire]
  cases k.args with
  | none => exact ⟨_, .inl rfl⟩
  | some a =>
    simp only
    split
    · exact ⟨0, .inr rfl⟩
    · exact ⟨_, .inl rfl⟩

theorem unbound_in (line : List Nat) (n : Nat) (i : In) : (unbound line n i).2 = i := by
  simp only [unbound]
  split
  · rfl
  · split <;> rfl

theorem unbound_act (line : List Nat) (n : Nat) (i : In) (k : Entry) :
    (∀ c, (unbound line n i).1 ≠ .call k c) ∧ (unbound line n i).1 ≠ .text k := by
  simp only [unbound]
  split
  · simp
  · split <;> simp

/-- The entry of an action is in the table. -/
def ActIn (kb : List Entry) (a : Act) : Prop := ∀ k, ((∃ c, a = .call k c) ∨ a = .text k) → k ∈ kb

theorem keys_ok {text : Nat} {kb : List Entry} {L : Nat} (hL : L + 4 ≤ LINE) (hk : ∀ k ∈ kb, k.seq.length ≤ L) :
    ∀ (n : Nat) (line : List Nat) (t : Nat) (i : In), Points kb i → line.length ≤ L → i.size < n →
    ∃ a i', keys text kb n line t i = some (a, i') ∧ Points kb i' ∧ ActIn kb a
  | 0, _, _, _, _, _, h => absurd h (by omega)
  | n + 1, line, t, i, hp, hl, hn => by
    obtain ⟨o, i1, e, h1, hs, hs'⟩ := getu8_ok (buf := line) hp (by omega)
    rw [keys, e]
    cases o with
    | none => exact ⟨_, _, rfl, h1, fun k h => h.elim (fun ⟨_, h⟩ => nomatch h) (fun h => nomatch h)⟩
    | some line' =>
      simp only
      split
      · next k hsc =>
        have hkk := (runs_of_scan hsc).1
        refine ⟨(fire text k line' i1).1, (fire text k line' i1).2, rfl, fire_points h1 hkk, ?_⟩
        intro k' hk'
        obtain ⟨c, hf⟩ := fire_act (text := text) (k := k) (line := line') (i := i1)
        rcases hf with hf | hf <;> rw [hf] at hk'
        · rcases hk' with ⟨c', hk'⟩ | hk'
          · injection hk' with hk' _; rw [← hk']; exact hkk
          · cases hk'
        · rcases hk' with ⟨c', hk'⟩ | hk'
          · cases hk'
          · injection hk' with hk'; rw [← hk']; exact hkk
      · refine ⟨(unbound line' (t + 1) i1).1, (unbound line' (t + 1) i1).2, rfl, by rw [unbound_in]; exact h1, ?_⟩
        intro k hk'
        have := unbound_act line' (t + 1) i1 k
        rcases hk' with ⟨c, hk'⟩ | hk'
        · exact absurd hk' (this.1 c)
        · exact absurd hk' this.2
      · next hn1 hn0 =>
        have hex : ∃ k ∈ kb, line' <+: k.seq := by
          rcases scan_cases line' kb with ⟨_, h2⟩ | ⟨k1, hk1, hp1, _, _⟩ | ⟨⟨a, b, hsub, ha, _⟩, _⟩
          · exact absurd h2 (hn0 _)
          · exact ⟨k1, hk1, hp1⟩
          · exact ⟨a, hsub.subset (by simp), ha⟩
        obtain ⟨k, hkk, hpre⟩ := hex
        refine keys_ok hL hk n line' (t + 1) i1 h1 ?_ ?_
        · have := hpre.length_le; have := hk k hkk; omega
        · have := hs' (by simp); omega

theorem setArg_ok {kb : List Entry} : ∀ (n : Nat) (c : Int) (v : Nat) (first : Bool) (i : In), Points kb i →
    i.size + (if 0 ≤ c then 1 else 0) < n → ∃ o i', setArg kb n c v first i = some (o, i') ∧ Points kb i'
  | 0, _, _, _, _, _, h => absurd h (by omega)
  | n + 1, c, v, first, i, hp, hn => by
    rw [setArg]
    by_cases hc : 48 ≤ c ∧ c ≤ 57
    · rw [if_pos hc]
      obtain ⟨c', i1, e, h1, _, hs, hs'⟩ := getc_ok hp
      rw [e]
      refine setArg_ok n c' _ false i1 h1 ?_
      rw [if_pos (by omega)] at hn
      split
      · have := hs' (by omega); omega
      · omega
    · rw [if_neg hc]
      split
      · exact ⟨_, _, rfl, hp⟩
      · exact ⟨_, _, rfl, hp⟩

/-! ## Sessions -/

/-- What holds between events. -/
structure Good (s : S) : Prop where
  inv : Inv s.map
  seqs : ∀ k ∈ s.map.kb, k.seq.length ≤ 2048
  args : ∀ k ∈ s.map.kb, ∀ a, k.args = some a → a.length ≤ 2048
  mac : Points s.map.kb s.inp
  km : s.lit = true → ∀ id, s.km = some id → Live s.map.kb id

theorem decode_ok {s : List Nat} (h : s.length ≤ 2048) : decode s ≠ none := by
  rw [decode, if_pos (Nat.le_trans (decRaw_length s).2 (by simp only [LINE]; omega))]
  simp

theorem encode_ok {s : List Nat} (h : s.length ≤ 2048) : ∃ t, encode s = some t ∧ t.length ≤ 2048 := by
  have h1 := encRaw_length s
  rw [encode, if_pos (by simp only [LINE]; omega)]
  exact ⟨_, rfl, by have := cstr_length (encRaw s); omega⟩

theorem kprint_ok {ft : List Func} {k : Entry} (h1 : k.seq.length ≤ 2048) (h2 : ∀ a, k.args = some a → a.length ≤ 2048) :
    kprint ft k ≠ none := by
  rw [kprint]
  have hd := decode_ok h1
  split
  · simpa using hd
  · split
    · simp
    · next a ha =>
      have := decode_ok (h2 a ha)
      cases e1 : decode k.seq with
      | none => exact absurd e1 hd
      | some d =>
        cases e2 : decode a with
        | none => exact absurd e2 this
        | some t => simp

theorem listAll_ok {ft : List Func} : ∀ {kb : List Entry}, (∀ k ∈ kb, k.seq.length ≤ 2048) →
    (∀ k ∈ kb, ∀ a, k.args = some a → a.length ≤ 2048) → ∃ l, listAll ft kb = some l
  | [], _, _ => ⟨_, rfl⟩
  | k :: kb, h1, h2 => by
    obtain ⟨l, hl⟩ := listAll_ok (ft := ft) (kb := kb) (fun k hk => h1 k (by simp [hk])) (fun k hk => h2 k (by simp [hk]))
    have := kprint_ok (ft := ft) (h1 k (by simp)) (h2 k (by simp))
    rw [listAll, hl]
    cases e : kprint ft k with
    | none => exact absurd e this
    | some a => exact ⟨_, rfl⟩

theorem addString_small {m : Keymap} {fn : Nat} {args : Option (List Nat)} {s : List Nat}
    (h1 : ∀ k ∈ m.kb, k.seq.length ≤ 2048) (h2 : ∀ k ∈ m.kb, ∀ a, k.args = some a → a.length ≤ 2048)
    (hs : s.length ≤ 2048) (ha : ∀ a, args = some a → a.length ≤ 2048) :
    (∀ k ∈ (addString m fn args s).2.kb, k.seq.length ≤ 2048) ∧
    (∀ k ∈ (addString m fn args s).2.kb, ∀ a, k.args = some a → a.length ≤ 2048) := by
  rw [addString]
  split
  · exact ⟨h1, h2⟩
  · constructor
    · intro k hk
      rcases List.mem_append.mp hk with hk | hk
      · exact h1 k hk
      · rw [List.mem_singleton.mp hk]; exact hs
    · intro k hk
      rcases List.mem_append.mp hk with hk | hk
      · exact h2 k hk
      · rw [List.mem_singleton.mp hk]; exact ha

theorem xbind_ok {ft : List Func} {text : Nat} {m : Keymap} {a1 a2 : List Nat} {mc : Bool}
    (h1 : ∀ k ∈ m.kb, k.seq.length ≤ 2048) (h2 : ∀ k ∈ m.kb, ∀ a, k.args = some a → a.length ≤ 2048)
    (ha1 : a1.length ≤ 2048) (ha2 : a2.length ≤ 2048) :
    ∃ r, xbind ft text m a1 a2 mc = some r ∧ (∀ k ∈ r.2.kb, k.seq.length ≤ 2048) ∧
      (∀ k ∈ r.2.kb, ∀ a, k.args = some a → a.length ≤ 2048) := by
  obtain ⟨s, es, hs⟩ := encode_ok ha1
  have d1 : ∀ k ∈ (delete m s).kb, k.seq.length ≤ 2048 := fun k hk => h1 k ((delSeq_sublist s _).subset hk)
  have d2 : ∀ k ∈ (delete m s).kb, ∀ a, k.args = some a → a.length ≤ 2048 :=
    fun k hk => h2 k ((delSeq_sublist s _).subset hk)
  rw [xbind, es]
  simp only
  by_cases he : a2 = []
  · rw [if_pos he]; exact ⟨_, rfl, d1, d2⟩
  · rw [if_neg he, setBinding]
    cases mc with
    | true =>
      obtain ⟨t, et, ht⟩ := encode_ok ha2
      rw [if_pos rfl, et]
      refine ⟨_, rfl, addString_small d1 d2 hs ?_⟩
      intro a ha; cases ha; exact ht
    | false =>
      simp only [Bool.false_eq_true, if_false]
      cases findName ft a2 with
      | none => exact ⟨_, rfl, h1, h2⟩
      | some fn => exact ⟨_, rfl, addString_small d1 d2 hs (fun a ha => nomatch ha)⟩

/-- Bindings are changed only while no text is being read and no quote is pending, with operands of at most 2048 bytes. -/
def Calm (ft : List Func) (f : Fns) : S → List Ev → Prop
  | _, [] => True
  | s, e :: es => (∀ a1 a2 m, e = .bind a1 a2 m →
      a1.length ≤ 2048 ∧ a2.length ≤ 2048 ∧ s.inp.mac = none ∧ s.lit = false) ∧
    ∀ s', step ft f s e = some s' → Calm ft f s' es

theorem act_ok {f : Fns} {s : S} {a : Act} (hl : s.lit = false) (hg : Good s) (ha : ActIn s.map.kb a) :
    ∃ s', act f s a = some s' ∧ Good s' := by
  have live : ∀ k, ((∃ c, a = .call k c) ∨ a = .text k) → Live s.map.kb k.id := by
    intro k hk
    simp only [Live, List.any_eq_true, beq_iff_eq]
    exact ⟨k, ha k hk, rfl⟩
  cases a with
  | call k c =>
    simp only [act]
    split
    · refine ⟨_, rfl, hg.inv, hg.seqs, hg.args, hg.mac, ?_⟩
      intro _ id hid
      simp only [Option.some.injEq] at hid
      rw [← hid]; exact live k (.inl ⟨c, rfl⟩)
    · split
      · obtain ⟨o, i', e, hp⟩ := setArg_ok (s.inp.size + 2) (sgn c) 0 true s.inp hg.mac (by split <;> omega)
        rw [e]
        exact ⟨_, rfl, hg.inv, hg.seqs, hg.args, hp, fun h => by simp [hl] at h⟩
      · exact ⟨_, rfl, hg.inv, hg.seqs, hg.args, hg.mac, fun h => by simp [hl] at h⟩
  | text k => exact ⟨_, rfl, hg.inv, hg.seqs, hg.args, hg.mac, fun h => by simp [hl] at h⟩
  | eof => exact ⟨_, rfl, hg.inv, hg.seqs, hg.args, hg.mac, fun h => by simp [hl] at h⟩
  | beep => exact ⟨_, rfl, hg.inv, hg.seqs, hg.args, hg.mac, fun h => by simp [hl] at h⟩
  | insLine l => exact ⟨_, rfl, hg.inv, hg.seqs, hg.args, hg.mac, fun h => by simp [hl] at h⟩
  | insByte b => exact ⟨_, rfl, hg.inv, hg.seqs, hg.args, hg.mac, fun h => by simp [hl] at h⟩

theorem key_ok {f : Fns} {s : S} (hg : Good s) : ∃ s', key f s = some s' ∧ Good s' := by
  rw [key]
  by_cases hl : s.lit = true
  · rw [if_pos hl, literal]
    obtain ⟨o, i', e, hp, _, _⟩ := getu8_ok (buf := []) hg.mac (by simp [LINE])
    have hu : ∃ s', useMatch { s with inp := i', lit := false } = some s' ∧ Good s' := by
      have hgood : Good { s with inp := i', lit := false } := ⟨hg.inv, hg.seqs, hg.args, hp, fun h => nomatch h⟩
      simp only [useMatch]
      cases hkm : s.km with
      | none => exact ⟨_, rfl, hkm ▸ hgood⟩
      | some id =>
        have : s.map.kb.any (·.id == id) = true := hg.km hl id hkm
        simp only [this, if_true]
        exact ⟨_, rfl, hkm ▸ hgood⟩
    rw [e]
    cases o with
    | none => exact hu
    | some line =>
      simp only [unbound_in]
      exact hu
  · rw [if_neg hl]
    obtain ⟨a, i', e, hp, ha⟩ := keys_ok (text := f.text) (L := 2048) (by simp [LINE]) hg.seqs (s.inp.size + 1) [] 0 s.inp
      hg.mac (by simp) (by omega)
    rw [command, e]
    refine act_ok (by simpa using hl) ⟨hg.inv, hg.seqs, hg.args, hp, fun h => absurd h hl⟩ ha

theorem step_ok {ft : List Func} {f : Fns} {s : S} {e : Ev} (hg : Good s)
    (he : ∀ a1 a2 m, e = .bind a1 a2 m → a1.length ≤ 2048 ∧ a2.length ≤ 2048 ∧ s.inp.mac = none ∧ s.lit = false) :
    ∃ s', step ft f s e = some s' ∧ Good s' := by
  cases e with
  | key => exact key_ok hg
  | read =>
    obtain ⟨c, i', e, hp, _⟩ := getc_ok hg.mac
    rw [step, e]
    exact ⟨_, rfl, hg.inv, hg.seqs, hg.args, hp, hg.km⟩
  | start => exact ⟨_, rfl, hg.inv, hg.seqs, hg.args, hg.mac, fun h => nomatch h⟩
  | bind a1 a2 m =>
    obtain ⟨h1, h2, hm, hl⟩ := he a1 a2 m rfl
    obtain ⟨r, hr, k1, k2⟩ := xbind_ok (ft := ft) (text := f.text) (mc := m) hg.seqs hg.args h1 h2
    rw [step, hr]
    refine ⟨_, rfl, xbind_inv hg.inv hr, k1, k2, ?_, fun h => by simp [hl] at h⟩
    intro id r' h'
    simp only at h'
    rw [hm] at h'; cases h'
  | list =>
    obtain ⟨l, hl⟩ := listAll_ok (ft := ft) hg.seqs hg.args
    rw [step, hl]
    exact ⟨_, rfl, hg⟩

theorem run_ok {ft : List Func} {f : Fns} : ∀ (es : List Ev) (s : S), Good s → Calm ft f s es →
    ∃ s', run ft f s es = some s' ∧ Good s'
  | [], s, hg, _ => ⟨s, rfl, hg⟩
  | e :: es, s, hg, hc => by
    obtain ⟨s1, h1, hg1⟩ := step_ok (ft := ft) (f := f) hg hc.1
    rw [run, h1]
    exact run_ok es s1 hg1 (hc.2 s1 h1)

end Ksh.Keys
