import Verif.Keys.Text
/-!
# Key bindings: the properties (C90 - C93)
-/

namespace Ksh.Keys

/-! ## C90: typing a bound sequence runs its function -/

/-- The tables a shell can have: the initial one, the terminal's characters, and any number of `bind` commands. -/
inductive Reach (ft : List Func) (text : Nat) : Keymap → Prop where
  | init : Reach ft text initMap
  | tty {m : Keymap} (e k w i q : Option Nat) : Reach ft text m → Reach ft text (ttyKeys e k w i q m)
  | bind {m m' : Keymap} {a1 a2 : List Nat} {mc : Bool} {b : Bound} :
      Reach ft text m → xbind ft text m a1 a2 mc = some (b, m') → Reach ft text m'

/-- **C90**, the invariant: in every table a shell can have, a sequence is bound at most once, and a binding never begins
one that was made before it. -/
theorem reach_inv {ft : List Func} {text : Nat} {m : Keymap} (h : Reach ft text m) : Inv m := by
  induction h with
  | init => exact initMap_inv
  | tty e k w i q _ ih => exact ttyKeys_inv ih e k w i q
  | bind _ hx ih => exact xbind_inv ih hx

example : Reach ftab 18 (ttyKeys (some 8) (some 21) none (some 3) (some 28) initMap) := .tty _ _ _ _ _ .init
example : (ttyKeys (some 8) (some 21) none (some 3) (some 28) initMap).kb.length = 92 := by decide +kernel

/-- **C90**: a bound sequence that begins no other binding, typed at the start of a command, runs its function (or starts
its text) after exactly its own keys, whatever follows. -/
theorem bound_key_runs_partial {ft : List Func} {text : Nat} {m : Keymap} (hm : Reach ft text m) {k : Entry}
    (hk : k ∈ m.kb) (hne : k.seq ≠ []) (hb : ∀ b ∈ k.seq, b < 192) (hl : k.seq.length ≤ LINE)
    (hu : ∀ k' ∈ m.kb, k.seq <+: k'.seq → k' = k) (rest : List Nat) :
    command text m.kb (plain (k.seq ++ rest)) = some (effect text k rest) := by
  have hi := reach_inv hm
  obtain ⟨p, c, hs⟩ : ∃ p c, k.seq = p ++ [c] := by
    refine ⟨k.seq.dropLast, k.seq.getLast hne, ?_⟩
    exact (List.dropLast_concat_getLast hne).symm
  have hrun : Runs m.kb (p ++ [c]) k := ⟨hk, hs, fun k' hk' hp => hu k' hk' (hs ▸ hp)⟩
  rw [command, size_plain]
  have hlen : (k.seq ++ rest).length + 1 = (rest.length + 1 + 1) + p.length := by
    rw [hs]; simp; omega
  rw [hlen, hs, List.append_assoc]
  rw [keys_collect p (rest.length + 1 + 1) [] 0 _ (fun b hb' => hb b (by rw [hs]; simp [hb']))
    (by rw [hs] at hl; simp at hl ⊢; omega) ?_]
  · rw [List.nil_append, List.singleton_append]
    rw [keys_runs hi.ids (hb c (by rw [hs]; simp)) (by rw [hs] at hl; simp at hl; omega) hrun, ← hs, fire_effect]
  · intro q hq hp
    rw [List.nil_append]
    have hkq : q <+: k.seq := by rw [hs]; exact hp.trans (List.prefix_append _ _)
    refine ⟨?_, fun hd => hd k hk hkq⟩
    rintro k1 ⟨_, h2, h3⟩
    have e : k = k1 := h3 k hk hkq
    rw [← e, hs] at h2
    have h4 := hp.length_le
    rw [← h2] at h4
    simp at h4
    omega

/-- Keys that begin no binding: a first key is inserted, after the beginning of a binding the bell rings. -/
theorem unbound_keys {ft : List Func} {text : Nat} {m : Keymap} (hm : Reach ft text m) {p : List Nat} {c : Nat}
    (hb : ∀ b ∈ p ++ [c], b < 192) (hl : p.length < LINE)
    (hopen : ∀ q, q ≠ [] → q <+: p → (∃ k ∈ m.kb, q <+: k.seq) ∧ ∀ k ∈ m.kb, k.seq = q → ∃ k' ∈ m.kb, k' ≠ k ∧ q <+: k'.seq)
    (hdead : ∀ k ∈ m.kb, ¬ (p ++ [c]) <+: k.seq) (rest : List Nat) :
    command text m.kb (plain (p ++ c :: rest)) = some (if p = [] then .insByte c else .beep, plain rest) := by
  have := reach_inv hm
  rw [command, size_plain]
  have hlen : (p ++ c :: rest).length + 1 = (rest.length + 1 + 1) + p.length := by simp; omega
  rw [hlen, keys_collect p (rest.length + 1 + 1) [] 0 _ (fun b hb' => hb b (by simp [hb'])) (by simp; omega) ?_]
  · rw [List.nil_append, keys_dead (hb c (by simp)) hl hdead, unbound]
    cases p with
    | nil => simp
    | cons a p => simp
  · intro q hq hp
    obtain ⟨⟨k, hk, hkq⟩, h2⟩ := hopen q hq hp
    rw [List.nil_append]
    refine ⟨?_, fun hd => hd k hk hkq⟩
    rintro k1 ⟨hk1, e1, h3⟩
    obtain ⟨k', hk', hne, hp'⟩ := h2 k1 hk1 e1
    exact hne (h3 k' hk' hp')

/-- A binding that begins another one is never run, whatever is typed or read from a text. -/
theorem shadowed_never_runs {text : Nat} {kb : List Entry} {k k' : Entry} (hk' : k' ∈ kb) (hne : k' ≠ k)
    (hp : k.seq <+: k'.seq) (i : In) {a : Act} {i' : In} (h : command text kb i = some (a, i')) :
    (∀ c, a ≠ .call k c) ∧ a ≠ .text k := by
  have main : ∀ (n : Nat) (line : List Nat) (t : Nat) (i : In), keys text kb n line t i = some (a, i') →
      (∀ c, a ≠ .call k c) ∧ a ≠ .text k := by
    intro n
    induction n with
    | zero => intro _ _ _ h; cases h
    | succ n ih =>
      intro line t i h
      rw [keys] at h
      split at h
      · cases h
      · cases h; exact ⟨fun _ h => (nomatch h), fun h => (nomatch h)⟩
      · next line' i1 _ =>
        split at h
        · next k1 hs =>
          obtain ⟨h1, h2, h3⟩ := runs_of_scan hs
          have hk1 : k1 ≠ k := by
            rintro rfl
            exact hne (h3 k' hk' (h2 ▸ hp))
          rw [Option.some.injEq] at h
          obtain ⟨c, hf⟩ := fire_act (text := text) (k := k1) (line := line') (i := i1)
          rw [h] at hf
          simp only at hf
          rcases hf with hf | hf <;> subst hf
          · refine ⟨fun c' h => ?_, fun h => (nomatch h)⟩
            injection h with h _; exact hk1 h
          · refine ⟨fun c' h => (nomatch h), fun h => ?_⟩
            injection h with h; exact hk1 h
        · rw [Option.some.injEq] at h
          have := unbound_act line' (t + 1) i1 k
          rw [h] at this; exact this
        · exact ih _ _ _ h
  exact main _ _ _ _ h

/-- The defaults of x_init_emacs: every one of the 89 calls takes effect, and none begins another, so each is run by its
keys. -/
theorem defaults_run (k : Entry) (hk : k ∈ initMap.kb) (rest : List Nat) :
    command fns.text initMap.kb (plain (k.seq ++ rest)) = some (.call k (k.seq.getLastD 0), plain rest) := by
  have h1 : initMap.kb.all (fun k => initMap.kb.all fun k' =>
      !(decide (k.seq.length ≤ k'.seq.length) && k'.seq.take k.seq.length == k.seq) || k' == k) = true := by decide +kernel
  have h2 : initMap.kb.all (fun k => k.seq.all (· < 192) && !k.seq.isEmpty && decide (k.seq.length ≤ 10) &&
      k.args.isNone) = true := by decide +kernel
  rw [List.all_eq_true] at h1 h2
  have h2 := h2 k hk
  simp only [Bool.and_eq_true, List.all_eq_true, decide_eq_true_eq, Bool.not_eq_true', List.isEmpty_eq_false_iff,
    Option.isNone_iff_eq_none] at h2
  obtain ⟨⟨⟨hb, hne⟩, hl⟩, ha⟩ := h2
  have := bound_key_runs_partial (ft := ftab) (text := fns.text) .init hk hne hb (by simp only [LINE]; omega) (fun k' hk' hp => ?_) rest
  · rw [this, effect, if_neg (by simp [ha])]
  · have h3 := List.all_eq_true.mp (h1 k hk) k' hk'
    rw [Bool.or_eq_true] at h3
    rcases h3 with h3 | h3
    · rw [(take_beq_iff _ _).mpr hp] at h3; cases h3
    · exact beq_iff_eq.mp h3

example : initMap.kb.length = defaults.length := by decide +kernel
/-- ESC b moves back a word; `x` follows. -/
example : command fns.text initMap.kb (plain [27, 98, 120]) = some (.call ⟨3, [27, 98], 28, none⟩ 98, plain [120]) := by
  decide +kernel

/-- **C90**, `bind`: when the binding is made, the sequence is bound to what was asked for and to nothing else, no other
binding has changed, and typing the sequence runs it. -/
theorem bind_function_partial {ft : List Func} {text : Nat} {m m' : Keymap} (hm : Reach ft text m) {a1 a2 s : List Nat}
    {fn : Nat} (hs : encode a1 = some s) (ha : a2 ≠ []) (hf : findName ft a2 = some fn)
    (hx : xbind ft text m a1 a2 false = some (.set, m')) :
    (∀ k, k ∈ m'.kb ∧ k.seq = s ↔ k = ⟨m.next, s, fn, none⟩) ∧
    (∀ k, k.seq ≠ s → (k ∈ m'.kb ↔ k ∈ m.kb)) ∧
    (s ≠ [] → (∀ b ∈ s, b < 192) → ∀ rest, command text m'.kb (plain (s ++ rest)) =
      some (.call ⟨m.next, s, fn, none⟩ (s.getLastD 0), plain rest)) := by
  have hi := reach_inv hm
  have hm' := Reach.bind hm hx
  have hx0 := hx
  rw [xbind, hs] at hx
  simp only [if_neg ha, setBinding, Bool.false_eq_true, if_false, hf, Option.some.injEq] at hx
  rcases rebind_cases hi fn none s with ⟨_, h⟩ | ⟨hno, h⟩
  · rw [h] at hx; cases hx
  · rw [h] at hx
    simp only [Prod.mk.injEq, true_and] at hx
    subst hx
    have mem : ∀ k, k ∈ (delete m s).kb ++ [⟨m.next, s, fn, none⟩] ↔
        (k ∈ m.kb ∧ k.seq ≠ s) ∨ k = ⟨m.next, s, fn, none⟩ := by
      intro k
      rw [List.mem_append, List.mem_singleton, mem_delete hi]
    refine ⟨?_, ?_, ?_⟩
    · intro k
      simp only [mem]
      constructor
      · rintro ⟨⟨_, h⟩ | h, e⟩
        · exact absurd e h
        · exact h
      · rintro rfl; exact ⟨.inr rfl, rfl⟩
    · intro k hk
      simp only [mem]
      constructor
      · rintro (⟨h, _⟩ | rfl)
        · exact h
        · exact absurd rfl hk
      · intro h; exact .inl ⟨h, hk⟩
    · intro hne hb rest
      have hl : s.length ≤ LINE := by
        simp only [encode] at hs
        split at hs
        · next hle =>
          cases hs
          exact Nat.le_trans (cstr_length _) hle
        · cases hs
      have := bound_key_runs_partial hm' (k := ⟨m.next, s, fn, none⟩) ((mem _).mpr (.inr rfl)) hne hb hl ?_ rest
      · rw [this, effect, if_neg (by simp)]
      · intro k' hk' hp
        rcases (mem k').mp hk' with ⟨h1, h2⟩ | h
        · exact absurd hp (hno k' h1 h2)
        · exact h

/-- **C90**, `bind`: a binding made before that was run by its keys is still run by them, unless it begins the new one. -/
theorem bind_keeps_partial {ft : List Func} {text : Nat} {m m' : Keymap} (hm : Reach ft text m) {a1 a2 s : List Nat}
    {mc : Bool} {b : Bound} (hs : encode a1 = some s) (hx : xbind ft text m a1 a2 mc = some (b, m'))
    {k : Entry} (hk : k ∈ m.kb) (hu : ∀ k' ∈ m.kb, k.seq <+: k'.seq → k' = k) (hp : ¬ k.seq <+: s)
    (hne : k.seq ≠ []) (hb : ∀ b ∈ k.seq, b < 192) (hl : k.seq.length ≤ LINE) (rest : List Nat) :
    command text m'.kb (plain (k.seq ++ rest)) = some (effect text k rest) := by
  have hi := reach_inv hm
  have hks : k.seq ≠ s := fun h => hp (h ▸ List.prefix_refl _)
  have key : k ∈ m'.kb ∧ ∀ k' ∈ m'.kb, k' ∈ m.kb ∨ k'.seq = s := by
    have hre : ∀ fn args, k ∈ (verdict (addString (delete m s) fn args s)).2.kb ∧
        ∀ k' ∈ (verdict (addString (delete m s) fn args s)).2.kb, k' ∈ m.kb ∨ k'.seq = s := by
      intro fn args
      rcases rebind_cases hi fn args s with ⟨_, h⟩ | ⟨_, h⟩ <;> rw [h]
      · exact ⟨(mem_delete hi s k).mpr ⟨hk, hks⟩, fun k' h' => .inl ((mem_delete hi s k').mp h').1⟩
      · refine ⟨List.mem_append_left _ ((mem_delete hi s k).mpr ⟨hk, hks⟩), fun k' h' => ?_⟩
        rcases List.mem_append.mp h' with h' | h'
        · exact .inl ((mem_delete hi s k').mp h').1
        · rw [List.mem_singleton.mp h']; exact .inr rfl
    rw [xbind, hs] at hx
    simp only at hx
    split at hx
    · cases hx
      exact ⟨(mem_delete hi s k).mpr ⟨hk, hks⟩, fun k' h' => .inl ((mem_delete hi s k').mp h').1⟩
    · rw [setBinding] at hx
      split at hx
      · rw [Option.map_eq_some_iff] at hx
        obtain ⟨t, _, e⟩ := hx
        have := hre text (some t)
        rw [e] at this; exact this
      · split at hx
        · cases hx; exact ⟨hk, fun k' h' => .inl h'⟩
        · next fn _ =>
          rw [Option.some.injEq] at hx
          have := hre fn none
          rw [hx] at this; exact this
  refine bound_key_runs_partial (ft := ft) (m := m') (.bind (a1 := a1) (a2 := a2) (mc := mc) (b := b) hm ?_) key.1 hne hb hl ?_ rest
  · rw [← hx]
  · intro k' hk' hp'
    rcases key.2 k' hk' with h | h
    · exact hu k' h hp'
    · exact absurd (h ▸ hp') hp

/-- When `bind` refuses: exactly if the sequence begins another binding.  It still returns 0, and what the sequence was
bound to is lost. -/
theorem refused_iff {ft : List Func} {text : Nat} {m : Keymap} (hm : Reach ft text m) {a1 a2 s : List Nat}
    {fn : Nat} (hs : encode a1 = some s) (ha : a2 ≠ []) (hf : findName ft a2 = some fn) :
    ∃ b m', xbind ft text m a1 a2 false = some (b, m') ∧ b.status = 0 ∧
      (b = .refused ↔ ∃ k ∈ m.kb, k.seq ≠ s ∧ s <+: k.seq) ∧
      (b = .refused → ∀ k, k ∈ m'.kb ↔ k ∈ m.kb ∧ k.seq ≠ s) := by
  have hi := reach_inv hm
  rw [xbind, hs]
  simp only [if_neg ha, setBinding, Bool.false_eq_true, if_false, hf]
  rcases rebind_cases hi fn none s with ⟨hex, h⟩ | ⟨hno, h⟩ <;> rw [h]
  · exact ⟨_, _, rfl, rfl, ⟨fun _ => hex, fun _ => rfl⟩, fun _ k => mem_delete hi s k⟩
  · refine ⟨_, _, rfl, rfl, ⟨fun h => (nomatch h), ?_⟩, fun h => (nomatch h)⟩
    rintro ⟨k, hk, hne, hp⟩
    exact absurd hp (hno k hk hne)

/-- The shell after `bind '^Tx=no-op'` ([94, 84, 120], function 35). -/
def shadowMap : Keymap := ((xbind ftab 18 initMap [94, 84, 120] [110, 111, 45, 111, 112] false).map (·.2)).getD initMap

/-- False of the code: binding ^T x succeeds and takes ^T (transpose-chars) away: ^T followed by any key no longer runs it. -/
theorem bind_shadows :
    (xbind ftab 18 initMap [94, 84, 120] [110, 111, 45, 111, 112] false).map (·.1) = some .set ∧
    command 18 initMap.kb (plain [20, 97]) = some (.call ⟨51, [20], 42, none⟩ 20, plain [97]) ∧
    command 18 shadowMap.kb (plain [20, 97]) = some (.beep, plain []) := by decide +kernel

/-- False of the code: after that, `bind '^T=redraw'` reports a duplicate binding, returns 0, and has removed the old
binding of ^T. -/
theorem rebind_loses :
    (shadowMap.kb.any (·.seq == [20])) = true ∧
    ((xbind ftab 18 shadowMap [94, 84] [114, 101, 100, 114, 97, 119] false).map
      fun r => (r.1, r.1.status, r.2.kb.any (·.seq == [20]))) = some (.refused, 0, false) := by decide +kernel

/-- `bind '^@=...'`: the control character is the end of the string, so the sequence is empty and the binding is refused. -/
theorem nul_not_bound :
    (xbind ftab 18 initMap [94, 64] [110, 111, 45, 111, 112] false).map (·.1) = some .refused := by decide +kernel

/-! ## Characters of more than one byte -/

/-- Well-formed UTF-8 for a character that is not ASCII (the table of the Unicode standard). -/
inductive Utf8 : List Nat → Prop where
  | two {a b : Nat} : 194 ≤ a → a ≤ 223 → 128 ≤ b → b ≤ 191 → Utf8 [a, b]
  | three {a b c : Nat} : 224 ≤ a → a ≤ 239 → 128 ≤ b → b ≤ 191 → (a = 224 → 160 ≤ b) → (a = 237 → b ≤ 159) →
      128 ≤ c → c ≤ 191 → Utf8 [a, b, c]
  | four {a b c d : Nat} : 240 ≤ a → a ≤ 244 → 128 ≤ b → b ≤ 191 → (a = 240 → 144 ≤ b) → (a = 244 → b ≤ 143) →
      128 ≤ c → c ≤ 191 → 128 ≤ d → d ≤ 191 → Utf8 [a, b, c, d]

theorem reject_false {c : Int} {n cc : Nat} (h1 : 128 ≤ cc) (h2 : cc ≤ 191)
    (a : c = 224 → n = 3 → 160 ≤ cc) (b : c = 237 → n = 3 → cc ≤ 159) (d : c = 240 → n = 4 → 144 ≤ cc)
    (e : c = 244 → n = 4 → cc ≤ 143) : reject c n cc = false := by
  rw [reject, byte_ofNat (by omega)]
  simp only [Bool.or_eq_false_iff, Bool.not_eq_false', Bool.and_eq_true, decide_eq_true_eq, Bool.and_eq_false_iff,
    beq_eq_false_iff_ne, ne_eq, decide_eq_false_iff_not]
  omega

/-- A character of several bytes is read as a whole. -/
theorem getu8_utf8 {l : List Nat} (h : Utf8 l) (kb : List Entry) (rest : List Nat) :
    getu8 kb [] (plain (l ++ rest)) = some (some l, plain rest) := by
  have hc : ∀ (c : Int) (n : Nat) (buf : List Nat) (x : Nat) (t : List Nat), x < 256 → reject c (n + 2) x = false →
      conts kb c (n + 2) buf (plain (x :: t)) = conts kb c (n + 1) (buf ++ [x]) (plain t) := by
    intro c n buf x t hx hr
    rw [conts, getc_plain]
    simp only [hr, byte_ofNat hx]
    rw [if_neg (by omega)]
    rfl
  cases h with
  | @two a b h1 h2 h3 h4 =>
    have hu : ulen (a : Int) = 2 := by
      rw [ulen, byte_ofNat (by omega), if_neg (by omega), if_neg (by omega), if_pos (by omega)]
    simp only [List.cons_append, List.nil_append]
    rw [getu8, getc_plain]
    simp only [hu]
    rw [if_neg (by omega), hc _ 0 _ _ _ (by omega) (reject_false h3 h4 (by omega) (by omega) (by omega) (by omega)), conts]
    · rw [byte_ofNat (by omega)]; rfl
    · intro n h; omega
  | @three a b c h1 h2 h3 h4 h5 h6 h7 h8 =>
    have hu : ulen (a : Int) = 3 := by
      rw [ulen, byte_ofNat (by omega), if_neg (by omega), if_pos (by omega)]
    simp only [List.cons_append, List.nil_append]
    rw [getu8, getc_plain]
    simp only [hu]
    rw [if_neg (by omega), hc _ 1 _ _ _ (by omega) (reject_false h3 h4 (by omega) (by omega) (by omega) (by omega)),
      hc _ 0 _ _ _ (by omega) (reject_false h7 h8 (by omega) (by omega) (by omega) (by omega)), conts]
    · rw [byte_ofNat (by omega)]; rfl
    · intro n h; omega
  | @four a b c d h1 h2 h3 h4 h5 h6 h7 h8 h9 h10 =>
    have hu : ulen (a : Int) = 4 := by
      rw [ulen, byte_ofNat (by omega), if_pos (by omega)]
    simp only [List.cons_append, List.nil_append]
    rw [getu8, getc_plain]
    simp only [hu]
    rw [if_neg (by omega), hc _ 2 _ _ _ (by omega) (reject_false h3 h4 (by omega) (by omega) (by omega) (by omega)),
      hc _ 1 _ _ _ (by omega) (reject_false h7 h8 (by omega) (by omega) (by omega) (by omega)),
      hc _ 0 _ _ _ (by omega) (reject_false h9 h10 (by omega) (by omega) (by omega) (by omega)), conts]
    · rw [byte_ofNat (by omega)]; rfl
    · intro n h; omega

/-- **C90**: a typed character of several bytes that begins no binding is inserted as a whole. -/
theorem character_inserted {text : Nat} {kb : List Entry} {l : List Nat} (h : Utf8 l) (hd : ∀ k ∈ kb, ¬ l <+: k.seq)
    (rest : List Nat) : command text kb (plain (l ++ rest)) = some (.insLine l, plain rest) := by
  have h2 : 1 < l.length := by cases h <;> simp
  rw [command, keys, getu8_utf8 h]
  simp only [scan_dead hd, unbound]
  rw [if_neg (by decide), if_pos h2]

example : Utf8 [226, 130, 172] := .three (by decide) (by decide) (by decide) (by decide) (by decide) (by decide) (by decide) (by decide)
example : command 18 initMap.kb (plain [226, 130, 172, 97]) = some (.insLine [226, 130, 172], plain [97]) := by
  decide +kernel

/-- A shell whose editor has just been started. -/
def fresh (m : Keymap) (tty : List Nat) : S := ⟨m, plain tty, false, none, none⟩

/-- The value of decimal digits. -/
def decimal (ds : List Nat) : Nat := ds.foldl (fun v d => v * 10 + (d - 48)) 0

theorem setArg_digits (kb : List Entry) {c : Nat} (hc : ¬ (48 ≤ c ∧ c ≤ 57)) (rest : List Nat) :
    ∀ (ds : List Nat) (d v n : Nat) (first : Bool), (∀ x ∈ d :: ds, 48 ≤ x ∧ x ≤ 57) → ds.length + 2 ≤ n →
    setArg kb n d v first (plain (ds ++ c :: rest)) =
      some (some ((d :: ds).foldl (fun v d => v * 10 + (d - 48)) v), ⟨c, none, rest⟩)
  | [], d, v, n + 2, first, hd, _ => by
    have h := hd d (by simp)
    rw [setArg, if_pos (by omega), List.nil_append, getc_plain]
    simp only
    rw [setArg, if_neg (by omega), if_neg (by simp)]
    have hv : (((d : Int) - 48).toNat) = d - 48 := by omega
    simp [plain, hv]
  | e :: ds, d, v, n + 1, first, hd, hn => by
    have h := hd d (by simp)
    rw [setArg, if_pos (by omega), List.cons_append, getc_plain]
    simp only
    have hv : (((d : Int) - 48).toNat) = d - 48 := by omega
    rw [hv, setArg_digits kb hc rest ds e _ n false (fun x hx => hd x (by simp [List.mem_cons] at hx ⊢; exact .inr hx))
      (by simp at hn; omega)]
    simp

/-- **C90**: ESC and digits set the argument to their decimal value, and the key after them is read again. -/
theorem set_arg_value {s : S} {f : Fns} {k : Entry} (hf : k.fn = f.setArg) (hq : f.setArg ≠ f.quote) {d c : Nat} {ds rest : List Nat}
    (hd : ∀ x ∈ d :: ds, 48 ≤ x ∧ x ≤ 57) (hc : ¬ (48 ≤ c ∧ c ≤ 57)) (hi : s.inp = plain (ds ++ c :: rest)) :
    act f s (.call k d) = some { s with sarg := some (decimal (d :: ds)), inp := ⟨c, none, rest⟩, km := some k.id } := by
  have h := hd d (by simp)
  simp only [act]
  rw [if_neg (by rw [hf]; exact hq), if_pos hf, sgn_ascii (by omega), hi, size_plain,
    setArg_digits s.map.kb hc rest ds d 0 _ true hd (by simp)]
  rfl

example : run ftab fns (fresh initMap [27, 49, 50, 2]) [.key] =
    some ⟨initMap, ⟨2, none, []⟩, false, some 76, some 12⟩ := by decide +kernel

/-! ## C91: the listing can be entered again -/

theorem dec_no_eq {s : List Nat} (h : 61 ∉ s) : 61 ∉ decRaw s := by
  induction s with
  | nil => simp [decRaw]
  | cons c s ih =>
    simp only [List.mem_cons, not_or] at h
    rw [decRaw]
    split
    · next hc =>
      simp only [List.mem_cons, not_or]
      refine ⟨by decide, ?_, ih h.2⟩
      simp only [cntrl, Bool.or_eq_true, decide_eq_true_eq, beq_iff_eq] at hc
      simp only [unctrl]
      split <;> omega
    · simp only [List.mem_cons, not_or]
      exact ⟨h.1, ih h.2⟩

theorem splitEq_mid {d r : List Nat} (h : 61 ∉ d) : splitEq (d ++ 61 :: r) = (d, some r) := by
  have h1 : ∀ b ∈ d, (b ≠ 61) := fun b hb e => h (e ▸ hb)
  have e1 : (d ++ 61 :: r).dropWhile (· ≠ 61) = 61 :: r := by
    rw [List.dropWhile_append_of_pos (by simpa using h1)]
    simp
  have e2 : (d ++ 61 :: r).takeWhile (· ≠ 61) = d := by
    rw [List.takeWhile_append_of_pos (by simpa using h1)]
    simp
  rw [splitEq, e1, e2]

/-- One line of the listing given back to `bind`, with -m for a text: `seq=what`. -/
def reenter (ft : List Func) (text : Nat) (m : Keymap) (l : Line) : Option Keymap :=
  match (splitEq (l.seq ++ 61 :: l.what)).2 with
  | none => none
  | some a2 => (xbind ft text m (splitEq (l.seq ++ 61 :: l.what)).1 a2 l.isText).map (·.2)

/-- All lines, in order. -/
def reenterAll (ft : List Func) (text : Nat) : Keymap → List Line → Option Keymap
  | m, [] => some m
  | m, l :: ls => match reenter ft text m l with
    | none => none
    | some m => reenterAll ft text m ls

/-- What a listing shows correctly: the sequence has no `=` and no misleading `^`, a text is not empty and has no
misleading `^`, and the function can be bound and is found by its name. -/
structure Listable (ft : List Func) (text : Nat) (k : Entry) : Prop where
  nonzero : ∀ b ∈ k.seq, b ≠ 0
  noEq : 61 ∉ k.seq
  carets : Carets k.seq
  func : ∃ f, ft[k.fn]? = some f ∧ f.nobind = k.args.isSome ∧
    (k.args = none → f.name ≠ [] ∧ findName ft f.name = some k.fn)
  args : ∀ a, k.args = some a → k.fn = text ∧ a ≠ [] ∧ (∀ b ∈ a, b ≠ 0) ∧ Carets a

theorem decRaw_ne_nil {s : List Nat} (h : s ≠ []) : decRaw s ≠ [] := by
  cases s with
  | nil => exact absurd rfl h
  | cons c s => rw [decRaw]; split <;> simp

theorem reenter_line {ft : List Func} {text : Nat} {k : Entry} (hl : Listable ft text k) {ls : List Line}
    (hp : kprint ft k = some ls) (m : Keymap) :
    ∃ l, ls = [l] ∧ reenter ft text m l = some (addString (delete m k.seq) k.fn k.args k.seq).2 := by
  obtain ⟨f, hf, hnb, hname⟩ := hl.func
  rw [kprint, hf] at hp
  have mem61 : ∀ d, decode k.seq = some d → 61 ∉ d := by
    intro d hd
    simp only [decode] at hd
    split at hd
    · cases hd; exact dec_no_eq hl.noEq
    · cases hd
  cases ha : k.args with
  | none =>
    rw [ha] at hnb hp
    simp only [Option.isSome_none] at hnb
    simp only [Option.any_some, hnb, Bool.not_false, if_true, Option.map_some, Option.getD_some] at hp
    cases hd : decode k.seq with
    | none => rw [hd] at hp; cases hp
    | some d =>
      rw [hd] at hp
      simp only [Option.map_some, Option.some.injEq] at hp
      refine ⟨_, hp.symm, ?_⟩
      obtain ⟨hn1, hn2⟩ := hname ha
      simp only [reenter, splitEq_mid (mem61 d hd)]
      rw [xbind, (encode_decode hl.nonzero hd).mpr hl.carets]
      simp only [if_neg hn1, setBinding, Bool.false_eq_true, if_false, hn2, verdict, Option.map_some]
  | some a =>
    rw [ha] at hnb hp
    obtain ⟨ht, hane, haz, hac⟩ := hl.args a ha
    simp only [Option.isSome_some] at hnb
    simp only [Option.any_some, hnb, Bool.not_true, Bool.false_eq_true, if_false] at hp
    cases hd : decode k.seq with
    | none => rw [hd] at hp; cases hp
    | some d =>
      cases hda : decode a with
      | none => rw [hd, hda] at hp; cases hp
      | some t =>
        rw [hd, hda] at hp
        simp only [Option.some.injEq] at hp
        refine ⟨_, hp.symm, ?_⟩
        have htne : t ≠ [] := by
          simp only [decode] at hda
          split at hda
          · cases hda; exact decRaw_ne_nil hane
          · cases hda
        simp only [reenter, splitEq_mid (mem61 d hd)]
        rw [xbind, (encode_decode hl.nonzero hd).mpr hl.carets]
        simp only [if_neg htne, setBinding, if_true, (encode_decode haz hda).mpr hac, verdict, Option.map_some, ht]

/-- The bindings without their addresses. -/
def contents (kb : List Entry) : List (List Nat × Nat × Option (List Nat)) := kb.map fun k => (k.seq, k.fn, k.args)

theorem delSeq_absent {s : List Nat} : ∀ {kb : List Entry}, (∀ k ∈ kb, k.seq ≠ s) → delSeq s kb = kb
  | [], _ => rfl
  | k :: kb, h => by
    rw [delSeq, if_neg (h k (by simp)), delSeq_absent fun k hk => h k (by simp [hk])]

theorem reenterAll_append {ft : List Func} {text : Nat} : ∀ (kb done : List Entry) (n : Nat) (ls : List Line) (m : Keymap),
    (∀ k ∈ kb, Listable ft text k) → listAll ft kb = some ls → contents m.kb = contents done →
    (done ++ kb).Pairwise (fun a b => ¬ b.seq <+: a.seq) → m.next = n →
    ∃ m', reenterAll ft text m ls = some m' ∧ contents m'.kb = contents (done ++ kb)
  | [], done, n, ls, m, _, hls, hc, _, _ => by
    simp only [listAll, Option.some.injEq] at hls
    subst hls
    exact ⟨m, rfl, by simpa using hc⟩
  | k :: kb, done, n, ls, m, hL, hls, hc, ho, hn => by
    rw [listAll] at hls
    cases hp : kprint ft k with
    | none => rw [hp] at hls; cases hls
    | some a =>
      cases hq : listAll ft kb with
      | none => rw [hp, hq] at hls; cases hls
      | some b =>
        rw [hp, hq] at hls
        simp only [Option.some.injEq] at hls
        obtain ⟨l, rfl, hr⟩ := reenter_line (hL k (by simp)) hp m
        subst hls
        have hseqs : ∀ x, x ∈ m.kb → ∃ y ∈ done, y.seq = x.seq := by
          intro x hx
          have : (x.seq, x.fn, x.args) ∈ contents done := by
            rw [← hc]; exact List.mem_map.mpr ⟨x, hx, rfl⟩
          obtain ⟨y, hy, e⟩ := List.mem_map.mp this
          exact ⟨y, hy, by injection e⟩
        have hno : ∀ x ∈ m.kb, ¬ k.seq <+: x.seq := by
          intro x hx
          obtain ⟨y, hy, e⟩ := hseqs x hx
          rw [← e]
          exact (List.pairwise_append.mp ho).2.2 y hy k (by simp)
        have hdel : delete m k.seq = m := by
          rw [delete, delSeq_absent]
          intro x hx e
          exact hno x hx (e ▸ List.prefix_refl _)
        have hkm : kmatch m.kb k.seq = false := by
          rw [Bool.eq_false_iff]
          intro h
          obtain ⟨x, hx, hp⟩ := (kmatch_iff _ _).mp h
          exact hno x hx hp
        rw [hdel, addString, if_neg (by simp [hkm])] at hr
        simp only at hr
        obtain ⟨m', h1, h2⟩ := reenterAll_append kb (done ++ [k]) (m.next + 1) b
          ⟨m.kb ++ [⟨m.next, k.seq, k.fn, k.args⟩], m.next + 1⟩ (fun x hx => hL x (by simp [hx])) hq
          (by simp only [contents, List.map_append] at hc ⊢; rw [hc]; rfl) (by simpa using ho) rfl
        refine ⟨m', ?_, by simpa using h2⟩
        rw [List.singleton_append, reenterAll, hr]
        exact h1

/-- **C91**: entering the listing into a shell without bindings gives the same bindings in the same order, if each of them
is listable. -/
theorem listing_restores_partial {ft : List Func} {text : Nat} {m : Keymap} (hm : Reach ft text m)
    (hl : ∀ k ∈ m.kb, Listable ft text k) {ls : List Line} (hls : listAll ft m.kb = some ls) :
    ∃ m', reenterAll ft text ⟨[], 0⟩ ls = some m' ∧ contents m'.kb = contents m.kb := by
  have := reenterAll_append m.kb [] 0 ls ⟨[], 0⟩ hl hls rfl (by simpa using (reach_inv hm).ord) rfl
  simpa using this

/-- **C91**: exactly the sequences without a misleading `^` are shown in a form that reads back. -/
theorem shown_reads_back {s d : List Nat} (hz : ∀ b ∈ s, b ≠ 0) (hd : decode s = some d) : encode d = some s ↔ Carets s :=
  encode_decode hz hd

example : decode [27, 91, 65] = some [94, 91, 91, 65] := by decide
example : encode [94, 91, 91, 65] = some [27, 91, 65] := by decide

/-- False of the code: a `^` followed by a control character (bound with `bind '^<control-A>=..'`) is shown as `^^A`, which
means control-^ and A. -/
theorem caret_misread : encode [94, 1] = some [94, 1] ∧ decode [94, 1] = some [94, 94, 65] ∧
    encode [94, 94, 65] = some [30, 65] := by decide

/-- False of the code: the default binding of ESC = is shown as `^[= = complete-list`; `bind '^[==complete-list'` is taken as
a binding of ESC. -/
theorem equals_misread : splitEq ([94, 91, 61] ++ 61 :: [120]) = ([94, 91], some [61, 120]) := by decide

/-- False of the code: set-arg can be bound although it is marked as not to be bound, and the binding is not listed. -/
theorem set_arg_not_listed :
    ((xbind ftab 18 initMap [94, 84, 53] [115, 101, 116, 45, 97, 114, 103] false).map fun r =>
      (r.1, (r.2.kb.find? (·.seq == [20, 53])).bind (kprint ftab))) = some (.set, some []) := by decide +kernel

/-! ## C92: memory -/

theorem fresh_good {m : Keymap} (hi : Inv m) (h : m.kb.all (fun k => decide (k.seq.length ≤ 2048) && k.args.isNone) = true)
    (tty : List Nat) : Good (fresh m tty) := by
  rw [List.all_eq_true] at h
  refine ⟨hi, ?_, ?_, fun _ _ h => (nomatch h), fun h => (nomatch h)⟩
  · intro k hk
    have := h k hk
    simp only [Bool.and_eq_true, decide_eq_true_eq] at this
    exact this.1
  · intro k hk a ha
    have := h k hk
    simp [ha] at this

/-- **C92**: from the initial table, no sequence of keys, reads, commands and listings writes or reads outside its objects,
if the operands of bind have at most 2048 bytes and bindings are not changed while a text is being read or a quoted key
is awaited. -/
theorem session_safe_partial (ft : List Func) (f : Fns) (tty : List Nat) (es : List Ev)
    (hc : Calm ft f (fresh initMap tty) es) : run ft f (fresh initMap tty) es ≠ none := by
  have h1 : initMap.kb.all (fun k => decide (k.seq.length ≤ 2048) && k.args.isNone) = true := by decide +kernel
  have hg : Good (fresh initMap tty) := fresh_good initMap_inv h1 tty
  obtain ⟨s', h, _⟩ := run_ok es _ hg hc
  rw [h]; simp

example : Calm ftab fns (fresh initMap [27, 53, 20]) [.bind [94, 84] [104, 105] true, .key, .key, .list, .key] := by
  refine ⟨?_, fun s' h => ⟨fun _ _ _ h => (nomatch h), fun _ _ => ⟨fun _ _ _ h => (nomatch h), fun _ _ =>
    ⟨fun _ _ _ h => (nomatch h), fun _ _ => ⟨fun _ _ _ h => (nomatch h), fun _ _ => trivial⟩⟩⟩⟩⟩
  intro a1 a2 m h
  cases h
  exact ⟨by decide, by decide, rfl, rfl⟩

/-- The buffer of kb_encode overflows exactly for arguments that encode to more than LINE bytes. -/
theorem encode_overflow (s : List Nat) : encode s = none ↔ LINE < (encRaw s).length := by
  rw [encode]; split <;> simp <;> omega

/-- False of the code: a sequence of 4097 letters is written behind the buffer of kb_encode. -/
theorem bind_overflows : xbind ftab 18 initMap (List.replicate 4097 97) [120] false = none := by decide +kernel

/-- False of the code: a binding of 2049 control characters is accepted, and listing it is a write behind the buffer of
kb_decode. -/
theorem list_overflows :
    (run ftab fns (fresh initMap []) [.bind (List.replicate 2049 4) [110, 111, 45, 111, 112] false]).isSome = true ∧
    run ftab fns (fresh initMap []) [.bind (List.replicate 2049 4) [110, 111, 45, 111, 112] false, .list] = none := by
  decide +kernel

/-- The table with a binding of `n` letters `a`. -/
def longMap (n : Nat) : Keymap := ⟨initMap.kb ++ [⟨initMap.next, List.replicate n 97, 35, none⟩], initMap.next + 1⟩

theorem initMap_no_a : ∀ k ∈ initMap.kb, k.seq.head? ≠ some 97 := by
  have h : initMap.kb.all (fun k => k.seq.head? != some 97) = true := by decide +kernel
  rw [List.all_eq_true] at h
  intro k hk
  simpa using h k hk

theorem encRaw_plain {s : List Nat} (h : 94 ∉ s) : encRaw s = s := by
  induction s with
  | nil => rfl
  | cons c s ih =>
    simp only [List.mem_cons, not_or] at h
    rw [encRaw_ne (fun e => h.1 e.symm), ih h.2]

theorem longMap_bound {n : Nat} (h0 : 0 < n) (hn : n ≤ LINE) :
    xbind ftab 18 initMap (List.replicate n 97) [110, 111, 45, 111, 112] false = some (.set, longMap n) := by
  have hm : ∀ b ∈ List.replicate n 97, b = 97 := fun b hb => List.eq_of_mem_replicate hb
  have he : encode (List.replicate n 97) = some (List.replicate n 97) := by
    rw [encode, encRaw_plain (fun h => absurd (hm 94 h) (by decide)), if_pos (by rw [List.length_replicate]; exact hn),
      cstr_eq (fun b hb => by rw [hm b hb]; decide)]
  have hno : ∀ k ∈ initMap.kb, ¬ List.replicate n 97 <+: k.seq := by
    intro k hk hp
    apply initMap_no_a k hk
    obtain ⟨t, ht⟩ := hp
    rw [← ht]
    cases n with
    | zero => omega
    | succ n => rw [List.replicate_succ]; rfl
  have hf : findName ftab [110, 111, 45, 111, 112] = some 35 := by decide +kernel
  have hd : delete initMap (List.replicate n 97) = initMap := by
    rw [delete, delSeq_absent]
    intro k hk e
    exact hno k hk (e ▸ List.prefix_refl _)
  have hk : kmatch initMap.kb (List.replicate n 97) = false := by
    rw [Bool.eq_false_iff]
    intro h
    obtain ⟨x, hx, hp⟩ := (kmatch_iff _ _).mp h
    exact hno x hx hp
  rw [xbind, he]
  simp only [setBinding, Bool.false_eq_true, if_false, hf, hd, addString, hk, verdict, longMap]
  rfl

/-- False of the code: with a binding of 4096 bytes (which is accepted, see `longMap_bound`), a character of four bytes after
its first 4095 keys is written behind the buffer `line` of x_emacs. -/
theorem line_overflows {n : Nat} (hn : n + 1 = LINE) (rest : List Nat) :
    command 18 (longMap (n + 1)).kb (plain (List.replicate n 97 ++ 240 :: 159 :: 152 :: 128 :: rest)) = none := by
  rw [command, size_plain]
  have hlen : (List.replicate n 97 ++ 240 :: 159 :: 152 :: 128 :: rest).length + 1 =
      (rest.length + 4 + 1) + (List.replicate n 97).length := by
    simp only [List.length_append, List.length_replicate, List.length_cons]; omega
  rw [hlen, keys_collect _ (rest.length + 4 + 1) [] 0 _ (fun b hb => by rw [List.eq_of_mem_replicate hb]; decide)
    (by rw [List.nil_append, List.length_replicate]; omega) ?_]
  · rw [keys, getu8, getc_plain]
    have hc : ∀ (j : Nat) (buf : List Nat) (x : Nat) (t : List Nat), x < 256 → reject 240 (j + 2) x = false →
        conts (longMap (n + 1)).kb 240 (j + 2) buf (plain (x :: t)) =
          conts (longMap (n + 1)).kb 240 (j + 1) (buf ++ [x]) (plain t) := by
      intro n buf x t hx hr
      rw [conts, getc_plain]
      simp only [hr, byte_ofNat hx]
      rw [if_neg (by omega)]
      rfl
    have hu : ulen ((240 : Nat) : Int) = 4 := by decide
    simp only [hu]
    rw [if_neg (by decide)]
    have h4 : ∀ buf, conts (longMap (n + 1)).kb ((240 : Nat) : Int) 4 buf
        (plain (159 :: 152 :: 128 :: rest)) = some (buf ++ [159] ++ [152] ++ [128], plain rest) := by
      intro buf
      exact (hc 2 _ 159 _ (by decide) (by decide)).trans ((hc 1 _ 152 _ (by decide) (by decide)).trans
        (hc 0 _ 128 _ (by decide) (by decide)))
    rw [h4]
    simp only [List.length_append, List.length_replicate, List.length_nil, List.length_singleton]
    rw [if_neg (by omega)]
  · intro q hq hp
    rw [List.nil_append]
    have hall : ∀ b ∈ q, b = 97 := fun b hb => List.eq_of_mem_replicate (hp.subset hb)
    have hql : q.length ≤ n := by have := hp.length_le; rwa [List.length_replicate] at this
    constructor
    · rintro k ⟨hk, hs, _⟩
      rcases List.mem_append.mp hk with hk | hk
      · have := initMap_no_a k hk
        rw [hs] at this
        cases q with
        | nil => exact hq rfl
        | cons b q => rw [hall b (by simp)] at this; exact this rfl
      · rw [List.mem_singleton.mp hk] at hs
        have := congrArg List.length hs
        rw [List.length_replicate] at this
        omega
    · intro hdead
      refine hdead ⟨initMap.next, List.replicate (n + 1) 97, 35, none⟩ (List.mem_append_right _ (by simp)) ?_
      refine hp.trans ⟨[97], ?_⟩
      rw [← List.replicate_succ']

/-- False of the code: a text that ends in a newline runs the line it has typed; when that line is a `bind` for the same
key, the text is released while it is still being read.  ^T is bound to "x\n" here; the two keys are read from it, the line
is run, and the next key is read from released memory. -/
theorem text_released :
    run ftab fns (fresh initMap [20, 98])
      [.bind [94, 84] [120, 94, 74] true, .key, .key, .key, .bind [94, 84] [] true, .start, .key] = none := by
  decide +kernel

/-- False of the code: a trap that removes the binding of ^V while the key after ^V is awaited makes x_emacs use the
released binding. -/
theorem quote_released :
    run ftab fns (fresh initMap [22, 98]) [.key, .bind [94, 86] [] false, .key] = none := by
  decide +kernel

/-! ## C93: a text bound to a key is read as if it were typed -/

/-- Starting a text: the characters it stands for are next, then what is typed. -/
theorem text_starts {ft : List Func} {text : Nat} {m : Keymap} (hm : Reach ft text m) {k : Entry} {a : List Nat}
    (hk : k ∈ m.kb) (hf : k.fn = text) (ha : k.args = some a) (hne : k.seq ≠ []) (hb : ∀ b ∈ k.seq, b < 192)
    (hl : k.seq.length ≤ LINE) (hu : ∀ k' ∈ m.kb, k.seq <+: k'.seq → k' = k) (rest : List Nat) :
    ∃ i, command text m.kb (plain (k.seq ++ rest)) = some (.text k, i) ∧ flat i = plain (a ++ rest) ∧
      ((∀ b ∈ a, b < 128) → Ascii m.kb i) := by
  refine ⟨⟨-1, some (k.id, a), rest⟩, ?_, rfl, fun h => ?_⟩
  · rw [bound_key_runs_partial hm hk hne hb hl hu, effect, if_pos ⟨hf, by simp [ha]⟩, ha]; rfl
  intro id r h'
  simp only [Option.some.injEq, Prod.mk.injEq] at h'
  obtain ⟨rfl, rfl⟩ := h'
  refine ⟨?_, h⟩
  simp only [Live, List.any_eq_true, beq_iff_eq]
  exact ⟨k, hk, rfl⟩

/-- **C93**: while an ASCII text is read, each command is the one that typing the same characters gives and leaves the same
characters, as long as no key of a text is met. -/
theorem text_as_typed_partial {text : Nat} {kb : List Entry} {i i' : In} {a : Act} (h : Ascii kb i) (hn : NoText text a)
    (e : command text kb i = some (a, i')) : command text kb (flat i) = some (a, flat i') ∧ Ascii kb i' := by
  rw [command] at e ⊢
  rw [size_flat]
  exact keys_flat hn _ _ _ _ h e

example : command 18 initMap.kb ⟨-1, some (3, [27, 98, 120]), [121]⟩ =
    some (.call ⟨3, [27, 98], 28, none⟩ 98, ⟨-1, some (3, [120]), [121]⟩) := by decide +kernel

/-- False of the code: byte 255 in a text is taken for the end of the input. -/
theorem text_byte_ends : command 18 initMap.kb ⟨-1, some (3, [255, 97]), [98]⟩ =
    some (.eof, ⟨-1, some (3, [97]), [98]⟩) := by decide +kernel

/-- False of the code: a byte above 127 in a text that breaks off a character of several bytes is lost (-61 is not put back);
typed, it is read again. -/
theorem text_byte_lost :
    (command 18 initMap.kb ⟨-1, some (3, [226, 195, 169]), []⟩).bind (fun r => (command 18 initMap.kb r.2).map (·.1)) =
      some (.insByte 169) ∧
    (command 18 initMap.kb (plain [226, 195, 169])).bind (fun r => (command 18 initMap.kb r.2).map (·.1)) =
      some (.insLine [195, 169]) := by decide +kernel

end Ksh.Keys
