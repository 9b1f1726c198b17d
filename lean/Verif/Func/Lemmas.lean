import Verif.Func.Model
/-! Lemmas on the table of functions. -/

namespace Ksh.Func

open Ksh.Table (Name home prev Entry occ)

variable {B : Type}

/-- The table as the one of C01: the value of an entry is its address. -/
def look (ents : Nat → Option Ent) (p : Nat) : Entry Nat :=
  match ents p with
  | some e => ⟨e.name, e.defined, false, some p⟩
  | none => ⟨[], false, false, some p⟩

def view (ents : Nat → Option Ent) (slots : List (Option Nat)) : List (Option (Entry Nat)) := slots.map (Option.map (look ents))

theorem view_get {ents : Nat → Option Ent} {slots : List (Option Nat)} {i : Nat} :
    (view ents slots)[i]? = (slots[i]?).map (Option.map (look ents)) := by simp [view]

theorem view_len (ents : Nat → Option Ent) (slots : List (Option Nat)) : (view ents slots).length = slots.length := by simp [view]

theorem view_set (ents : Nat → Option Ent) (slots : List (Option Nat)) (i p : Nat) :
    view ents (slots.set i (some p)) = (view ents slots).set i (some (look ents p)) := by simp [view, List.map_set]

theorem occ_view (ents : Nat → Option Ent) (slots : List (Option Nat)) : occ (view ents slots) = slots.countP Option.isSome := by
  unfold occ view
  rw [List.countP_map]
  congr 1
  funext o
  cases o <;> rfl

theorem view_congr {ents ents' : Nat → Option Ent} {slots : List (Option Nat)} (h : ∀ p, some p ∈ slots → ents' p = ents p) :
    view ents' slots = view ents slots := by
  unfold view
  apply List.map_congr_left
  intro o ho
  cases o with
  | none => rfl
  | some p => simp [look, h p ho]

/-- The probe as the one of C01. -/
theorem probe_view {ents : Nat → Option Ent} {slots : List (Option Nat)} (hl : ∀ p, some p ∈ slots → (ents p).isSome)
    {stop : Ent → Bool} {q : Entry Nat → Bool} (hq : ∀ p e, ents p = some e → q (look ents p) = stop e) : ∀ f i,
    (∀ k, Table.probe (view ents slots) q f i = .hit k → ∃ p, slots[k]? = some (some p) ∧ probe ents slots stop f i = .hit p) ∧
    (∀ k, Table.probe (view ents slots) q f i = .empty k → probe ents slots stop f i = .empty k) ∧
    (Table.probe (view ents slots) q f i = .spin → probe ents slots stop f i = .spin) := by
  intro f
  induction f with
  | zero => intro i; simp [Table.probe, probe]
  | succ f ih =>
    intro i
    unfold Table.probe probe
    rw [view_get, view_len]
    cases h : slots[i]? with
    | none => simp
    | some o =>
      cases o with
      | none => simp
      | some p =>
        obtain ⟨e, he⟩ := Option.isSome_iff_exists.1 (hl p (List.mem_of_getElem? h))
        simp only [Option.map_some, he, hq p e he]
        cases hs : stop e with
        | true => simp [h]
        | false => simpa using ih (prev slots.length i)

theorem vacant_view {ents : Nat → Option Ent} {slots : List (Option Nat)} : ∀ f i,
    vacant slots f i = match Table.probe (view ents slots) (fun _ => false) f i with | .empty k => some k | _ => none := by
  intro f
  induction f with
  | zero => intro i; simp [Table.probe, vacant]
  | succ f ih =>
    intro i
    unfold Table.probe vacant
    rw [view_get, view_len]
    cases h : slots[i]? with
    | none => simp
    | some o =>
      cases o with
      | none => simp
      | some p => simpa using ih (prev slots.length i)

theorem probe_empty_stronger {s : List (Option (Entry Nat))} {p q : Entry Nat → Bool} (hqp : ∀ e, q e = true → p e = true) :
    ∀ {f i k : Nat}, Table.probe s p f i = .empty k → Table.probe s q f i = .empty k := by
  intro f
  induction f with
  | zero => intro i k h; simp [Table.probe] at h
  | succ f ih =>
    intro i k h
    unfold Table.probe at h ⊢
    cases hs : s[i]? with
    | none => simpa [hs] using h
    | some o =>
      cases o with
      | none => simpa [hs] using h
      | some e =>
        simp only [hs] at h ⊢
        cases hp : p e with
        | true => simp [hp] at h
        | false =>
          have : q e = false := by
            cases hq : q e with
            | false => rfl
            | true => rw [hqp e hq] at hp; cases hp
          simp only [hp, this] at h ⊢
          exact ih h

/-- The result depends only on where slots are empty and where the loop is left. -/
theorem probe_congr2 {s s' : List (Option (Entry Nat))} {p p' : Entry Nat → Bool} (hlen : s.length = s'.length)
    (h : ∀ i : Nat, (s[i]?.map (Option.map p)) = (s'[i]?.map (Option.map p'))) : ∀ f i, Table.probe s p f i = Table.probe s' p' f i := by
  intro f
  induction f with
  | zero => intro i; rfl
  | succ f ih =>
    intro i
    have hi := h i
    unfold Table.probe
    cases hs : s[i]? with
    | none =>
      cases hs' : s'[i]? with
      | none => rfl
      | some o' => simp [hs, hs'] at hi
    | some o =>
      cases hs' : s'[i]? with
      | none => simp [hs, hs'] at hi
      | some o' =>
        rw [hs, hs'] at hi
        cases o with
        | none =>
          cases o' with
          | none => rfl
          | some e' => simp at hi
        | some e =>
          cases o' with
          | none => simp at hi
          | some e' =>
            simp only [Option.map_some, Option.some.injEq] at hi
            simp only [hi, ih, hlen]

/-- What holds of the table between operations. -/
structure TI (ents : Nat → Option Ent) (slots : List (Option Nat)) (nfree : Int) : Prop where
  live : ∀ p, some p ∈ slots → (ents p).isSome
  once : ∀ (i j : Nat) p, slots[i]? = some (some p) → slots[j]? = some (some p) → i = j
  reach : ∀ (i : Nat) p e, slots[i]? = some (some p) → ents p = some e → e.defined = true →
    Table.probe (view ents slots) (fun x => x.name == e.name && x.defined) slots.length (home slots.length e.name) = .hit i
  count : (slots.countP Option.isSome : Int) + nfree = ((7 * slots.length / 10 : Nat) : Int)
  nonneg : 0 ≤ nfree

theorem TI.unique {ents : Nat → Option Ent} {slots : List (Option Nat)} {nfree : Int} (h : TI ents slots nfree) {p q : Nat} {e e' : Ent}
    (hp : some p ∈ slots) (hq : some q ∈ slots) (he : ents p = some e) (he' : ents q = some e') (hd : e.defined = true) (hd' : e'.defined = true)
    (hn : e.name = e'.name) : p = q := by
  obtain ⟨i, hi⟩ := List.mem_iff_getElem?.1 hp
  obtain ⟨j, hj⟩ := List.mem_iff_getElem?.1 hq
  have h1 := h.reach i p e hi he hd
  have h2 := h.reach j q e' hj he' hd'
  rw [hn, h2] at h1
  cases h1
  rw [hi] at hj
  cases hj; rfl

theorem TI.exists_none {ents : Nat → Option Ent} {slots : List (Option Nat)} {nfree : Int} (h : TI ents slots nfree) (hpos : 0 < slots.length) :
    ∃ j : Nat, (view ents slots)[j]? = some none := by
  apply Table.exists_none
  rw [occ_view, view_len]
  have := h.count; have := h.nonneg
  omega

/-- `ktsearch` finds the entry that is defined with this name. -/
theorem search_spec {s : St B} (h : TI s.ents s.slots s.nfree) (n : Name) :
    (∃ p e, search s n = .ok (some p) ∧ some p ∈ s.slots ∧ s.ents p = some e ∧ e.name = n ∧ e.defined = true) ∨
    (search s n = .ok none ∧ ∀ p e, some p ∈ s.slots → s.ents p = some e → e.defined = true → e.name ≠ n) := by
  unfold search
  by_cases hl : s.slots.length = 0
  · rw [if_pos hl]
    refine Or.inr ⟨rfl, ?_⟩
    intro p e hp
    rw [List.length_eq_zero_iff.1 hl] at hp
    cases hp
  · rw [if_neg hl]
    have hpos : 0 < s.slots.length := by omega
    obtain ⟨j, hj⟩ := h.exists_none hpos
    have hns := Table.probe_ne_spin (p := fun x => x.name == n && x.defined) (i := home s.slots.length n)
      (by rw [view_len]; exact Table.home_lt _ _ hpos) hj
    rw [view_len] at hns
    obtain ⟨h1, h2, -⟩ := probe_view h.live (stop := fun e => e.name == n && e.defined) (q := fun x => x.name == n && x.defined)
      (by intro p e he; simp [look, he]) s.slots.length (home s.slots.length n)
    cases hp : Table.probe (view s.ents s.slots) (fun x => x.name == n && x.defined) s.slots.length (home s.slots.length n) with
    | spin => exact absurd hp hns
    | hit k =>
      obtain ⟨p, hk, hpr⟩ := h1 k hp
      obtain ⟨x, hx, hx2⟩ := Table.probe_hit_sound hp
      rw [view_get, hk] at hx
      obtain ⟨e, he⟩ := Option.isSome_iff_exists.1 (h.live p (List.mem_of_getElem? hk))
      simp only [Option.map_some, Option.some.injEq] at hx
      subst hx
      simp only [look, he, Bool.and_eq_true, beq_iff_eq] at hx2
      exact Or.inl ⟨p, e, by rw [hpr], List.mem_of_getElem? hk, he, hx2.1, hx2.2⟩
    | empty k =>
      refine Or.inr ⟨by rw [h2 k hp], ?_⟩
      intro p e hp' he hd hn
      obtain ⟨i, hi⟩ := List.mem_iff_getElem?.1 hp'
      have := h.reach i p e hi he hd
      rw [hn, hp] at this
      cases this

/-- An entry is put in an empty slot. -/
theorem TI.insert {ents : Nat → Option Ent} {slots : List (Option Nat)} {nfree : Int} (h : TI ents slots nfree) {p i : Nat} {e : Ent}
    (hpos : 0 < slots.length) (hf : 0 < nfree) (hnot : some p ∉ slots) (he : ents p = some e) (hd : e.defined = true)
    (hpr : Table.probe (view ents slots) (fun x => x.name == e.name && x.defined) slots.length (home slots.length e.name) = .empty i) :
    TI ents (slots.set i (some p)) (nfree - 1) ∧ slots[i]? = some none := by
  have hj := Table.probe_empty_sound (by rw [view_len]; exact Table.home_lt _ _ hpos) hpr
  have hi : slots[i]? = some none := by
    rw [view_get] at hj
    cases h : slots[i]? with
    | none => rw [h] at hj; cases hj
    | some o =>
      rw [h] at hj
      cases o with
      | none => rfl
      | some q => simp at hj
  have hil : i < slots.length := by
    rcases Nat.lt_or_ge i slots.length with h' | h'
    · exact h'
    · rw [List.getElem?_eq_none h'] at hi; cases hi
  refine ⟨⟨?_, ?_, ?_, ?_, by omega⟩, hi⟩
  · intro q hq
    rcases List.mem_or_eq_of_mem_set hq with hq | hq
    · exact h.live q hq
    · cases hq; simp [he]
  · intro a b q ha hb
    rw [List.getElem?_set] at ha hb
    by_cases h1 : i = a <;> by_cases h2 : i = b
    · omega
    · rw [if_pos h1, if_pos (by omega)] at ha
      rw [if_neg h2] at hb
      cases ha
      exact absurd (List.mem_of_getElem? hb) hnot
    · rw [if_neg h1] at ha
      rw [if_pos h2, if_pos (by omega)] at hb
      cases hb
      exact absurd (List.mem_of_getElem? ha) hnot
    · rw [if_neg h1] at ha
      rw [if_neg h2] at hb
      exact h.once a b q ha hb
  · intro a q e' ha he' hd'
    rw [List.getElem?_set] at ha
    rw [List.length_set, view_set]
    by_cases h1 : i = a
    · subst h1
      rw [if_pos rfl, if_pos hil] at ha
      cases ha
      rw [he] at he'; cases he'
      have := Table.probe_set_empty (s := view ents slots) (p := fun x => x.name == e.name && x.defined) (e := look ents p)
        (by simp [look, he, hd]) (by rw [view_len]; exact Table.home_lt _ _ hpos) hpr
      exact this
    · rw [if_neg h1] at ha
      exact Table.probe_set_hit hj (h.reach a q e' ha he' hd')
  · rw [List.length_set]
    have hc := h.count
    have : (slots.set i (some p)).countP Option.isSome = slots.countP Option.isSome + 1 := by
      have := Table.occ_set_none (s := view ents slots) (e := look ents p) hj
      rw [← view_set, occ_view, occ_view] at this
      exact this
    omega

/-- The loop of `texpand`. -/
theorem rehash_spec : ∀ (rest : List (Option Nat)) (ents : Nat → Option Ent) (new : List (Option Nat)) (nfree : Int),
    TI ents new nfree → 0 < new.length → rest.countP Option.isSome < nfree + 1 →
    (∀ p, some p ∈ rest → (ents p).isSome ∧ some p ∉ new) →
    rest.Pairwise (fun a b => ∀ p, a = some p → b = some p → False) →
    (∀ p q e e', some p ∈ rest ∨ some p ∈ new → some q ∈ rest → ents p = some e → ents q = some e' → e.defined = true → e'.defined = true → e.name = e'.name → p = q) →
    (∀ p e, some p ∈ new → ents p = some e → e.defined = true) →
    ∃ ents' new' nfree', rehash (ents, new, nfree) rest = .ok (ents', new', nfree') ∧ TI ents' new' nfree' ∧ new'.length = new.length ∧
      (nfree : Int) - rest.countP Option.isSome ≤ nfree' ∧
      (∀ p, ents' p = ents p ∨ (ents' p = none ∧ some p ∈ rest ∧ ∃ e, ents p = some e ∧ e.defined = false ∧ e.finuse = false)) ∧
      (∀ p, some p ∈ new' ↔ some p ∈ new ∨ (some p ∈ rest ∧ ∃ e, ents p = some e ∧ e.defined = true))
  | [], ents, new, nfree, h, _, _, _, _, _, _ => ⟨ents, new, nfree, rfl, h, rfl, by simp, fun p => Or.inl rfl, fun p => by simp⟩
  | none :: rest, ents, new, nfree, h, hl, hc, hlive, hpw, huniq, hdef => by
    obtain ⟨ents', new', nfree', h1, h2, h3, h4, h5, h6⟩ := rehash_spec rest ents new nfree h hl (by simpa using hc)
      (fun p hp => hlive p (List.mem_cons_of_mem _ hp)) (List.pairwise_cons.1 hpw).2
      (fun p q e e' hp hq => huniq p q e e' (hp.imp_left (List.mem_cons_of_mem _)) (List.mem_cons_of_mem _ hq)) hdef
    exact ⟨ents', new', nfree', by simp only [rehash, rehash1, Out.bind]; exact h1, h2, h3, by simpa using h4,
      fun p => (h5 p).imp_right fun ⟨a, b, c⟩ => ⟨a, List.mem_cons_of_mem _ b, c⟩, fun p => by rw [h6]; simp⟩
  | some p :: rest, ents, new, nfree, h, hl, hc, hlive, hpw, huniq, hdef => by
    obtain ⟨e, he⟩ := Option.isSome_iff_exists.1 (hlive p (by simp)).1
    have hpn : some p ∉ new := (hlive p (by simp)).2
    have hpr : some p ∉ rest := fun hc => (List.pairwise_cons.1 hpw).1 _ hc p rfl rfl
    rw [List.countP_cons_of_pos (by rfl)] at hc ⊢
    by_cases hd : e.defined = true
    · -- moved
      have hns := Table.probe_ne_spin (p := fun x => x.name == e.name && x.defined) (i := home new.length e.name)
        (by rw [view_len]; exact Table.home_lt _ _ hl) (h.exists_none hl).choose_spec
      rw [view_len] at hns
      have hcong : Table.probe (view ents new) (fun x => x.name == e.name && x.defined) new.length (home new.length e.name) =
          Table.probe (view ents new) (fun _ => false) new.length (home new.length e.name) := by
        apply Table.probe_congr_none
        intro i x hx
        rw [view_get] at hx
        cases hn : new[i]? with
        | none => rw [hn] at hx; cases hx
        | some o =>
          rw [hn] at hx
          cases o with
          | none => simp at hx
          | some q =>
            simp only [Option.map_some, Option.some.injEq] at hx
            subst hx
            have hqm := List.mem_of_getElem? hn
            obtain ⟨eq, heq⟩ := Option.isSome_iff_exists.1 (h.live q hqm)
            have hqd := hdef q eq hqm heq
            simp only [look, heq, hqd, Bool.and_true, beq_eq_false_iff_ne]
            intro hnm
            have := huniq q p eq e (Or.inr hqm) (by simp) heq he hqd hd hnm
            subst this
            exact hpn hqm
      cases hpb : Table.probe (view ents new) (fun x => x.name == e.name && x.defined) new.length (home new.length e.name) with
      | spin => exact absurd hpb hns
      | hit k =>
        rw [hcong] at hpb
        obtain ⟨x, _, hx⟩ := Table.probe_hit_sound hpb
        cases hx
      | empty i =>
        obtain ⟨hti, hi⟩ := h.insert hl (by omega) hpn he hd hpb
        have hmem : ∀ q, some q ∈ new.set i (some p) ↔ some q ∈ new ∨ q = p := by
          intro q
          constructor
          · intro hq
            rcases List.mem_or_eq_of_mem_set hq with hq | hq
            · exact Or.inl hq
            · cases hq; exact Or.inr rfl
          · rintro (hq | rfl)
            · obtain ⟨j, hj⟩ := List.mem_iff_getElem?.1 hq
              apply List.mem_of_getElem? (i := j)
              rw [List.getElem?_set, if_neg]
              · exact hj
              · rintro rfl; rw [hi] at hj; cases hj
            · apply List.mem_of_getElem? (i := i)
              rw [List.getElem?_set, if_pos rfl, if_pos]
              rcases Nat.lt_or_ge i new.length with h' | h'
              · exact h'
              · rw [List.getElem?_eq_none h'] at hi; cases hi
        obtain ⟨ents', new', nfree', h1, h2, h3, h4, h5, h6⟩ := rehash_spec rest ents (new.set i (some p)) (nfree - 1) hti (by simpa using hl) (by omega)
          (fun q hq => ⟨(hlive q (List.mem_cons_of_mem _ hq)).1, fun hm => by
            rcases (hmem q).1 hm with hm | rfl
            · exact (hlive q (List.mem_cons_of_mem _ hq)).2 hm
            · exact hpr hq⟩)
          (List.pairwise_cons.1 hpw).2
          (fun a b e1 e2 ha hb => huniq a b e1 e2 (by
            rcases ha with ha | ha
            · exact Or.inl (List.mem_cons_of_mem _ ha)
            · rcases (hmem a).1 ha with ha | rfl
              · exact Or.inr ha
              · exact Or.inl (by simp)) (List.mem_cons_of_mem _ hb))
          (fun q e1 hq hqe => by
            rcases (hmem q).1 hq with hq | rfl
            · exact hdef q e1 hq hqe
            · rw [he] at hqe; cases hqe; exact hd)
        refine ⟨ents', new', nfree', ?_, h2, by simpa using h3, by omega, fun q => (h5 q).imp_right fun ⟨a, b, c⟩ => ⟨a, List.mem_cons_of_mem _ b, c⟩, ?_⟩
        · have hv : vacant new new.length (home new.length e.name) = some i := by
            rw [vacant_view (ents := ents), ← hcong, hpb]
          simp only [rehash, rehash1, he, hd, if_true, hv, Out.bind]
          exact h1
        · intro q
          rw [h6, hmem]
          constructor
          · rintro ((hq | rfl) | ⟨hq, hqe⟩)
            · exact Or.inl hq
            · exact Or.inr ⟨by simp, e, he, hd⟩
            · exact Or.inr ⟨List.mem_cons_of_mem _ hq, hqe⟩
          · rintro (hq | ⟨hq, hqe⟩)
            · exact Or.inl (Or.inl hq)
            · rcases List.mem_cons.1 hq with hq | hq
              · cases hq; exact Or.inl (Or.inr rfl)
              · exact Or.inr ⟨hq, hqe⟩
    · have hd : e.defined = false := by simpa using hd
      by_cases hfi : e.finuse = true
      · -- kept, but no longer in the table
        obtain ⟨ents', new', nfree', h1, h2, h3, h4, h5, h6⟩ := rehash_spec rest ents new nfree h hl (by omega)
          (fun p hp => hlive p (List.mem_cons_of_mem _ hp)) (List.pairwise_cons.1 hpw).2
          (fun p q e e' hp hq => huniq p q e e' (hp.imp_left (List.mem_cons_of_mem _)) (List.mem_cons_of_mem _ hq)) hdef
        refine ⟨ents', new', nfree', ?_, h2, h3, by omega, fun q => (h5 q).imp_right fun ⟨a, b, c⟩ => ⟨a, List.mem_cons_of_mem _ b, c⟩, ?_⟩
        · simp only [rehash, rehash1, he, hd, hfi, if_true, Out.bind]
          exact h1
        · intro q
          rw [h6]
          constructor
          · rintro (hq | ⟨hq, hqe⟩)
            · exact Or.inl hq
            · exact Or.inr ⟨List.mem_cons_of_mem _ hq, hqe⟩
          · rintro (hq | ⟨hq, e1, hqe, hqd⟩)
            · exact Or.inl hq
            · rcases List.mem_cons.1 hq with hq | hq
              · cases hq; rw [he] at hqe; cases hqe; rw [hd] at hqd; cases hqd
              · exact Or.inr ⟨hq, e1, hqe, hqd⟩
      · have hfi : e.finuse = false := by simpa using hfi
        have hup : ∀ q, q ≠ p → upd ents p none q = ents q := fun q hq => by simp [upd, hq]
        have hvw : view (upd ents p none) new = view ents new := view_congr fun q hq => hup q (fun hc => hpn (hc ▸ hq))
        have hti : TI (upd ents p none) new nfree := by
          refine ⟨fun q hq => ?_, h.once, fun i q e' hi he' hd' => ?_, h.count, h.nonneg⟩
          · rw [hup q (fun hc => hpn (hc ▸ hq))]; exact h.live q hq
          · rw [hvw]
            refine h.reach i q e' hi ?_ hd'
            rw [← hup q (fun hc => hpn (hc ▸ List.mem_of_getElem? hi))]
            exact he'
        have hne : ∀ q, some q ∈ rest → q ≠ p := fun q hq hc => hpr (hc ▸ hq)
        obtain ⟨ents', new', nfree', h1, h2, h3, h4, h5, h6⟩ := rehash_spec rest (upd ents p none) new nfree hti hl (by omega)
          (fun q hq => by rw [hup q (hne q hq)]; exact hlive q (List.mem_cons_of_mem _ hq))
          (List.pairwise_cons.1 hpw).2
          (fun a b e1 e2 ha hb hea heb => by
            have hap : a ≠ p := by
              intro hc; subst hc; simp [upd] at hea
            rw [hup a hap] at hea
            rw [hup b (hne b hb)] at heb
            exact huniq a b e1 e2 (ha.imp_left (List.mem_cons_of_mem _)) (List.mem_cons_of_mem _ hb) hea heb)
          (fun q e1 hq hqe => by
            rw [hup q (fun hc => hpn (hc ▸ hq))] at hqe
            exact hdef q e1 hq hqe)
        refine ⟨ents', new', nfree', ?_, h2, h3, by omega, ?_, ?_⟩
        · simp only [rehash, rehash1, he, hd, hfi, Out.bind]
          exact h1
        · intro q
          by_cases hq : q = p
          · subst hq
            refine Or.inr ⟨?_, by simp, e, he, hd, hfi⟩
            rcases h5 q with h | ⟨h, _⟩
            · rw [h]; simp [upd]
            · exact h
          · rcases h5 q with h | ⟨h, hr, e1, h', hh⟩
            · exact Or.inl (by rw [h, hup q hq])
            · exact Or.inr ⟨h, List.mem_cons_of_mem _ hr, e1, by rw [← hup q hq]; exact h', hh⟩
        · intro q
          rw [h6]
          constructor
          · rintro (hq | ⟨hq, e1, hqe, hqd⟩)
            · exact Or.inl hq
            · exact Or.inr ⟨List.mem_cons_of_mem _ hq, e1, by rw [← hup q (hne q hq)]; exact hqe, hqd⟩
          · rintro (hq | ⟨hq, e1, hqe, hqd⟩)
            · exact Or.inl hq
            · rcases List.mem_cons.1 hq with hq | hq
              · cases hq; rw [he] at hqe; cases hqe; rw [hd] at hqd; cases hqd
              · exact Or.inr ⟨hq, e1, by rw [hup q (hne q hq)]; exact hqe, hqd⟩

/-- What may happen to the entries when a new one is made: those that are neither defined nor in use
can be released. -/
def Less (slots : List (Option Nat)) (ents ents' : Nat → Option Ent) : Prop :=
  ∀ p, ents' p = ents p ∨ (ents' p = none ∧ some p ∈ slots ∧ ∃ e, ents p = some e ∧ e.defined = false ∧ e.finuse = false)

theorem texpand_spec {s : St B} (h : TI s.ents s.slots s.nfree) {n : Nat} (hn : 7 * s.slots.length / 10 + 1 ≤ 7 * n / 10) :
    ∃ ents' slots' nfree', texpand s n = .ok { s with ents := ents', slots := slots', nfree := nfree' } ∧ TI ents' slots' nfree' ∧ slots'.length = n ∧
      0 < nfree' ∧ Less s.slots s.ents ents' ∧ (∀ p, some p ∈ slots' ↔ some p ∈ s.slots ∧ ∃ e, s.ents p = some e ∧ e.defined = true) := by
  have hc := h.count
  have hnn := h.nonneg
  have hempty : TI s.ents (List.replicate n none) ((7 * n / 10 : Nat) : Int) := by
    refine ⟨fun p hp => by simp at hp, fun i j p hi => ?_, fun i p e hi => ?_, ?_, by omega⟩
    · have := List.mem_of_getElem? hi; simp at this
    · have := List.mem_of_getElem? hi; simp at this
    · rw [List.countP_replicate]; simp
  obtain ⟨ents', new', nfree', h1, h2, h3, h4, h5, h6⟩ := rehash_spec s.slots s.ents (List.replicate n none) _ hempty (by simp; omega) (by omega)
    (fun p hp => ⟨h.live p hp, by simp⟩)
    (by
      rw [List.pairwise_iff_getElem]
      intro i j hi hj hij p hp hq
      have := h.once i j p (by rw [List.getElem?_eq_getElem hi, hp]) (by rw [List.getElem?_eq_getElem hj, hq])
      omega)
    (fun p q e e' hp hq he he' hd hd' hnm => h.unique (hp.elim id (fun hc => by simp at hc)) hq he he' hd hd' hnm)
    (fun p e hp => by simp at hp)
  refine ⟨ents', new', nfree', by rw [texpand, h1]; rfl, h2, by simpa using h3, by omega, h5, fun p => ?_⟩
  rw [h6]
  simp

/-- A deleted entry is made a defined one. -/
theorem TI.revive {ents : Nat → Option Ent} {slots : List (Option Nat)} {nfree : Int} (h : TI ents slots nfree) {p i : Nat} {e e' : Ent}
    (hi : slots[i]? = some (some p)) (he : ents p = some e) (hn : e'.name = e.name)
    (hpr : Table.probe (view ents slots) (fun x => x.name == e.name) slots.length (home slots.length e.name) = .hit i)
    (hno : ∀ q x, some q ∈ slots → ents q = some x → x.defined = true → x.name ≠ e.name) :
    TI (upd ents p (some e')) slots nfree := by
  have hup : ∀ q, q ≠ p → upd ents p (some e') q = ents q := fun q hq => by simp [upd, hq]
  have hself : upd ents p (some e') p = some e' := by simp [upd]
  refine ⟨fun q hq => ?_, h.once, fun j q x hj hx hd => ?_, h.count, h.nonneg⟩
  · by_cases hqp : q = p
    · subst hqp; rw [hself]; rfl
    · rw [hup q hqp]; exact h.live q hq
  · by_cases hqp : q = p
    · subst hqp
      rw [hself] at hx; cases hx
      have hij := h.once i j q hi hj
      subst hij
      rw [hn]
      have : Table.probe (view (upd ents q (some e')) slots) (fun x => x.name == e.name) slots.length (home slots.length e.name) = .hit i := by
        rw [← hpr]
        apply probe_congr2 (by simp [view_len])
        intro k
        rw [view_get, view_get]
        cases hk : slots[k]? with
        | none => rfl
        | some o =>
          cases o with
          | none => rfl
          | some r =>
            by_cases hrq : r = q
            · subst hrq; simp [look, hself, he, hn]
            · simp [look, hup r hrq]
      exact Table.probe_hit_stronger (q := fun x => x.name == e.name && x.defined) (fun x hx => by simp at hx; simp [hx.1]) this
        (e := look (upd ents q (some e')) q) (by rw [view_get, hi]; rfl) (by simp [look, hself, hn, hd])
    · rw [hup q hqp] at hx
      have hne := hno q x (List.mem_of_getElem? hj) hx hd
      rw [← h.reach j q x hj hx hd]
      apply probe_congr2 (by simp [view_len])
      intro k
      rw [view_get, view_get]
      cases hk : slots[k]? with
      | none => rfl
      | some o =>
        cases o with
        | none => rfl
        | some r =>
          by_cases hrq : r = p
          · subst hrq
            have hedef : e.defined = false := by
              cases hed : e.defined with
              | false => rfl
              | true => exact absurd rfl (hno r e (List.mem_of_getElem? hi) he hed)
            have : (e.name == x.name) = false := by simpa using fun hc => hne hc.symm
            simp [look, hself, he, hn, this]
          · simp [look, hup r hrq]

/-- What `ktenter` and the initialization of `findfunc` do when the name is not defined. -/
theorem enter_spec {s : St B} (h : TI s.ents s.slots s.nfree) (n : Name) (hno : ∀ q x, some q ∈ s.slots → s.ents q = some x → x.defined = true → x.name ≠ n)
    (hfresh : ∀ q, (s.ents q).isSome → q < s.next) (e' : Ent) (hn' : e'.name = n) (hd' : e'.defined = true) :
    enter s n = .tooMany ∨ ∃ s' p e, enter s n = .ok (s', p) ∧ s'.ents p = some e ∧ e.name = n ∧
      TI (upd s'.ents p (some e')) s'.slots s'.nfree ∧ some p ∈ s'.slots ∧
      (∀ q, q ≠ p → some q ∈ s'.slots → some q ∈ s.slots) ∧
      (∀ q x, some q ∈ s.slots → s.ents q = some x → x.defined = true → some q ∈ s'.slots) ∧
      (∀ q, q ≠ p → s'.ents q = s.ents q ∨ (s'.ents q = none ∧ some q ∈ s.slots ∧ ∃ e, s.ents q = some e ∧ e.defined = false ∧ e.finuse = false)) ∧
      ((p = s.next ∧ s'.next = s.next + 1) ∨ (s'.next = s.next ∧ s.ents p = some e ∧ e.defined = false ∧ some p ∈ s.slots)) ∧
      s'.trees = s.trees ∧ s'.frames = s.frames := by
  -- without expansion
  have key : ∀ (k : Nat) (t : St B), TI t.ents t.slots t.nfree → 0 < t.slots.length → (∀ q x, some q ∈ t.slots → t.ents q = some x → x.defined = true → x.name ≠ n) →
      (∀ q, (t.ents q).isSome → q < t.next) → 0 < t.nfree →
      ∃ s' p e, enterLoop n (k + 1) t = .ok (s', p) ∧ s'.ents p = some e ∧ e.name = n ∧
      TI (upd s'.ents p (some e')) s'.slots s'.nfree ∧ some p ∈ s'.slots ∧
      (∀ q, q ≠ p → some q ∈ s'.slots → some q ∈ t.slots) ∧
      (∀ q, some q ∈ t.slots → some q ∈ s'.slots) ∧
      (∀ q, q ≠ p → s'.ents q = t.ents q) ∧
      ((p = t.next ∧ s'.next = t.next + 1) ∨ (s'.next = t.next ∧ t.ents p = some e ∧ e.defined = false ∧ some p ∈ t.slots)) ∧
      s'.trees = t.trees ∧ s'.frames = t.frames ∧
      (∀ i, Table.probe (view t.ents t.slots) (fun x => x.name == n) t.slots.length (home t.slots.length n) = .hit i → s' = t) := by
    intro k t h hpos hno hfresh hf
    have hns := Table.probe_ne_spin (p := fun x => x.name == n) (i := home t.slots.length n)
      (by rw [view_len]; exact Table.home_lt _ _ hpos) (h.exists_none hpos).choose_spec
    rw [view_len] at hns
    obtain ⟨h1, h2, -⟩ := probe_view h.live (stop := fun e => e.name == n) (q := fun x => x.name == n)
      (by intro p e he; simp [look, he]) t.slots.length (home t.slots.length n)
    cases hp : Table.probe (view t.ents t.slots) (fun x => x.name == n) t.slots.length (home t.slots.length n) with
    | spin => exact absurd hp hns
    | hit i =>
      obtain ⟨p, hk, hpr⟩ := h1 i hp
      obtain ⟨x, hx, hx2⟩ := Table.probe_hit_sound hp
      rw [view_get, hk] at hx
      have hpm := List.mem_of_getElem? hk
      obtain ⟨e, he⟩ := Option.isSome_iff_exists.1 (h.live p hpm)
      simp only [Option.map_some, Option.some.injEq] at hx
      subst hx
      simp only [look, he, beq_iff_eq] at hx2
      have hedef : e.defined = false := by
        cases hed : e.defined with
        | false => rfl
        | true => exact absurd hx2 (hno p e hpm he hed)
      refine ⟨t, p, e, by simp only [enterLoop, hpr], he, hx2, ?_, hpm, fun q _ hq => hq, fun q hq => hq, fun q _ => rfl, Or.inr ⟨rfl, he, hedef, hpm⟩, rfl, rfl, fun _ _ => rfl⟩
      exact h.revive hk he (by rw [hn', hx2]) (by rw [hx2]; exact hp) (by rw [hx2]; exact hno)
    | empty i =>
      have hnx : ∀ q, some q ∈ t.slots → q ≠ t.next := fun q hq hc => by
        have := hfresh q (h.live q hq); omega
      have hvw : ∀ v, view (upd t.ents t.next v) t.slots = view t.ents t.slots := fun v => view_congr fun q hq => by simp [upd, hnx q hq]
      have h' : TI (upd t.ents t.next (some e')) t.slots t.nfree := by
        refine ⟨fun q hq => ?_, h.once, fun j q x hj hx hd => ?_, h.count, h.nonneg⟩
        · simp only [upd, hnx q hq, if_false]; exact h.live q hq
        · rw [hvw]
          simp only [upd, hnx q (List.mem_of_getElem? hj), if_false] at hx
          exact h.reach j q x hj hx hd
      obtain ⟨hti, hi⟩ := h'.insert hpos hf (fun hc => hnx _ hc rfl) (e := e') (by simp [upd]) hd' (i := i) (by
        rw [hvw, hn']
        exact probe_empty_stronger (fun x hx => by simp at hx; simp [hx.1]) hp)
      have hil : i < t.slots.length := by
        rcases Nat.lt_or_ge i t.slots.length with h' | h'
        · exact h'
        · rw [List.getElem?_eq_none h'] at hi; cases hi
      refine ⟨{ t with slots := t.slots.set i (some t.next), nfree := t.nfree - 1, ents := upd t.ents t.next (some (fresh n)), next := t.next + 1 }, t.next, fresh n,
        ?_, by simp [upd], rfl, ?_, ?_, ?_, ?_, fun q hq => by simp [upd, hq], Or.inl ⟨rfl, rfl⟩, rfl, rfl, fun i hc => by cases hc⟩
      · unfold enterLoop
        rw [h2 i hp]
        simp only
        rw [if_neg (by omega)]
      · have : upd (upd t.ents t.next (some (fresh n))) t.next (some e') = upd t.ents t.next (some e') := by
          funext q; simp only [upd]; split <;> rfl
        simp only [this]
        exact hti
      · apply List.mem_of_getElem? (i := i)
        simp [hil]
      · intro q hq hm
        rcases List.mem_or_eq_of_mem_set hm with hm | hm
        · exact hm
        · cases hm; exact absurd rfl hq
      · intro q hq
        obtain ⟨j, hj⟩ := List.mem_iff_getElem?.1 hq
        apply List.mem_of_getElem? (i := j)
        simp only
        rw [List.getElem?_set, if_neg]
        · exact hj
        · rintro rfl; rw [hi] at hj; cases hj
  -- after an expansion
  have exp : ∀ (k m : Nat), 7 * s.slots.length / 10 + 1 ≤ 7 * m / 10 → 0 < m →
      ∃ s' p e, ((texpand s m).bind fun s' => enterLoop n (k + 1) s') = .ok (s', p) ∧ s'.ents p = some e ∧ e.name = n ∧
      TI (upd s'.ents p (some e')) s'.slots s'.nfree ∧ some p ∈ s'.slots ∧
      (∀ q, q ≠ p → some q ∈ s'.slots → some q ∈ s.slots) ∧
      (∀ q x, some q ∈ s.slots → s.ents q = some x → x.defined = true → some q ∈ s'.slots) ∧
      (∀ q, q ≠ p → s'.ents q = s.ents q ∨ (s'.ents q = none ∧ some q ∈ s.slots ∧ ∃ e, s.ents q = some e ∧ e.defined = false ∧ e.finuse = false)) ∧
      ((p = s.next ∧ s'.next = s.next + 1) ∨ (s'.next = s.next ∧ s.ents p = some e ∧ e.defined = false ∧ some p ∈ s.slots)) ∧
      s'.trees = s.trees ∧ s'.frames = s.frames := by
    intro k m hm hm0
    obtain ⟨ents', slots', nfree', h1, h2, h3, h4, h5, h6⟩ := texpand_spec h hm
    have hold : ∀ q x, ents' q = some x → s.ents q = some x := fun q x hx => by
      rcases h5 q with h | ⟨h, _⟩
      · rw [← h]; exact hx
      · rw [h] at hx; cases hx
    obtain ⟨s', p, e, a1, a2, a3, a4, a5, a6, a7, a8, a9, a10, a11, -⟩ := key k { s with ents := ents', slots := slots', nfree := nfree' } h2 (by simp only [h3]; exact hm0)
      (fun q x hq hx hd => hno q x ((h6 q).1 hq).1 (hold q x hx) hd)
      (fun q hq => by
        obtain ⟨x, hx⟩ := Option.isSome_iff_exists.1 hq
        exact hfresh q (by rw [hold q x hx]; rfl)) h4
    refine ⟨s', p, e, by rw [h1]; exact a1, a2, a3, a4, a5, fun q hq hqs => ((h6 q).1 (a6 q hq hqs)).1, fun q x hq hx hd => a7 q ((h6 q).2 ⟨hq, x, hx, hd⟩), ?_, ?_, a10, a11⟩
    · intro q hq
      rw [a8 q hq]
      exact h5 q
    · rcases a9 with a9 | ⟨b1, b2, b3, b4⟩
      · exact Or.inl a9
      · exact Or.inr ⟨b1, hold p e b2, b3, ((h6 p).1 b4).1⟩
  unfold enter
  by_cases hl : s.slots.length = 0
  · rw [if_pos hl]
    exact Or.inr (exp 1 8 (by rw [hl]; decide) (by decide))
  · rw [if_neg hl]
    have hpos : 0 < s.slots.length := by omega
    by_cases hf : 0 < s.nfree
    · obtain ⟨s', p, e, a1, a2, a3, a4, a5, a6, a7, a8, a9, a10, a11, -⟩ := key 1 s h hpos hno hfresh hf
      exact Or.inr ⟨s', p, e, a1, a2, a3, a4, a5, a6, fun q x hq _ _ => a7 q hq, fun q hq => Or.inl (a8 q hq), a9, a10, a11⟩
    · have hns := Table.probe_ne_spin (p := fun x => x.name == n) (i := home s.slots.length n)
        (by rw [view_len]; exact Table.home_lt _ _ hpos) (h.exists_none hpos).choose_spec
      rw [view_len] at hns
      obtain ⟨h1, h2, -⟩ := probe_view h.live (stop := fun e => e.name == n) (q := fun x => x.name == n)
        (by intro p e he; simp [look, he]) s.slots.length (home s.slots.length n)
      cases hp : Table.probe (view s.ents s.slots) (fun x => x.name == n) s.slots.length (home s.slots.length n) with
      | spin => exact absurd hp hns
      | hit i =>
        obtain ⟨p, hk, hpr⟩ := h1 i hp
        obtain ⟨x, hx, hx2⟩ := Table.probe_hit_sound hp
        rw [view_get, hk] at hx
        have hpm := List.mem_of_getElem? hk
        obtain ⟨e, he⟩ := Option.isSome_iff_exists.1 (h.live p hpm)
        simp only [Option.map_some, Option.some.injEq] at hx
        subst hx
        simp only [look, he, beq_iff_eq] at hx2
        have hedef : e.defined = false := by
          cases hed : e.defined with
          | false => rfl
          | true => exact absurd hx2 (hno p e hpm he hed)
        refine Or.inr ⟨s, p, e, by simp only [enterLoop, hpr], he, hx2, ?_, hpm, fun q _ hq => hq, fun q _ hq _ _ => hq, fun q _ => Or.inl rfl, Or.inr ⟨rfl, he, hedef, hpm⟩, rfl, rfl⟩
        exact h.revive hk he (by rw [hn', hx2]) (by rw [hx2]; exact hp) (by rw [hx2]; exact hno)
      | empty i =>
        unfold enterLoop
        rw [h2 i hp]
        simp only
        rw [if_pos (by omega)]
        by_cases hbig : s.slots.length ≤ Table.intMaxHalf
        · rw [if_pos hbig]
          have h20 : 7 * s.slots.length / 10 + 1 ≤ 7 * (2 * s.slots.length) / 10 := by
            rcases Nat.lt_or_ge s.slots.length 2 with h2 | h2
            · have : s.slots.length = 1 := by omega
              rw [this]; decide
            · have h1 : 1 ≤ 7 * s.slots.length / 10 := by omega
              have h3 : 2 * (7 * s.slots.length / 10) ≤ 7 * (2 * s.slots.length) / 10 := by omega
              omega
          exact Or.inr (exp 0 _ h20 (by omega))
        · rw [if_neg hbig]
          exact Or.inl rfl

end Ksh.Func
