import Verif.Vi.Frame
/-!
# Macros come to an end
-/

namespace Ksh.Vi

variable {e : Env} {s s' : Ed}

/-- What becomes of the macros: nothing, they end, or one that is not running is begun. -/
def MacStep (e : Env) (s s' : Ed) : Prop :=
  s'.mac = s.mac ∨ s'.mac = none ∨
    ∃ c v, e.alias c = some v ∧ (∀ f ∈ s.mac.getD [], f.2 ≠ c) ∧ s'.mac = some ((v, c) :: s.mac.getD [])

theorem Fr.macStep (h : Fr s s') : MacStep e s s' := h.mac.elim .inl (fun h => .inr (.inl h))

theorem MacStep.fr {a b c : Ed} (h1 : MacStep e a b) (h2 : c.mac = b.mac ∨ c.mac = none) : MacStep e a c := by
  rcases h2 with h | h
  · simpa only [MacStep, h] using h1
  · exact .inr (.inl h)

theorem MacStep.pre {a b c : Ed} (h1 : b.mac = a.mac) (h2 : MacStep e b c) : MacStep e a c := by
  simpa only [MacStep, h1] using h2

theorem MacStep.same (h : s'.mac = s.mac) : MacStep e s s' := .inl h

theorem macroCmd_mac (c : Char) {r : Ret} (h : macroCmd e s c = some (r, s')) : MacStep e s s' := by
  simp only [macroCmd] at h
  split at h
  · cases h; exact .inl rfl
  · next v hv =>
    split at h
    · cases h; exact .inl rfl
    · split at h
      · cases h; exact .inl rfl
      · next hn =>
        cases h
        refine .inr (.inr ⟨c, v, hv, ?_, rfl⟩)
        intro f hf hfc
        apply hn
        rw [List.any_eq_true]
        exact ⟨f, hf, by simp [hfc]⟩

theorem switch_mac (n : Nat) (cmd : List Char) {r : Ret} (h : switch e s n cmd = some (r, s')) : MacStep e s s' := by
  by_cases hu : ckind (cmd.headD '\x00') = .u
  · simp only [switch, hu] at h
    cases h; exact .inl rfl
  · by_cases hm : ckind (cmd.headD '\x00') = .macro
    · simp only [switch, hm] at h
      exact macroCmd_mac _ h
    · exact (switch_fr n hu hm _ h).macStep

theorem viCmd_mac (n : Nat) (cmd : List Char) {r : Ret} (h : viCmd e s n cmd = some (r, s')) : MacStep e s s' := by
  simp only [viCmd] at h
  split at h
  · exact (moveCmd_fr _ _ _ h).macStep
  · simp only [editing] at h
    split at h
    · cases h
    · next s1 hs =>
      have h1 : s1.mac = s.mac := by
        split at hs
        · simp only [saveUndo] at hs
          split at hs
          · cases hs
          · split at hs
            · cases hs
            · cases hs; rfl
        · cases hs; rfl
      cases hsw : switch e s1 (count n (cmd.headD '\x00')) cmd with
      | none => rw [hsw] at h; cases h
      | some x =>
        obtain ⟨r2, s2⟩ := x
        rw [hsw] at h
        have h2 := switch_mac _ _ hsw
        have h3 := clamp_fr (e := e) (s := s2) (cmd.headD '\x00') r2 _ h
        exact MacStep.pre h1 (h2.fr h3.mac)

theorem hookEnd_mac {f : Bool} (h : hookEnd e s = some (f, s')) : MacStep e s s' := by
  simp only [hookEnd] at h
  split at h
  · split at h
    · cases h
    · cases h; exact .inr (.inl rfl)
    · next hv =>
      cases h
      have := viCmd_mac _ _ hv
      split
      · exact MacStep.pre (b := { s with state := .normal }) rfl (this.fr (.inl rfl))
      · exact MacStep.pre (b := { s with state := .normal }) rfl this
    · next hv =>
      cases h
      exact MacStep.pre (b := { s with state := .normal }) rfl (viCmd_mac _ _ hv)
  · split at h
    · cases h
    · cases h; exact .inr (.inl rfl)
    · next s2 hv =>
      have h1 : MacStep e s s2 := MacStep.pre (b := { s with state := .normal, lastac := if s.argc1 ≠ 0 then s.argc1 else s.lastac }) rfl (viCmd_mac _ _ hv)
      split at h
      · split at h
        · cases h
        · next r s3 hr =>
          cases h
          have := redoInsert_fr (e := e) (s := s2) _ _ hr
          split
          · exact h1.fr this.mac
          · exact .inr (.inl rfl)
      · cases h; exact h1
    · next hv => cases h; exact MacStep.pre (b := { s with state := .normal, lastac := if s.argc1 ≠ 0 then s.argc1 else s.lastac }) rfl (viCmd_mac _ _ hv)
    · next hv => cases h; exact MacStep.pre (b := { s with state := .normal, lastac := if s.argc1 ≠ 0 then s.argc1 else s.lastac }) rfl (viCmd_mac _ _ hv)
  · cases h; exact .inr (.inl rfl)
  · cases h; exact .inl rfl

theorem addCmd_mac {ch : Char} (h : addCmd s ch = some s') : s'.mac = s.mac := by
  simp only [addCmd] at h
  split at h
  · cases h
  · cases h; rfl

theorem extKey_mac {ch : Char} {f : Bool} (h : extKey e s ch = some (f, s')) : MacStep e s s' := by
  simp only [extKey] at h
  split at h
  · cases h
  · next s1 h1 =>
    have h2 := addCmd_mac h1
    have h3 := hookEnd_mac h
    exact MacStep.pre h2 h3

theorem hookInsert_mac {ch : Char} {f : Bool} (h : hookInsert e s ch = some (f, s')) : MacStep e s s' := by
  simp only [hookInsert] at h
  have hf := insert_fr (e := e) (s := if ch = ctrl 'v' then { s with state := .lit } else s) (if ch = ctrl 'v' then '^' else ch)
  have h0 : (if ch = ctrl 'v' then { s with state := .lit } else s).mac = s.mac := by split <;> rfl
  split at h
  · cases h
  · cases h; exact .inr (.inl rfl)
  · next hi =>
    have := MacStep.pre h0 ((hf _ hi).macStep (e := e))
    split at h
    · split at h
      · cases h
      · cases h; exact this.fr (.inl rfl)
    · cases h; exact this
  · next hi => cases h; exact MacStep.pre h0 ((hf _ hi).macStep (e := e))

theorem startSearch_mac {ch : Char} {f : Bool} (h : startSearch e s ch = some (f, s')) : MacStep e s s' := by
  simp only [startSearch] at h
  have hf := saveCbuf_fr (e := e) (s := s)
  split at h
  · cases h
  · next s1 h1 =>
    have hp := fun x => put_fr (s := { s1 with es := { s1.es with cur := 0, len := 0 } }) x false
    split at h
    · cases h
    · next h2 => cases h; exact ((hf _ h1).macStep).fr (hp _ _ h2).mac

theorem hookCommand_mac {ch : Char} {f : Bool} (h : hookCommand e s ch = some (f, s')) : MacStep e s s' := by
  simp only [hookCommand] at h
  split at h
  · cases h; exact .inl rfl
  · split at h
    · cases h; exact .inl rfl
    · split at h
      · cases h
      · next s1 h1 =>
        have h2 : s1.mac = s.mac := addCmd_mac (s := { s with cmdlen := 0, argc1 := 0 }) h1
        split at h
        · exact MacStep.pre (b := { s1 with state := .search }) h2 (startSearch_mac h)
        · exact MacStep.pre (b := { s1 with state := nextstate ch }) h2 (hookEnd_mac h)

theorem hookSearch_mac {ch : Char} {f : Bool} (h : hookSearch e s ch = some (f, s')) : MacStep e s s' := by
  simp only [hookSearch] at h
  have hr := restoreCbuf_fr (s := s)
  split at h
  · split at h
    · cases h
    · next s1 h1 =>
      have h2 := hr _ h1
      have h3 : s1.mac = s.mac := by
        simp only [restoreCbuf] at h1
        split at h1
        · cases h1
        · cases h1; rfl
      split at h
      · split at h
        · cases h; exact .inr (.inl rfl)
        · exact MacStep.pre (b := { s1 with state := .vcmd }) h3 (hookEnd_mac h)
      · split at h
        · cases h
        · exact MacStep.pre (b := { s1 with srchpat := cstr (s1.locpat.take s1.srchlen), locpat := s1.locpat.set s1.srchlen '\x00', state := .vcmd })
            h3 (hookEnd_mac h)
  · split at h
    · split at h
      · split at h
        · cases h
        · cases h; exact .inl rfl
      · rw [Option.map_eq_some_iff] at h
        obtain ⟨s1, h1, h2⟩ := h
        cases h2
        exact ((hr _ h1).macStep).fr (.inl rfl)
    · split at h
      · cases h; exact .inl rfl
      · split at h
        · split at h
          · cases h
          · split at h
            · cases h
            · cases h; exact .inl rfl
        · rw [Option.map_eq_some_iff] at h
          obtain ⟨s1, h1, h2⟩ := h
          cases h2
          simp only [srchChar] at h1
          repeat' split at h1
          all_goals first | (cases h1; done) | (cases h1; first | exact .inl rfl | exact .inr (.inl rfl))

theorem hook_mac {ch : Char} {f : Bool} (h : hook e s ch = some (f, s')) : MacStep e s s' := by
  simp only [hook] at h
  split at h
  · split at h
    · exact hookInsert_mac h
    · exact hookCommand_mac h
  · simp only [hookLit] at h
    split at h
    · rw [Option.map_eq_some_iff] at h
      obtain ⟨s1, h1, h2⟩ := h
      cases h2
      exact .inr (.inl rfl)
    · split at h
      · cases h
      · cases h; exact .inl rfl
  · split at h
    · cases h; exact .inl rfl
    · split at h
      · cases h
      · next s1 h1 =>
        have h2 := addCmd_mac h1
        exact MacStep.pre (b := { s1 with state := nextstate ch }) h2 (hookEnd_mac h)
  · split at h
    · cases h; exact .inl rfl
    · exact MacStep.pre (b := { s with argc2 := 0 }) rfl (extKey_mac h)
  · split at h
    · cases h; exact .inl rfl
    · exact MacStep.pre (b := { s with argc1 := if s.argc1 = 0 then s.argc2 else s.argc1 * s.argc2 }) rfl (extKey_mac h)
  · split at h
    · cases h; exact .inl rfl
    · split at h
      · cases h
      · next s1 h1 =>
        have h2 := addCmd_mac h1
        exact MacStep.pre (b := { s1 with state := .vcmd }) h2 (hookEnd_mac h)
  · exact hookSearch_mac h
  · exact hookEnd_mac h

theorem key_mac {len : Nat} {c : Char} (h : key e len s c = some (.more s')) : MacStep e s s' := by
  simp only [key] at h
  split at h
  · cases h
  · split at h
    · split at h
      · cases h
      · cases h; exact .inl rfl
    · split at h
      · cases h
      · simp only [finish] at h
        repeat' split at h
        all_goals cases h
      · next hk => cases h; exact hook_mac hk

/-! ## The measure -/

/-- The keys left in each macro, weighted by how many more can be begun inside it. -/
def weight (B N : Nat) : List (List Char × Char) → Nat
  | [] => 0
  | (l, _) :: fs => l.length * B ^ (N - fs.length) + weight B N fs

/-- The names of the macros that are running are different, and aliases. -/
def MacOk (names : List Char) (s : Ed) : Prop :=
  ((s.mac.getD []).map Prod.snd).Nodup ∧ ∀ c ∈ (s.mac.getD []).map Prod.snd, c ∈ names

theorem nodup_len {names : List Char} : ∀ {l : List Char}, l.Nodup → (∀ c ∈ l, c ∈ names) → l.length ≤ names.length := by
  intro l
  induction l generalizing names with
  | nil => intro _ _; simp
  | cons c l ih =>
    intro h1 h2
    rw [List.nodup_cons] at h1
    have hc := h2 c (by simp)
    have h3 := ih (names := names.erase c) h1.2 (fun d hd => by
      have : d ≠ c := by rintro rfl; exact h1.1 hd
      rw [List.mem_erase_of_ne this]
      exact h2 d (by simp [hd]))
    rw [List.length_erase_of_mem hc] at h3
    have := List.length_pos_of_mem hc
    simp only [List.length_cons]
    omega

theorem pull_spec {B N : Nat} : ∀ {fs : List (List Char × Char)} {c : Char} {m : Option (List (List Char × Char))}, pull fs = (some c, m) →
    ∃ l n fs', m = some ((l, n) :: fs') ∧ (∃ pre, fs = pre ++ (c :: l, n) :: fs') ∧
      weight B N fs = weight B N ((c :: l, n) :: fs') := by
  intro fs
  induction fs with
  | nil => intro c m h; simp [pull] at h
  | cons f fs ih =>
    intro c m h
    obtain ⟨l, n⟩ := f
    cases l with
    | nil =>
      simp only [pull] at h
      obtain ⟨l', n', fs', h1, ⟨pre, h2⟩, h3⟩ := ih h
      exact ⟨l', n', fs', h1, ⟨([], n) :: pre, by rw [h2]; rfl⟩, by rw [← h3]; simp [weight]⟩
    | cons d l =>
      simp only [pull, Prod.mk.injEq, Option.some.injEq] at h
      obtain ⟨rfl, rfl⟩ := h
      exact ⟨l, n, fs, rfl, ⟨[], rfl⟩, rfl⟩

theorem pull_none : ∀ {fs : List (List Char × Char)} {m : Option (List (List Char × Char))}, pull fs = (none, m) → ∀ f ∈ fs, f.1 = [] := by
  intro fs
  induction fs with
  | nil => intro m _ f hf; simp at hf
  | cons f fs ih =>
    intro m h
    obtain ⟨l, n⟩ := f
    cases l with
    | nil =>
      simp only [pull] at h
      intro f hf
      rcases List.mem_cons.1 hf with rfl | hf
      · rfl
      · exact ih h f hf
    | cons d l => simp [pull] at h

/-- One key of a macro leaves less to do. -/
theorem macro_step {names : List Char} {M len : Nat} (hn : ∀ c v, e.alias c = some v → c ∈ names ∧ v.length ≤ M)
    (ho : MacOk names s) {c : Char} {s1 s2 : Ed} {ks : List Char} (h1 : next s [] = some (c, s1, ks))
    (h2 : key e len s1 c = some (.more s2)) :
    ks = [] ∧ MacOk names s2 ∧ weight (M+1) names.length (s2.mac.getD []) < weight (M+1) names.length (s.mac.getD []) := by
  simp only [next] at h1
  split at h1
  · next fs hfs =>
    split at h1
    · next c' m hp =>
      simp only [Option.some.injEq, Prod.mk.injEq] at h1
      obtain ⟨rfl, rfl, rfl⟩ := h1
      obtain ⟨l, n, fs', rfl, ⟨pre, hpre⟩, hw⟩ := pull_spec (B := M+1) (N := names.length) hp
      simp only [MacOk, hfs, Option.getD_some] at ho
      rw [hfs, Option.getD_some, hw]
      have hnd : (((l, n) :: fs').map Prod.snd).Nodup := by
        have := ho.1
        rw [hpre, List.map_append, List.nodup_append] at this
        exact this.2.1
      have hsub : ∀ d ∈ ((l, n) :: fs').map Prod.snd, d ∈ names := by
        intro d hd
        apply ho.2
        rw [hpre, List.map_append, List.mem_append]
        exact .inr hd
      have hpos : 0 < (M+1) ^ (names.length - fs'.length) := Nat.pow_pos (Nat.succ_pos _)
      refine ⟨rfl, ?_⟩
      rcases key_mac h2 with h | h | ⟨c', v, hv, hnew, h⟩
      · simp only at h
        refine ⟨?_, ?_⟩
        · simp only [MacOk, h, Option.getD_some]; exact ⟨hnd, hsub⟩
        · rw [h, Option.getD_some]
          simp only [weight, List.length_cons, Nat.add_mul]
          omega
      · refine ⟨?_, ?_⟩
        · simp [MacOk, h]
        · rw [h]
          simp only [Option.getD_none, weight, List.length_cons, Nat.add_mul]
          omega
      · simp only [Option.getD_some] at h hnew
        have hnd' : (((v, c') :: (l, n) :: fs').map Prod.snd).Nodup := by
          rw [List.map_cons, List.nodup_cons]
          refine ⟨?_, hnd⟩
          intro hc
          rw [List.mem_map] at hc
          obtain ⟨f, hf, hfc⟩ := hc
          exact hnew f hf hfc
        have hsub' : ∀ d ∈ ((v, c') :: (l, n) :: fs').map Prod.snd, d ∈ names := by
          intro d hd
          rw [List.map_cons, List.mem_cons] at hd
          rcases hd with rfl | hd
          · exact (hn _ _ hv).1
          · exact hsub d hd
        have hlen := nodup_len hnd' hsub'
        simp only [List.map_cons, List.length_cons, List.length_map] at hlen
        refine ⟨?_, ?_⟩
        · simp only [MacOk, h, Option.getD_some]; exact ⟨hnd', hsub'⟩
        · rw [h, Option.getD_some]
          simp only [weight, List.length_cons, Nat.add_mul]
          have hM := (hn _ _ hv).2
          obtain ⟨k, hk⟩ : ∃ k, names.length - fs'.length = k + 1 := ⟨names.length - fs'.length - 1, by omega⟩
          have hk' : names.length - (fs'.length + 1) = k := by omega
          rw [hk, hk', Nat.pow_succ]
          have h1 : 0 < (M+1)^k := Nat.pow_pos (Nat.succ_pos _)
          have h2 : v.length * (M+1)^k ≤ M * (M+1)^k := Nat.mul_le_mul_right _ hM
          have h3 : (M+1)^k * (M+1) = M * (M+1)^k + (M+1)^k := by rw [Nat.mul_comm, Nat.add_mul, Nat.one_mul]
          omega
    · cases h1
  · cases h1

theorem run_macros {names : List Char} {M : Nat} (len : Nat) (hn : ∀ c v, e.alias c = some v → c ∈ names ∧ v.length ≤ M) :
    ∀ (w : Nat) {s : Ed}, MacOk names s → weight (M+1) names.length (s.mac.getD []) ≤ w →
    ∀ s', run e len (w + 1) s [] = some (.more s') → next s' [] = none := by
  intro w
  induction w with
  | zero =>
    intro s ho hw s' h
    simp only [run] at h
    split at h
    · next h0 => cases h; exact h0
    · next c s1 ks hnx =>
      split at h
      · cases h
      · next s2 hk =>
        have := (macro_step hn ho hnx hk).2.2
        omega
      · next hne hk => cases h; exact absurd hk (by simpa using hne s')
  | succ w ih =>
    intro s ho hw s' h
    rw [run] at h
    split at h
    · next h0 => cases h; exact h0
    · next c s1 ks hnx =>
      split at h
      · cases h
      · next s2 hk =>
        obtain ⟨rfl, h2, h3⟩ := macro_step hn ho hnx hk
        exact ih h2 (by omega) s' h
      · next hne hk => cases h; exact absurd hk (by simpa using hne s')

end Ksh.Vi
