import Verif.Access.Model

/-!
# C153: `test -r`, `-w`, `-x` and the search tell what is permitted
-/
namespace Ksh.Access

/-- Specification: what the kernel permits a process with the effective ids `e`, in three rules.  The
superuser may read and write; it may execute what somebody may execute, and search directories.  Others
need the bit of the first class they are in. -/
def Permitted (e : Id) (f : File) (m : Want) : Prop :=
  (e.uid = 0 ∧ (m ≠ .x ∨ f.kind = .dir ∨ f.u.x = true ∨ f.g.x = true ∨ f.o.x = true)) ∨
  (e.uid ≠ 0 ∧ e.uid = f.owner ∧ f.u.get m = true) ∨
  (e.uid ≠ 0 ∧ e.uid ≠ f.owner ∧ f.group ∈ e.gids ∧ f.g.get m = true) ∨
  (e.uid ≠ 0 ∧ e.uid ≠ f.owner ∧ f.group ∉ e.gids ∧ f.o.get m = true)

theorem bits_spec (i : Id) (f : File) (m : Want) (h : i.uid ≠ 0) : (f.bits i).get m = true ↔ Permitted i f m := by
  unfold File.bits Permitted
  by_cases ho : i.uid = f.owner
  · simp [ho, ho ▸ h]
  · by_cases hg : f.group ∈ i.gids
    · simp [ho, hg, h]
    · simp [ho, hg, h]

/-- With equal real and effective ids `test` tells just what is permitted, on either kind of system. -/
theorem test_right_partial (lax : Bool) (i : Id) (f : Option File) (m : Want) :
    testEaccess lax i i f m = true ↔ ∃ g, f = some g ∧ Permitted i g m := by
  cases f with
  | none => simp [testEaccess]
  | some f =>
    simp only [Option.some.injEq, exists_eq_left']
    by_cases h0 : i.uid = 0
    · cases m with
      | r => simp [testEaccess, access, h0, Permitted]
      | w => simp [testEaccess, access, h0, Permitted]
      | x =>
        cases hk : f.kind <;> cases hu : f.u.x <;> cases hg : f.g.x <;> cases ho : f.o.x <;> cases lax <;>
          simp [testEaccess, access, h0, Permitted, File.anyX, hk, hu, hg, ho]
    · rw [← bits_spec i f m h0]
      simp [testEaccess, access, h0]

theorem any_of_bits (i : Id) (f : File) (h : (f.bits i).get .x = true) : f.anyX = true := by
  unfold File.bits at h
  unfold File.anyX
  split at h
  · simp only [Bits.get] at h; simp [h]
  · split at h
    · simp only [Bits.get] at h; simp [h]
    · simp only [Bits.get] at h; simp [h]

/-- The search accepts just the regular files that may be executed, if the ids are equal. -/
theorem search_right_partial (lax : Bool) (i : Id) (f : Option File) :
    (searchAccess lax i f).1 = true ↔ ∃ g, f = some g ∧ g.kind = .reg ∧ Permitted i g .x := by
  cases f with
  | none => simp [searchAccess]
  | some f =>
    simp only [Option.some.injEq, exists_eq_left']
    by_cases h0 : i.uid = 0
    · cases hk : f.kind <;> cases hu : f.u.x <;> cases hg : f.g.x <;> cases ho : f.o.x <;> cases lax <;>
        simp [searchAccess, access, h0, Permitted, File.anyX, hk, hu, hg, ho]
    · rw [← bits_spec i f .x h0]
      have := any_of_bits i f
      cases hb : (f.bits i).get .x with
      | false => simp [searchAccess, access, h0, hb]
      | true => cases hk : f.kind <;> simp [searchAccess, access, h0, hb, this hb, hk]

/-- Whatever the ids are: a file that nobody may execute is never taken for a command, and a directory never. -/
theorem search_never (lax : Bool) (i : Id) (f : File) (h : f.anyX = false ∨ f.kind ≠ .reg) :
    (searchAccess lax i (some f)).1 = false := by
  unfold searchAccess
  simp only
  split
  · rfl
  · rw [if_pos]
    rcases h with h | h
    · simp [h]
    · simp [h]

/-- A file that exists and is not accepted leaves an error, one that does not exist leaves none. -/
theorem search_error (lax : Bool) (i : Id) (f : Option File) :
    (searchAccess lax i f).2 = none ↔ f = none ∨ (searchAccess lax i f).1 = true := by
  cases f with
  | none => simp [searchAccess]
  | some f =>
    unfold searchAccess
    simp only
    split
    · simp
    · split <;> simp

/-- The error says "is a directory" exactly for the directories that may be searched. -/
theorem search_isdir (lax : Bool) (i : Id) (f : File) (hn : i.uid ≠ 0) :
    (searchAccess lax i (some f)).2 = some .isdir ↔ f.kind = .dir ∧ Permitted i f .x := by
  rw [← bits_spec i f .x hn]
  cases hb : (f.bits i).get .x with
  | false => simp [searchAccess, access, hn, hb]
  | true =>
    have := any_of_bits i f hb
    cases hk : f.kind <;> simp [searchAccess, access, hn, hb, hk, this]

/-- FINDING.  `access` looks at the real ids, the correction for the superuser at the effective one.  In a shell
with real user 0 and another effective user, `test -x` says yes for a file that nobody may execute (on
a system that tells the superuser so). -/
theorem real_root_wrong (eff : Id) (h : eff.uid ≠ 0) (gids : List Nat) (f : File) (hx : f.anyX = false) :
    testEaccess true ⟨0, gids⟩ eff (some f) .x = true ∧ ¬ Permitted eff f .x := by
  refine ⟨by simp [testEaccess, access, h], ?_⟩
  rw [← bits_spec eff f .x h]
  intro hb
  rw [any_of_bits eff f hb] at hx
  cases hx

/-- FINDING.  In a set-user-id shell (`-p`) with effective user 0, `test -r` says no for what it may read. -/
theorem setuid_wrong (lax : Bool) (real : Id) (gids : List Nat) (f : File) (h : real.uid ≠ 0) (hr : (f.bits real).get .r = false) :
    testEaccess lax real ⟨0, gids⟩ (some f) .r = false ∧ Permitted ⟨0, gids⟩ f .r := by
  refine ⟨by simp [testEaccess, access, h, hr], ?_⟩
  exact .inl ⟨rfl, .inl (by decide)⟩

/-- mode 0640, owner 5, group 7 -/
def ex : File := ⟨.reg, 5, 7, ⟨true, true, false⟩, ⟨true, false, false⟩, ⟨false, false, false⟩⟩

example : testEaccess true ⟨6, [7]⟩ ⟨6, [7]⟩ (some ex) .r = true := by decide
example : testEaccess true ⟨6, [7]⟩ ⟨6, [7]⟩ (some ex) .w = false := by decide
example : testEaccess true ⟨0, []⟩ ⟨0, []⟩ (some ex) .x = false := by decide
/-- Only the first class counts: the owner of a file of mode 0070 may not read it. -/
example : testEaccess true ⟨5, [7]⟩ ⟨5, [7]⟩ (some { ex with u := ⟨false, false, false⟩ }) .r = false := by decide
example : searchAccess true ⟨0, []⟩ (some { ex with kind := .dir }) = (false, some .isdir) := by decide
example : testEaccess true ⟨0, []⟩ ⟨6, []⟩ (some ex) .x = true := (real_root_wrong ⟨6, []⟩ (by decide) [] ex rfl).1

end Ksh.Access
