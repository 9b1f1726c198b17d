import Verif.Fdname.Model

/-!
# C151: what the user can name
-/
namespace Ksh.Fdname

/-- The access that reading or writing needs. -/
inductive Dir
  | reading | writing
  deriving DecidableEq

def Can : Dir → Acc → Prop
  | .reading, a => a = .rd ∨ a = .rdwr
  | .writing, a => a = .wr ∨ a = .rdwr

def Env.co (e : Env) : Dir → Option Nat
  | .reading => e.coRead
  | .writing => e.coWrite

def digits : List Char := ['0', '1', '2', '3', '4', '5', '6', '7', '8', '9']

/-- Specification: the name is the digit of an open descriptor (with the access needed, if it is to be used
at once), or `p` with a co-process. -/
def Names (e : Env) (d : Dir) (used : Bool) (name : List Char) (fd : Nat) : Prop :=
  (∃ c a, digits[fd]? = some c ∧ name = [c] ∧ e.fds fd = some a ∧ (used = true → Can d a)) ∨
  (name = ['p'] ∧ e.co d = some fd)

def modeOf : Dir → Bool → Mode
  | .reading, used => ⟨true, false, !used⟩
  | .writing, used => ⟨false, true, !used⟩

theorem digit_spec (c : Char) : c.isDigit = true ↔ c.toNat - '0'.toNat < 10 ∧ digits[c.toNat - '0'.toNat]? = some c := by
  constructor
  · intro h
    have h' : 48 ≤ c.toNat ∧ c.toNat ≤ 57 := by
      simp only [Char.isDigit, Bool.and_eq_true, decide_eq_true_eq] at h
      exact ⟨UInt32.le_iff_toNat_le.mp h.1, UInt32.le_iff_toNat_le.mp h.2⟩
    have hc : c = Char.ofNat c.toNat := (Char.ofNat_toNat c).symm
    obtain ⟨k, hk⟩ : ∃ k, c.toNat = k := ⟨_, rfl⟩
    rw [hk] at hc h'
    have : k = 48 ∨ k = 49 ∨ k = 50 ∨ k = 51 ∨ k = 52 ∨ k = 53 ∨ k = 54 ∨ k = 55 ∨ k = 56 ∨ k = 57 := by omega
    rcases this with rfl | rfl | rfl | rfl | rfl | rfl | rfl | rfl | rfl | rfl <;> rw [hc] <;> decide
  · rintro ⟨h, g⟩
    have : c ∈ digits := List.mem_of_getElem? g
    simp only [digits, List.mem_cons, List.not_mem_nil, or_false] at this
    rcases this with rfl | rfl | rfl | rfl | rfl | rfl | rfl | rfl | rfl | rfl <;> decide

theorem digits_at {fd : Nat} {c : Char} (h : digits[fd]? = some c) : c.isDigit = true ∧ c.toNat - '0'.toNat = fd ∧ fd < 10 := by
  have hl : fd < 10 := by
    have := (List.getElem?_eq_some_iff.mp h).1
    simpa [digits] using this
  have : fd = 0 ∨ fd = 1 ∨ fd = 2 ∨ fd = 3 ∨ fd = 4 ∨ fd = 5 ∨ fd = 6 ∨ fd = 7 ∨ fd = 8 ∨ fd = 9 := by omega
  rcases this with rfl | rfl | rfl | rfl | rfl | rfl | rfl | rfl | rfl | rfl <;>
    (simp only [digits] at h; cases h; decide)

theorem refused_iff (d : Dir) (used : Bool) (a : Acc) : refused (modeOf d used) a = true ↔ used = true ∧ ¬ Can d a := by
  cases d <;> cases used <;> cases a <;> simp [refused, modeOf, Can]

theorem co_spec (e : Env) (d : Dir) (used : Bool) (fd : Nat) :
    coprocGetfd e (modeOf d used) = .ok fd ↔ e.co d = some fd := by
  cases d <;> simp only [coprocGetfd, modeOf, Env.co]
  · cases e.coRead <;> simp
  · cases e.coWrite <;> simp

/-- A name is accepted for exactly the descriptors it should name. -/
theorem name_spec (e : Env) (d : Dir) (used : Bool) (name : List Char) (fd : Nat) :
    checkFd e name (modeOf d used) = .ok fd ↔ Names e d used name fd := by
  constructor
  · intro h
    unfold checkFd at h
    split at h
    · rename_i c
      split at h
      · rename_i hd
        split at h
        · cases h
        · rename_i fl hf
          split at h
          · cases h
          · rename_i hr
            simp only [Except.ok.injEq] at h
            have hs := (digit_spec c).mp hd
            rw [h] at hf hs
            refine .inl ⟨c, fl, hs.2, rfl, hf, ?_⟩
            intro hu
            rw [refused_iff] at hr
            exact Classical.byContradiction fun hc => hr ⟨hu, hc⟩
      · split at h
        · rename_i hp
          exact .inr ⟨by rw [hp], (co_spec e d used fd).mp h⟩
        · cases h
    · cases h
  · rintro (⟨c, a, h1, rfl, h3, h4⟩ | ⟨rfl, h⟩)
    · obtain ⟨hd, ht, _⟩ := digits_at h1
      have hr : refused (modeOf d used) a = false := by
        rw [Bool.eq_false_iff]
        intro hc
        obtain ⟨hu, hn⟩ := (refused_iff d used a).mp hc
        exact hn (h4 hu)
      simp only [checkFd, hd, ht, h3, hr, if_true]
      rfl
    · have : ('p' : Char).isDigit = false := by decide
      simp only [checkFd, this]
      exact (co_spec e d used fd).mpr h

/-- What is behind an option that ends up being used: 0 or 1, or what some option names. -/
theorem options_from (e : Env) (d : Dir) : ∀ (l : List Opt) (fd r : Nat),
    options e (modeOf d true) l fd = .ok r →
    r = fd ∨ r = 0 ∨ (.p ∈ l ∧ e.co d = some r) ∨ ∃ a, .u a ∈ l ∧ Names e d true a r
  | [], fd, r, h => by simp only [options, Except.ok.injEq] at h; exact .inl h.symm
  | .p :: l, fd, r, h => by
    unfold options at h
    split at h
    · rename_i q hq
      rcases options_from e d l q r h with rfl | h | ⟨h, g⟩ | ⟨a, h, g⟩
      · exact .inr (.inr (.inl ⟨by simp, (co_spec e d true _).mp hq⟩))
      · exact .inr (.inl h)
      · exact .inr (.inr (.inl ⟨by simp [h], g⟩))
      · exact .inr (.inr (.inr ⟨a, by simp [h], g⟩))
    · cases h
  | .u arg :: l, fd, r, h => by
    unfold options at h
    split at h
    · rcases options_from e d l 0 r h with h | h | ⟨h, g⟩ | ⟨a, h, g⟩
      · exact .inr (.inl h)
      · exact .inr (.inl h)
      · exact .inr (.inr (.inl ⟨by simp [h], g⟩))
      · exact .inr (.inr (.inr ⟨a, by simp [h], g⟩))
    · split at h
      · rename_i q hq
        rcases options_from e d l q r h with rfl | h | ⟨h, g⟩ | ⟨a, h, g⟩
        · exact .inr (.inr (.inr ⟨arg, by simp, (name_spec e d true arg _).mp hq⟩))
        · exact .inr (.inl h)
        · exact .inr (.inr (.inl ⟨by simp [h], g⟩))
        · exact .inr (.inr (.inr ⟨a, by simp [h], g⟩))
      · cases h

theorem names_private {e : Env} {d : Dir} {used : Bool} {name : List Char} {fd : Nat} (h : Names e d used name fd)
    (hp : 10 ≤ fd) : e.co d = some fd := by
  rcases h with ⟨c, a, h, _⟩ | ⟨_, h⟩
  · have := (digits_at h).2.2; omega
  · exact h

/-- The descriptors that the shell keeps for itself (saved ones, scripts, history, the terminal: 10 and
above) cannot be read, written or copied by any name, other than the right end of the co-process. -/
theorem private_unreachable (e : Env) (fd : Nat) (hp : 10 ≤ fd) :
    (∀ l, readFd e l = .ok fd → e.coRead = some fd) ∧
    (∀ l, printFd e l = .ok fd → e.coWrite = some fd) ∧
    (∀ unit rdup name, dup e unit rdup name = .from fd → (if rdup then e.coRead else e.coWrite) = some fd) := by
  refine ⟨?_, ?_, ?_⟩
  · intro l h
    rcases options_from e .reading l 0 fd h with h | h | ⟨_, g⟩ | ⟨a, _, g⟩
    · omega
    · omega
    · exact g
    · exact names_private g hp
  · intro l h
    rcases options_from e .writing l 1 fd h with h | h | ⟨_, g⟩ | ⟨a, _, g⟩
    · omega
    · omega
    · exact g
    · exact names_private g hp
  · intro unit rdup name h
    unfold dup at h
    split at h
    · cases h
    · split at h
      · cases h
      · rename_i u hu
        split at h
        · cases h
        · simp only [Dup.from.injEq] at h
          subst h
          cases rdup
          · exact names_private ((name_spec e .writing false name _).mp hu) hp
          · exact names_private ((name_spec e .reading false name _).mp hu) hp

/-- Specification of the messages. -/
def Why (e : Env) (d : Dir) (name : List Char) : Msg → Prop
  | .illegal => name ≠ ['p'] ∧ ∀ c ∈ digits, name ≠ [c]
  | .bad => ∃ k : Nat, ∃ c, digits[k]? = some c ∧ name = [c] ∧ e.fds k = none
  | .notReading => d = .reading ∧ ∃ k : Nat, ∃ c, digits[k]? = some c ∧ name = [c] ∧ e.fds k = some .wr
  | .notWriting => d = .writing ∧ ∃ k : Nat, ∃ c, digits[k]? = some c ∧ name = [c] ∧ e.fds k = some .rd
  | .noCoproc => name = ['p'] ∧ e.co d = none

/-- The message tells why: the name is none, the descriptor is not open, it has the other access, or there is
no co-process. -/
theorem message_right (e : Env) (d : Dir) (used : Bool) (name : List Char) (m : Msg)
    (h : checkFd e name (modeOf d used) = .error m) : Why e d name m := by
  have nd : ∀ c ∈ digits, c.isDigit = true := by decide
  unfold checkFd at h
  revert h
  split
  · rename_i c
    intro h
    split at h
    · rename_i hd
      have hs := (digit_spec c).mp hd
      split at h
      · rename_i hf
        cases h
        exact ⟨_, c, hs.2, rfl, hf⟩
      · rename_i fl hf
        split at h
        · rename_i hr
          obtain ⟨_, hn⟩ := (refused_iff d used fl).mp hr
          cases h
          cases d <;> cases fl <;> first
            | exact ⟨rfl, _, c, hs.2, rfl, hf⟩
            | exact absurd (Or.inl rfl) hn
            | exact absurd (Or.inr rfl) hn
        · cases h
    · rename_i hd
      split at h
      · rename_i hp
        unfold coprocGetfd at h
        split at h
        · cases h
        · rename_i hc
          cases h
          refine ⟨by rw [hp], ?_⟩
          cases d <;> simpa [modeOf, Env.co] using hc
      · rename_i hp
        cases h
        refine ⟨by simpa using hp, ?_⟩
        intro c' hc' he
        simp only [List.cons.injEq, and_true] at he
        exact hd (he ▸ nd c' hc')
  · rename_i hne
    intro h
    cases h
    exact ⟨fun h => hne _ h, fun c _ h => hne _ h⟩

/-- Reading happens only from a descriptor open for reading, if the ends of the co-process are (without an
option it is 0, which is not looked at). -/
theorem read_allowed (e : Env) (l : List Opt) (fd : Nat) (hc : ∀ k, e.coRead = some k → ∃ a, e.fds k = some a ∧ Can .reading a)
    (h : readFd e l = .ok fd) (h0 : fd ≠ 0) : ∃ a, e.fds fd = some a ∧ Can .reading a := by
  rcases options_from e .reading l 0 fd h with h | h | ⟨_, g⟩ | ⟨a, _, g⟩
  · exact absurd h h0
  · exact absurd h h0
  · exact hc fd g
  · rcases g with ⟨c, a, _, _, g, k⟩ | ⟨_, g⟩
    · exact ⟨a, g, k rfl⟩
    · exact hc fd g

/-- FINDING.  `print -u` without a number writes to descriptor 0, where the manual says that it defaults to 1
(ksh.1:3349-3355); whether 0 is open, and open for writing, is not looked at. -/
theorem print_default_wrong (e : Env) (l : List Opt) (r : Nat) (h : printFd e l = .ok r) : printFd e (l ++ [.u []]) = .ok 0 := by
  suffices ∀ (l : List Opt) (fd : Nat), options e ⟨false, true, false⟩ l fd = .ok r →
      options e ⟨false, true, false⟩ (l ++ [.u []]) fd = .ok 0 from this l 1 h
  intro l
  induction l with
  | nil => intro fd _; rfl
  | cons o l ih =>
    intro fd h
    cases o with
    | p =>
      simp only [List.cons_append, options] at h ⊢
      split at h
      · exact ih _ h
      · cases h
    | u a =>
      simp only [List.cons_append, options] at h ⊢
      split at h
      · rename_i ha
        rw [if_pos ha]
        exact ih _ h
      · rename_i ha
        rw [if_neg ha]
        split at h
        · exact ih _ h
        · cases h

/-- Writing, other than to 1 without an option, and to 0 by the above, happens only to a descriptor open for
writing. -/
theorem print_allowed_partial (e : Env) (l : List Opt) (fd : Nat)
    (hc : ∀ k, e.coWrite = some k → ∃ a, e.fds k = some a ∧ Can .writing a)
    (h : printFd e l = .ok fd) (h0 : fd ≠ 0) (h1 : fd ≠ 1) : ∃ a, e.fds fd = some a ∧ Can .writing a := by
  rcases options_from e .writing l 1 fd h with h | h | ⟨_, g⟩ | ⟨a, _, g⟩
  · exact absurd h h1
  · exact absurd h h0
  · exact hc fd g
  · rcases g with ⟨c, a, _, _, g, k⟩ | ⟨_, g⟩
    · exact ⟨a, g, k rfl⟩
    · exact hc fd g

/-- A script is being read from 10, there is a co-process at 11 and 12. -/
def ex : Env := ⟨fun n => [some .rdwr, some .wr, some .wr, some .rd, none, none, none, none, none, none, some .rd, some .rd, some .wr].getD n none,
  some 11, some 12⟩

example : readFd ex [.u ['3']] = .ok 3 := by rfl
example : readFd ex [.u ['1']] = .error .notReading := by rfl
example : readFd ex [.u ['1', '0']] = .error .illegal := by rfl
example : readFd ex [.u ['3'], .p] = .ok 11 := by rfl
example : printFd ex [.u ['3']] = .error .notWriting := by rfl
example : printFd ex [.u ['2']] = .ok 2 := by rfl
/-- A copy is not checked for its access: `<&1`. -/
example : dup ex 0 true ['1'] = .from 1 := by rfl
example : dup ex 3 false ['p'] = .from 12 := by rfl

end Ksh.Fdname
