import Verif.Time.Model
/-!
# Properties of `time`

`time` should leave the timed command as it is, and each report should have the format that the
words of this run ask for.
-/

namespace Ksh.Time

open Ksh.Tree

/-- A word is read only where it ends: no proper initial part of it is a word. -/
theorem scan_prefix {s : Bytes} {c : UInt8} {n j : Nat} (h : wdscan s c = some n) (hj : j < n) : wdscan (s.take j) c = none := by
  cases hw : wdscan (s.take j) c with
  | none => rfl
  | some m =>
    exfalso
    have hm := wdscan_le hw
    have h1 := wdscan_take hw (s.drop m)
    have hmj : m ≤ j := by simp at hm; omega
    rw [List.take_take, Nat.min_eq_left hmj, List.take_append_drop, h] at h1
    have := Option.some.inj h1
    omega

theorem strlen_zero : ∀ {s : Bytes} {k : Nat}, strlen s = some k → s.take k ++ [0] = s.take (k + 1) ∧ k < s.length ∧ (0 : UInt8) ∉ s.take k
  | [], k, h => by simp [strlen] at h
  | b :: r, k, h => by
    unfold strlen at h
    split at h
    · rename_i hb
      cases h
      simp [hb]
    · rename_i hb
      simp only [Option.map_eq_some_iff] at h
      obtain ⟨j, hj, rfl⟩ := h
      obtain ⟨h1, h2, h3⟩ := strlen_zero hj
      refine ⟨by simp [h1], by simp; omega, ?_⟩
      simp only [List.take_succ_cons, List.mem_cons, not_or]
      exact ⟨fun h => hb h.symm, h3⟩

/-- A scan for the end of a word stops at a byte that is 0. -/
theorem scan_end : ∀ (s : Bytes) (m : M) (nest : Int) (k n : Nat), scan EOS m nest k s = some n → k < n ∧ s[n - k - 1]? = some 0 := by
  intro s
  induction s with
  | nil => intro m nest k n h; cases m <;> cases h
  | cons b r ih =>
    have step : ∀ {m nest k n}, scan EOS m nest (k + 1) r = some n → k < n ∧ (b :: r)[n - k - 1]? = some 0 := by
      intro m nest k n h
      obtain ⟨h1, h2⟩ := ih _ _ _ _ h
      refine ⟨by omega, ?_⟩
      rw [show n - k - 1 = (n - (k + 1) - 1) + 1 by omega, List.getElem?_cons_succ]
      exact h2
    intro m nest k n h
    cases m with
    | one => exact step h
    | text => exact step h
    | close =>
      unfold scan at h
      rw [if_neg (fun h => absurd h.1 (by decide))] at h
      exact step h
    | code =>
      unfold scan at h
      split at h
      · rename_i hb
        cases h
        refine ⟨by omega, ?_⟩
        rw [show k + 1 - k - 1 = 0 by omega]
        simp [hb, EOS]
      · split at h
        · exact step h
        · split at h
          · exact step h
          · split at h
            · exact step h
            · split at h
              · exact step h
              · split at h
                · exact step h
                · split at h
                  · exact step h
                  · split at h
                    · rename_i hb0 _ _ _ _ _ _ _
                      rw [if_neg (fun h => hb0 h.1.symm)] at h
                      exact step h
                    · exact step h

theorem strlen_some : ∀ {s : Bytes}, (0 : UInt8) ∈ s → ∃ k, strlen s = some k
  | [], h => by cases h
  | b :: r, h => by
    unfold strlen
    split
    · exact ⟨_, rfl⟩
    · rename_i hb
      have : (0 : UInt8) ∈ r := by
        rcases List.mem_cons.1 h with h | h
        · exact absurd h.symm hb
        · exact h
      obtain ⟨k, hk⟩ := strlen_some this
      exact ⟨k + 1, by simp [hk]⟩

/-- The string that `str_save` makes of a word `w` (ending at its `EOS`) is the word if no byte of it
but the last is 0, and otherwise every scan of it runs out of the object. -/
theorem saved_word {h : Heap} {p : Nat} {s : Bytes} {n : Nat} (h0 : p ≠ 0) (hp : h.mem p = some (.bytes s)) (hn : wdscan s EOS = some n) :
    ∃ s', strSave h p = some ((alloc h (.bytes s')).1, h.next) ∧
      ((0 : UInt8) ∉ (s.take n).dropLast → s' = s.take n ∧ wdscan s' EOS = some n) ∧
      ((0 : UInt8) ∈ (s.take n).dropLast → wdscan s' EOS = none) := by
  have hle := wdscan_le hn
  obtain ⟨hn0, hend⟩ := scan_end s .code 0 0 n hn
  rw [Nat.sub_zero] at hend
  have hmem : (0 : UInt8) ∈ s := List.mem_of_getElem? hend
  obtain ⟨k, hk⟩ := strlen_some hmem
  obtain ⟨h1, h2, h3⟩ := strlen_zero hk
  have hkn : k < n := by
    apply Nat.lt_of_not_le
    intro hc
    apply h3
    have : (s.take k)[n - 1]? = some 0 := by rw [List.getElem?_take, if_pos (by omega), hend]
    exact List.mem_of_getElem? this
  have hdl : (s.take n).dropLast = s.take (n - 1) := by rw [List.dropLast_eq_take, List.take_take, List.length_take]; congr 1; omega
  refine ⟨s.take k ++ [0], by simp [strSave, h0, hp, hk, alloc], fun hnot => ?_, fun hin => ?_⟩
  · have : k + 1 = n := by
      apply Classical.byContradiction
      intro hc
      apply hnot
      rw [hdl]
      have : (0 : UInt8) ∈ s.take (k + 1) := by rw [← h1]; simp
      exact (List.take_subset_take_left s (show k + 1 ≤ n - 1 by omega)) this
    rw [h1, this]
    exact ⟨rfl, by simpa using wdscan_take hn []⟩
  · rw [h1]
    apply scan_prefix hn
    apply Nat.lt_of_not_le
    intro hc
    rw [hdl] at hin
    exact h3 ((List.take_subset_take_left s (show n - 1 ≤ k by omega)) hin)

/-! ## The timed command -/

/-- The tree that is left: a string, if there was none. -/
def timed : T → T
  | .nil => .nil
  | .node ty ev ln str vars args io l r => .node ty ev ln (some (str.getD [])) vars args io l r

/-- The word of a `case` contains no 0 before its end, that is, no expansions. -/
def caseOk : T → Prop
  | .nil => True
  | .node ty _ _ str _ _ _ _ _ => ty = TCASE → ∀ w, str = some w → (0 : UInt8) ∉ w.dropLast

/-- Full statement: `time` leaves every timed command as it is (but for the flags, an empty string
where there was none).  It is false for a `case` whose word has an expansion (`timed_case_lost`), so
that this is less. -/
theorem timed_command_kept_partial (t : T) (h : Heap) (p : Nat) (l : List Nat) (w : WF h) (hp : Rep h.mem p t l) (hl : l.Nodup) (ht : t ≠ .nil)
    (hc : caseOk t) : ∃ h' l', timeStr h p = some h' ∧ Rep h'.mem p (timed t) l' := by
  cases t with
  | nil => exact absurd rfl ht
  | node ty ev ln str vars args io left right =>
    obtain ⟨h0, o, l1, l2, l3, l4, l5, l6, ho, e1, e2, e3, s1, s2, s3, s4, s5, s6, rfl⟩ := hp
    have hlive := rep_live (m := h.mem) (p := p) (t := .node ty ev ln str vars args io left right)
      ⟨h0, o, l1, l2, l3, l4, l5, l6, ho, e1, e2, e3, s1, s2, s3, s4, s5, s6, rfl⟩
    have hnot : ∀ a ∈ l1 ++ l2 ++ l3 ++ l4 ++ l5 ++ l6, a ≠ p := by
      intro a ha he
      subst he
      exact (List.nodup_append.1 hl).2.2 a ha a (by simp) rfl
    have fin : ∀ (s' : Bytes), (∀ m : Mem, m h.next = some (.bytes s') → ∃ k, StrRep m ty h.next (some (str.getD [])) k) →
        ∃ l', Rep (store (alloc h (.bytes s')).1 p (.op { o with str := h.next })).mem p (timed (.node ty ev ln str vars args io left right)) l' := by
      intro s' hs
      have hpn : p < h.next := lt_of_live w (by rw [ho]; rfl)
      have hfr : ∀ a ∈ l1 ++ l2 ++ l3 ++ l4 ++ l5 ++ l6, (store (alloc h (.bytes s')).1 p (.op { o with str := h.next })).mem a = h.mem a := by
        intro a ha
        have h1 : a < h.next := lt_of_live w (hlive a (List.mem_append_left _ ha)).2
        have h2 := hnot a ha
        simp [store, alloc, upd, h2, Nat.ne_of_lt h1]
      obtain ⟨k, hk⟩ := hs (store (alloc h (.bytes s')).1 p (.op { o with str := h.next })).mem (by simp [store, alloc, upd, (Nat.ne_of_lt hpn).symm])
      refine ⟨_, h0, { o with str := h.next }, k, l2, l3, l4, l5, l6, by simp [store, upd], e1, e2, e3, hk,
        arrRep_frame s2 fun a ha => hfr a (by simp [ha]), arrRep_frame s3 fun a ha => hfr a (by simp [ha]), iosRep_frame s4 fun a ha => hfr a (by simp [ha]),
        rep_frame s5 fun a ha => hfr a (by simp [ha]), rep_frame s6 fun a ha => hfr a (by simp [ha]), rfl⟩
    have hw0 : h.next ≠ 0 := by
      have : p < h.next := lt_of_live w (by rw [ho]; rfl)
      omega
    unfold timeStr
    rw [ho]
    simp only
    by_cases hty : ty = TCASE
    · simp only [StrRep, if_pos hty] at s1
      cases str with
      | none => simp at s1
      | some v =>
        obtain ⟨-, hs0, ⟨s, n, hm, hn, hv⟩, -⟩ := s1
        rw [if_pos hs0]
        obtain ⟨s', h1, h2, -⟩ := saved_word hs0 hm hn
        obtain ⟨h3, h4⟩ := h2 (by rw [← hv]; exact hc hty v rfl)
        obtain ⟨l', hl'⟩ := fin s' (fun m hm => ⟨[h.next], by
          simp only [StrRep, if_pos hty]
          exact ⟨rfl, hw0, ⟨s', n, hm, h4, by rw [h3, List.take_take, Nat.min_self]; exact hv⟩, rfl⟩⟩)
        exact ⟨_, l', by rw [h1]; rfl, hl'⟩
    · simp only [StrRep, if_neg hty] at s1
      cases str with
      | none =>
        obtain ⟨hs0, -⟩ := s1
        rw [if_neg (by simp [hs0])]
        obtain ⟨l', hl'⟩ := fin [0, 0] (fun m hm => ⟨[h.next], by
          simp only [StrRep, if_neg hty]
          exact ⟨hw0, ⟨[0], hm, by simp⟩, rfl⟩⟩)
        exact ⟨_, l', rfl, hl'⟩
      | some v =>
        obtain ⟨hs0, ⟨r, hm, hv⟩, -⟩ := s1
        rw [if_pos hs0]
        obtain ⟨l', hl'⟩ := fin (v ++ [0]) (fun m hm => ⟨[h.next], by
          simp only [StrRep, if_neg hty]
          exact ⟨hw0, ⟨[], hm, hv⟩, rfl⟩⟩)
        refine ⟨_, l', ?_, hl'⟩
        simp [strSave, hs0, hm, strlen_append hv, alloc]

/-- The word `$x`: `OSUBST`, a mark, the name and a 0, `CSUBST`, a mark, `EOS`. -/
def dollarX : Bytes := [OSUBST, 88, 120, 0, CSUBST, 88, EOS]

/-- Memory with `case $x in esac`. -/
def caseHeap : Heap := ⟨fun a => if a = 1 then some (.bytes dollarX) else if a = 2 then some (.op ⟨TCASE, 0, 0, 0, 0, 0, 0, 1, 0⟩) else none, 3⟩

/-- `time case $x in ... esac`: before, the tree has its word; afterwards any scan of the word runs
over the end of its memory. -/
theorem timed_case_lost : Rep caseHeap.mem 2 (.node TCASE 0 0 (some dollarX) none none none .nil .nil) [1, 2] ∧
    ∃ h' o s, timeStr caseHeap 2 = some h' ∧ h'.mem 2 = some (.op o) ∧ h'.mem o.str = some (.bytes s) ∧ wdscan s EOS = none ∧
      ¬ ∃ t l, Rep h'.mem 2 t l := by
  constructor
  · exact ⟨by decide, ⟨TCASE, 0, 0, 0, 0, 0, 0, 1, 0⟩, [1], [], [], [], [], [], rfl, rfl, rfl, rfl,
      by simp only [StrRep]; exact ⟨rfl, by decide, ⟨dollarX, 7, rfl, by decide, rfl⟩, rfl⟩, ⟨rfl, rfl⟩, ⟨rfl, rfl⟩, ⟨rfl, rfl⟩, ⟨rfl, rfl⟩, ⟨rfl, rfl⟩, rfl⟩
  · refine ⟨_, ⟨TCASE, 0, 0, 0, 0, 0, 0, 3, 0⟩, [OSUBST, 88, 120, 0], rfl, rfl, rfl, by decide, ?_⟩
    rintro ⟨t, l, ht⟩
    cases t with
    | nil => exact absurd ht.1 (by decide)
    | node ty ev ln str vars args io left right =>
      obtain ⟨-, o, l1, l2, l3, l4, l5, l6, ho, e1, -, -, s1, -⟩ := ht
      have : o = ⟨TCASE, 0, 0, 0, 0, 0, 0, 3, 0⟩ := by
        have h : (some (Obj.op ⟨TCASE, 0, 0, 0, 0, 0, 0, 3, 0⟩) : Option Obj) = some (.op o) := ho
        cases h; rfl
      subst this
      have hty : ty = TCASE := e1.symm
      subst hty
      simp only [StrRep, if_true] at s1
      cases str with
      | none => simp at s1
      | some v =>
        obtain ⟨-, -, ⟨s, n, hm, hn, -⟩, -⟩ := s1
        have h : (some (Obj.bytes [OSUBST, 88, 120, 0]) : Option Obj) = some (.bytes s) := hm
        cases h
        have : (none : Option Nat) = some n := hn
        cases this

/-- Plain words are kept: `time case x in ... esac`. -/
example : caseOk (.node TCASE 0 0 (some [CHAR, 120, EOS]) none none none .nil .nil) := by
  intro _ w hw; cases hw; decide

/-! ## The reports -/

/-- What the words ask for: the options found in them by the rules of C22. -/
def asked (wp : List Getopt.Arg) : Flags :=
  ⟨(Getopt.scan false [':', 'p'] false [] wp).2.isEmpty, !(Getopt.scan false [':', 'p'] false [] wp).1.isEmpty⟩

def valid (wp : List Getopt.Arg) : Bool := (Getopt.scan false [':', 'p'] false [] wp).1.all (fun e => e.ret = 'p')

/-- One run: the flags asked for are added to those of the tree; options are removed from the words. -/
theorem hook_spec (wp : List Getopt.Arg) : ∃ N, ∀ n ≥ N, ∀ f, timexHook n f wp =
    if valid wp then some (f.or (asked wp), (Getopt.scan false [':', 'p'] false [] wp).2) else none := by
  have hat : Getopt.At wp { Getopt.reset with optind := 0 } [] wp := ⟨by simp, by simp [Getopt.reset], by simp [Getopt.reset]⟩
  obtain ⟨g', hg⟩ := Getopt.run_spec false [':', 'p'] wp _ _ [] wp (Nat.le_refl _) hat
  refine ⟨Getopt.size [] wp + 1, fun n hn f => ?_⟩
  obtain ⟨h1, h2⟩ := hg n hn
  unfold timexHook
  rw [h1]
  simp only [h2]
  rfl

/-- The format of each report is what any run up to this one asked for, not only this one. -/
theorem reports_accumulate : ∀ (ws : List (List Getopt.Arg)), ws.all valid = true → ∃ N, ∀ n ≥ N, ∀ f,
    reports n f ws = (List.range ws.length).map fun i => (ws.take (i + 1)).foldl (fun g w => g.or (asked w)) f
  | [], _ => ⟨0, fun _ _ _ => rfl⟩
  | w :: r, h => by
    simp only [List.all_cons, Bool.and_eq_true] at h
    obtain ⟨N1, h1⟩ := hook_spec w
    obtain ⟨N2, h2⟩ := reports_accumulate r h.2
    refine ⟨max N1 N2, fun n hn f => ?_⟩
    unfold reports
    rw [h1 n (by omega) f, if_pos h.1]
    simp only
    rw [h2 n (by omega), List.length_cons, List.range_succ_eq_map]
    simp

/-- Full statement: each report has the format its own words ask for.  Only the first one does. -/
theorem first_report_partial (w : List Getopt.Arg) (hw : valid w = true) : ∃ N, ∀ n ≥ N, reports n .none [w] = [asked w] := by
  obtain ⟨N, h⟩ := reports_accumulate [w] (by simp [hw])
  refine ⟨N, fun n hn => ?_⟩
  rw [h n hn]
  simp [List.range_succ, Flags.or, Flags.none]

/-- `for o in -p ''; do time $o ls; done`: the second report is in the POSIX format as well; and once there was
no command, the times of the shell are reported for good. -/
theorem report_sticks :
    reports 20 .none [[['-', 'p'], ['l', 's']], [['l', 's']]] = [⟨false, true⟩, ⟨false, true⟩] ∧ asked [['l', 's']] = ⟨false, false⟩ ∧
    reports 20 .none [[], [['l', 's']]] = [⟨true, false⟩, ⟨true, false⟩] := by
  refine ⟨by decide +kernel, ?_, by decide +kernel⟩
  simp [asked, Getopt.scan, Getopt.optionLike]

example : valid [['-', 'p', 'x'], ['l', 's']] = false := by
  simp [valid, Getopt.scan, Getopt.optionLike, Getopt.kind]

end Ksh.Time
