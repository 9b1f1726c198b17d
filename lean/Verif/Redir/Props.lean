import Verif.Redir.Lemmas

/-!
# C32: redirections are undone after each command

`redirections_undone_partial` is the property for every command built from simple commands,
redirections and sequences, with every outcome of every system call: the whole table is as before.
The full statement has no alternative and no hypothesis about the limit; both are needed, because
the property is false without them:
* when no descriptor is left to save the unit, the one just opened is never closed
  (`open_file_leaks`); at most one such descriptor stays open;
* when the limit is lowered below the unit meanwhile, the unit cannot be restored
  (`lowered_limit_keeps_redirection`);
* descriptors above 32767 do not fit the table of saved descriptors (`wide_descriptor_lost`).

`exec` with no arguments changes the table on purpose: `exec_applies`, and `units_come_back` says
that an enclosing command still restores its units.
-/

namespace Ksh.Redir

variable {F : Type}

/-- No `exec` in the command. -/
def NoExec : Cmd F → Prop
  | .simple => True
  | .limit _ => True
  | .seq a b => NoExec a ∧ NoExec b
  | .redir _ _ c => NoExec c
  | .exec _ => False

/-- The limits the command sets allow all digits and fit a `short`. -/
def Limits : Cmd F → Prop
  | .simple => True
  | .limit n => 10 ≤ n ∧ n ≤ 32768
  | .seq a b => Limits a ∧ Limits b
  | .redir _ _ c => Limits c
  | .exec _ => True

/-- Bodies never touch the numbers where saved descriptors are. -/
theorem run_safe (O : Oracle F) : ∀ (c : Cmd F) (k : K F), Limits c → 10 ≤ k.lim → k.lim ≤ 32768 →
    (10 ≤ (run O c k).2.lim ∧ (run O c k).2.lim ≤ 32768) ∧ (∀ n, 10 ≤ n → k.tab n ≠ none → (run O c k).2.tab n = k.tab n) ∧
    ((run O c k).1 ≠ .tooMany → ∀ n, 10 ≤ n → (run O c k).2.tab n = k.tab n)
  | .simple, k, _, h1, h2 => ⟨⟨h1, h2⟩, fun _ _ _ => rfl, fun _ _ _ => rfl⟩
  | .limit n, k, hc, h1, h2 => by
    simp only [run]; split
    · exact ⟨hc, fun _ _ _ => rfl, fun _ _ _ => rfl⟩
    · exact ⟨⟨h1, h2⟩, fun _ _ _ => rfl, fun _ _ _ => rfl⟩
  | .seq a b, k, hc, h1, h2 => by
    have ha := run_safe O a k hc.1 h1 h2
    simp only [run]
    rcases e : run O a k with ⟨r, k'⟩
    rw [e] at ha
    have next : r ≠ .tooMany → (10 ≤ (run O b k').2.lim ∧ (run O b k').2.lim ≤ 32768) ∧ (∀ n, 10 ≤ n → k.tab n ≠ none → (run O b k').2.tab n = k.tab n) ∧
        ((run O b k').1 ≠ .tooMany → ∀ n, 10 ≤ n → (run O b k').2.tab n = k.tab n) := by
      intro hr
      have hb := run_safe O b k' hc.2 ha.1.1 ha.1.2
      refine ⟨hb.1, ?_, ?_⟩
      · intro n hn ho
        have e1 := ha.2.1 n hn ho
        simp only at e1
        rw [hb.2.1 n hn (by rw [e1]; exact ho), e1]
      · intro hr2 n hn
        rw [hb.2.2 hr2 n hn]; exact ha.2.2 hr n hn
    cases r with
    | ok => exact next (by simp)
    | fail => exact next (by simp)
    | jump => exact ha
    | tooMany => exact ha
  | .redir sp rs c, k, hc, h1, h2 => by
    have g := setup_good O (T0 := k.tab) rs (fun _ => 0) k (Inv.start _) h2
    simp only [run]
    rcases e : setup O rs (fun _ => 0) k with ⟨r, sv, k1⟩
    rw [e] at g
    have bad : (10 ≤ (quitenv sv k1).lim ∧ (quitenv sv k1).lim ≤ 32768) ∧ (∀ n, 10 ≤ n → k.tab n ≠ none → (quitenv sv k1).tab n = k.tab n) ∧
        (r ≠ .tooMany → ∀ n, 10 ≤ n → (quitenv sv k1).tab n = k.tab n) := by
      have hl : k1.lim = k.lim := g.lim
      obtain ⟨T1, hT, hi⟩ := g.leak
      have q := quitenv_restores hi (by rw [hl]; exact h1)
      rw [q.1, q.2, hl]
      refine ⟨⟨h1, h2⟩, ?_, ?_⟩
      · intro n hn ho
        rcases hT with rfl | ⟨u, f, hu, rfl⟩
        · rfl
        · exact set_ne _ _ (by rintro rfl; exact ho hu)
      · intro hr n hn
        have q2 := quitenv_restores (g.inv hr) (by rw [hl]; exact h1)
        rw [← q.1, q2.1]
    cases r with
    | ok =>
      have hl : k1.lim = k.lim := g.lim
      have hb := run_safe O c k1 hc (by rw [hl]; exact h1) (by rw [hl]; exact h2)
      rcases e2 : run O c k1 with ⟨r2, k2⟩
      rw [e2] at hb
      simp only [e2] at hb ⊢
      have hinv : Inv k.tab sv k1.tab := g.inv (by simp)
      obtain ⟨T1, hi, h3, h4, h5, h6, h7⟩ := hinv.body k2.tab (by
        intro m hm
        have ⟨a, b, c, d⟩ := hinv.saved m hm
        exact hb.2.1 _ (by omega) (by rw [c]; exact d))
      have q := quitenv_restores hi hb.1.1
      rw [q.1, q.2]
      refine ⟨hb.1, ?_, ?_⟩
      · intro n hn ho
        rcases h7 n with h | ⟨ha, hb2⟩
        · exact h
        · rw [ha, hb.2.1 n hn (by rw [← hb2]; exact ho), hb2]
      · intro hr n hn
        exact h6 n hn (hb.2.2 hr n hn)
    | fail => cases sp <;> exact ⟨bad.1, bad.2.1, fun _ => bad.2.2 (by simp)⟩
    | jump => exact ⟨bad.1, bad.2.1, fun _ => bad.2.2 (by simp)⟩
    | tooMany => exact ⟨bad.1, bad.2.1, fun hr => absurd rfl hr⟩
  | .exec rs, k, hc, h1, h2 => by
    have g := setup_good O (T0 := k.tab) rs (fun _ => 0) k (Inv.start _) h2
    simp only [run]
    rcases e : setup O rs (fun _ => 0) k with ⟨r, sv, k1⟩
    rw [e] at g
    have hl : k1.lim = k.lim := g.lim
    have bad : (10 ≤ (quitenv sv k1).lim ∧ (quitenv sv k1).lim ≤ 32768) ∧ (∀ n, 10 ≤ n → k.tab n ≠ none → (quitenv sv k1).tab n = k.tab n) ∧
        (r ≠ .tooMany → ∀ n, 10 ≤ n → (quitenv sv k1).tab n = k.tab n) := by
      obtain ⟨T1, hT, hi⟩ := g.leak
      have q := quitenv_restores hi (by rw [hl]; exact h1)
      rw [q.1, q.2, hl]
      refine ⟨⟨h1, h2⟩, ?_, ?_⟩
      · intro n hn ho
        rcases hT with rfl | ⟨u, f, hu, rfl⟩
        · rfl
        · exact set_ne _ _ (by rintro rfl; exact ho hu)
      · intro hr n hn
        have q2 := quitenv_restores (g.inv hr) (by rw [hl]; exact h1)
        rw [← q.1, q2.1]
    cases r with
    | ok =>
      have c := commit_keeps (g.inv (by simp))
      simp only at c ⊢
      rw [c.2.2, hl]
      exact ⟨⟨h1, h2⟩, fun n hn _ => c.1 n hn, fun _ => c.1⟩
    | fail => exact ⟨bad.1, bad.2.1, fun _ => bad.2.2 (by simp)⟩
    | jump => exact ⟨bad.1, bad.2.1, fun _ => bad.2.2 (by simp)⟩
    | tooMany => exact ⟨bad.1, bad.2.1, fun hr => absurd rfl hr⟩

/-- **C32.** Whatever the system calls answer, the table is as before; the one exception is that
the shell fails with `too many files open in shell`, and then at most one file more is open. -/
theorem redirections_undone_partial (O : Oracle F) : ∀ (c : Cmd F) (k : K F), NoExec c → Limits c → 10 ≤ k.lim → k.lim ≤ 32768 →
    (run O c k).2.tab = k.tab ∨ ((run O c k).1 = .tooMany ∧ ∃ u f, k.tab u = none ∧ (run O c k).2.tab = set k.tab u (some f))
  | .simple, k, _, _, _, _ => .inl rfl
  | .limit n, k, _, _, _, _ => by simp only [run]; split <;> exact .inl rfl
  | .seq a b, k, he, hc, h1, h2 => by
    have ha := redirections_undone_partial O a k he.1 hc.1 h1 h2
    have hs := (run_safe O a k hc.1 h1 h2).1
    simp only [run]
    rcases e : run O a k with ⟨r, k'⟩
    rw [e] at ha hs
    have next : r ≠ .tooMany → (run O b k').2.tab = k.tab ∨ ((run O b k').1 = .tooMany ∧ ∃ u f, k.tab u = none ∧ (run O b k').2.tab = set k.tab u (some f)) := by
      intro hr
      have e1 : k'.tab = k.tab := by
        rcases ha with h | ⟨h, _⟩
        · exact h
        · exact absurd h hr
      have hb := redirections_undone_partial O b k' he.2 hc.2 hs.1 hs.2
      rw [e1] at hb; exact hb
    cases r with
    | ok => exact next (by simp)
    | fail => exact next (by simp)
    | jump => exact ha
    | tooMany => exact ha
  | .redir sp rs c, k, he, hc, h1, h2 => by
    have g := setup_good O (T0 := k.tab) rs (fun _ => 0) k (Inv.start _) h2
    simp only [run]
    rcases e : setup O rs (fun _ => 0) k with ⟨r, sv, k1⟩
    rw [e] at g
    have hl : k1.lim = k.lim := g.lim
    have bad : r ≠ .tooMany → (quitenv sv k1).tab = k.tab := by
      intro hr; exact (quitenv_restores (g.inv hr) (by rw [hl]; exact h1)).1
    cases r with
    | ok =>
      have hs := run_safe O c k1 hc (by rw [hl]; exact h1) (by rw [hl]; exact h2)
      have hb := redirections_undone_partial O c k1 he hc (by rw [hl]; exact h1) (by rw [hl]; exact h2)
      rcases e2 : run O c k1 with ⟨r2, k2⟩
      rw [e2] at hs hb
      simp only [e2] at hs hb ⊢
      have hinv : Inv k.tab sv k1.tab := g.inv (by simp)
      rcases hb with hb | ⟨hr, u, f, hu, hb⟩
      · left
        rw [← hb] at hinv
        exact (quitenv_restores hinv hs.1.1).1
      · obtain ⟨T1, hi, hT⟩ := hinv.hold hu f
        rw [← hb] at hi
        rw [(quitenv_restores hi hs.1.1).1]
        rcases hT with ⟨rfl, _, _⟩ | ⟨h3, h4, _⟩
        · exact .inl rfl
        · exact .inr ⟨hr, u, f, h3, h4⟩
    | fail => exact .inl (bad (by simp))
    | jump => exact .inl (bad (by simp))
    | tooMany =>
      obtain ⟨T1, hT, hi⟩ := g.leak
      have q := (quitenv_restores hi (by rw [hl]; exact h1)).1
      simp only; rw [q]
      rcases hT with rfl | ⟨u, f, hu, rfl⟩
      · exact .inl rfl
      · exact .inr ⟨trivial, u, f, hu, rfl⟩
  | .exec rs, k, he, _, _, _ => he.elim

/-- While the command runs, the units are what the redirections say, applied from left to right. -/
theorem applied_left_to_right (O : Oracle F) (rs : List (Redir F)) (k : K F) (sv k1) (hl : k.lim ≤ 32768)
    (h : setup O rs (fun _ => 0) k = (.ok, sv, k1)) : ∀ n, n < 10 → k1.tab n = see rs k.tab n := by
  have g := setup_good O (T0 := k.tab) rs (fun _ => 0) k (Inv.start _) hl
  rw [h] at g
  exact g.sees rfl

/-- `exec` makes the redirections permanent and leaves no saved descriptor behind. -/
theorem exec_applies (O : Oracle F) (rs : List (Redir F)) (k : K F) (hl : k.lim ≤ 32768) (h : (run O (.exec rs) k).1 = .ok) :
    (∀ n, n < 10 → (run O (.exec rs) k).2.tab n = see rs k.tab n) ∧ ∀ n, 10 ≤ n → (run O (.exec rs) k).2.tab n = k.tab n := by
  have g := setup_good O (T0 := k.tab) rs (fun _ => 0) k (Inv.start _) hl
  simp only [run] at h ⊢
  rcases e : setup O rs (fun _ => 0) k with ⟨r, sv, k1⟩
  rw [e] at g h
  cases r with
  | ok =>
    have c := commit_keeps (g.inv (by simp))
    exact ⟨fun n hn => by rw [c.2.1 n hn]; exact g.sees rfl n hn, c.1⟩
  | fail => cases h
  | jump => cases h
  | tooMany => cases h

/-- An `exec` whose redirections fail changes nothing. -/
theorem exec_fails (O : Oracle F) (rs : List (Redir F)) (k : K F) (h1 : 10 ≤ k.lim) (hl : k.lim ≤ 32768) (h : (run O (.exec rs) k).1 = .fail) :
    (run O (.exec rs) k).2.tab = k.tab := by
  have g := setup_good O (T0 := k.tab) rs (fun _ => 0) k (Inv.start _) hl
  simp only [run] at h ⊢
  rcases e : setup O rs (fun _ => 0) k with ⟨r, sv, k1⟩
  rw [e] at g h
  have hlim : k1.lim = k.lim := g.lim
  cases r with
  | fail => exact (quitenv_restores (g.inv (by simp)) (by rw [hlim]; exact h1)).1
  | ok => cases h
  | jump => cases h
  | tooMany => cases h

/-- Even when the command itself runs `exec`, the redirected units come back, and no descriptor
above 9 appears or disappears. -/
theorem units_come_back (O : Oracle F) (sp : Bool) (rs : List (Redir F)) (c : Cmd F) (k : K F) (hc : Limits c) (h1 : 10 ≤ k.lim) (h2 : k.lim ≤ 32768)
    (hr : (run O (.redir sp rs c) k).1 ≠ .tooMany) :
    (∀ n, (∃ r ∈ rs, hit r n) → (run O (.redir sp rs c) k).2.tab n = k.tab n) ∧
    ∀ n, 10 ≤ n → (run O (.redir sp rs c) k).2.tab n = k.tab n := by
  refine ⟨?_, (run_safe O (.redir sp rs c) k hc h1 h2).2.2 hr⟩
  have g := setup_good O (T0 := k.tab) rs (fun _ => 0) k (Inv.start _) h2
  simp only [run] at hr ⊢
  rcases e : setup O rs (fun _ => 0) k with ⟨r, sv, k1⟩
  rw [e] at g hr
  have hl : k1.lim = k.lim := g.lim
  have bad : r ≠ .tooMany → (quitenv sv k1).tab = k.tab := by
    intro hr; exact (quitenv_restores (g.inv hr) (by rw [hl]; exact h1)).1
  cases r with
  | ok =>
    intro n hn
    have hs := run_safe O c k1 hc (by rw [hl]; exact h1) (by rw [hl]; exact h2)
    rcases e2 : run O c k1 with ⟨r2, k2⟩
    rw [e2] at hs
    simp only [e2] at hs ⊢
    have hinv : Inv k.tab sv k1.tab := g.inv (by simp)
    obtain ⟨T1, hi, h3, _⟩ := hinv.body k2.tab (by
      intro m hm
      have ⟨a, b, c, d⟩ := hinv.saved m hm
      exact hs.2.1 _ (by omega) (by rw [c]; exact d))
    rw [(quitenv_restores hi hs.1.1).1]
    exact h3 n (g.hits rfl n hn)
  | fail => intro n _; exact congrFun (bad (by simp)) n
  | jump => intro n _; exact congrFun (bad (by simp)) n
  | tooMany => exact absurd rfl hr

/-! ## Where the code falls short -/

/-- Nothing fails. -/
def fine : Oracle Nat := ⟨fun _ => true, fun _ => true, fun _ => true, fun _ => true, fun _ => true, fun _ => true, fun _ => true, 99⟩

/-- Standard input, output and error are open. -/
def std (lim : Nat) : K Nat := ⟨fun n => if n < 3 then some n else none, lim, 0⟩

/-- With `ulimit -n 10`, `echo hi >x` fails with "too many files open in shell" and leaves the new
file open as descriptor 3. -/
theorem open_file_leaks : (run fine (.redir false [.file 1 50] .simple) (std 10)).1 = .tooMany ∧
    (run fine (.redir false [.file 1 50] .simple) (std 10)).2.tab 3 = some 50 := by decide +kernel

/-- `{ ulimit -n 5; } 7>x` leaves descriptor 7 redirected, and the file it was open on is lost. -/
theorem lowered_limit_keeps_redirection :
    let k : K Nat := ⟨fun n => if n < 3 then some n else if n = 7 then some 70 else none, 64, 0⟩
    let k' := (run fine (.redir false [.file 7 50] (.limit 5)) k).2
    k.tab 7 = some 70 ∧ k'.tab 7 = some 50 ∧ k'.tab 10 = none := by decide +kernel

theorem wide_lost (k : K Nat) (h1 : k.tab 1 = some 1) (hf : k.free 10 = some 65536) :
    (run fine (.redir false [.close 1] .simple) k).2.tab 1 = none := by
  have hs : savefd fine 1 k = (some 0, { k.tick with tab := set k.tab 65536 (k.tab 1) }) := by
    unfold savefd
    rw [h1, hf]
    simp [fine, toShort]
  have hset : setup fine [.close 1] (fun _ => 0) k = (.ok, upd (fun _ => 0) 1 0, kclose 1 { k.tick with tab := set k.tab 65536 (k.tab 1) }) := by
    simp only [setup, iosetup, if_true]
    have : ((1 : Fin 10) : Nat) = 1 := rfl
    rw [this, hs]
  simp only [run]
  rw [hset]
  have hz : upd (fun _ => 0) 1 0 = fun _ => (0 : Int) := by funext m; simp [upd]
  have hfold : ∀ (l : List Nat) (k : K Nat), l.foldl (fun k _ => k) k = k := by
    intro l; induction l with
    | nil => intro k; rfl
    | cons a l ih => intro k; exact ih k
  simp [hz, quitenv, kclose, K.tick, hfold, set]

/-- If the lowest free number is 65536, the saved descriptor is stored as 0, which means not saved:
the redirection stays after the command. -/
theorem wide_descriptor_lost : ∃ k : K Nat, k.tab 1 = some 1 ∧ (run fine (.redir false [.close 1] .simple) k).2.tab 1 = none := by
  refine ⟨⟨fun n => if n < 3 ∨ (10 ≤ n ∧ n < 65536) then some n else none, 70000, 0⟩, by decide, ?_⟩
  refine wide_lost _ (by decide) (free_unique (by omega) (by simp) (by simp) ?_)
  intro m h1 h2
  simp only
  rw [if_pos (.inr ⟨h1, h2⟩)]; simp

/-! ## Examples -/

/-- The open files on the first `n` numbers. -/
def low (n : Nat) (k : K Nat) : List (Option Nat) := (List.range n).map k.tab

-- `{ cmd 3>&1 1>x 2>&1 <<E; } >y 1>&-`, all restored
example : (run fine (.redir false [.file 1 60, .close 1] (.redir false [.dup 3 1, .file 1 50, .dup 2 1, .here 0 40] .simple)) (std 64)).1 = .fail := by decide +kernel
example : low 12 (run fine (.redir false [.file 1 60, .close 5] (.redir false [.dup 3 1, .here 0 40] .simple)) (std 64)).2 =
    low 12 (std 64) := by decide +kernel
-- swapping output and error: the order matters
example : (setup fine [.dup 3 1, .dup 1 2, .dup 2 3, .close 3] (fun _ => 0) (std 64)).2.2.tab 1 = some 2 := by decide +kernel
example : (see [.dup 3 1, .dup 1 2, .dup 2 3, .close 3] (std 64).tab) 2 = some 1 := by decide +kernel
-- `exec 3>x 1>&-` inside a command whose output is redirected: 3 stays, 1 comes back
example : low 12 (run fine (.redir false [.file 1 60] (.exec [.file 3 50, .close 1])) (std 64)).2 =
    [some 0, some 1, some 2, some 50, none, none, none, none, none, none, none, none] := by decide +kernel

end Ksh.Redir
