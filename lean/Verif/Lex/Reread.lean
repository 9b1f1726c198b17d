import Verif.Lex.Lemmas
import Verif.Subst.Model
/-!
# C49: the text printed for a word means the same word

`typeset -f` prints the words of a function with `tputS`.  Here the printed text is given back to the lexer.

`norm` below says when two words are the same: they may differ only in how a character between double
quotes is stored, as `CHAR` or as `QCHAR`.  `same_expansion` shows that `expand` makes the same of both.
-/

namespace Ksh.Lex

/-- Spec: a word in which every character that `expand` takes as quoted is a `QCHAR`.  `k` are the values of
`quote` to be restored at the ends of the substitutions, `o` is true where the operator of a substitution may
stand, `q` is `quote`. -/
def norm : List Bool → Bool → Bool → List Sym → List Sym
  | _, _, _, [] => []
  | k, o, q, .chr c :: w =>
    if o then .chr c :: norm k (c = ':') (if c = '#' ∨ c = '%' then false else q) w
    else (if q then .qchr c else .chr c) :: norm k false q w
  | k, _, _, .oq :: w => .oq :: norm k false true w
  | k, _, _, .cq :: w => .cq :: norm k false false w
  | k, _, q, .osub b n :: w => .osub b n :: norm (q :: k) true q w
  | k, _, _, .csub b :: w => .csub b :: norm k.tail false (k.headD false) w
  | k, _, q, x :: w => x :: norm k false q w

/-- Characters `tputC` prints as themselves. -/
def Printable (c : Char) : Prop := tputC c = [c]

/-- `${name op word}`: the operators. -/
def isOp (o : Char) : Bool := ['-', '=', '?', '+', '#', '%'].contains o

/-- `quote` inside the word of a substitution with this operator -/
def quoteIn (o : Char) (nq : Bool) : Bool := if o = '#' ∨ o = '%' then false else nq

/-- If `c` could begin a pattern, no parenthesis follows. -/
def Ahead (k : Ctx) (c : Char) (i : List Char) : Prop := k.pats = true → patChar c = true → i.head? ≠ some '('

/-- Words whose printed text, with `rest` behind it, can be read.  The list is the nesting, with the value of
`quote` outside of each `${..}`; then `quoted` of `tputS`, and `quote` of `expand`. -/
inductive Good (rest : List Char) : List (Ctx × Bool) → Bool → Bool → List Sym → Prop
  | nil {b q nq} : Good rest [(.base, b)] q nq []
  | chr {k b ks q nq c w} : Plain k c → Printable c → Ahead k c (tputS q w ++ rest) →
      Good rest ((k, b) :: ks) q nq w → Good rest ((k, b) :: ks) q nq (.chr c :: w)
  /-- a lone `$` -/
  | dollar {k b ks q nq w} : NoVar (tputS q w ++ rest) →
      Good rest ((k, b) :: ks) q nq w → Good rest ((k, b) :: ks) q nq (.chr '$' :: w)
  /-- a backslash that quotes nothing -/
  | bs {b ks q nq d w} : Printable d → d ≠ '"' ∧ d ≠ '\\' ∧ d ≠ '$' ∧ d ≠ '`' →
      Good rest ((.dq, b) :: ks) q nq w → Good rest ((.dq, b) :: ks) q nq (.chr '\\' :: .chr d :: w)
  /-- a quoted character printed with a backslash -/
  | esc {k b ks q nq c w} : Printable c → (q = false ∨ c = '"' ∨ c = '`' ∨ c = '$') →
      (k = .dq → c = '"' ∨ c = '\\' ∨ c = '$' ∨ c = '`') →
      Good rest ((k, b) :: ks) q nq w → Good rest ((k, b) :: ks) q nq (.qchr c :: w)
  /-- a quoted character printed without -/
  | bare {k b ks c w} : Plain k c → Printable c → Ahead k c (tputS true w ++ rest) →
      Good rest ((k, b) :: ks) true true w → Good rest ((k, b) :: ks) true true (.qchr c :: w)
  | com {k b ks q nq s w} : (∀ c ∈ s, Printable c) → s.head? ≠ some '(' → CsOk 1 0 s →
      Good rest ((k, b) :: ks) q nq w → Good rest ((k, b) :: ks) q nq (.com s :: w)
  | exp {k b ks q nq s w} : (∀ c ∈ s, Printable c ∧ c ≠ '\\') → AsOk 2 s →
      Good rest ((k, b) :: ks) q nq w → Good rest ((k, b) :: ks) q nq (.exp s :: w)
  /-- `$1`, `$?` -/
  | special {k b ks q nq c w} : (var1 c || digit c) = true → Printable c →
      Good rest ((k, b) :: ks) q nq w → Good rest ((k, b) :: ks) q nq (.osub false [c] :: .csub false :: w)
  /-- `$name` -/
  | name {k b ks q nq c r w} : alpha c = true → (∀ x ∈ r, letnum x = true) → (∀ x ∈ c :: r, Printable x) →
      (∀ d ∈ (tputS q w ++ rest).head?, letnum d = false) →
      Good rest ((k, b) :: ks) q nq w → Good rest ((k, b) :: ks) q nq (.osub false (c :: r) :: .csub false :: w)
  /-- `${name}` -/
  | brace {k b ks q nq n w} : BraceName '}' n → (∀ x ∈ n, Printable x) →
      Good rest ((k, b) :: ks) q nq w → Good rest ((k, b) :: ks) q nq (.osub true n :: .csub true :: w)
  /-- `${name op` and `${name:op` -/
  | osub {k b ks q nq n o w} (colon : Bool) : isOp o = true → BraceName (if colon then ':' else o) n → (∀ x ∈ n, Printable x) →
      Ahead (k.enter o) o (tputS q w ++ rest) →
      Good rest ((k.enter o, nq) :: (k, b) :: ks) q (quoteIn o nq) w →
      Good rest ((k, b) :: ks) q nq (.osub true n :: ((if colon then [.chr ':'] else []) ++ .chr o :: w))
  | csub {k b ks q nq w} : (k = .brace ∨ k = .braceq ∨ k = .tbrace) →
      Good rest ks q b w → Good rest ((k, b) :: ks) q nq (.csub true :: w)
  | oq {k b ks q nq w} : k ≠ .dq → Good rest ((.dq, false) :: (k, b) :: ks) true true w →
      Good rest ((k, b) :: ks) q nq (.oq :: w)
  | cq {b ks q nq w} : Good rest ks false false w → Good rest ((.dq, b) :: ks) q nq (.cq :: w)
  | opat {k b ks q nq c w} : k.pats = true → patChar c = true → Good rest ((.pat, false) :: (k, b) :: ks) q nq w →
      Good rest ((k, b) :: ks) q nq (.opat c :: w)
  | spat {k b ks q nq w} : (k = .pat ∨ k = .tbrace) → Good rest ((k, b) :: ks) q nq w → Good rest ((k, b) :: ks) q nq (.spat :: w)
  | cpat {b ks q nq w} : Good rest ks q nq w → Good rest ((.pat, b) :: ks) q nq (.cpat :: w)

/-- the values of `quote` saved -/
def saved : List (Ctx × Bool) → List Bool
  | [] => []
  | (.brace, b) :: ks => b :: saved ks
  | (.braceq, b) :: ks => b :: saved ks
  | (.tbrace, b) :: ks => b :: saved ks
  | _ :: ks => saved ks

def stack (ks : List (Ctx × Bool)) : List St := ks.map (·.1.st)

theorem printable_nl {c} (h : Printable c) : c ≠ '\n' := by rintro rfl; revert h; unfold Printable; decide

theorem tputs_printable : ∀ {s : List Char}, (∀ c ∈ s, Printable c) → tputs s = s
  | [], _ => rfl
  | c :: s, h => by
    have h1 : tputC c = [c] := h c (by simp)
    have h2 : tputs s = s := tputs_printable (fun x hx => h x (by simp [hx]))
    simp only [tputs, List.flatMap_cons, h1] at *
    simp [h2]

/-- nothing printed starts a backslash-newline pair -/
def BsFine (i : List Char) : Prop := ∀ r, i = '\\' :: r → ∃ d r', r = d :: r' ∧ d ≠ '\n'

theorem bsFine_cons {c i} (h : c ≠ '\\') : BsFine (c :: i) := by intro r hr; simp at hr; exact absurd hr.1 h
theorem bsFine_esc {c i} (h : c ≠ '\n') : BsFine ('\\' :: c :: i) := by intro r hr; simp at hr; exact ⟨c, i, hr.symm, h⟩

theorem nameEnd_of {i} (h : ∀ d ∈ i.head?, letnum d = false) (hb : BsFine i) : NameEnd i := by
  cases i with
  | nil => exact Or.inl rfl
  | cons c r =>
    by_cases hc : c = '\\'
    · subst hc
      obtain ⟨d, r', rfl, hd⟩ := hb r rfl
      exact Or.inr (Or.inr ⟨d, r', rfl, hd⟩)
    · exact Or.inr (Or.inl ⟨c, r, rfl, h c (by simp), hc⟩)

theorem safe_of {i} (h : i.head? ≠ some '(') (hb : BsFine i) : Safe i := by
  cases i with
  | nil => exact Or.inl rfl
  | cons c r =>
    by_cases hc : c = '\\'
    · subst hc
      obtain ⟨d, r', rfl, hd⟩ := hb r rfl
      exact Or.inr (Or.inr ⟨d, r', rfl, hd⟩)
    · exact Or.inr (Or.inl ⟨c, r, rfl, by simpa using h, hc⟩)

theorem safe_noVar {i} (h : NoVar i) (hb : BsFine i) : Safe i := by
  refine safe_of ?_ hb
  intro hi
  exact (h '(' (by simp [hi])).1 rfl

theorem bsFine_ends {rest} (h : Ends rest) : BsFine rest := by
  intro r hr
  rcases h with rfl | ⟨r', rfl | rfl | rfl⟩ <;> simp at hr

/-! ## The printed text of each form -/

theorem printed_chr {c q w} (h : Printable c) : tputS q (.chr c :: w) = c :: tputS q w := by
  simp [tputS, show tputC c = [c] from h]
theorem printed_esc {c q w} (h : Printable c) (hq : q = false ∨ c = '"' ∨ c = '`' ∨ c = '$') :
    tputS q (.qchr c :: w) = '\\' :: c :: tputS q w := by
  simp only [tputS, show tputC c = [c] from h]
  rcases hq with rfl | rfl | rfl | rfl <;> simp
theorem printed_bare {c w} {k : Ctx} (h : Printable c) (hp : Plain k c) : tputS true (.qchr c :: w) = c :: tputS true w := by
  simp [tputS, show tputC c = [c] from h, hp.2.1, hp.2.2.1, hp.2.2.2.1]
theorem printed_com {q s w} (h : ∀ c ∈ s, Printable c) : tputS q (.com s :: w) = '$' :: '(' :: (s ++ ')' :: tputS q w) := by
  simp [tputS, tputs_printable h]
theorem printed_exp {q s w} (h : ∀ c ∈ s, Printable c) : tputS q (.exp s :: w) = '$' :: '(' :: '(' :: (s ++ ')' :: ')' :: tputS q w) := by
  simp [tputS, tputs_printable h]
theorem printed_name {q n w} (h : ∀ c ∈ n, Printable c) : tputS q (.osub false n :: .csub false :: w) = '$' :: (n ++ tputS q w) := by
  simp [tputS, tputs_printable h]
theorem printed_osub {q n w} (h : ∀ c ∈ n, Printable c) : tputS q (.osub true n :: w) = '$' :: '{' :: (n ++ tputS q w) := by
  simp [tputS, tputs_printable h]

theorem printable_op {o} (h : isOp o = true) : Printable o ∧ o ≠ '\\' ∧ o ≠ '\n' ∧ o ≠ ':' := by
  simp only [isOp, List.contains_eq_mem, List.mem_cons, List.not_mem_nil, or_false, decide_eq_true_eq] at h
  unfold Printable
  rcases h with rfl | rfl | rfl | rfl | rfl | rfl <;> decide

theorem plain_op {k o} (h : isOp o = true) : Plain (Ctx.enter k o) o := by
  simp only [isOp, List.contains_eq_mem, List.mem_cons, List.not_mem_nil, or_false, decide_eq_true_eq] at h
  rcases h with rfl | rfl | rfl | rfl | rfl | rfl <;> cases k <;> simp [Ctx.enter, Plain]

theorem printed_op {q colon o w} (h : isOp o = true) :
    tputS q ((if colon = true then [.chr ':'] else []) ++ .chr o :: w) = (if colon = true then [':'] else []) ++ o :: tputS q w := by
  cases colon
  · simp [printed_chr (printable_op h).1]
  · simp [printed_chr (printable_op h).1, printed_chr (c := ':') (show Printable ':' by unfold Printable; decide)]

theorem good_bsFine {rest ks q nq w} (hr : Ends rest) (h : Good rest ks q nq w) : BsFine (tputS q w ++ rest) := by
  cases h with
  | nil => simpa [tputS] using bsFine_ends hr
  | chr hp hc _ _ => rw [printed_chr hc]; exact bsFine_cons hp.1
  | dollar _ _ => rw [printed_chr (by unfold Printable; decide)]; exact bsFine_cons (by decide)
  | bs hd _ _ => rw [printed_chr (by unfold Printable; decide), printed_chr hd]; exact bsFine_esc (printable_nl hd)
  | esc hc hq _ _ => rw [printed_esc hc hq]; exact bsFine_esc (printable_nl hc)
  | bare hp hc _ _ => rw [printed_bare hc hp]; exact bsFine_cons hp.1
  | com h _ _ _ => rw [printed_com h]; exact bsFine_cons (by decide)
  | exp h _ _ => rw [printed_exp (fun c hc => (h c hc).1)]; exact bsFine_cons (by decide)
  | special _ h _ => rw [printed_name (by simpa using h)]; exact bsFine_cons (by decide)
  | name _ _ h _ _ => rw [printed_name h]; exact bsFine_cons (by decide)
  | brace _ h _ => rw [printed_osub h]; exact bsFine_cons (by decide)
  | osub _ _ _ h _ _ => rw [printed_osub h]; exact bsFine_cons (by decide)
  | csub _ _ => exact bsFine_cons (by decide)
  | oq _ _ => exact bsFine_cons (by decide)
  | cq _ => exact bsFine_cons (by decide)
  | opat _ hc _ =>
    refine bsFine_cons ?_
    rintro rfl
    revert hc; decide
  | spat _ _ => exact bsFine_cons (by decide)
  | cpat _ => exact bsFine_cons (by decide)

theorem saved_dq {b ks} : saved ((.dq, b) :: ks) = saved ks := rfl
theorem saved_pat {b ks} : saved ((.pat, b) :: ks) = saved ks := rfl
theorem saved_sub {k b ks} (h : k = Ctx.brace ∨ k = .braceq ∨ k = .tbrace) : saved ((k, b) :: ks) = b :: saved ks := by
  rcases h with rfl | rfl | rfl <;> rfl
theorem enter_sub {k o} : Ctx.enter k o = .brace ∨ Ctx.enter k o = .braceq ∨ Ctx.enter k o = .tbrace := by
  unfold Ctx.enter
  split
  · simp
  · cases k <;> simp

theorem norm_op {k q colon o w} (h : isOp o = true) :
    norm k true q ((if colon = true then [.chr ':'] else []) ++ .chr o :: w) =
      (if colon = true then [.chr ':'] else []) ++ .chr o :: norm k false (quoteIn o q) w := by
  have h3 := (printable_op h).2.2.2
  cases colon <;> simp [norm, h3, quoteIn]

/-- The lexer reads the printed text to its end. -/
theorem adv_good {rest} (hr : Ends rest) {ks q nq w} (h : Good rest ks q nq w) : ∀ (skip : Nat) (out : List Sym), skip ≠ 1 →
    ∃ w' skip', skip' ≠ 1 ∧ norm (saved ks) false nq w' = norm (saved ks) false nq w ∧
      Adv ⟨stack ks, tputS q w ++ rest, skip, out⟩ ⟨[.base], rest, skip', out ++ w'⟩ := by
  induction h with
  | nil => intro skip out hs; exact ⟨[], skip, hs, rfl, by simpa [tputS, stack, Ctx.st] using Adv.refl _⟩
  | @chr k b ks q nq c w hp hc ha hg ih =>
    intro skip out hs
    obtain ⟨w', s', h1, h2, h3⟩ := ih 0 (out ++ [.chr c]) (by decide)
    refine ⟨.chr c :: w', s', h1, by simp [norm, h2], ?_⟩
    rw [printed_chr hc]
    refine Adv.trans (adv_char hs hp (fun x y => safe_of (ha x y) (good_bsFine hr hg))) ?_
    simpa [stack] using h3
  | @dollar k b ks q nq w hn hg ih =>
    intro skip out hs
    obtain ⟨w', s', h1, h2, h3⟩ := ih 0 (out ++ [.chr '$']) (by decide)
    refine ⟨.chr '$' :: w', s', h1, by simp [norm, h2], ?_⟩
    rw [printed_chr (by unfold Printable; decide)]
    refine Adv.trans (adv_dollar ⟨k, _, rfl⟩ hs (safe_noVar hn (good_bsFine hr hg)) hn) ?_
    simpa [stack] using h3
  | @bs b ks q nq d w hd hne hg ih =>
    intro skip out hs
    obtain ⟨w', s', h1, h2, h3⟩ := ih 2 (out ++ [.chr '\\', .chr d]) (by decide)
    refine ⟨.chr '\\' :: .chr d :: w', s', h1, by simp [norm, h2], ?_⟩
    rw [printed_chr (by unfold Printable; decide), printed_chr hd]
    refine Adv.trans (adv_dq_bs hs ⟨hne.1, hne.2.1, hne.2.2.1, hne.2.2.2, printable_nl hd⟩) ?_
    simpa [stack, Ctx.st] using h3
  | @esc k b ks q nq c w hc hq hk hg ih =>
    intro skip out hs
    obtain ⟨w', s', h1, h2, h3⟩ := ih 2 (out ++ [.qchr c]) (by decide)
    refine ⟨.qchr c :: w', s', h1, by simp [norm, h2], ?_⟩
    rw [printed_esc hc hq]
    by_cases hd : k = .dq
    · refine Adv.trans (b := ⟨stack ((k, b) :: ks), tputS q w ++ rest, 2, out ++ [.qchr c]⟩) ?_ (by simpa using h3)
      have h4 := hk hd
      subst hd
      exact adv_dq_esc hs h4
    · refine Adv.trans (adv_esc hs hd (printable_nl hc)) ?_
      simpa [stack] using h3
  | @bare k b ks c w hp hc ha hg ih =>
    intro skip out hs
    obtain ⟨w', s', h1, h2, h3⟩ := ih 0 (out ++ [.chr c]) (by decide)
    refine ⟨.chr c :: w', s', h1, by simp [norm, h2], ?_⟩
    rw [printed_bare hc hp]
    refine Adv.trans (adv_char hs hp (fun x y => safe_of (ha x y) (good_bsFine hr hg))) ?_
    simpa [stack] using h3
  | @com k b ks q nq s w hc hp hok hg ih =>
    intro skip out hs
    obtain ⟨w', s', h1, h2, h3⟩ := ih 0 (out ++ [.com s]) (by decide)
    refine ⟨.com s :: w', s', h1, by simp [norm, h2], ?_⟩
    rw [printed_com hc]
    simp only [List.cons_append, List.append_assoc]
    refine Adv.trans (adv_com ⟨k, _, rfl⟩ hs (fun c h => printable_nl (hc c h)) hp hok) ?_
    simpa [stack] using h3
  | @exp k b ks q nq s w hc hok hg ih =>
    intro skip out hs
    obtain ⟨w', s', h1, h2, h3⟩ := ih 0 (out ++ [.exp s]) (by decide)
    refine ⟨.exp s :: w', s', h1, by simp [norm, h2], ?_⟩
    rw [printed_exp (fun c h => (hc c h).1)]
    simp only [List.cons_append, List.append_assoc]
    refine Adv.trans (adv_exp ⟨k, _, rfl⟩ hs (fun c h => (hc c h).2) hok) ?_
    simpa [stack] using h3
  | @special k b ks q nq c w hv hc hg ih =>
    intro skip out hs
    obtain ⟨w', s', h1, h2, h3⟩ := ih 0 (out ++ [.osub false [c], .csub false]) (by decide)
    refine ⟨.osub false [c] :: .csub false :: w', s', h1, by simp [norm, h2], ?_⟩
    rw [printed_name (by simpa using hc)]
    have ha : alpha c = false := by
      rcases (Bool.or_eq_true _ _).mp hv with h | h
      · exact (var1_props h).2.1
      · exact (digit_props h).2.2.1
    refine Adv.trans (adv_special ⟨k, _, rfl⟩ hs hv ha) ?_
    simpa [stack] using h3
  | @name k b ks q nq c r w hc hr' hp hn hg ih =>
    intro skip out hs
    obtain ⟨w', s', h1, h2, h3⟩ := ih 0 (out ++ [.osub false (c :: r), .csub false]) (by decide)
    refine ⟨.osub false (c :: r) :: .csub false :: w', s', h1, by simp [norm, h2], ?_⟩
    rw [printed_name hp]
    simp only [List.cons_append, List.append_assoc]
    refine Adv.trans (adv_name ⟨k, _, rfl⟩ hs hc hr' (nameEnd_of hn (good_bsFine hr hg))) ?_
    simpa [stack] using h3
  | @brace k b ks q nq n w hn hp hg ih =>
    intro skip out hs
    obtain ⟨w', s', h1, h2, h3⟩ := ih 0 (out ++ [.osub true n, .csub true]) (by decide)
    refine ⟨.osub true n :: .csub true :: w', s', h1, by simp [norm, h2], ?_⟩
    rw [printed_osub hp]
    simp only [tputS, if_true, List.cons_append, List.append_assoc, List.nil_append]
    refine Adv.trans (adv_brace ⟨k, _, rfl⟩ hs hn) ?_
    simpa [stack] using h3
  | @osub k b ks q nq n o w colon ho hn hp ha hg ih =>
    intro skip out hs
    obtain ⟨w', s', h1, h2, h3⟩ := ih 0 (out ++ .osub true n :: (if colon then [.chr ':'] else []) ++ [.chr o]) (by decide)
    refine ⟨.osub true n :: ((if colon then [.chr ':'] else []) ++ .chr o :: w'), s', h1, ?_, ?_⟩
    · rw [saved_sub enter_sub] at h2
      simp only [norm, norm_op ho, h2]
    · rw [printed_osub hp, printed_op ho]
      simp only [List.cons_append, List.append_assoc]
      obtain ⟨_, o1, o2, o3⟩ := printable_op ho
      refine Adv.trans (adv_osub hs hn o1 o2 o3) ?_
      refine Adv.trans (adv_char (by decide) (plain_op ho) (fun x y => safe_of (ha x y) (good_bsFine hr hg))) ?_
      simpa [stack] using h3
  | @csub k b ks q nq w hk hg ih =>
    intro skip out hs
    obtain ⟨w', s', h1, h2, h3⟩ := ih 0 (out ++ [.csub true]) (by decide)
    refine ⟨.csub true :: w', s', h1, by simp [norm, saved_sub hk, h2], ?_⟩
    simp only [tputS, if_true, List.cons_append, List.nil_append]
    refine Adv.trans (adv_csub hs hk) ?_
    simpa [stack] using h3
  | @oq k b ks q nq w hk hg ih =>
    intro skip out hs
    obtain ⟨w', s', h1, h2, h3⟩ := ih 0 (out ++ [.oq]) (by decide)
    refine ⟨.oq :: w', s', h1, by simpa [norm, saved_dq] using h2, ?_⟩
    simp only [tputS, List.cons_append]
    refine Adv.trans (adv_oq hs hk) ?_
    simpa [stack, Ctx.st] using h3
  | @cq b ks q nq w hg ih =>
    intro skip out hs
    obtain ⟨w', s', h1, h2, h3⟩ := ih 0 (out ++ [.cq]) (by decide)
    refine ⟨.cq :: w', s', h1, by simpa [norm, saved_dq] using h2, ?_⟩
    simp only [tputS, List.cons_append]
    refine Adv.trans (adv_cq hs) ?_
    simpa [stack, Ctx.st] using h3
  | @opat k b ks q nq c w hk hc hg ih =>
    intro skip out hs
    obtain ⟨w', s', h1, h2, h3⟩ := ih 0 (out ++ [.opat c]) (by decide)
    refine ⟨.opat c :: w', s', h1, by simpa [norm, saved_pat] using h2, ?_⟩
    simp only [tputS, List.cons_append]
    refine Adv.trans (adv_opat hs hk hc) ?_
    simpa [stack, Ctx.st] using h3
  | @spat k b ks q nq w hk hg ih =>
    intro skip out hs
    obtain ⟨w', s', h1, h2, h3⟩ := ih 0 (out ++ [.spat]) (by decide)
    refine ⟨.spat :: w', s', h1, by simp [norm, h2], ?_⟩
    simp only [tputS, List.cons_append]
    refine Adv.trans (adv_spat hs hk) ?_
    simpa [stack] using h3
  | @cpat b ks q nq w hg ih =>
    intro skip out hs
    obtain ⟨w', s', h1, h2, h3⟩ := ih 0 (out ++ [.cpat]) (by decide)
    refine ⟨.cpat :: w', s', h1, by simpa [norm, saved_pat] using h2, ?_⟩
    simp only [tputS, List.cons_append]
    refine Adv.trans (adv_cpat hs) ?_
    simpa [stack, Ctx.st] using h3

/-! ## What `expand` makes of a word -/

section Expansion
variable (nm : List Char → Bool × Subst.Nm) (com arith : List Char → Nat)

/-- The word as `Subst` has it; the names, commands and expressions are numbered in any way. -/
def codes : List Sym → List Subst.Code
  | [] => []
  | .chr c :: w => .char c.toNat :: codes w
  | .qchr c :: w => .qchar c.toNat :: codes w
  | .com s :: w => .com (com s) :: codes w
  | .exp s :: w => .arith (arith s) :: codes w
  | .oq :: w => .oquote :: codes w
  | .cq :: w => .cquote :: codes w
  | .osub _ n :: w => .osubst (nm n).1 (nm n).2 :: codes w
  | .csub _ :: w => .csubst :: codes w
  | .opat c :: w => .opat c.toNat :: codes w
  | .spat :: w => .spat :: codes w
  | .cpat :: w => .cpat :: codes w

/-- Substitutions (`true`) and patterns (`false`) are closed in the order in which they were opened. -/
def Nested : List Bool → List Sym → Prop
  | m, [] => m = []
  | m, .osub _ _ :: w => Nested (true :: m) w
  | m, .opat _ :: w => Nested (false :: m) w
  | true :: m, .csub _ :: w => Nested m w
  | false :: m, .cpat :: w => Nested m w
  | _, .csub _ :: _ => False
  | _, .cpat :: _ => False
  | m, _ :: w => Nested m w

theorem char_toNat {c d : Char} : (c.toNat = d.toNat) = (c = d) := by
  apply propext
  constructor
  · intro h; exact Char.ext (UInt32.toNat_inj.mp h)
  · rintro rfl; rfl

theorem skip_norm : ∀ (w : List Sym) (m m1 : List Bool) (P K : List Bool) (o q q0 : Bool), P.length = m.count true →
    Nested (m ++ true :: m1) w → ∃ w1, w1.length < w.length ∧ Nested m1 w1 ∧
      Subst.skip m.length (codes nm com arith w) = codes nm com arith w1 ∧
      Subst.skip m.length (codes nm com arith (norm (P ++ q0 :: K) o q w)) = codes nm com arith (norm K false q0 w1)
  | [], m, m1, P, K, o, q, q0, _, h => by simp [Nested] at h
  | x :: w, m, m1, P, K, o, q, q0, hP, h => by
    have ih := fun m P o q h1 h2 => skip_norm w m m1 P K o q q0 h1 h2
    have lift : ∀ {w0 : List Sym} {A B : List Subst.Code}, (∃ w1, w1.length < w0.length ∧ Nested m1 w1 ∧ A = codes nm com arith w1 ∧ B = codes nm com arith (norm K false q0 w1)) →
        ∃ w1, w1.length < w0.length + 1 ∧ Nested m1 w1 ∧ A = codes nm com arith w1 ∧ B = codes nm com arith (norm K false q0 w1) := by
      rintro w0 A B ⟨w1, h1, h2⟩
      exact ⟨w1, by omega, h2⟩
    cases x with
    | chr c =>
      have h' : Nested (m ++ true :: m1) w := by simpa [Nested] using h
      cases o with
      | false => cases q <;> simpa [norm, codes, Subst.skip] using lift (ih m P _ _ hP h')
      | true => simpa [norm, codes, Subst.skip] using lift (ih m P _ _ hP h')
    | qchr c => simpa [norm, codes, Subst.skip] using lift (ih m P _ _ hP (by simpa [Nested] using h))
    | com c => simpa [norm, codes, Subst.skip] using lift (ih m P _ _ hP (by simpa [Nested] using h))
    | exp c => simpa [norm, codes, Subst.skip] using lift (ih m P _ _ hP (by simpa [Nested] using h))
    | oq => simpa [norm, codes, Subst.skip] using lift (ih m P _ _ hP (by simpa [Nested] using h))
    | cq => simpa [norm, codes, Subst.skip] using lift (ih m P _ _ hP (by simpa [Nested] using h))
    | spat => simpa [norm, codes, Subst.skip] using lift (ih m P _ _ hP (by simpa [Nested] using h))
    | osub b n =>
      simpa [norm, codes, Subst.skip] using lift (ih (true :: m) (q :: P) true q (by simp [hP]) (by simpa [Nested] using h))
    | opat c =>
      simpa [norm, codes, Subst.skip] using lift (ih (false :: m) P false q (by simp [hP]) (by simpa [Nested] using h))
    | csub b =>
      cases m with
      | nil =>
        have hP' : P = [] := by simpa using hP
        subst hP'
        exact ⟨w, by simp, by simpa [Nested] using h, by simp [codes, Subst.skip], by simp [norm, codes, Subst.skip]⟩
      | cons y m =>
        cases y with
        | false => simp [Nested] at h
        | true =>
          cases P with
          | nil => simp at hP
          | cons p P =>
            simpa [norm, codes, Subst.skip] using lift (ih m P false p (by simpa using hP) (by simpa [Nested] using h))
    | cpat =>
      cases m with
      | nil => simp [Nested] at h
      | cons y m =>
        cases y with
        | true => simp [Nested] at h
        | false => simpa [norm, codes, Subst.skip] using lift (ih m P false q (by simpa using hP) (by simpa [Nested] using h))

/-- `quote` in the word of the substitution -/
def quoteOp (op : Subst.Op) (q : Bool) : Bool := match op with
  | .trim _ => false
  | _ => q

theorem nested_chrs {m c w} : Nested m (.chr c :: w) ↔ Nested m w := by
  cases m with
  | nil => simp [Nested]
  | cons b m => cases b <;> simp [Nested]

/-- no operator -/
theorem char_other {c : Char} (h : isOp c = false) : c.toNat ≠ 61 ∧ c.toNat ≠ 45 ∧ c.toNat ≠ 43 ∧ c.toNat ≠ 63 ∧ c.toNat ≠ 35 ∧ c.toNat ≠ 37 := by
  have e61 : (61 : Nat) = '='.toNat := rfl
  have e45 : (45 : Nat) = '-'.toNat := rfl
  have e43 : (43 : Nat) = '+'.toNat := rfl
  have e63 : (63 : Nat) = '?'.toNat := rfl
  have e35 : (35 : Nat) = '#'.toNat := rfl
  have e37 : (37 : Nat) = '%'.toNat := rfl
  simp only [isOp, List.contains_eq_mem, List.mem_cons, List.not_mem_nil, or_false, decide_eq_false_iff_not, not_or] at h
  rw [e61, e45, e43, e63, e35, e37]
  simp only [ne_eq, char_toNat]
  exact ⟨h.2.1, h.1, h.2.2.2.1, h.2.2.1, h.2.2.2.2.1, h.2.2.2.2.2⟩

/-- the first symbol is no operator and no colon -/
theorem qualifier_first {x : Sym} {r : List Sym} (hx : ∀ c, x = .chr c → isOp c = false ∧ c ≠ ':') :
    Subst.qualifier (codes nm com arith (x :: r)) = if (∃ b, x = .csub b) then some (none, 0) else none := by
  cases x with
  | chr c =>
    obtain ⟨h1, h2⟩ := hx c rfl
    have h3 := char_other h1
    have h4 : c.toNat ≠ 58 := by
      intro h
      exact h2 (by rw [show (58 : Nat) = ':'.toNat from rfl, char_toNat] at h; exact h)
    simp only [Subst.qualifier, codes, List.head?_cons, Option.some.injEq, Subst.Code.char.injEq, h4, decide_false, Bool.false_eq_true, if_false, List.drop_zero]
    split <;> simp_all
  | _ => simp [Subst.qualifier, codes]

/-- the same behind a colon -/
theorem qualifier_colon {x : Sym} {r : List Sym} (hx : ∀ c, x = .chr c → isOp c = false) :
    Subst.qualifier (codes nm com arith (.chr ':' :: x :: r)) = none := by
  cases x with
  | chr c =>
    have h3 := char_other (hx c rfl)
    simp only [Subst.qualifier, codes, List.head?_cons, show ':'.toNat = 58 from rfl, decide_true, if_true, List.drop_succ_cons, List.drop_zero]
    split <;> simp_all
  | _ => simp [Subst.qualifier, codes]

/-- a symbol that is no character keeps its code -/
theorem norm_head {K o q x r} (hx : ∀ c, x ≠ Sym.chr c) : ∃ r', norm K o q (x :: r) = x :: r' := by
  cases x with
  | chr c => exact absurd rfl (hx c)
  | _ => exact ⟨_, rfl⟩

theorem norm_head_char {K k} (r : List Sym) :
    (codes nm com arith (norm K false false r)).head? = some (.char k) ↔ (codes nm com arith r).head? = some (.char k) := by
  cases r with
  | nil => simp [norm, codes]
  | cons x r => cases x <;> simp [norm, codes]

theorem head_char {k} {r : List Sym} (h : (codes nm com arith r).head? = some (.char k)) : ∃ e r', r = .chr e :: r' ∧ e.toNat = k := by
  cases r with
  | nil => simp [codes] at h
  | cons x r =>
    cases x <;> simp [codes] at h
    exact ⟨_, r, rfl, h⟩

theorem nested_op {m colon o r} : Nested m ((if colon = true then [.chr ':'] else []) ++ Sym.chr o :: r) ↔ Nested m r := by
  cases colon <;> simp [nested_chrs]

/-- What the qualifier is behind an operator. -/
theorem qualifier_op {colon : Bool} {o : Char} {r : List Sym} (ho : isOp o = true) :
    Subst.qualifier (codes nm com arith ((if colon = true then [.chr ':'] else []) ++ .chr o :: r)) =
      if o = '=' then some (some (colon, .assign), colon.toNat + 1)
      else if o = '-' then some (some (colon, .minus), colon.toNat + 1)
      else if o = '+' then some (some (colon, .plus), colon.toNat + 1)
      else if o = '?' then some (some (colon, .err), colon.toNat + 1)
      else if o = '#' then
        (if (codes nm com arith r).head? = some (.char 35) then some (some (false, .trim .prefixLong), colon.toNat + 2)
         else some (some (false, .trim .prefixShort), colon.toNat + 1))
      else
        (if (codes nm com arith r).head? = some (.char 37) then some (some (false, .trim .suffixLong), colon.toNat + 2)
         else some (some (false, .trim .suffixShort), colon.toNat + 1)) := by
  simp only [isOp, List.contains_eq_mem, List.mem_cons, List.not_mem_nil, or_false, decide_eq_true_eq] at ho
  rcases ho with rfl | rfl | rfl | rfl | rfl | rfl <;> cases colon <;>
    simp [Subst.qualifier, codes, show '-'.toNat = 45 from rfl, show '='.toNat = 61 from rfl, show '?'.toNat = 63 from rfl,
      show '+'.toNat = 43 from rfl, show '#'.toNat = 35 from rfl, show '%'.toNat = 37 from rfl, show ':'.toNat = 58 from rfl]

theorem drop_op {colon : Bool} {o : Char} {r : List Sym} :
    ((if colon = true then [Sym.chr ':'] else []) ++ Sym.chr o :: r).drop (colon.toNat + 1) = r := by cases colon <;> rfl

theorem codes_op {colon : Bool} {o : Char} {r : List Sym} :
    (codes nm com arith ((if colon = true then [.chr ':'] else []) ++ Sym.chr o :: r)).drop (colon.toNat + 1) = codes nm com arith r := by
  cases colon <;> rfl

theorem qualifier_norm_op (K : List Bool) (q colon : Bool) (o : Char) (r0 : List Sym) (ho : isOp o = true) :
    let r := (if colon = true then [.chr ':'] else []) ++ .chr o :: r0
    Subst.qualifier (codes nm com arith (norm K true q r)) = Subst.qualifier (codes nm com arith r) ∧
    ∀ c op n, Subst.qualifier (codes nm com arith r) = some (some (c, op), n) →
      (codes nm com arith r).drop n = codes nm com arith (r.drop n) ∧
      (codes nm com arith (norm K true q r)).drop n = codes nm com arith (norm K false (quoteOp op q) (r.drop n)) ∧
      (∀ m, Nested m r → Nested m (r.drop n)) := by
  intro r
  have hr : r = (if colon = true then [.chr ':'] else []) ++ .chr o :: r0 := rfl
  rw [hr, norm_op ho, qualifier_op nm com arith ho, qualifier_op nm com arith ho]
  -- one operator
  have one : ∀ (op : Subst.Op), quoteOp op q = quoteIn o q →
      (codes nm com arith r).drop (colon.toNat + 1) = codes nm com arith (r.drop (colon.toNat + 1)) ∧
      (codes nm com arith (norm K true q r)).drop (colon.toNat + 1) = codes nm com arith (norm K false (quoteOp op q) (r.drop (colon.toNat + 1))) ∧
      (∀ m, Nested m r → Nested m (r.drop (colon.toNat + 1))) := by
    intro op h
    rw [hr, norm_op ho, drop_op, codes_op, codes_op, h]
    exact ⟨rfl, rfl, fun m hm => nested_op.mp hm⟩
  have two : ∀ (k : Nat), quoteIn o q = false → (codes nm com arith r0).head? = some (.char k) →
      (codes nm com arith r).drop (colon.toNat + 2) = codes nm com arith (r.drop (colon.toNat + 2)) ∧
      (codes nm com arith (norm K true q r)).drop (colon.toNat + 2) = codes nm com arith (norm K false false (r.drop (colon.toNat + 2))) ∧
      (∀ m, Nested m r → Nested m (r.drop (colon.toNat + 2))) := by
    intro k h h2
    obtain ⟨e, r1, rfl, _⟩ := head_char nm com arith h2
    have e1 : ∀ (l : List Subst.Code), l.drop (colon.toNat + 2) = (l.drop (colon.toNat + 1)).drop 1 := by intro l; simp
    have e2 : ∀ (l : List Sym), l.drop (colon.toNat + 2) = (l.drop (colon.toNat + 1)).drop 1 := by intro l; simp
    rw [hr, norm_op ho, e1, e1, e2, drop_op, codes_op, codes_op, h]
    refine ⟨by simp [codes], by simp [codes, norm], fun m hm => ?_⟩
    have := nested_op.mp hm
    rw [nested_chrs] at this
    simpa using this
  have ho' : o = '-' ∨ o = '=' ∨ o = '?' ∨ o = '+' ∨ o = '#' ∨ o = '%' := by
    simpa only [isOp, List.contains_eq_mem, List.mem_cons, List.not_mem_nil, or_false, decide_eq_true_eq] using ho
  rw [hr] at one two
  rw [norm_op ho] at one two
  rcases ho' with rfl | rfl | rfl | rfl | rfl | rfl
  · refine ⟨by simp, ?_⟩
    intro c op n h
    simp at h
    obtain ⟨⟨rfl, rfl⟩, rfl⟩ := h
    exact one _ rfl
  · refine ⟨by simp, ?_⟩
    intro c op n h
    simp at h
    obtain ⟨⟨rfl, rfl⟩, rfl⟩ := h
    exact one _ rfl
  · refine ⟨by simp, ?_⟩
    intro c op n h
    simp at h
    obtain ⟨⟨rfl, rfl⟩, rfl⟩ := h
    exact one _ rfl
  · refine ⟨by simp, ?_⟩
    intro c op n h
    simp at h
    obtain ⟨⟨rfl, rfl⟩, rfl⟩ := h
    exact one _ rfl
  · have hq : quoteIn '#' q = false := by simp [quoteIn]
    rw [hq] at one two ⊢
    refine ⟨by simp [norm_head_char], ?_⟩
    intro c op n h
    simp at h
    split at h
    · rename_i h2
      simp at h
      obtain ⟨⟨rfl, rfl⟩, rfl⟩ := h
      exact two 35 hq h2
    · simp at h
      obtain ⟨⟨rfl, rfl⟩, rfl⟩ := h
      exact one _ rfl
  · have hq : quoteIn '%' q = false := by simp [quoteIn]
    rw [hq] at one two ⊢
    refine ⟨by simp [norm_head_char], ?_⟩
    intro c op n h
    simp at h
    split at h
    · rename_i h2
      simp at h
      obtain ⟨⟨rfl, rfl⟩, rfl⟩ := h
      exact two 37 hq h2
    · simp at h
      obtain ⟨⟨rfl, rfl⟩, rfl⟩ := h
      exact one _ rfl

theorem qualifier_norm (K : List Bool) (q : Bool) (r : List Sym) :
    Subst.qualifier (codes nm com arith (norm K true q r)) = Subst.qualifier (codes nm com arith r) ∧
    ∀ c op n, Subst.qualifier (codes nm com arith r) = some (some (c, op), n) →
      (codes nm com arith r).drop n = codes nm com arith (r.drop n) ∧
      (codes nm com arith (norm K true q r)).drop n = codes nm com arith (norm K false (quoteOp op q) (r.drop n)) ∧
      (∀ m, Nested m r → Nested m (r.drop n)) := by
  cases r with
  | nil => simp [norm, codes, Subst.qualifier]
  | cons x r =>
    by_cases hx : ∃ c, x = .chr c
    · obtain ⟨c, rfl⟩ := hx
      by_cases hc : c = ':'
      · subst hc
        cases r with
        | nil => simp [norm, codes, Subst.qualifier]
        | cons y r =>
          by_cases hy : ∃ d, y = .chr d
          · obtain ⟨d, rfl⟩ := hy
            by_cases hd : isOp d = true
            · simpa using qualifier_norm_op nm com arith K q true d r hd
            · have hd' : isOp d = false := by simpa using hd
              have h1 := qualifier_colon nm com arith (x := .chr d) (r := r) (by intro c hc; cases hc; exact hd')
              have h2 : ∀ r', Subst.qualifier (codes nm com arith (.chr ':' :: .chr d :: r')) = none :=
                fun r' => qualifier_colon nm com arith (by intro c hc; cases hc; exact hd')
              refine ⟨?_, by rw [h1]; intro _ _ _ h; cases h⟩
              rw [h1]
              simp only [norm, if_true, decide_true]
              exact h2 _
          · have h1 : ∀ r', Subst.qualifier (codes nm com arith (.chr ':' :: y :: r')) = none :=
              fun r' => qualifier_colon nm com arith (by intro c hc; exact absurd ⟨c, hc⟩ hy)
            refine ⟨?_, by rw [h1]; intro _ _ _ h; cases h⟩
            obtain ⟨r', hr'⟩ := norm_head (K := K) (o := true) (q := q) (x := y) (r := r) (by intro c hc; exact hy ⟨c, hc⟩)
            rw [h1]
            simp only [norm, if_true, decide_true]
            simp only [show (':' = '#' ∨ ':' = '%') = False from by simp, if_false]
            rw [hr', h1]
      · by_cases ho : isOp c = true
        · simpa using qualifier_norm_op nm com arith K q false c r ho
        · have ho' : isOp c = false := by simpa using ho
          have h1 : ∀ r', Subst.qualifier (codes nm com arith (.chr c :: r')) = none := by
            intro r'
            rw [qualifier_first nm com arith (by intro d hd; cases hd; exact ⟨ho', hc⟩)]
            simp
          refine ⟨?_, by rw [h1]; intro _ _ _ h; cases h⟩
          rw [h1]
          simp only [norm, if_true]
          exact h1 _
    · have h1 : ∀ r', Subst.qualifier (codes nm com arith (x :: r')) = if (∃ b, x = .csub b) then some (none, 0) else none :=
        fun r' => qualifier_first nm com arith (by intro c hc; exact absurd ⟨c, hc⟩ hx)
      obtain ⟨r', hr'⟩ := norm_head (K := K) (o := true) (q := q) (x := x) (r := r) (by intro c hc; exact hx ⟨c, hc⟩)
      rw [hr', h1, h1]
      refine ⟨rfl, ?_⟩
      intro c op n h
      split at h <;> simp at h

theorem head_norm {K o q} (r : List Sym) : (codes nm com arith (norm K o q r)).head? = some .csubst ↔ (codes nm com arith r).head? = some .csubst := by
  cases r with
  | nil => simp [norm]
  | cons x r =>
    cases x with
    | chr c => cases o <;> cases q <;> simp [norm, codes]
    | _ => simp [norm, codes]

theorem varsub_norm (E : Subst.Env) (w : Subst.World) (len : Bool) (x : Subst.Nm) (K : List Bool) (q : Bool) (r : List Sym) :
    Subst.varsub E w len x (codes nm com arith (norm K true q r)) = Subst.varsub E w len x (codes nm com arith r) := by
  unfold Subst.varsub
  rw [(qualifier_norm nm com arith K q r).1]
  simp only [ne_eq, head_norm]

/-- what a qualifier of `varsub` says -/
theorem varsub_expand {E : Subst.Env} {w : Subst.World} {len x r op n} (h : Subst.varsub E w len x r = .expand op n) :
    ∃ c, Subst.qualifier r = some (some (c, op), n) := by
  unfold Subst.varsub at h
  simp only at h
  split at h
  · split at h
    · cases h
    · split at h <;> cases h
  · split at h
    · cases h
    · rename_i q n' hq
      split at h
      · cases h
      · split at h
        · split at h <;> cases h
        · split at h
          · cases h
          · cases h; exact ⟨_, hq⟩
        · rename_i colon _
          by_cases hc : (if colon = true then (w.vars x).getD [] = [] else w.vars x = none)
          · rw [if_pos hc] at h; cases h
          · rw [if_neg hc] at h; cases h; exact ⟨_, hq⟩
        · rename_i colon op' _ _ _
          by_cases hc : (if colon = true then (w.vars x).getD [] = [] else w.vars x = none)
          · rw [if_pos hc] at h; cases h; exact ⟨_, hq⟩
          · rw [if_neg hc] at h; cases h

/-- `quote` and the stack -/
def QS (s s' : Subst.St) : Prop := s'.quote = s.quote ∧ s'.stack = s.stack

theorem qs_put (E : Subst.Env) (a b c : Bool) (s : Subst.St) (x : Subst.B) : QS s (Subst.put E a b c s x).1 := by
  unfold Subst.put QS Subst.emit
  (repeat' split) <;> simp

theorem qs_puts (E : Subst.Env) : ∀ (v : List Subst.B) (fresh : Bool) (s : Subst.St), QS s (Subst.puts E fresh v s)
  | [], _, _ => ⟨rfl, rfl⟩
  | c :: v, fresh, s => by
    rw [Subst.puts]
    have h1 := qs_put E (Subst.splits s) s.quote fresh s c
    have h2 := qs_puts E v (Subst.put E (Subst.splits s) s.quote fresh s c).2 (Subst.put E (Subst.splits s) s.quote fresh s c).1
    exact ⟨h2.1.trans h1.1, h2.2.trans h1.2⟩

theorem qs_inc (s : Subst.St) : QS s (Subst.inc s) := by unfold Subst.inc QS; split <;> simp
theorem qs_dec (s : Subst.St) : QS s (Subst.dec s) := by unfold Subst.dec QS; split <;> simp
theorem QS.trans {a b c} (h : QS a b) (k : QS b c) : QS a c := ⟨k.1.trans h.1, k.2.trans h.2⟩
theorem qs_sub (E : Subst.Env) (v : List Subst.B) (s : Subst.St) : QS s (Subst.sub E v s) := (qs_puts E v true s).trans (qs_dec _)

theorem qs_ite {p : Prop} [Decidable p] {s a b} (h : QS s a) (k : QS s b) : QS s (if p then a else b) := by split <;> assumption

theorem qs_leave {E : Subst.Env} {fr st s d s'} (h : Subst.leave E fr st s = .go d s') : s'.quote = fr.quote ∧ s'.stack = st ∧ d = .none := by
  have base : QS { s with quote := fr.quote, f := fr.f, stack := st } (Subst.dec { s with quote := fr.quote, f := fr.f, stack := st }) := qs_dec _
  unfold Subst.leave at h
  simp only at h
  split at h
  · have h2 : ∀ t, QS (Subst.dec { s with quote := fr.quote, f := fr.f, stack := st }) (Subst.inc { Subst.dec { s with quote := fr.quote, f := fr.f, stack := st } with ds := t }) := fun t => qs_inc _
    have h3 := fun t => base.trans (h2 t)
    split at h
    · cases h
      refine ⟨(qs_sub E _ _).1.trans (h3 _).1, (qs_sub E _ _).2.trans (h3 _).2, rfl⟩
    · split at h
      · cases h
        refine ⟨(qs_sub E _ _).1.trans (h3 _).1, (qs_sub E _ _).2.trans (h3 _).2, rfl⟩
      · cases h
        have h4 := h3 (s.ds.take fr.base)
        revert h4
        generalize Subst.inc _ = t
        intro h4
        have h5 := QS.trans (qs_ite (p := t.ds = []) (a := { t with word := .iws }) ⟨h4.1, h4.2⟩ h4) (qs_dec _)
        revert h5
        generalize Subst.dec (if t.ds = [] then { t with word := .iws } else t) = u
        intro h5
        have h6 := qs_ite (p := u.f.blank = true ∧ u.ds = [] ∧ u.word ≠ .word) (a := { u with word := .iws }) ⟨h5.1, h5.2⟩ h5
        exact ⟨h6.1, h6.2, rfl⟩
  · split at h
    · cases h
    · cases h
      refine ⟨(qs_sub E _ _).1.trans ?_, (qs_sub E _ _).2.trans ?_, rfl⟩
      · exact ((qs_inc _).1.trans base.1)
      · exact ((qs_inc _).2.trans base.2)
  · cases h
  · cases h
    exact ⟨base.1, base.2, rfl⟩

theorem run_cons (E : Subst.Env) (c : Subst.Code) (r : List Subst.Code) (s : Subst.St) :
    Subst.run E (c :: r) s = match Subst.step E c r s with
      | .stop res => res
      | .go d s' => Subst.run E (d.app r) s' := by
  rw [Subst.run]
  cases Subst.step E c r s <;> rfl

/-- A step that neither looks at what follows nor drops it. -/
theorem run_plain {E : Subst.Env} {c : Subst.Code} {r r' : List Subst.Code} {s s' : Subst.St}
    (h : ∀ r, Subst.step E c r s = .go .none s') (ih : Subst.run E r s' = Subst.run E r' s') :
    Subst.run E (c :: r) s = Subst.run E (c :: r') s := by
  rw [run_cons, run_cons, h, h]
  exact ih

theorem put_quoted {E : Subst.Env} {s : Subst.St} (h : s.quote = true) (c : Subst.B) (r : List Subst.Code) :
    Subst.step E (.qchar c) r s = Subst.step E (.char c) r s := by
  simp [Subst.step, Subst.splits, h]

theorem run_norm (E : Subst.Env) : ∀ (n : Nat) (w : List Sym), w.length ≤ n → ∀ (m : List Bool) (s : Subst.St), Nested m w →
    Subst.run E (codes nm com arith (norm (s.stack.map (·.quote)) false s.quote w)) s = Subst.run E (codes nm com arith w) s
  | _, [], _, _, _, _ => rfl
  | n + 1, x :: w, hn, m, s, hm => by
    simp only [List.length_cons, Nat.add_le_add_iff_right] at hn
    have ih := fun s' h => run_norm E n w hn m s' h
    have go : ∀ (c : Subst.Code) (s' : Subst.St) , QS s s' → Nested m w → (∀ r, Subst.step E c r s = .go .none s') →
        Subst.run E (c :: codes nm com arith (norm (s.stack.map (·.quote)) false s.quote w)) s = Subst.run E (c :: codes nm com arith w) s := by
      intro c s' hq hm hs
      refine run_plain hs ?_
      have := ih s' hm
      rwa [hq.1, hq.2] at this
    cases x with
    | chr c =>
      have hm' := nested_chrs.mp hm
      have h1 := go (.char c.toNat) _ (qs_put E (Subst.splits s) s.quote false s c.toNat) hm' (fun r => rfl)
      cases hq : s.quote with
      | false => rw [hq] at h1; simpa [norm, codes] using h1
      | true =>
        rw [hq] at h1
        simp only [norm, Bool.false_eq_true, if_false, if_true, codes]
        rw [run_cons, put_quoted hq, ← run_cons]
        exact h1
    | qchr c => exact go (.qchar c.toNat) _ (qs_put E false true false s c.toNat) (by cases m with | nil => simpa [Nested] using hm | cons b m => cases b <;> simpa [Nested] using hm) (fun r => rfl)
    | com t =>
      refine go (.com (com t)) _ ?_ (by cases m with | nil => simpa [Nested] using hm | cons b m => cases b <;> simpa [Nested] using hm) (fun r => rfl)
      refine QS.trans ?_ (qs_dec _)
      refine QS.trans ?_ (qs_puts E _ _ _)
      exact ⟨(qs_inc s).1, (qs_inc s).2⟩
    | exp t =>
      have hm' : Nested m w := by cases m with | nil => simpa [Nested] using hm | cons b m => cases b <;> simpa [Nested] using hm
      simp only [norm, codes]
      cases ha : E.arith (arith t) (Subst.note (arith t) s.w) with
      | none =>
        rw [run_cons, run_cons]
        simp only [Subst.step, ha]
      | some p => exact go (.arith (arith t)) { s with w := p.1, ds := s.ds ++ p.2, word := .word } ⟨rfl, rfl⟩ hm' (fun r => by simp only [Subst.step, ha])
    | oq =>
      have hm' : Nested m w := by cases m with | nil => simpa [Nested] using hm | cons b m => cases b <;> simpa [Nested] using hm
      simp only [norm, codes]
      refine run_plain (s' := { s with quote := true, word := match s.word with | .quote => .word | .word => .word | _ => .quote }) (fun r => rfl) ?_
      exact ih { s with quote := true, word := match s.word with | .quote => .word | .word => .word | _ => .quote } hm'
    | cq =>
      have hm' : Nested m w := by cases m with | nil => simpa [Nested] using hm | cons b m => cases b <;> simpa [Nested] using hm
      simp only [norm, codes]
      refine run_plain (s' := { s with quote := false }) (fun r => rfl) ?_
      exact ih { s with quote := false } hm'
    | spat =>
      exact go .spat { s with ds := s.ds ++ [7, 124], word := .word } ⟨rfl, rfl⟩
        (by cases m with | nil => simpa [Nested] using hm | cons b m => cases b <;> simpa [Nested] using hm) (fun r => rfl)
    | cpat =>
      cases m with
      | nil => simp [Nested] at hm
      | cons b m =>
        cases b with
        | true => simp [Nested] at hm
        | false =>
          have hm' : Nested m w := by simpa [Nested] using hm
          simp only [norm, codes]
          refine run_plain (s' := { s with ds := s.ds ++ [7, 41], word := .word }) (fun r => rfl) ?_
          exact run_norm E n w hn m { s with ds := s.ds ++ [7, 41], word := .word } hm'
    | opat c =>
      have hm' : Nested (false :: m) w := by cases m with | nil => simpa [Nested] using hm | cons b m => cases b <;> simpa [Nested] using hm
      simp only [norm, codes]
      refine run_plain (s' := { s with ds := s.ds ++ [7, c.toNat + 128], word := .word }) (fun r => rfl) ?_
      exact run_norm E n w hn (false :: m) { s with ds := s.ds ++ [7, c.toNat + 128], word := .word } hm'
    | csub b =>
      cases m with
      | nil => simp [Nested] at hm
      | cons y m =>
        cases y with
        | false => simp [Nested] at hm
        | true =>
          have hm' : Nested m w := by simpa [Nested] using hm
          simp only [norm, codes]
          rw [run_cons, run_cons]
          simp only [Subst.step]
          cases hst : s.stack with
          | nil => rfl
          | cons fr st =>
            simp only
            cases hl : Subst.leave E fr st s with
            | stop r => rfl
            | go d s' =>
              obtain ⟨h1, h2, rfl⟩ := qs_leave hl
              have := run_norm E n w hn m s' hm'
              rw [h1, h2] at this
              simpa [Subst.Drop.app] using this
    | osub b nme =>
      have hm' : Nested (true :: m) w := by cases m with | nil => simpa [Nested] using hm | cons b m => cases b <;> simpa [Nested] using hm
      simp only [norm, codes]
      rw [run_cons, run_cons]
      simp only [Subst.step, varsub_norm]
      have hinc := qs_inc s
      have hq : QS s (if (Subst.inc s).word = .quote then { Subst.inc s with word := .word } else Subst.inc s) := by
        split
        · exact ⟨hinc.1, hinc.2⟩
        · exact hinc
      cases hv : Subst.varsub E s.w (nm nme).1 (nm nme).2 (codes nm com arith w) with
      | fail e => rfl
      | value v =>
        simp only
        obtain ⟨w1, h1, h2, h3, h4⟩ := skip_norm nm com arith w [] m [] (s.stack.map (·.quote)) true s.quote s.quote rfl (by simpa using hm')
        simp only [List.length_nil, List.nil_append] at h3 h4
        simp only [Subst.Drop.app, h3, h4]
        have hs := hq.trans (qs_sub E v _)
        have := run_norm E n w1 (by omega) m (Subst.sub E v (if (Subst.inc s).word = .quote then { Subst.inc s with word := .word } else Subst.inc s)) h2
        rw [hs.1, hs.2] at this
        exact this
      | expand op k =>
        simp only
        obtain ⟨c, hc⟩ := varsub_expand hv
        obtain ⟨h1, h2, h3⟩ := (qualifier_norm nm com arith (s.quote :: s.stack.map (·.quote)) s.quote w).2 c op k hc
        by_cases hw : op.usesBase = true ∧ 32768 ≤ (if (Subst.inc s).word = .quote then { Subst.inc s with word := .word } else Subst.inc s).ds.length
        · simp only [Subst.enter, if_pos hw]
        · simp only [Subst.enter, if_neg hw, Subst.Drop.app, h1, h2]
          have := run_norm E n (w.drop k) (by simp; omega) (true :: m)
            (Subst.entered op (nm nme).2 (if (Subst.inc s).word = .quote then { Subst.inc s with word := .word } else Subst.inc s)) (h3 _ hm')
          have hs : (Subst.entered op (nm nme).2 (if (Subst.inc s).word = .quote then { Subst.inc s with word := .word } else Subst.inc s)).quote = quoteOp op s.quote ∧
              (Subst.entered op (nm nme).2 (if (Subst.inc s).word = .quote then { Subst.inc s with word := .word } else Subst.inc s)).stack.map (·.quote) = s.quote :: s.stack.map (·.quote) := by
            cases op <;> simp [Subst.entered, quoteOp, hq.1, hq.2]
          rw [hs.1, hs.2] at this
          exact this

/-- Words with the same `norm` expand to the same, in any environment. -/
theorem same_expansion {w w' : List Sym} (h : norm [] false false w' = norm [] false false w) (hm : Nested [] w) (hm' : Nested [] w')
    (E : Subst.Env) (f : Subst.F) (W : Subst.World) :
    Subst.run E (codes nm com arith w') (Subst.init f W) = Subst.run E (codes nm com arith w) (Subst.init f W) := by
  have h1 := run_norm nm com arith E w.length w (Nat.le_refl _) [] (Subst.init f W) hm
  have h2 := run_norm nm com arith E w'.length w' (Nat.le_refl _) [] (Subst.init f W) hm'
  have e : norm ((Subst.init f W).stack.map (·.quote)) false (Subst.init f W).quote w' =
      norm ((Subst.init f W).stack.map (·.quote)) false (Subst.init f W).quote w := h
  rw [← h1, ← h2, e]

end Expansion

/-- `norm` does not change the nesting. -/
theorem nested_norm : ∀ (w : List Sym) (K : List Bool) (o q : Bool) (m : List Bool), Nested m (norm K o q w) ↔ Nested m w
  | [], _, _, _, _ => Iff.rfl
  | x :: w, K, o, q, m => by
    have ih := fun K o q m => nested_norm w K o q m
    cases x with
    | chr c =>
      rw [nested_chrs]
      cases o <;> cases q <;> cases m with
      | nil => simp [norm, Nested, ih]
      | cons b m => cases b <;> simp [norm, Nested, ih]
    | _ =>
      cases m with
      | nil => simp [norm, Nested, ih]
      | cons b m => cases b <;> simp [norm, Nested, ih]

/-- substitutions and patterns open -/
def marks : List (Ctx × Bool) → List Bool
  | [] => []
  | (.brace, _) :: ks => true :: marks ks
  | (.braceq, _) :: ks => true :: marks ks
  | (.tbrace, _) :: ks => true :: marks ks
  | (.pat, _) :: ks => false :: marks ks
  | _ :: ks => marks ks

theorem marks_sub {k b ks} (h : k = Ctx.brace ∨ k = .braceq ∨ k = .tbrace) : marks ((k, b) :: ks) = true :: marks ks := by
  rcases h with rfl | rfl | rfl <;> rfl

theorem nested_oq {m w} : Nested m (.oq :: w) ↔ Nested m w := by
  cases m with
  | nil => simp [Nested]
  | cons b m => cases b <;> simp [Nested]
theorem nested_cq {m w} : Nested m (.cq :: w) ↔ Nested m w := by
  cases m with
  | nil => simp [Nested]
  | cons b m => cases b <;> simp [Nested]
theorem nested_osub {m b n w} : Nested m (.osub b n :: w) ↔ Nested (true :: m) w := by
  cases m with
  | nil => simp [Nested]
  | cons b m => cases b <;> simp [Nested]
theorem nested_opat {m c w} : Nested m (.opat c :: w) ↔ Nested (false :: m) w := by
  cases m with
  | nil => simp [Nested]
  | cons b m => cases b <;> simp [Nested]

theorem good_nested {rest ks q nq w} (h : Good rest ks q nq w) : Nested (marks ks) w := by
  induction h with
  | nil => simp [marks, Nested]
  | chr _ _ _ _ ih => exact nested_chrs.mpr ih
  | dollar _ _ ih => exact nested_chrs.mpr ih
  | bs _ _ _ ih => exact nested_chrs.mpr (nested_chrs.mpr ih)
  | @esc k b ks q nq c w _ _ _ _ ih => revert ih; cases marks ((k, b) :: ks) with
    | nil => simp [Nested]
    | cons b m => cases b <;> simp [Nested]
  | @bare k b ks c w _ _ _ _ ih => revert ih; cases marks ((k, b) :: ks) with
    | nil => simp [Nested]
    | cons b m => cases b <;> simp [Nested]
  | @com k b ks q nq s w _ _ _ _ ih => revert ih; cases marks ((k, b) :: ks) with
    | nil => simp [Nested]
    | cons b m => cases b <;> simp [Nested]
  | @exp k b ks q nq s w _ _ _ ih => revert ih; cases marks ((k, b) :: ks) with
    | nil => simp [Nested]
    | cons b m => cases b <;> simp [Nested]
  | special _ _ _ ih => exact nested_osub.mpr (by simpa [Nested] using ih)
  | name _ _ _ _ _ ih => exact nested_osub.mpr (by simpa [Nested] using ih)
  | brace _ _ _ ih => exact nested_osub.mpr (by simpa [Nested] using ih)
  | osub colon _ _ _ _ _ ih => 
    rw [nested_osub, nested_op]
    rw [marks_sub enter_sub] at ih
    exact ih
  | csub hk _ ih => rw [marks_sub hk]; simpa [Nested] using ih
  | oq _ _ ih => exact nested_oq.mpr ih
  | cq _ ih => exact nested_cq.mpr ih
  | opat _ _ _ ih => exact nested_opat.mpr ih
  | @spat k b ks q nq w _ _ ih => revert ih; cases marks ((k, b) :: ks) with
    | nil => simp [Nested]
    | cons b m => cases b <;> simp [Nested]
  | cpat _ ih => simpa [marks, Nested] using ih

/-- **C49** (partial).  The text that `typeset -f` prints for a word, followed by a blank, a newline or the end of
input, is read back as the same word, and this word expands to the same in every environment: characters,
quotes, parameters, `${name op word}`, commands, expressions and extended patterns, nested in any way.  Missing
for the full property are the words for which it is false, those of `backslash_in_quotes`, `newline_in_quotes`,
`backquote_with_paren`, `brace_in_quotes`, `pattern_in_quotes` and `pattern_group`. -/
theorem printed_word_reread_partial (w : List Sym) (rest : List Char) (hr : Ends rest)
    (h : Good rest [(.base, false)] false false w) :
    ∃ w', (∃ N, ∀ n ≥ N, lexWord n (tputS false w ++ rest) = .word w' rest) ∧
      norm [] false false w' = norm [] false false w ∧
      ∀ nm com arith E f W, Subst.run E (codes nm com arith w') (Subst.init f W) = Subst.run E (codes nm com arith w) (Subst.init f W) := by
  obtain ⟨w', s, h1, h2, h3⟩ := adv_good hr h 0 [] (by decide)
  have hm : Nested [] w := good_nested h
  have hm' : Nested [] w' := by
    have := (nested_norm w [] false false []).mpr hm
    have e : norm [] false false w' = norm [] false false w := h2
    rw [← e] at this
    exact (nested_norm w' [] false false []).mp this
  exact ⟨w', lexes h1 hr (by simpa [stack, Ctx.st] using h3), h2, fun nm com arith E f W => same_expansion nm com arith h2 hm hm' E f W⟩

/-- A quoted backslash inside double quotes is printed as one backslash: `f() { echo "\\\\"; }`
prints as `echo "\\"`, which has no closing quote. -/
theorem backslash_in_quotes :
    lexWord 9 ['"', '\\', '\\', '"'] = .word [.oq, .qchr '\\', .cq] [] ∧
    lexWord 9 (tputS false [.oq, .qchr '\\', .cq]) = .unclosed := by decide +kernel

/-- A newline in quotes is printed as `^J`. -/
theorem newline_in_quotes :
    lexWord 9 ['\'', '\n', '\''] = .word [.oq, .qchr '\n', .cq] [] ∧
    lexWord 9 (tputS false [.oq, .qchr '\n', .cq]) = .word [.oq, .chr '^', .chr 'J', .cq] [] := by decide +kernel

/-- Backquotes are printed as `$(..)`, where a parenthesis in the text counts: the printed
text of `` `: )` `` ends early. -/
theorem backquote_with_paren :
    lexWord 12 "`: )`".toList = .word [.com ": )".toList] [] ∧
    lexWord 12 (tputS false [.com ": )".toList]) = .word [.com ": ".toList] [')'] := by decide +kernel

/-- `"${x-\}}"` gives `}` if x is not set.  It is printed as `"${x-}}"`, which gives the value of x and `}`. -/
theorem brace_in_quotes :
    lexWord 12 "\"${x-\\}}\"".toList = .word [.oq, .osub true ['x'], .chr '-', .qchr '}', .csub true, .cq] [] ∧
    tputS false [.oq, .osub true ['x'], .chr '-', .qchr '}', .csub true, .cq] = "\"${x-}}\"".toList ∧
    lexWord 12 "\"${x-}}\"".toList = .word [.oq, .osub true ['x'], .chr '-', .csub true, .chr '}', .cq] [] := by decide +kernel

/-- `"${x#\*}"` removes an asterisk, and is printed as `"${x#*}"`, which removes nothing. -/
theorem pattern_in_quotes :
    lexWord 12 "\"${x#\\*}\"".toList = .word [.oq, .osub true ['x'], .chr '#', .qchr '*', .csub true, .cq] [] ∧
    tputS false [.oq, .osub true ['x'], .chr '#', .qchr '*', .csub true, .cq] = "\"${x#*}\"".toList ∧
    lexWord 12 "\"${x#*}\"".toList = .word [.oq, .osub true ['x'], .chr '#', .chr '*', .csub true, .cq] [] := by decide +kernel

/-- `${x#(a)}` is printed as `${x# (a)}`, with a blank in the pattern. -/
theorem pattern_group :
    lexWord 12 "${x#(a)}".toList = .word [.osub true ['x'], .chr '#', .opat ' ', .chr 'a', .cpat, .csub true] [] ∧
    tputS false [.osub true ['x'], .chr '#', .opat ' ', .chr 'a', .cpat, .csub true] = "${x# (a)}".toList ∧
    lexWord 12 "${x# (a)}".toList = .word [.osub true ['x'], .chr '#', .chr ' ', .opat ' ', .chr 'a', .cpat, .csub true] [] := by decide +kernel

/-- What the lexer makes of `${x:+(a)}`: the operator is taken for the beginning of a pattern, and there is no
operator left (`expand` reports a bad substitution). -/
theorem plus_paren : lexWord 12 "${x:+(a)}".toList = .word [.osub true ['x'], .chr ':', .opat '+', .chr 'a', .cpat, .csub true] [] ∧
    ∀ nm com arith, Subst.qualifier (codes nm com arith [.chr ':', .opat '+', .chr 'a', .cpat, .csub true]) = none := by
  refine ⟨by decide +kernel, fun nm com arith => ?_⟩
  exact qualifier_colon nm com arith (by simp)

/-- the word `a"$x-${y[1]:-b"c"}\``"'` -/
def sample : List Sym := [.chr 'a', .oq, .osub false ['x'], .csub false, .chr '-', .osub true ['y', '[', '1', ']'], .chr ':', .chr '-', .chr 'b',
  .oq, .chr 'c', .cq, .csub true, .qchr '`', .cq, .qchr '\'']

theorem sample_good : Good [] [(.base, false)] false false sample := by
  have p : ∀ c : Char, tputC c = [c] → Printable c := fun _ h => h
  unfold sample
  refine .chr (by simp [Plain, Ctx.enter, lex1]) (p _ (by decide)) (by unfold Ahead; decide) (.oq (by decide) ?_)
  refine .name (by decide) (by decide) (fun x hx => ?_) (by decide) (.chr (by simp [Plain, Ctx.enter, lex1]) (p _ (by decide)) (by unfold Ahead; decide) ?_)
  · simp at hx; subst hx; exact p _ (by decide)
  refine .osub (n := ['y', '[', '1', ']']) (o := '-') true (by decide) (.elem (r := []) (s := ['1', ']']) (by decide) (by decide) (by simp [Sub]) (by decide)) (fun x hx => ?_) (by unfold Ahead; decide) ?_
  · simp at hx; rcases hx with rfl | rfl | rfl | rfl <;> exact p _ (by decide)
  refine .chr (by simp [Plain, Ctx.enter, lex1]) (p _ (by decide)) (by unfold Ahead; decide) (.oq (by decide) (.chr (by simp [Plain, Ctx.enter, lex1]) (p _ (by decide)) (by unfold Ahead; decide) (.cq ?_)))
  refine .csub (by decide) (.esc (p _ (by decide)) (by decide) (by decide) (.cq (.esc (p _ (by decide)) (by decide) (by decide) .nil)))

example : tputS false sample = "a\"$x-${y[1]:-b\"c\"}\\`\"\\'".toList := by decide +kernel

end Ksh.Lex
