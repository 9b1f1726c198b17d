import Verif.Syn.Print
/-!
# Printed commands are read as the commands they were printed from
-/

namespace Ksh.Syn

variable {cfg : Cfg} {o : DbOps} {rd : List Char → Word}

/-- What is printed last is a here document, that is, the print ends with a newline. -/
def hereEnd : Op → Bool
  | .nil => false
  | .node ty d l r =>
    match ty with
    | .com | .paren | .dbracket | .for | .select | .case | .while | .until | .brace => hasHere d.io
    | .pipe | .list | .bang | .or | .and => hereEnd r
    | .funct | .time => hereEnd l
    | _ => false

/-- The reservations, for one node:
* a simple command begins with a word that is not reserved, and is marked as a declaration
  exactly if that word comes first (both may fail if a redirection precedes the words);
* with `set -k` no argument is an assignment (`(( ))` might be);
* a function has a name, which is not a reserved word;
* the variable of a loop has a name of fewer than 64 characters;
* `if` has no redirections;
* nothing with a here document at its end is followed by an operator. -/
def CleanAt (cfg : Cfg) (ty : Ty) (d : Data) (l : Op) : Prop :=
  match ty with
  | .com => (d.vars = some [] → ∀ w r, d.args = some (w :: r) → w.free ∧ d.ev = assignCommand cfg w.ident) ∧
      (d.vars ≠ some [] → d.ev = false) ∧
      (cfg.keyword = true → ∀ ws, d.args = some ws → ∀ w ∈ ws, w.asn = false)
  | .funct => d.str ≠ [] ∧ (d.ev = false → kwOf d.str = none)
  | .for | .select => d.str ≠ []
  | .if => d.io = []
  | .pipe | .and | .or | .async | .coproc => hereEnd l = false
  | _ => True

def Clean (cfg : Cfg) : Op → Prop
  | .nil => True
  | .node ty d l r => CleanAt cfg ty d l ∧ Clean cfg l ∧ Clean cfg r

/-- What holds of the words the lexer makes: a plain one is read again from its text, the
text of an assignment contains a `=`, and no plain word is an operator. -/
structure Real (rd : List Char → Word) (w : Word) : Prop where
  back : w.plain = true → rd w.strip = w
  asn : w.asn = true → w.ident = [] ∨ '=' ∈ w.ident
  op : w.plain = true → w.raw ∉ [['|', '|'], ['&', '&'], ['('], [')'], ['<'], ['>']]

def RealIn (rd : List Char → Word) (x : List Raw) : Prop := ∀ w, Raw.word w ∈ x → Real rd w

/-- The name of a function is read as a word that stands for it. -/
def RdName (rd : List Char → Word) : Prop :=
  ∀ s, s ≠ [] → validName s = true → (rd s).strip = s ∧ (rd s).asn = false ∧ ((rd s).ident = s ∨ (rd s).ident = [])

def hereN (t : Op) : Nat := if hereEnd t then 1 else 0

theorem hereN_eq {t u : Op} (h : hereEnd t = hereEnd u) : hereN t = hereN u := by simp [hereN, h]

def EK.good : EK → Bool
  | .simple | .comp | .noCmd => true
  | _ => false

theorem RealIn.left {x y : List Raw} (h : RealIn rd (x ++ y)) : RealIn rd x := fun w hw => h w (List.mem_append_left _ hw)
theorem RealIn.right {x y : List Raw} (h : RealIn rd (x ++ y)) : RealIn rd y := fun w hw => h w (List.mem_append_right _ hw)
theorem RealIn.tail {a : Raw} {y : List Raw} (h : RealIn rd (a :: y)) : RealIn rd y := fun w hw => h w (List.mem_cons_of_mem _ hw)

/-! ## Lists -/

theorem nls_succ (n : Nat) : nls (n + 1) = .nl :: nls n := rfl
theorem nls_add (n m : Nat) : nls n ++ nls m = nls (n + m) := by simp [nls]

theorem list_lead {x : List Raw} {e : End} {t : Op} (k : Nat) (h : Der cfg o (.list true) x e t) :
    Der cfg o (.list true) (nls k ++ x) e t := by
  cases h with
  | listNil n => rw [nls_add]; exact .listNil _
  | listOne m n x e t hn ha => rw [← List.append_assoc, nls_add]; exact .listOne _ _ _ _ _ (fun _ => rfl) ha
  | listMore m n x y e e' t u p r hn ha ho hs hu =>
    rw [← List.append_assoc, nls_add]; exact .listMore _ _ _ _ _ _ _ _ _ _ (fun _ => rfl) ha ho hs hu

theorem good_rpar {e : End} (h : e.k.good = true) (hl : e.lvl ≤ 1) : (e.up 3).okR .rpar = true := by
  obtain ⟨k, l⟩ := e
  cases k <;> simp_all [EK.good, End.okR, End.up, EK.ok, Raw.isWord, Raw.isRedir, Raw.starts]

theorem good_sep {e : End} {r : Raw} (h : e.k.good = true) (hl : e.lvl ≤ 1) (hr : r ∈ [Raw.nl, .amp, .coproc, .semi, .andand, .oror]) : e.okR r = true := by
  obtain ⟨k, l⟩ := e
  simp only [List.mem_cons, List.not_mem_nil, or_false] at hr
  simp only at hl
  rcases hr with rfl | rfl | rfl | rfl | rfl | rfl <;> cases k <;>
    simp_all [EK.good, End.okR, EK.ok, Raw.isWord, Raw.isRedir, Raw.starts] <;> omega

theorem good_pipe {e e' : End} (h : e.k.good = true) (hl : e.lvl = e'.lvl) (hp : e'.okR .pipe = true) : e.okR .pipe = true := by
  obtain ⟨k, l⟩ := e
  simp only at hl
  subst hl
  cases k <;> simp_all [EK.good, End.okR, EK.ok, Raw.isWord, Raw.isRedir, Raw.starts]

/-- What is to be shown of a list. -/
def ListGoal (cfg : Cfg) (o : DbOps) (rd : List Char → Word) (t : Op) : Prop :=
  (∃ e, Der cfg o (.list true) (pr rd t) e t ∧ e.okR .rpar = true) ∧
  ∀ n, Der cfg o (.list true) (pr rd t ++ nls (n + 1)) ⟨.noCmdNl, 0⟩ t

def PartGoal (cfg : Cfg) (o : DbOps) (rd : List Char → Word) (nt : NT) (e : End) (t : Op) : Prop :=
  ∃ c e', pr rd t = c ++ nls (hereN t) ∧ Der cfg o nt c e' t ∧ e'.lvl = e.lvl ∧ e'.lvl ≤ 1 ∧ e'.k.good = true

def notElif : Op → Bool
  | .node .elif _ _ _ => false
  | _ => true

def Goal (cfg : Cfg) (o : DbOps) (rd : List Char → Word) (e : End) (t : Op) : NT → Prop
  | .list _ => ListGoal cfg o rd t ∧ notElif t = true
  | .andor => PartGoal cfg o rd .andor e t ∧ notElif t = true
  | .pipe => PartGoal cfg o rd .pipe e t ∧ notElif t = true
  | .cmd => PartGoal cfg o rd .cmd e t ∧ notElif t = true
  | .thenp => (∃ z, prThen rd t ++ [.nl] = .nl :: kwRaw ['t', 'h', 'e', 'n'] :: z ∧
      Der cfg o .thenp (kwRaw ['t', 'h', 'e', 'n'] :: z) ⟨.noCmdNl, 0⟩ t) ∧ thenIo t = []
  | .cases _ => Der cfg o (.cases .kesac) (prCases rd t ++ [.nl]) ⟨.comp, 0⟩ t

theorem list_nil_goal : ListGoal cfg o rd .nil := by
  refine ⟨⟨_, by rw [pr]; exact .listNil 0, rfl⟩, fun n => ?_⟩
  rw [pr]; exact .listNil _

theorem andor_nls {c : List Raw} {e : End} {t : Op} (h : Der cfg o .andor c e t) (hg : e.k.good = true) (hl : e.lvl ≤ 1) (n : Nat) :
    Der cfg o (.list true) (c ++ nls (n + 1)) ⟨.noCmdNl, 0⟩ t :=
  .listMore true 0 c (nls n) e _ t .nil t .nl (fun _ => rfl) h (good_sep hg hl (by simp)) rfl (.listNil n)

theorem list_one_goal {e : End} {t : Op} (h : PartGoal cfg o rd .andor e t) : ListGoal cfg o rd t := by
  obtain ⟨c, e', hc, hd, -, hl, hg⟩ := h
  refine ⟨?_, fun n => ?_⟩
  · rw [hc]
    cases hh : hereN t with
    | zero =>
      refine ⟨e'.up 3, ?_, good_rpar hg hl⟩
      rw [show c ++ nls 0 = nls 0 ++ c by simp [nls]]
      exact .listOne true 0 c e' t (fun _ => rfl) hd
    | succ n => exact ⟨_, andor_nls hd hg hl n, rfl⟩
  · rw [hc, List.append_assoc, nls_add, ← Nat.add_assoc]
    exact andor_nls hd hg hl _

/-- A member of a list with its separator. -/
theorem list_more_goal {c : List Raw} {e : End} {t p u : Op} {r : Raw} {k : Nat} (hc : pr rd p ++ [.nl] = c ++ r :: nls k)
    (hd : Der cfg o .andor c e t) (hg : e.k.good = true) (hl : e.lvl ≤ 1) (hr : r ∈ [Raw.nl, .amp, .coproc, .semi, .andand, .oror])
    (hs : sepTree true r t = some p) (hu : ListGoal cfg o rd u) (hn : u ≠ .nil) : ListGoal cfg o rd (consList p u) := by
  have hcu : consList p u = block .list p u := by
    cases u with
    | nil => exact absurd rfl hn
    | node => rfl
  have hp : pr rd (block .list p u) = c ++ r :: (nls k ++ pr rd u) := by
    rw [block, pr]
    rw [show pr rd p ++ .nl :: pr rd u = (pr rd p ++ [.nl]) ++ pr rd u by simp, hc]; simp
  obtain ⟨⟨e1, h1, h2⟩, h3⟩ := hu
  refine ⟨⟨e1, ?_, h2⟩, fun n => ?_⟩
  · have := Der.listMore true 0 c _ e e1 t u p r (fun _ => rfl) hd (good_sep hg hl hr) hs (list_lead k h1)
    rw [hcu, hp, ← hcu]
    simpa [nls] using this
  · have := Der.listMore true 0 c _ e _ t u p r (fun _ => rfl) hd (good_sep hg hl hr) hs (list_lead k (h3 n))
    rw [hcu, hp, ← hcu]
    simpa [nls] using this

theorem list_sep_goal {c : List Raw} {e : End} {t p : Op} {r : Raw} (hc : pr rd p = c ++ [r])
    (hd : Der cfg o .andor c e t) (hg : e.k.good = true) (hl : e.lvl ≤ 1) (hr : r ∈ [Raw.nl, .amp, .coproc, .semi, .andand, .oror])
    (hs : sepTree true r t = some p) : ListGoal cfg o rd p := by
  refine ⟨⟨⟨.noCmdNl, 0⟩, ?_, rfl⟩, fun n => ?_⟩
  · rw [hc]
    exact .listMore true 0 c (nls 0) e _ t .nil p r (fun _ => rfl) hd (good_sep hg hl hr) hs (.listNil 0)
  · rw [hc]
    have := Der.listMore true 0 c (nls (n+1)) e _ t .nil p r (fun _ => rfl) hd (good_sep hg hl hr) hs (.listNil (n + 1))
    simpa [nls, consList, Op.isNil] using this

/-! ## Commands -/

theorem words_append (a b : List Word) : words (a ++ b) = words a ++ words b := by simp [words]

/-- A simple command as it is printed. -/
def prElems (ws : List Word) (io : List IO) : List Elem := ws.map .wd ++ io.map .io

theorem eq_free {w : Word} (h : w.ident = [] ∨ '=' ∈ w.ident) : w.free := by
  unfold Word.free kwOf
  rcases h with h | h
  · rw [h]; rfl
  · have hne : ∀ s : List Char, '=' ∉ s → w.ident ≠ s := by rintro s hs rfl; exact hs h
    iterate 20 rw [if_neg (hne _ (by decide))]

theorem eq_assign {w : Word} (h : w.ident = [] ∨ '=' ∈ w.ident) : assignCommand cfg w.ident = false := by
  unfold assignCommand
  rcases h with h | h
  · rw [h]; simp
  · split
    · rfl
    · simp only [Bool.or_eq_false_iff, decide_eq_false_iff_not]
      refine ⟨⟨⟨?_, ?_⟩, ?_⟩, ?_⟩ <;> (intro he; rw [he] at h; exact absurd h (by decide))

theorem mem_takeWhile {p : Word → Bool} {l : List Word} {w : Word} (h : w ∈ l.takeWhile p) : p w = true := by
  induction l with
  | nil => cases h
  | cons a r ih =>
    rw [List.takeWhile_cons] at h
    split at h
    · rcases List.mem_cons.1 h with rfl | h
      · assumption
      · exact ih h
    · cases h

theorem prElems_raw (ws : List Word) (io : List IO) : elemsRaw (prElems ws io) = words ws ++ ioRaw io := by
  rw [prElems, elemsRaw_append]
  congr 1
  · induction ws with
    | nil => rfl
    | cons w r ih => simp [elemsRaw, Elem.raw, ih, words]
  · induction io with
    | nil => rfl
    | cons w r ih => simp [elemsRaw, Elem.raw, ih, ioRaw]

theorem prElems_words (ws : List Word) (io : List IO) : elemWords (prElems ws io) = ws := by
  induction ws with
  | nil => induction io with
    | nil => rfl
    | cons w r ih => simpa [prElems, elemWords] using ih
  | cons w r ih => simpa [prElems, elemWords] using ih

theorem prElems_ios (ws : List Word) (io : List IO) : elemIos (prElems ws io) = io := by
  induction ws with
  | nil => induction io with
    | nil => rfl
    | cons w r ih => simpa [prElems, elemIos] using ih
  | cons w r ih => simpa [prElems, elemIos] using ih

theorem asn_append (ws : List Word) : asnWords cfg (asnWords cfg ws ++ argWords cfg ws) = asnWords cfg ws := by
  unfold asnWords argWords
  split
  · simp [List.filter_append, List.filter_filter]
  · rw [List.takeWhile_append_dropWhile]

theorem arg_append (ws : List Word) : argWords cfg (asnWords cfg ws ++ argWords cfg ws) = argWords cfg ws := by
  unfold asnWords argWords
  split
  · simp [List.filter_append, List.filter_filter]
  · rw [List.takeWhile_append_dropWhile]

theorem asn_asn {ws : List Word} {w : Word} (h : w ∈ asnWords cfg ws) : w.asn = true := by
  unfold asnWords at h
  split at h
  · exact (List.mem_filter.1 h).2
  · exact mem_takeWhile h

theorem asn_mem {ws : List Word} {w : Word} (h : w ∈ asnWords cfg ws) : w ∈ ws := by
  unfold asnWords at h
  split at h
  · exact (List.mem_filter.1 h).1
  · exact (List.takeWhile_sublist _).subset h

theorem elemWords_mem {es : List Elem} {w : Word} (h : w ∈ elemWords es) : Raw.word w ∈ elemsRaw es := by
  induction es with
  | nil => cases h
  | cons e r ih =>
    cases e with
    | io i => exact List.mem_append_right _ (ih h)
    | wd v =>
      rcases List.mem_cons.1 h with rfl | h
      · simp [elemsRaw, Elem.raw]
      · exact List.mem_append_right _ (ih h)

theorem prIo_eq (t : Op) (io : List IO) (h : hereEnd t = hasHere io) : prIo io = ioRaw io ++ nls (hereN t) := by
  simp [prIo, hereN, h]
  cases hasHere io <;> rfl

theorem simple_goal {es : List Elem} (hf : freeStart es) (hn : (elemIos es).length ≤ NUFILE) (hx : RealIn rd (elemsRaw es))
    (hc : Clean cfg (simpleTree cfg es)) : PartGoal cfg o rd .cmd ⟨.simple, 0⟩ (simpleTree cfg es) := by
  let V := asnWords cfg (elemWords es)
  let A := argWords cfg (elemWords es)
  refine ⟨elemsRaw (prElems (V ++ A) (elemIos es)), ⟨.simple, 0⟩, ?_, ?_, rfl, Nat.zero_le _, rfl⟩
  · rw [prElems_raw, words_append]
    simp only [simpleTree, pr, optWords]
    rw [prIo_eq (simpleTree cfg es) _ rfl]
    simp [simpleTree, V, A]
  · have h1 : freeStart (prElems (V ++ A) (elemIos es)) := by
      cases hV : V with
      | cons v r => exact eq_free ((hx v (elemWords_mem (asn_mem (hV ▸ List.mem_cons_self : v ∈ V)))).asn (asn_asn (hV ▸ List.mem_cons_self : v ∈ V)))
      | nil =>
        cases hA : A with
        | cons a r => exact (hc.1.1 (by rw [show asnWords cfg (elemWords es) = [] from hV]) a r (by rw [show argWords cfg (elemWords es) = a :: r from hA])).1
        | nil =>
          cases hi : elemIos es with
          | cons i r => trivial
          | nil =>
            exfalso
            cases es with
            | nil => exact hf
            | cons e r =>
              cases e with
              | io i => simp [elemIos] at hi
              | wd w =>
                simp only [V, A, elemWords, asnWords, argWords] at hV hA
                cases hk : cfg.keyword <;> cases hw : w.asn <;> simp [hk, hw] at hV hA
    have h2 := Der.simple (cfg := cfg) (o := o) _ h1 (by rw [prElems_ios]; exact hn)
    have h3 : simpleTree cfg (prElems (V ++ A) (elemIos es)) = simpleTree cfg es := by
      have he : declares cfg (prElems (V ++ A) (elemIos es)) = declares cfg es := by
        cases hV : V with
        | cons v r =>
          have h4 : declares cfg es = false := hc.1.2.1 (by rw [show asnWords cfg (elemWords es) = v :: r from hV]; simp)
          rw [h4]
          exact eq_assign ((hx v (elemWords_mem (asn_mem (hV ▸ List.mem_cons_self : v ∈ V)))).asn (asn_asn (hV ▸ List.mem_cons_self : v ∈ V)))
        | nil =>
          cases hA : A with
          | cons a r =>
            exact (hc.1.1 (by rw [show asnWords cfg (elemWords es) = [] from hV]) a r (by rw [show argWords cfg (elemWords es) = a :: r from hA])).2.symm
          | nil =>
            cases es with
            | nil => rfl
            | cons e r =>
              cases e with
              | io i => simp [prElems, declares, elemIos]
              | wd w =>
                simp only [V, A, elemWords, asnWords, argWords] at hV hA
                cases hk : cfg.keyword <;> cases hw : w.asn <;> simp [hk, hw] at hV hA
      simp only [simpleTree, prElems_words, prElems_ios, he]
      simp only [V, A, asn_append, arg_append]
    rwa [h3] at h2

/-- Compound commands: a part, redirections, perhaps a newline. -/
theorem comp_goal {t : Op} {x : List Raw} {js : List IO} (hp : pr rd t = x ++ prIo js) (hh : hereEnd t = hasHere js)
    (hd : Der cfg o .cmd (x ++ ioRaw js) ⟨.comp, 0⟩ t) (k : EK) : PartGoal cfg o rd .cmd ⟨k, 0⟩ t :=
  ⟨x ++ ioRaw js, ⟨.comp, 0⟩, by rw [hp, prIo_eq t js hh, List.append_assoc], hd, rfl, Nat.zero_le _, rfl⟩

theorem isKw_kwRaw {s : List Char} {k : Kw} (h : kwOf s = some k) : IsKw k (kwRaw s) := ⟨_, rfl, h⟩

/-- The inside of a command between newlines. -/
theorem ListGoal.inside {t : Op} (h : ListGoal cfg o rd t) : Der cfg o (.list true) (.nl :: (pr rd t ++ [.nl])) ⟨.noCmdNl, 0⟩ t :=
  list_lead 1 (h.2 0)

theorem dbRaw_real {w : Word} (h : Real rd w) : dbRaw w = .word w := by
  have hne : ∀ k, (dbWord k).raw ∈ [['|', '|'], ['&', '&'], ['('], [')'], ['<'], ['>']] → w ≠ dbWord k := by
    rintro k hk rfl
    exact h.op (by cases k <;> rfl) hk
  unfold dbRaw
  iterate 6 rw [if_neg (hne _ (by decide))]

theorem db_reprint {c : DbCall} {x : List Raw} {ws : List Word} (h : Db o c x ws) (hx : RealIn rd x) : Db o c (ws.map dbRaw) ws := by
  induction h with
  | un n w v h1 h2 h3 =>
    have hw := dbRaw_real (hx w (by simp))
    have hv := dbRaw_real (hx v (by simp))
    simp only [List.map, hw, hv]
    exact .un 0 w v h1 h2 h3
  | binW n a w b h1 h2 h3 =>
    have ha := dbRaw_real (hx a (by simp))
    have hw := dbRaw_real (hx w (by simp))
    have hb := dbRaw_real (hx b (by simp))
    simp only [List.map, ha, hw, hb]
    exact .binW 0 a w b h1 h2 h3
  | binR n a r b h1 h2 =>
    have ha := dbRaw_real (hx a (by simp))
    have hb := dbRaw_real (hx b (by simp))
    simp only [List.map, ha, hb]
    exact .binR 0 a _ b h1 rfl
  | binG n a r b h1 h2 h3 =>
    have ha := dbRaw_real (hx a (by simp))
    have hb := dbRaw_real (hx b (by simp))
    simp only [List.map, ha, hb]
    exact .binG 0 a _ b h1 rfl rfl
  | par n m x ws _ ih =>
    have := Db.par 0 0 _ _ (ih hx.right.tail.left)
    simpa [nls, dbRaw, dbWord] using this
  | prim x ws _ ih => exact .prim _ _ (ih hx)
  | not n w x ws _ _ _ ih => exact .not 0 (dbWord .not) _ _ rfl rfl (ih hx.right.tail)
  | and1 x ws _ ih => exact .and1 _ _ (ih hx)
  | and n x y ws vs _ _ ih1 ih2 =>
    have := Db.and 0 _ _ _ _ (ih1 hx.left) (ih2 hx.right.right.tail)
    simpa [nls, dbRaw, dbWord] using this
  | or1 x ws _ ih => exact .or1 _ _ (ih hx)
  | or n x y ws vs _ _ ih1 ih2 =>
    have := Db.or 0 _ _ _ _ (ih1 hx.left) (ih2 hx.right.right.tail)
    simpa [nls, dbRaw, dbWord] using this

theorem for_reprint {y : List Raw} {vs : Option (List Word)} (h : ForWords y vs) : ForWords (prFor vs) vs := by
  cases h with
  | words n r t ws _ _ => exact .words 0 _ .nl ws (isKw_kwRaw rfl) (.inl rfl)
  | semi => exact .none
  | none => exact .none

/-- What begins with `{` is a group. -/
theorem brace_inv {b : Raw} {x : List Raw} {e : End} {t : Op} (hb : IsKw .klbrace b) (h : Der cfg o .cmd (b :: x) e t) :
    ∃ d l, t = .node .brace d l .nil := by
  obtain ⟨w, rfl, hw⟩ := hb
  generalize hz : Raw.word w :: x = z at h
  have kw : ∀ {k : Kw} {a : Raw}, IsKw k a → Raw.word w = a → k = .klbrace := by
    rintro k a ⟨v, rfl, hv⟩ h
    cases h
    rw [hw] at hv; exact (Option.some.inj hv).symm
  have hd : ∀ {a y}, Raw.word w :: x = a :: y → Raw.word w = a := fun h => (List.cons.inj h).1
  cases h with
  | simple es hf =>
    exfalso
    cases es with
    | nil => cases hz
    | cons e r =>
      cases e with
      | io i => simp [elemsRaw, Elem.raw] at hz
      | wd v =>
        have := hd hz
        cases this
        simp [freeStart, Word.free, hw] at hf
  | rsub is js y e t hi =>
    cases is with
    | nil => exact absurd rfl hi
    | cons i r => simp [ioRaw] at hz
  | fn v n y e t hf => have := hd hz; cases this; simp [Word.free, hw] at hf
  | fnNone v n hf => have := hd hz; cases this; simp [Word.free, hw] at hf
  | kfn v k b n y e t hk => exact absurd (kw hk (hd hz)) (by decide)
  | paren => cases hz
  | brace => exact ⟨_, _, rfl⟩
  | letc => cases hz
  | dbr a y ws js ha => exact absurd (kw ha (hd hz)) (by decide)
  | «for» a ty v y vs n b c y' e t js ha =>
    rcases ha with ⟨ha, -⟩ | ⟨ha, -⟩ <;> exact absurd (kw ha (hd hz)) (by decide)
  | «while» a ty y e l b c y' e' t js ha =>
    rcases ha with ⟨ha, -⟩ | ⟨ha, -⟩ <;> exact absurd (kw ha (hd hz)) (by decide)
  | case a v n b c k y e t js ha => exact absurd (kw ha (hd hz)) (by decide)
  | «if» a c y e l y' e' t js ha => exact absurd (kw ha (hd hz)) (by decide)
  | bang a y e t ha => exact absurd (kw ha (hd hz)) (by decide)
  | time a y e t ha => exact absurd (kw ha (hd hz)) (by decide)
  | timeNone a ha => exact absurd (kw ha (hd hz)) (by decide)

theorem nls_zero : nls 0 = [] := rfl

theorem cmd_ne_nil {x : List Raw} {e : End} {t : Op} (h : Der cfg o .cmd x e t) : x ≠ [] := by
  generalize hz : NT.cmd = nt at h
  cases h <;> simp_all
  case simple es hf _ =>
    cases es with
    | nil => exact hf.elim
    | cons e r => cases e <;> simp [elemsRaw, Elem.raw]

theorem Der.reprint (hrd : RdName rd) {nt : NT} {x : List Raw} {e : End} {t : Op} (h : Der cfg o nt x e t) :
    RealIn rd x → Clean cfg t → Goal cfg o rd e t nt := by
  induction h with
  | listNil n => exact fun _ _ => ⟨list_nil_goal, rfl⟩
  | listNil1 => exact fun _ _ => ⟨list_nil_goal, rfl⟩
  | listOne m n x e t hm hd ih =>
    intro hx hc
    obtain ⟨hp, he⟩ := ih hx.right hc
    exact ⟨list_one_goal hp, he⟩
  | listMore m n x y e e' t u p r hm ht ho hs hu iht ihu =>
    intro hx hc
    have hx1 := hx.right.left
    have hx2 := hx.right.right.tail
    have key : Clean cfg p → (u ≠ .nil → Clean cfg u) → ListGoal cfg o rd (consList p u) ∧ notElif (consList p u) = true := by
      intro hcp hcu
      have fin : ∀ {c e1 r1 k}, pr rd p ++ [.nl] = c ++ r1 :: nls k → ListGoal cfg o rd p → Der cfg o .andor c e1 t →
          e1.k.good = true → e1.lvl ≤ 1 → r1 ∈ [Raw.nl, .amp, .coproc, .semi, .andand, .oror] → sepTree true r1 t = some p → notElif p = true →
          ListGoal cfg o rd (consList p u) ∧ notElif (consList p u) = true := by
        intro c e1 r1 k h1 h2 h3 h4 h5 h6 h7 h8
        by_cases hn : u = .nil
        · subst hn; exact ⟨h2, h8⟩
        · refine ⟨list_more_goal h1 h3 h4 h5 h6 h7 (ihu hx2 (hcu hn)).1 hn, ?_⟩
          cases u with
          | nil => exact absurd rfl hn
          | node => rfl
      cases r <;> simp only [sepTree, reduceCtorEq, Option.some.injEq] at hs
      case semi =>
        subst hs
        obtain ⟨hp, he⟩ := iht hx1 hcp
        have hl := list_one_goal hp
        obtain ⟨c, e1, h1, h2, h3, h4, h5⟩ := hp
        exact fin (r1 := .nl) (k := hereN t) (by rw [h1, List.append_assoc, show [Raw.nl] = nls 1 from rfl, nls_add]; rfl) hl h2 h5 h4 (by simp) rfl he
      case nl =>
        split at hs
        · cases hs
          obtain ⟨hp, he⟩ := iht hx1 hcp
          have hl := list_one_goal hp
          obtain ⟨c, e1, h1, h2, h3, h4, h5⟩ := hp
          exact fin (r1 := .nl) (k := hereN t) (by rw [h1, List.append_assoc, show [Raw.nl] = nls 1 from rfl, nls_add]; rfl) hl h2 h5 h4 (by simp) rfl he
        · cases hs
      case amp =>
        subst hs
        obtain ⟨hp, he⟩ := iht hx1 hcp.2.1
        obtain ⟨c, e1, h1, h2, h3, h4, h5⟩ := hp
        have h0 : hereN t = 0 := by simp [hereN, show hereEnd t = false from hcp.1]
        rw [h0, nls_zero, List.append_nil] at h1
        have hpr : pr rd (block .async t .nil) = c ++ [.amp] := by simp [block, pr, h1, prIo, ioRaw, hasHere]
        exact fin (r1 := .amp) (k := 1) (by rw [hpr]; simp [nls]) (list_sep_goal hpr h2 h5 h4 (by simp) rfl) h2 h5 h4 (by simp) rfl rfl
      case coproc =>
        subst hs
        obtain ⟨hp, he⟩ := iht hx1 hcp.2.1
        obtain ⟨c, e1, h1, h2, h3, h4, h5⟩ := hp
        have h0 : hereN t = 0 := by simp [hereN, show hereEnd t = false from hcp.1]
        rw [h0, nls_zero, List.append_nil] at h1
        have hpr : pr rd (block .coproc t .nil) = c ++ [.coproc] := by simp [block, pr, h1, prIo, ioRaw, hasHere]
        exact fin (r1 := .coproc) (k := 1) (by rw [hpr]; simp [nls]) (list_sep_goal hpr h2 h5 h4 (by simp) rfl) h2 h5 h4 (by simp) rfl rfl
    cases u with
    | nil => exact key hc (fun h => absurd rfl h)
    | node ty d l r' => exact key hc.2.1 (fun _ => hc.2.2)
  | andorOne x e t hd ih =>
    intro hx hc
    obtain ⟨⟨c, e1, h1, h2, h3⟩, he⟩ := ih hx hc
    exact ⟨⟨c, e1, h1, .andorOne _ _ _ h2, h3⟩, he⟩
  | andorAnd x y n e e' t p h1 ho h2 ih1 ih2 =>
    intro hx hc
    obtain ⟨⟨c, e1, a1, a2, a3, a4, a5⟩, he⟩ := ih1 hx.left hc.2.1
    obtain ⟨⟨d, e2, b1, b2, b3⟩, he⟩ := ih2 hx.right.tail.right hc.2.2
    have h0 : hereN t = 0 := by simp [hereN, show hereEnd t = false from hc.1]
    rw [h0, nls_zero, List.append_nil] at a1
    refine ⟨⟨c ++ .andand :: d, e2, ?_, ?_, b3⟩, rfl⟩
    · rw [show hereN (block .and t p) = hereN p from hereN_eq rfl]
      simp [block, pr, a1, b1, prIo, ioRaw, hasHere]
    · exact .andorAnd c d 0 e1 e2 t p a2 (good_sep a5 a4 (by simp)) b2
  | andorOr x y n e e' t p h1 ho h2 ih1 ih2 =>
    intro hx hc
    obtain ⟨⟨c, e1, a1, a2, a3, a4, a5⟩, he⟩ := ih1 hx.left hc.2.1
    obtain ⟨⟨d, e2, b1, b2, b3⟩, he⟩ := ih2 hx.right.tail.right hc.2.2
    have h0 : hereN t = 0 := by simp [hereN, show hereEnd t = false from hc.1]
    rw [h0, nls_zero, List.append_nil] at a1
    refine ⟨⟨c ++ .oror :: d, e2, ?_, ?_, b3⟩, rfl⟩
    · rw [show hereN (block .or t p) = hereN p from hereN_eq rfl]
      simp [block, pr, a1, b1, prIo, ioRaw, hasHere]
    · exact .andorOr c d 0 e1 e2 t p a2 (good_sep a5 a4 (by simp)) b2
  | pipeOne x e t hd ih =>
    intro hx hc
    obtain ⟨⟨c, e1, h1, h2, h3, h4, h5⟩, he⟩ := ih hx hc
    exact ⟨⟨c, e1.up 1, h1, .pipeOne _ _ _ h2, by simp [End.up, h3], by simp [End.up]; omega, h5⟩, he⟩
  | pipeMore x y n e e' t u h1 ho h2 ih1 ih2 =>
    intro hx hc
    obtain ⟨⟨c, e1, a1, a2, a3, a4, a5⟩, he⟩ := ih1 hx.left hc.2.1
    obtain ⟨⟨d, e2, b1, b2, b3⟩, he⟩ := ih2 hx.right.tail.right hc.2.2
    have h0 : hereN t = 0 := by simp [hereN, show hereEnd t = false from hc.1]
    rw [h0, nls_zero, List.append_nil] at a1
    refine ⟨⟨c ++ .pipe :: d, e2, ?_, ?_, b3⟩, rfl⟩
    · rw [show hereN (block .pipe t u) = hereN u from hereN_eq rfl]
      simp [block, pr, a1, b1]
    · exact .pipeMore c d 0 e1 e2 t u a2 (good_pipe a5 a3 ho) b2
  | simple es hf hn => exact fun hx hc => ⟨simple_goal hf hn hx hc, rfl⟩
  | rsub is js x e t hi hn hl ho ih =>
    intro hx hc
    obtain ⟨⟨⟨e1, h1, h2⟩, -⟩, -⟩ := ih hx.right.tail.left hc.2.1
    refine ⟨comp_goal (x := .lpar :: (pr rd t ++ [.rpar])) (js := is ++ js) (by simp [pr]) rfl ?_ .rsub, rfl⟩
    simpa using Der.paren (is ++ js) (pr rd t) e1 t hn h1 h2
  | fn w n x e t hf ha hv hd ih =>
    intro hx hc
    obtain ⟨⟨c, e1, h1, h2, h3⟩, he⟩ := ih hx.tail.tail.tail.right hc.2.1
    obtain ⟨r1, r2, r3⟩ := hrd w.strip hc.1.1 hv
    refine ⟨⟨.word (rd w.strip) :: .lpar :: .rpar :: c, e1, ?_, ?_, h3⟩, rfl⟩
    · rw [show hereN (.node .funct { str := w.strip } t .nil) = hereN t from hereN_eq rfl]
      simp [pr, textRaw, hc.1.1, h1, prIo, ioRaw, hasHere]
    · have hfree : (rd w.strip).free := by
        unfold Word.free
        rcases r3 with r3 | r3 <;> rw [r3]
        · exact hc.1.2 rfl
        · rfl
      have := Der.fn (rd w.strip) 0 c e1 t hfree r2 (by rw [r1]; exact hv) h2
      rw [r1] at this
      exact this
  | fnNone w n hf ha hv =>
    intro hx hc
    obtain ⟨r1, r2, r3⟩ := hrd w.strip hc.1.1 hv
    refine ⟨⟨[.word (rd w.strip), .lpar, .rpar, kwRaw [':']], ⟨.simple, 0⟩, ?_, ?_, rfl, Nat.zero_le _, rfl⟩, rfl⟩
    · simp [pr, textRaw, hc.1.1, colon, optWords, words, prIo, ioRaw, hasHere, hereN, hereEnd, nls, kwRaw]
    · have hfree : (rd w.strip).free := by
        unfold Word.free
        rcases r3 with r3 | r3 <;> rw [r3]
        · exact hc.1.2 rfl
        · rfl
      have h2 : Der cfg o .cmd [kwRaw [':']] ⟨.simple, 0⟩ colon := by
        have h3 := Der.simple (cfg := cfg) (o := o) [.wd (plainWord [':'])] rfl (Nat.zero_le _)
        have h4 : simpleTree cfg [.wd (plainWord [':'])] = colon := by
          simp only [simpleTree, colon, declares, elemWords, elemIos, asnWords, argWords, assignCommand]
          cases cfg.keyword <;> cases cfg.posix <;> rfl
        rw [h4] at h3
        exact h3
      have := Der.fn (rd w.strip) 0 _ _ _ hfree r2 (by rw [r1]; exact hv) h2
      rw [r1] at this
      exact this
  | kfn w k b n x e t hk hv hb hd ih =>
    intro hx hc
    obtain ⟨⟨c, e1, h1, h2, h3⟩, he⟩ := ih hx.tail.tail.right hc.2.1
    obtain ⟨r1, r2, r3⟩ := hrd w.strip hc.1.1 hv
    obtain ⟨d, l, rfl⟩ := brace_inv hb hd
    have hne := cmd_ne_nil h2
    cases c with
    | nil => exact absurd rfl hne
    | cons a c =>
      have ha : a = kwRaw ['{'] := by
        rw [pr] at h1
        exact (List.cons.inj h1).1.symm
      subst ha
      refine ⟨⟨kwRaw ['f', 'u', 'n', 'c', 't', 'i', 'o', 'n'] :: .word (rd w.strip) :: kwRaw ['{'] :: c, e1, ?_, ?_, h3⟩, rfl⟩
      · rw [show hereN (.node .funct { str := w.strip, ev := true } (.node .brace d l .nil) .nil) = hereN (.node .brace d l .nil) from hereN_eq rfl, pr]
        simp [textRaw, hc.1.1, h1, prIo, ioRaw, hasHere]
      · have := Der.kfn (rd w.strip) _ _ 0 c e1 _ (isKw_kwRaw (s := ['f', 'u', 'n', 'c', 't', 'i', 'o', 'n']) rfl) (by rw [r1]; exact hv) (isKw_kwRaw (s := ['{']) rfl) h2
        rw [r1] at this
        exact this
  | paren js x e t hn hl ho ih =>
    intro hx hc
    obtain ⟨⟨⟨e1, h1, h2⟩, -⟩, -⟩ := ih hx.tail.left hc.2.1
    refine ⟨comp_goal (x := .lpar :: (pr rd t ++ [.rpar])) (js := js) (by simp [pr]) rfl ?_ .comp, rfl⟩
    simpa using Der.paren js (pr rd t) e1 t hn h1 h2
  | brace a b js x e t ha hb hn hl ho ih =>
    intro hx hc
    obtain ⟨h1, -⟩ := ih hx.tail.left hc.2.1
    refine ⟨comp_goal (x := kwRaw ['{'] :: (.nl :: (pr rd t ++ [.nl]) ++ [kwRaw ['}']])) (js := js) (by simp [pr]) rfl ?_ .comp, rfl⟩
    simpa using Der.brace _ _ js _ _ t (isKw_kwRaw (s := ['{']) rfl) (isKw_kwRaw (s := ['}']) rfl) hn h1.inside rfl
  | letc w js hn =>
    intro hx hc
    have h1 := Der.simple (cfg := cfg) (o := o) (prElems [plainWord ['l', 'e', 't'], w] js) rfl (by rw [prElems_ios]; exact hn)
    have h2 : simpleTree cfg (prElems [plainWord ['l', 'e', 't'], w] js) =
        .node .com { vars := some [], args := some [plainWord ['l', 'e', 't'], w], io := js } .nil .nil := by
      simp only [simpleTree, prElems_words, prElems_ios]
      have h3 : declares cfg (prElems [plainWord ['l', 'e', 't'], w] js) = false := by
        simp [prElems, declares, assignCommand, plainWord, Word.ident]
      rw [h3]
      cases hk : cfg.keyword with
      | false => simp [asnWords, argWords, hk, plainWord]
      | true =>
        have := hc.1.2.2 hk _ rfl w (by simp)
        simp [asnWords, argWords, hk, plainWord, this]
    rw [h2, prElems_raw] at h1
    refine ⟨⟨_, ⟨.simple, 0⟩, ?_, h1, rfl, Nat.zero_le _, rfl⟩, rfl⟩
    rw [pr]
    simp only [optWords]
    rw [prIo_eq (.node .com { vars := some [], args := some [plainWord ['l', 'e', 't'], w], io := js } .nil .nil) _ rfl]
    simp [words]
  | dbr a x ws js ha hd hn =>
    intro hx hc
    obtain ⟨y, n, w, h1, -, -, rfl⟩ := hd
    have h2 := db_reprint h1 hx.tail.left.left
    refine ⟨comp_goal (x := kwRaw ['[', '['] :: (ws.map dbRaw ++ [kwRaw [']', ']']])) (js := js) (by simp [pr]) rfl ?_ .comp, rfl⟩
    exact Der.dbr _ (ws.map dbRaw ++ [kwRaw [']', ']']]) ws js (isKw_kwRaw (s := ['[', '[']) rfl) ⟨_, 0, plainWord [']', ']'], h2, rfl, rfl, by simp [nls, kwRaw]⟩ hn
  | «for» a ty w y vs n b c x e t js ha hw hf hb hl ho hn ih =>
    intro hx hc
    have hx1 := hx.tail.tail.right.right.tail.left
    have hne : w.ident ≠ [] := by rcases ha with ⟨-, rfl⟩ | ⟨-, rfl⟩ <;> exact hc.1
    obtain ⟨h1, -⟩ := ih hx1 hc.2.1
    have hpl : w.plain = true := by
      cases hp : w.plain with
      | true => rfl
      | false => simp [Word.ident, hp] at hne
    have hback : rd w.ident = w := by
      rw [Word.ident, if_pos hpl]
      exact (hx w (by simp)).back hpl
    rcases ha with ⟨-, rfl⟩ | ⟨-, rfl⟩
    · refine ⟨comp_goal (x := kwRaw ['f', 'o', 'r'] :: .word w :: (prFor vs ++ (kwRaw ['d', 'o'] :: (.nl :: (pr rd t ++ [.nl]) ++ [kwRaw ['d', 'o', 'n', 'e']])))) (js := js) (by simp [pr, textRaw, hne, hback]) rfl ?_ .comp, rfl⟩
      have := Der.for (cfg := cfg) (o := o) _ .for w _ vs 0 _ _ _ _ t js (.inl ⟨isKw_kwRaw (s := ['f', 'o', 'r']) rfl, rfl⟩) hw (for_reprint hf)
        (.inl ⟨isKw_kwRaw (s := ['d', 'o']) rfl, isKw_kwRaw (s := ['d', 'o', 'n', 'e']) rfl⟩) h1.inside rfl hn
      simpa [nls] using this
    · refine ⟨comp_goal (x := kwRaw ['s', 'e', 'l', 'e', 'c', 't'] :: .word w :: (prFor vs ++ (kwRaw ['d', 'o'] :: (.nl :: (pr rd t ++ [.nl]) ++ [kwRaw ['d', 'o', 'n', 'e']])))) (js := js) (by simp [pr, textRaw, hne, hback]) rfl ?_ .comp, rfl⟩
      have := Der.for (cfg := cfg) (o := o) _ .select w _ vs 0 _ _ _ _ t js (.inr ⟨isKw_kwRaw (s := ['s', 'e', 'l', 'e', 'c', 't']) rfl, rfl⟩) hw (for_reprint hf)
        (.inl ⟨isKw_kwRaw (s := ['d', 'o']) rfl, isKw_kwRaw (s := ['d', 'o', 'n', 'e']) rfl⟩) h1.inside rfl hn
      simpa [nls] using this
  | «while» a ty x e l b c y e' t js ha hl hln ho hb ht ho' hn ih1 ih2 =>
    intro hx hc
    obtain ⟨h1, -⟩ := ih1 hx.tail.left hc.2.1
    obtain ⟨h2, -⟩ := ih2 hx.tail.right.tail.left hc.2.2
    rcases ha with ⟨-, rfl⟩ | ⟨-, rfl⟩
    · refine ⟨comp_goal (x := kwRaw ['w', 'h', 'i', 'l', 'e'] :: (pr rd l ++ [.nl] ++ kwRaw ['d', 'o'] :: (.nl :: (pr rd t ++ [.nl]) ++ [kwRaw ['d', 'o', 'n', 'e']]))) (js := js) (by simp [pr]) rfl ?_ .comp, rfl⟩
      have := Der.while (cfg := cfg) (o := o) _ .while _ _ l _ _ _ _ t js (.inl ⟨isKw_kwRaw (s := ['w', 'h', 'i', 'l', 'e']) rfl, rfl⟩) (h1.2 0) hln rfl
        (.inl ⟨isKw_kwRaw (s := ['d', 'o']) rfl, isKw_kwRaw (s := ['d', 'o', 'n', 'e']) rfl⟩) h2.inside rfl hn
      simpa [nls] using this
    · refine ⟨comp_goal (x := kwRaw ['u', 'n', 't', 'i', 'l'] :: (pr rd l ++ [.nl] ++ kwRaw ['d', 'o'] :: (.nl :: (pr rd t ++ [.nl]) ++ [kwRaw ['d', 'o', 'n', 'e']]))) (js := js) (by simp [pr]) rfl ?_ .comp, rfl⟩
      have := Der.while (cfg := cfg) (o := o) _ .until _ _ l _ _ _ _ t js (.inr ⟨isKw_kwRaw (s := ['u', 'n', 't', 'i', 'l']) rfl, rfl⟩) (h1.2 0) hln rfl
        (.inl ⟨isKw_kwRaw (s := ['d', 'o']) rfl, isKw_kwRaw (s := ['d', 'o', 'n', 'e']) rfl⟩) h2.inside rfl hn
      simpa [nls] using this
  | case a w n b c k x e t js ha hb hcl hd ho hn ih =>
    intro hx hc
    have h1 := ih hx.tail.tail.right.tail.left hc.2.1
    refine ⟨comp_goal (x := kwRaw ['c', 'a', 's', 'e'] :: .word w :: (kwRaw ['i', 'n'] :: ((prCases rd t ++ [.nl]) ++ [kwRaw ['e', 's', 'a', 'c']]))) (js := js) (by simp [pr, prWord]) rfl ?_ .comp, rfl⟩
    have := Der.case (cfg := cfg) (o := o) _ w 0 _ _ .kesac _ _ t js (isKw_kwRaw (s := ['c', 'a', 's', 'e']) rfl) (.inl ⟨isKw_kwRaw (s := ['i', 'n']) rfl, rfl⟩)
      (isKw_kwRaw (s := ['e', 's', 'a', 'c']) rfl) h1 rfl hn
    simpa [nls] using this
  | «if» a c x e l y e' t js ha hl ho ht hfi ho' hn ih1 ih2 =>
    intro hx hc
    obtain ⟨h1, -⟩ := ih1 hx.tail.left hc.2.1
    obtain ⟨⟨z, h2, h3⟩, h4⟩ := ih2 hx.tail.right.left hc.2.2
    have hjs : js = [] := hc.1
    subst hjs
    refine ⟨comp_goal (x := kwRaw ['i', 'f'] :: (pr rd l ++ [.nl] ++ (kwRaw ['t', 'h', 'e', 'n'] :: z ++ [kwRaw ['f', 'i']]))) (js := []) ?_ rfl ?_ .comp, rfl⟩
    · rw [pr, h4]
      rw [show prThen rd t ++ .nl :: kwRaw ['f', 'i'] :: prIo [] = (prThen rd t ++ [.nl]) ++ kwRaw ['f', 'i'] :: prIo [] by simp, h2]
      simp
    · have := Der.if (cfg := cfg) (o := o) _ _ _ _ l _ _ t [] (isKw_kwRaw (s := ['i', 'f']) rfl) (h1.2 0) rfl h3 (isKw_kwRaw (s := ['f', 'i']) rfl) rfl hn
      simpa [nls] using this
  | bang a x e t ha hd ih =>
    intro hx hc
    obtain ⟨⟨c, e1, h1, h2, h3⟩, he⟩ := ih hx.tail hc.2.2
    refine ⟨⟨kwRaw ['!'] :: c, e1, ?_, .bang _ _ _ _ (isKw_kwRaw (s := ['!']) rfl) h2, h3⟩, rfl⟩
    rw [show hereN (block .bang .nil t) = hereN t from hereN_eq rfl]
    simp [block, pr, h1]
  | time a x e t ha hd ih =>
    intro hx hc
    obtain ⟨⟨c, e1, h1, h2, h3⟩, he⟩ := ih hx.tail hc.2.1
    refine ⟨⟨kwRaw ['t', 'i', 'm', 'e'] :: c, e1, ?_, .time _ _ _ _ (isKw_kwRaw (s := ['t', 'i', 'm', 'e']) rfl) h2, h3⟩, rfl⟩
    rw [show hereN (block .time t .nil) = hereN t from hereN_eq rfl]
    simp [block, pr, h1, prIo, ioRaw, hasHere]
  | timeNone a ha =>
    intro hx hc
    exact ⟨⟨[kwRaw ['t', 'i', 'm', 'e']], ⟨.noCmd, 0⟩, by simp [block, pr, prIo, ioRaw, hasHere, hereN, hereEnd, nls],
      .timeNone _ (isKw_kwRaw (s := ['t', 'i', 'm', 'e']) rfl), rfl, Nat.zero_le _, rfl⟩, rfl⟩
  | «then» a x e t ha hd hn ih =>
    intro hx hc
    obtain ⟨h1, -⟩ := ih hx.tail hc.2.1
    have hnil : t.isNil = false := by cases t with
      | nil => exact absurd rfl hn
      | node => rfl
    refine ⟨⟨.nl :: (pr rd t ++ [.nl]), ?_, .then _ _ _ _ (isKw_kwRaw (s := ['t', 'h', 'e', 'n']) rfl) h1.inside hn⟩, rfl⟩
    simp [block, prThen, hnil]
  | thenElse a b x y e e' t u ha hd hn hb ho hu hun ih1 ih2 =>
    intro hx hc
    obtain ⟨h1, -⟩ := ih1 hx.tail.left hc.2.1
    obtain ⟨h2, hel⟩ := ih2 hx.tail.right.tail hc.2.2
    have hnil : t.isNil = false := by cases t with
      | nil => exact absurd rfl hn
      | node => rfl
    cases u with
    | nil => exact absurd rfl hun
    | node ty d ul ur =>
      have hty : ty ≠ .elif := by rintro rfl; cases hel
      refine ⟨⟨.nl :: (pr rd t ++ [.nl]) ++ kwRaw ['e', 'l', 's', 'e'] :: (.nl :: (pr rd (.node ty d ul ur) ++ [.nl])), ?_,
        .thenElse _ _ _ _ _ _ _ _ (isKw_kwRaw (s := ['t', 'h', 'e', 'n']) rfl) h1.inside hn (isKw_kwRaw (s := ['e', 'l', 's', 'e']) rfl) rfl h2.inside hun⟩, ?_⟩
      · simp [block, prThen, hnil, hty]
      · cases ty <;> first | rfl | exact absurd rfl hty
  | thenElif a b x y z e e' e'' t l u ha hd hn hb ho hl ho' hu ih1 ih2 ih3 =>
    intro hx hc
    obtain ⟨h1, -⟩ := ih1 hx.tail.left hc.2.1
    obtain ⟨h2, -⟩ := ih2 hx.tail.right.tail.left hc.2.2.2.1
    obtain ⟨⟨z', h3, h4⟩, h5⟩ := ih3 hx.tail.right.tail.right hc.2.2.2.2
    have hnil : t.isNil = false := by cases t with
      | nil => exact absurd rfl hn
      | node => rfl
    refine ⟨⟨.nl :: (pr rd t ++ [.nl]) ++ kwRaw ['e', 'l', 'i', 'f'] :: ((pr rd l ++ [.nl]) ++ kwRaw ['t', 'h', 'e', 'n'] :: z'), ?_,
        .thenElif _ _ _ _ _ _ _ _ _ _ _ (isKw_kwRaw (s := ['t', 'h', 'e', 'n']) rfl) h1.inside hn (isKw_kwRaw (s := ['e', 'l', 'i', 'f']) rfl) rfl (h2.2 0) rfl h4⟩, h5⟩
    simp [block, prThen, hnil, h3]
  | caseNil k n =>
    intro hx hc
    exact .caseNil .kesac 1
  | caseLast k n op p ps x e t hp hd ih =>
    intro hx hc
    obtain ⟨h1, -⟩ := ih hx.right.right.right.tail hc.2.1
    have := Der.caseMore (cfg := cfg) (o := o) .kesac 1 true p ps _ _ _ _ t .nil (by simp) h1.inside rfl (.caseNil .kesac 1)
    simpa [Goal, prCases, prPats, nls] using this
  | caseMore k n op p ps x y e e' t u hp hd ho hu ih1 ih2 =>
    intro hx hc
    obtain ⟨h1, -⟩ := ih1 hx.right.right.right.tail.left hc.2.1
    have h2 := ih2 hx.right.right.right.tail.right.tail hc.2.2
    have := Der.caseMore (cfg := cfg) (o := o) .kesac 1 true p ps _ _ _ _ t u (by simp) h1.inside rfl h2
    simpa [Goal, prCases, prPats, nls] using this

end Ksh.Syn
