import Verif.Syn.Reprint
/-!
# Properties of printed functions

What `typeset -f` prints for a function is read as the same function definition, unless one of the
reservations of `CleanAt` applies; each of them is shown to be needed.
-/

namespace Ksh.Syn

variable {cfg : Cfg} {o : DbOps} {rd : List Char → Word}

/-! ## Redirections as text -/

/-- `expected`, tree.c:198-202 -/
def expectedUnit (r : Redir) : Nat :=
  match r.ty with
  | .read | .rdwr | .here => 0
  | .cat | .write => 1
  | .dup => if r.unit = (if r.opt then 0 else 1) then r.unit else r.unit + 1

/-- The number of the descriptor is printed if it is not the usual one, tree.c:203-204. -/
def unitText (r : Redir) : List Char := if r.unit = expectedUnit r then [] else [Char.ofNat (48 + r.unit)]

/-- The operator, tree.c:206-232. -/
def opText (r : Redir) : List Char :=
  match r.ty with
  | .read => ['<', ' ']
  | .here => if r.opt then ['<', '<', '-', ' '] else ['<', '<', ' ']
  | .cat => ['>', '>', ' ']
  | .write => if r.opt then ['>', '|', ' '] else ['>', ' ']
  | .rdwr => ['<', '>', ' ']
  | .dup => if r.opt then ['<', '&'] else ['>', '&']

/-- `pioact` without the name, tree.c:189-232 -/
def redirText (r : Redir) : List Char := unitText r ++ opText r

/-- The characters behind the first `<` or `>`, lex.c:742-760. -/
def redirTail (unit : Nat) (c : Char) : List Char → Redir × List Char
  | c2 :: s =>
    if c2 = c then
      if c = '>' then (⟨unit, .cat, false⟩, s)
      else match s with
        | '-' :: s => (⟨unit, .here, true⟩, s)
        | s => (⟨unit, .here, false⟩, s)
    else if c = '<' ∧ c2 = '>' then (⟨unit, .rdwr, false⟩, s)
    else if c2 = '&' then (⟨unit, .dup, decide (c = '<')⟩, s)
    else if c = '>' then
      if c2 = '|' then (⟨unit, .write, true⟩, s) else (⟨unit, .write, false⟩, c2 :: s)
    else (⟨unit, .read, false⟩, c2 :: s)
  | [] => (⟨unit, if c = '>' then .write else .read, false⟩, [])

/-- `yylex` at the beginning of a redirection: perhaps a digit, then `<` or `>`, lex.c:730-767. -/
def redirLex : List Char → Option (Redir × List Char)
  | [] => none
  | c :: s =>
    if c = '<' ∨ c = '>' then some (redirTail (if c = '>' then 1 else 0) c s)
    else if '0' ≤ c ∧ c ≤ '9' then
      match s with
      | d :: s => if d = '<' ∨ d = '>' then some (redirTail (c.toNat - 48) d s) else none
      | [] => none
    else none

/-- What the lexer makes of redirections: one digit, and flags only where there are some. -/
def Redir.lexed (r : Redir) : Prop := r.unit ≤ 9 ∧ (r.opt = true → r.ty = .write ∨ r.ty = .here ∨ r.ty = .dup)

theorem redirTail_lexed {u : Nat} {c : Char} {s : List Char} (hu : u ≤ 9) : (redirTail u c s).1.lexed := by
  unfold redirTail
  split
  · split
    · split
      · simp [Redir.lexed, hu]
      · split <;> simp [Redir.lexed, hu]
    · split
      · simp [Redir.lexed, hu]
      · split
        · simp [Redir.lexed, hu]
        · split
          · split <;> simp [Redir.lexed, hu]
          · simp [Redir.lexed, hu]
  · simp [Redir.lexed, hu]

theorem redirLex_lexed {s rest : List Char} {r : Redir} (h : redirLex s = some (r, rest)) : r.lexed := by
  unfold redirLex at h
  split at h
  · cases h
  · split at h
    · rename_i c s _
      have := redirTail_lexed (u := if c = '>' then 1 else 0) (c := c) (s := s) (by split <;> omega)
      rw [Option.some.inj h] at this; exact this
    · split at h
      · rename_i c _ _ hc
        split at h
        · split at h
          · have := redirTail_lexed (u := c.toNat - 48) (c := ‹Char›) (s := ‹List Char›) (by
              have : c.toNat ≤ 57 := hc.2
              omega)
            rw [Option.some.inj h] at this; exact this
          · cases h
        · cases h
      · cases h

theorem redirTail_text (r : Redir) (u : Nat) (rest : List Char) (ho : r.opt = true → r.ty = .write ∨ r.ty = .here ∨ r.ty = .dup) :
    ∃ c s sp, opText r = c :: s ++ sp ∧ (c = '<' ∨ c = '>') ∧ (sp = [] ∨ sp = [' ']) ∧
      redirTail u c (s ++ sp ++ rest) = (⟨u, r.ty, r.opt⟩, sp ++ rest) ∧
      (c = '>' ↔ (match r.ty with | .read | .rdwr | .here => false | .cat | .write => true | .dup => !r.opt) = true) := by
  obtain ⟨unit, ty, opt⟩ := r
  cases ty <;> cases opt <;> simp only [reduceCtorEq, or_self, forall_const, imp_self, or_true, true_or] at ho
  · exact ⟨'<', [], [' '], rfl, .inl rfl, .inr rfl, rfl, by simp⟩
  · exact ⟨'>', [], [' '], rfl, .inr rfl, .inr rfl, rfl, by simp⟩
  · exact ⟨'>', ['|'], [' '], rfl, .inr rfl, .inr rfl, rfl, by simp⟩
  · exact ⟨'<', ['>'], [' '], rfl, .inl rfl, .inr rfl, rfl, by simp⟩
  · exact ⟨'<', ['<'], [' '], rfl, .inl rfl, .inr rfl, rfl, by simp⟩
  · exact ⟨'<', ['<', '-'], [' '], rfl, .inl rfl, .inr rfl, rfl, by simp⟩
  · exact ⟨'>', ['>'], [' '], rfl, .inr rfl, .inr rfl, rfl, by simp⟩
  · exact ⟨'>', ['&'], [], rfl, .inr rfl, .inl rfl, rfl, by simp⟩
  · exact ⟨'<', ['&'], [], rfl, .inl rfl, .inl rfl, rfl, by simp⟩

/-- A redirection is read from its text, up to the blank before the name. -/
theorem redir_text {r : Redir} (h : r.lexed) (rest : List Char) :
    ∃ sp, (sp = [] ∨ sp = [' ']) ∧ redirLex (redirText r ++ rest) = some (r, sp ++ rest) := by
  obtain ⟨c, s, sp, h1, h2, h3, h4, h5⟩ := redirTail_text r r.unit rest h.2
  refine ⟨sp, h3, ?_⟩
  unfold redirText
  by_cases hu : unitText r = []
  · rw [hu, h1]
    simp only [List.nil_append, List.cons_append, redirLex, if_pos h2]
    have : (if c = '>' then 1 else 0) = r.unit := by
      unfold unitText at hu
      by_cases he : r.unit = expectedUnit r
      · unfold expectedUnit at he
        obtain ⟨unit, ty, opt⟩ := r
        cases ty <;> cases opt <;> simp at h5 he <;> simp [h5, he]
        all_goals (split at he <;> simp_all)
      · rw [if_neg he] at hu; cases hu
    rw [this, h4]
  · have h6 : unitText r = [Char.ofNat (48 + r.unit)] := by
      unfold unitText at hu ⊢
      by_cases he : r.unit = expectedUnit r
      · exact absurd (if_pos he) hu
      · exact if_neg he
    rw [h6, h1]
    have h7 : ∀ n ≤ 9, (Char.ofNat (48 + n) ≠ '<' ∧ Char.ofNat (48 + n) ≠ '>') ∧ ('0' ≤ Char.ofNat (48 + n) ∧ Char.ofNat (48 + n) ≤ '9') ∧
        (Char.ofNat (48 + n)).toNat - 48 = n := by decide
    obtain ⟨h8, h9, h10⟩ := h7 r.unit h.1
    simp only [List.cons_append, List.nil_append, redirLex]
    rw [if_neg (by simp [h8]), if_pos h9, if_pos h2, h10, h4]

/-! ## Functions -/

/-- The node occurs in the tree. -/
def Op.Has : Op → Op → Prop
  | .nil, _ => False
  | .node ty d l r, f => .node ty d l r = f ∨ l.Has f ∨ r.Has f

/-- What `typeset -f` prints, c_ksh.c:721-724, 741-744. -/
def printed (rd : List Char → Word) (name : List Char) (ksh : Bool) (t : Op) : List Raw :=
  (if ksh then kwRaw ['f', 'u', 'n', 'c', 't', 'i', 'o', 'n'] :: textRaw rd name else textRaw rd name ++ [.lpar, .rpar]) ++ (pr rd t ++ [.nl])

theorem printed_eq {d : Data} {t : Op} (hd : d.io = []) : printed rd d.str d.ev t = pr rd (.node .funct d t .nil) ++ [.nl] := by
  simp [printed, pr, hd, prIo, ioRaw, hasHere]

theorem sep_has {t p : Op} {m : Bool} {r : Raw} {d : Data} {b c : Op} (h : sepTree m r t = some p) (hf : p.Has (.node .funct d b c)) :
    t.Has (.node .funct d b c) := by
  unfold sepTree at h
  split at h
  · cases h; exact hf
  · split at h <;> cases h; exact hf
  · cases h
    rcases hf with hf | hf | hf
    · cases hf
    · exact hf
    · exact hf.elim
  · cases h
    rcases hf with hf | hf | hf
    · cases hf
    · exact hf
    · exact hf.elim
  · cases h

theorem has_node {ty : Ty} {d d' : Data} {l r b c : Op} (hf : (Op.node ty d' l r).Has (.node .funct d b c)) (ht : ty ≠ .funct) :
    l.Has (.node .funct d b c) ∨ r.Has (.node .funct d b c) := by
  rcases hf with hf | hf
  · cases hf; exact absurd rfl ht
  · exact hf

/-- A function definition in a tree was read as a command. -/
theorem Der.has {nt : NT} {x : List Raw} {e : End} {t : Op} (h : Der cfg o nt x e t) {d : Data} {b c : Op}
    (hf : t.Has (.node .funct d b c)) : ∃ x' e', Der cfg o .cmd x' e' (.node .funct d b c) ∧ (∀ w, Raw.word w ∈ x' → Raw.word w ∈ x) := by
  have sub : ∀ {x y : List Raw}, (∃ x' e', Der cfg o .cmd x' e' (.node .funct d b c) ∧ (∀ w, Raw.word w ∈ x' → Raw.word w ∈ x)) →
      (∀ w, Raw.word w ∈ x → Raw.word w ∈ y) →
      ∃ x' e', Der cfg o .cmd x' e' (.node .funct d b c) ∧ (∀ w, Raw.word w ∈ x' → Raw.word w ∈ y) := by
    rintro x y ⟨x', e', h1, h2⟩ h3
    exact ⟨x', e', h1, fun w hw => h3 w (h2 w hw)⟩
  induction h with
  | listNil n => exact hf.elim
  | listNil1 => exact hf.elim
  | listOne m n x e t hm hd ih => exact sub (ih hf) (by simp_all)
  | listMore m n x y e e' t u p r hm ht ho hs hu iht ihu =>
    have hp : p.Has (.node .funct d b c) ∨ u.Has (.node .funct d b c) := by
      cases u with
      | nil => exact .inl hf
      | node => exact has_node hf (by decide)
    rcases hp with hp | hp
    · exact sub (iht (sep_has hs hp)) (by simp_all)
    · exact sub (ihu hp) (by simp_all)
  | andorOne x e t hd ih => exact ih hf
  | andorAnd x y n e e' t p h1 ho h2 ih1 ih2 =>
    rcases has_node hf (by decide) with hf | hf
    · exact sub (ih1 hf) (by simp_all)
    · exact sub (ih2 hf) (by simp_all)
  | andorOr x y n e e' t p h1 ho h2 ih1 ih2 =>
    rcases has_node hf (by decide) with hf | hf
    · exact sub (ih1 hf) (by simp_all)
    · exact sub (ih2 hf) (by simp_all)
  | pipeOne x e t hd ih => exact ih hf
  | pipeMore x y n e e' t u h1 ho h2 ih1 ih2 =>
    rcases has_node hf (by decide) with hf | hf
    · exact sub (ih1 hf) (by simp_all)
    · exact sub (ih2 hf) (by simp_all)
  | simple es hf' hn => rcases has_node hf (by decide) with hf | hf <;> exact hf.elim
  | rsub is js x e t hi hn hl ho ih =>
    rcases has_node hf (by decide) with hf | hf
    · exact sub (ih hf) (by simp_all)
    · exact hf.elim
  | fn w n x e t hf' ha hv hd ih =>
    rcases hf with hf | hf | hf
    · rw [← hf]; exact ⟨_, _, .fn w n x e t hf' ha hv hd, fun _ h => h⟩
    · exact sub (ih hf) (by simp_all)
    · exact hf.elim
  | fnNone w n hf' ha hv =>
    rcases hf with hf | hf | hf
    · rw [← hf]; exact ⟨_, _, .fnNone w n hf' ha hv, fun _ h => h⟩
    · rcases has_node hf (by decide) with hf | hf <;> exact hf.elim
    · exact hf.elim
  | kfn w k b n x e t hk hv hb hd ih =>
    rcases hf with hf | hf | hf
    · rw [← hf]; exact ⟨_, _, .kfn w k b n x e t hk hv hb hd, fun _ h => h⟩
    · exact sub (ih hf) (by simp only [List.mem_cons, List.mem_append]; intro w hw; exact .inr (.inr (.inr hw)))
    · exact hf.elim
  | paren js x e t hn hl ho ih =>
    rcases has_node hf (by decide) with hf | hf
    · exact sub (ih hf) (by simp_all)
    · exact hf.elim
  | brace a b js x e t ha hb hn hl ho ih =>
    rcases has_node hf (by decide) with hf | hf
    · exact sub (ih hf) (by simp_all)
    · exact hf.elim
  | letc w js hn => rcases has_node hf (by decide) with hf | hf <;> exact hf.elim
  | dbr a x ws js ha hd hn => rcases has_node hf (by decide) with hf | hf <;> exact hf.elim
  | «for» a ty w y vs n b c x e t js ha hw hf' hb hl ho hn ih =>
    rcases has_node hf (by rcases ha with ⟨-, rfl⟩ | ⟨-, rfl⟩ <;> decide) with hf | hf
    · exact sub (ih hf) (by simp_all)
    · exact hf.elim
  | «while» a ty x e l b c y e' t js ha hl hln ho hb ht ho' hn ih1 ih2 =>
    rcases has_node hf (by rcases ha with ⟨-, rfl⟩ | ⟨-, rfl⟩ <;> decide) with hf | hf
    · exact sub (ih1 hf) (by simp_all)
    · exact sub (ih2 hf) (by simp_all)
  | case a w n b c k x e t js ha hb hcl hd ho hn ih =>
    rcases has_node hf (by decide) with hf | hf
    · exact sub (ih hf) (by simp_all)
    · exact hf.elim
  | «if» a c x e l y e' t js ha hl ho ht hfi ho' hn ih1 ih2 =>
    rcases has_node hf (by decide) with hf | hf
    · exact sub (ih1 hf) (by simp_all)
    · exact sub (ih2 hf) (by simp_all)
  | bang a x e t ha hd ih =>
    rcases has_node hf (by decide) with hf | hf
    · exact hf.elim
    · exact sub (ih hf) (by simp_all)
  | time a x e t ha hd ih =>
    rcases has_node hf (by decide) with hf | hf
    · exact sub (ih hf) (by simp_all)
    · exact hf.elim
  | timeNone a ha => rcases has_node hf (by decide) with hf | hf <;> exact hf.elim
  | «then» a x e t ha hd hn ih =>
    rcases has_node hf (by decide) with hf | hf
    · exact sub (ih hf) (by simp_all)
    · exact hf.elim
  | thenElse a b x y e e' t u ha hd hn hb ho hu hun ih1 ih2 =>
    rcases has_node hf (by decide) with hf | hf
    · exact sub (ih1 hf) (by simp_all)
    · exact sub (ih2 hf) (by simp_all)
  | thenElif a b x y z e e' e'' t l u ha hd hn hb ho hl ho' hu ih1 ih2 ih3 =>
    rcases has_node hf (by decide) with hf | hf
    · exact sub (ih1 hf) (by simp_all)
    · rcases has_node hf (by decide) with hf | hf
      · exact sub (ih2 hf) (by simp_all)
      · exact sub (ih3 hf) (by simp_all)
  | caseNil k n => exact hf.elim
  | caseLast k n op p ps x e t hp hd ih =>
    rcases has_node hf (by decide) with hf | hf
    · exact sub (ih hf) (by simp_all)
    · exact hf.elim
  | caseMore k n op p ps x y e e' t u hp hd ho hu ih1 ih2 =>
    rcases has_node hf (by decide) with hf | hf
    · exact sub (ih1 hf) (by simp_all)
    · exact sub (ih2 hf) (by simp_all)

theorem funct_data {x : List Raw} {e : End} {d : Data} {b c : Op} (h : Der cfg o .cmd x e (.node .funct d b c)) :
    d.io = [] ∧ c = .nil := by
  generalize ht : Op.node .funct d b c = t at h
  cases h
  case «for» ha _ _ _ _ _ _ => rcases ha with ⟨-, rfl⟩ | ⟨-, rfl⟩ <;> cases ht
  case «while» ha _ _ _ _ _ _ _ => rcases ha with ⟨-, rfl⟩ | ⟨-, rfl⟩ <;> cases ht
  all_goals first | (cases ht; exact ⟨rfl, rfl⟩) | cases ht

/-- Full statement: the text printed for any function defined by a program is read as that
definition.  The reservations of `CleanAt` are needed (see below), so that this is less. -/
theorem printed_function_rereads_partial (hrd : RdName rd) {n : Nat} {m : Bool} {l : List Raw} {u : Op} {s : St}
    (h : yyparse cfg o n m l = .ok u s) (hl : RealIn rd l) {d : Data} {b c : Op} (hf : u.Has (.node .funct d b c))
    (hc : Clean cfg (.node .funct d b c)) (m' : Bool) :
    ∃ rest, (∀ r ∈ rest, r = .nl) ∧ ∀ k ≥ 12 * (printed rd d.str d.ev b).length + 10,
      yyparse cfg o k m' (printed rd d.str d.ev b) = .ok (.node .funct d b c) (atS rest) := by
  obtain ⟨rest, ⟨x, e, v, rfl, hx, -, hv⟩, -⟩ := yyparse_sound h
  have hfv : v.Has (.node .funct d b c) := by
    rcases hv with ⟨-, rfl⟩ | ⟨r, -, rfl⟩
    · split at hf
      · rcases hf with hf | hf | hf
        · cases hf
        · exact hf.elim
        · exact hf.elim
      · exact hf
    · exact hf
  obtain ⟨x', e', hd, hw⟩ := hx.has hfv
  obtain ⟨hio, rfl⟩ := funct_data hd
  obtain ⟨⟨q, e1, h1, h2, h3, h4, h5⟩, -⟩ := hd.reprint hrd (fun w hw' => hl w (List.mem_append_left _ (hw w hw'))) hc
  have ha : Der cfg o .andor q (e1.up 1) (.node .funct d b .nil) := .andorOne _ _ _ (.pipeOne _ _ _ h2)
  have hup : (e1.up 1).lvl ≤ 1 := by simp [End.up]; omega
  have hp : printed rd d.str d.ev b = q ++ nls (hereN (.node .funct d b .nil) + 1) := by
    rw [printed_eq hio, h1, List.append_assoc, show [Raw.nl] = nls 1 from rfl, nls_add]
  cases m' with
  | true =>
    refine ⟨[], by simp, fun k hk => (parser_is_grammar hk _ _).2 ⟨[], ⟨_, ⟨.noCmdNl, 0⟩, .node .funct d b .nil, (List.append_nil _).symm, ?_, rfl, .inl ⟨rfl, rfl⟩⟩, rfl⟩⟩
    rw [hp]
    exact andor_nls ha h5 hup _
  | false =>
    refine ⟨nls (hereN (.node .funct d b .nil) + 1), fun r hr => List.eq_of_mem_replicate hr, fun k hk => (parser_is_grammar hk _ _).2
      ⟨_, ⟨_, (e1.up 1).up 2, _, hp, ?_, ?_, .inr ⟨_, rfl, rfl⟩⟩, rfl⟩⟩
    · exact Der.listOne false 0 q _ _ (by simp) ha
    · have h6 := good_sep (e := e1.up 1) h5 hup (r := .nl) (by simp)
      simp only [nls_succ, End.ok]
      obtain ⟨ek, lv⟩ := e1
      simp only [End.up, End.okR] at h6 h4 ⊢
      cases ek <;> simp_all [EK.good, EK.ok, Raw.isWord, Raw.isRedir, Raw.starts]
      all_goals omega

/-! ## Examples and the reservations -/

/-- A lexer of plain words. -/
def rd0 (s : List Char) : Word := ⟨s, s, decide (s.length < 64), false, false⟩

theorem rd0_name : RdName rd0 := by
  intro s _ _
  refine ⟨rfl, rfl, ?_⟩
  by_cases h : s.length < 64 <;> simp [rd0, Word.ident, h]

/-- A redirection, a function without and one with `function`. -/
def gt : Raw := .redir ⟨1, .write, false⟩
def here : Raw := .redir ⟨0, .here, false⟩
def fdef (x : List Raw) : List Raw := pw "f" :: .lpar :: .rpar :: pw "{" :: (x ++ [.semi, pw "}"])

/-- What becomes of a function: it is read, printed and read again. -/
def again (cfg : Cfg) (l : List Raw) : Option (Op × Res Op) :=
  match yyparse cfg ops0 1000 true l with
  | .ok (.node .funct d b c) _ => some (.node .funct d b c, yyparse cfg ops0 1000 true (printed rd0 d.str d.ev b))
  | _ => none

/-- Whether the same tree is read. -/
def kept (cfg : Cfg) (l : List Raw) : Option Bool :=
  match again cfg l with
  | some (t, .ok u _) => some (decide (t = u))
  | some (_, _) => some false
  | none => none

/-- `f() { if a && b | c & then ! d > x; else case w in p|q) e;; esac << E; fi; }`: the print
(`fi` on a line of its own, `(p|q)`, a newline behind the here document) is read as the same
tree. -/
def exFn : List Raw := fdef [pw "if", pw "a", .andand, pw "b", .pipe, pw "c", .amp, pw "then", pw "!", pw "d", gt, pw "x", .semi, pw "else",
    pw "case", pw "w", pw "in", pw "p", .pipe, pw "q", .rpar, pw "e", .dsemi, pw "esac", here, pw "E", .semi, pw "fi"]

example : kept cfg0 exFn = some true := by decide +kernel

def realB : Raw → Bool
  | .word w => decide (rd0 w.strip = w) && !w.asn && decide (w.raw ∉ [['|', '|'], ['&', '&'], ['('], [')'], ['<'], ['>']])
  | _ => true

theorem real_all {l : List Raw} (h : l.all realB = true) : RealIn rd0 l := by
  intro w hw
  have := List.all_eq_true.1 h _ hw
  simp only [realB, Bool.and_eq_true, decide_eq_true_eq, Bool.not_eq_true'] at this
  exact ⟨fun _ => this.1.1, fun h => (by rw [this.1.2] at h; cases h), fun _ => this.2⟩

/-- The theorem applies to it. -/
example : ∃ d b, yyparse cfg0 ops0 1000 true exFn = .ok (.node .funct d b .nil) (atS []) ∧ Clean cfg0 (.node .funct d b .nil) ∧ RealIn rd0 exFn := by
  refine ⟨{ str := ['f'] }, .node .brace {} (.node .if {}
    (.node .async {} (.node .and {} (cmd1 ["a"]) (.node .pipe {} (cmd1 ["b"]) (cmd1 ["c"]))) .nil)
    (.node .then {} (.node .bang {} .nil (.node .com { vars := some [], args := some [plainWord ['d']], io := [⟨⟨1, .write, false⟩, plainWord ['x']⟩] } .nil .nil))
      (.node .case { word := some (plainWord ['w']), io := [⟨⟨0, .here, false⟩, plainWord ['E']⟩] }
        (.node .pat { vars := some [plainWord ['p'], plainWord ['q']] } (cmd1 ["e"]) .nil) .nil))) .nil, ?_, ?_, ?_⟩
  · decide +kernel
  · have hcom : ∀ (s : String) io, kwOf s.toList = none → assignCommand cfg0 s.toList = false →
        CleanAt cfg0 .com { vars := some [], args := some [plainWord s.toList], io := io } .nil := by
      intro s io h1 h2
      refine ⟨fun _ w r h => ?_, fun h => absurd rfl h, fun h => by cases h⟩
      simp only [Option.some.injEq, List.cons.injEq] at h
      rw [← h.1]
      exact ⟨h1, h2.symm⟩
    refine ⟨⟨by decide, fun _ => rfl⟩, ⟨trivial, ⟨rfl, ⟨rfl, ⟨rfl, ⟨hcom "a" [] rfl rfl, trivial, trivial⟩, rfl, ⟨hcom "b" [] rfl rfl, trivial, trivial⟩, hcom "c" [] rfl rfl, trivial, trivial⟩, trivial⟩,
      trivial, ⟨trivial, trivial, hcom "d" _ rfl rfl, trivial, trivial⟩, trivial, ⟨trivial, ⟨hcom "e" [] rfl rfl, trivial, trivial⟩, trivial⟩, trivial⟩, trivial⟩, trivial⟩
  · exact real_all (by decide +kernel)

/-- The redirections of `if` are lost: `f() { if a; then b; fi > x; }`. -/
theorem if_redirections_lost : ∃ d b e, again cfg0 (fdef [pw "if", pw "a", .semi, pw "then", pw "b", .semi, pw "fi", gt, pw "x"]) =
    some (.node .funct d (.node .brace {} (.node .if { io := [⟨⟨1, .write, false⟩, plainWord ['x']⟩] } b e) .nil) .nil,
      .ok (.node .funct d (.node .brace {} (.node .if { io := [] } b e) .nil) .nil) (atS [])) :=
  ⟨{ str := ['f'] }, cmd1 ["a"], block .then (cmd1 ["b"]) .nil, by decide +kernel⟩

/-- A here document before an operator is a syntax error: `f() { a << E | b; }`. -/
theorem here_before_operator : ∃ t, again cfg0 (fdef [pw "a", here, pw "E", .pipe, pw "b"]) = some (t, .err) ∧
    (∃ t', again cfg0 (fdef [pw "a", here, pw "E", .andand, pw "b"]) = some (t', .err)) ∧
    (∃ t', again cfg0 (fdef [pw "a", here, pw "E", .amp, pw "b"]) = some (t', .err)) := by
  refine ⟨(yyparse cfg0 ops0 1000 true (fdef [pw "a", here, pw "E", .pipe, pw "b"]) |> fun | .ok t _ => t | _ => .nil), by decide +kernel,
    ⟨(yyparse cfg0 ops0 1000 true (fdef [pw "a", here, pw "E", .andand, pw "b"]) |> fun | .ok t _ => t | _ => .nil), by decide +kernel⟩,
    ⟨(yyparse cfg0 ops0 1000 true (fdef [pw "a", here, pw "E", .amp, pw "b"]) |> fun | .ok t _ => t | _ => .nil), by decide +kernel⟩⟩

/-- A reserved word behind a redirection comes first: `f() { > x if; }` is printed as `if > x`. -/
theorem reserved_comes_first : ∃ t, again cfg0 (fdef [gt, pw "x", pw "if"]) = some (t, .err) :=
  ⟨(yyparse cfg0 ops0 1000 true (fdef [gt, pw "x", pw "if"]) |> fun | .ok t _ => t | _ => .nil), by decide +kernel⟩

/-- A command becomes a declaration: `f() { > x export a; }` is printed as `export a > x`, whose
arguments are treated as assignments. -/
theorem becomes_declaration : kept cfg0 (fdef [gt, pw "x", pw "export", pw "a"]) = some false := by decide +kernel

/-- With `set -k` a declaration ceases to be one: `f() { export a=b; }` is printed as `a=b export`. -/
theorem ceases_to_declare : kept ⟨false, true⟩ (fdef [pw "export", .word ⟨['a', '=', 'b'], ['a', '=', 'b'], true, true, false⟩]) = some false := by
  decide +kernel

/-- A quoted name may be a reserved word, or empty: `'if'() a`, `''() a`. -/
theorem quoted_name_printed_bare :
    kept cfg0 [.word ⟨['"', 'i', 'f', '"'], ['i', 'f'], false, false, false⟩, .lpar, .rpar, pw "a"] = some false ∧
    kept cfg0 [.word ⟨['"', '"'], [], false, false, false⟩, .lpar, .rpar, pw "a"] = some false := by
  decide +kernel

/-- The variable of a loop has no text if its name is too long (64 characters): `f() { for xxx... do a; done; }`. -/
theorem long_variable_lost :
    kept cfg0 (fdef [pw "for", .word ⟨List.replicate 64 'x', List.replicate 64 'x', false, false, true⟩, pw "do", pw "a", .semi, pw "done"]) = some false := by
  decide +kernel

example : redirText ⟨2, .dup, false⟩ = ['2', '>', '&'] := rfl
example : redirLex ['2', '>', '&', '1', ' '] = some (⟨2, .dup, false⟩, ['1', ' ']) := rfl

end Ksh.Syn
