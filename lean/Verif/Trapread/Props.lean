import Verif.Trapread.Model
import Verif.Syn.Props

/-! # Traps taken while a command is being read: theorems -/
namespace Ksh.Trapread

open Ksh.Syn

/-- Without a trap this is the parser of `Ksh.Syn`. -/
theorem no_trap (cfg : Cfg) (o : DbOps) (n : Nat) (multi : Bool) (l : List Raw) :
    yyparseT cfg o n false multi l = yyparse cfg o (n + 4) multi l := by
  have h1 : ∀ s : St, s.pk = none → commandT cfg o n false s = parse cfg o (n + 1) (.command false) s := by
    intro s hs
    have e : tokenT false ⟨false, true, false⟩ s = token { contin := false, keyword := true } s := by
      simp [tokenT, token, hs]
    have a : ∀ c, accept c (token { contin := false, keyword := true } s).2 = (token { contin := false, keyword := true } s).2 := by
      intro c
      simp only [token, hs, accept]
      split <;> rfl
    simp [commandT, getCommandT, parse, body, e, a]
  have h2 : andorT cfg o n false ⟨none, l⟩ = parse cfg o (n + 3) .andor ⟨none, l⟩ := by
    simp only [andorT, pipelineT, h1 ⟨none, l⟩ rfl]
    rfl
  have h3 : clistT cfg o n false multi ⟨none, l⟩ = parse cfg o (n + 4) (.clist multi []) ⟨none, l⟩ := by
    show _ = clistBody (parse cfg o (n + 3)) multi [] ⟨none, l⟩
    simp only [clistT, clistBody, reduceCtorEq, if_true, if_false, h2]
  simp only [yyparseT, yyparse, h3]
  rfl

/-- The words after which the parser goes on reading without handing the token back or dropping it. -/
def Compound (c : Tok) : Prop :=
  c = .lpar ∨ ∃ k, c = .kw k ∧ k ∈ [Kw.klbrace, .kfor, .kselect, .kwhile, .kuntil, .kcase, .kif, .kbang, .ktime, .kfunction]

/-- A command that does not begin as a compound one is read as it is written, also if a trap is run
while its first word is awaited. -/
theorem command_unnoticed_partial (cfg : Cfg) (o : DbOps) (n : Nat) (contin : Bool) (l : List Raw)
    (h : ¬ Compound (lex ⟨contin, true, false⟩ l).1) :
    getCommandT cfg o n true contin ⟨none, l⟩ = getCommandT cfg o n false contin ⟨none, l⟩ := by
  simp only [getCommandT, tokenT]
  cases n with
  | zero => rfl
  | succ n =>
    simp only [parse, body]
    generalize hc : (lex ⟨contin, true, false⟩ l).1 = c at h
    cases c with
    | kw k =>
      cases k <;> first
        | rfl
        | exact absurd (Or.inr ⟨_, rfl, by simp⟩) h
    | lpar => exact absurd (Or.inl rfl) h
    | _ => rfl

/-- A trap while `for`, `select`, `case` or `function` is awaited makes the command a syntax error,
whatever follows. -/
theorem command_refused (cfg : Cfg) (o : DbOps) (n : Nat) (contin : Bool) (l : List Raw) (k : Kw)
    (hk : k ∈ [Kw.kfor, .kselect, .kcase, .kfunction]) (h : (lex ⟨contin, true, false⟩ l).1 = .kw k) :
    getCommandT cfg o (n + 1) true contin ⟨none, l⟩ = .err := by
  simp only [getCommandT, tokenT, h]
  simp only [List.mem_cons, List.not_mem_nil, or_false] at hk
  rcases hk with rfl | rfl | rfl | rfl <;> rfl

/-- A trap before a line that does not begin with a compound command has no effect on what is read.
Missing: the lines that do, see below. -/
theorem trap_unnoticed_partial (cfg : Cfg) (o : DbOps) (n : Nat) (multi : Bool) (l : List Raw)
    (h : ¬ Compound (lex KW l).1) : yyparseT cfg o n true multi l = yyparseT cfg o n false multi l := by
  have key : commandT cfg o n true ⟨none, l⟩ = commandT cfg o n false ⟨none, l⟩ :=
    command_unnoticed_partial cfg o n false l h
  simp only [yyparseT, clistT, clistBody, andorT, pipelineT, key, reduceCtorEq, if_true, if_false]

/-- A trap before a line that begins with `for`, `select`, `case` or `function` makes it a syntax
error, whatever follows. -/
theorem refused (cfg : Cfg) (o : DbOps) (n : Nat) (multi : Bool) (l : List Raw) (k : Kw)
    (hk : k ∈ [Kw.kfor, .kselect, .kcase, .kfunction]) (h : (lex KW l).1 = .kw k) :
    yyparseT cfg o (n + 1) true multi l = .err := by
  have key : commandT cfg o (n + 1) true ⟨none, l⟩ = .err := command_refused cfg o n false l k hk h
  simp only [yyparseT, clistT, clistBody, andorT, pipelineT, key, if_true]
  rfl

/-! The others are read as if they had been written twice. -/

theorem dbl_command (cfg o) (c : Tok) (r : Raw) (rest : List Raw) (h : lex KW (r :: rest) = (c, rest)) :
    ∀ n, parse cfg o n (.command false) ⟨some c, rest⟩ = parse cfg o n (.command false) ⟨none, r :: rest⟩ := by
  intro n
  cases n with
  | zero => rfl
  | succ n =>
    have e : lex { contin := false, keyword := true } (r :: rest) = (c, rest) := h
    simp only [parse, body, token, e]

theorem dbl_pipeline (cfg o) (c : Tok) (r : Raw) (rest : List Raw) (h : lex KW (r :: rest) = (c, rest)) :
    ∀ n, parse cfg o n (.pipeline false) ⟨some c, rest⟩ = parse cfg o n (.pipeline false) ⟨none, r :: rest⟩ := by
  intro n
  cases n with
  | zero => rfl
  | succ n => simp only [parse, body, dbl_command cfg o c r rest h n]

theorem dbl_andor (cfg o) (c : Tok) (r : Raw) (rest : List Raw) (h : lex KW (r :: rest) = (c, rest)) :
    ∀ n, parse cfg o n .andor ⟨some c, rest⟩ = parse cfg o n .andor ⟨none, r :: rest⟩ := by
  intro n
  cases n with
  | zero => rfl
  | succ n => simp only [parse, body, dbl_pipeline cfg o c r rest h n]

theorem dbl_clist (cfg o) (c : Tok) (r : Raw) (rest : List Raw) (h : lex KW (r :: rest) = (c, rest)) :
    ∀ n, parse cfg o n (.clist true []) ⟨some c, rest⟩ = parse cfg o n (.clist true []) ⟨none, r :: rest⟩ := by
  intro n
  cases n with
  | zero => rfl
  | succ n => simp only [parse, body, clistBody, dbl_andor cfg o c r rest h n]

theorem lex_word (contin : Bool) (c : Tok) (r : Raw) (rest : List Raw) (h : lex ⟨contin, true, false⟩ (r :: rest) = (c, rest))
    (hr : r ≠ .nl) : ∀ rest' contin', lex ⟨contin', true, false⟩ (r :: rest') = (c, rest') := by
  intro rest' contin'
  have h1 := congrArg Prod.fst h
  cases r with
  | nl => exact absurd rfl hr
  | word w => simp only [lex] at h1 ⊢; rw [← h1]; rfl
  | _ => simp only [lex] at h1 ⊢; rw [← h1]

/-- A trap while `(`, `{`, `if`, `while`, `until`, `!` or `time` is awaited: the command is read as if
this word stood there twice. -/
theorem command_doubled (cfg : Cfg) (o : DbOps) (n : Nat) (contin : Bool) (c : Tok) (r : Raw) (rest : List Raw)
    (h : lex ⟨contin, true, false⟩ (r :: rest) = (c, rest)) (hr : r ≠ .nl)
    (hc : c ∈ [Tok.lpar, .kw .klbrace, .kw .kif, .kw .kwhile, .kw .kuntil, .kw .kbang, .kw .ktime]) :
    getCommandT cfg o n true contin ⟨none, r :: rest⟩ = getCommandT cfg o n false contin ⟨none, r :: r :: rest⟩ := by
  have h' := lex_word contin c r rest h hr (r :: rest) contin
  have h2 : lex KW (r :: rest) = (c, rest) := lex_word contin c r rest h hr rest false
  simp only [getCommandT, tokenT, h, h']
  cases n with
  | zero => rfl
  | succ n =>
    simp only [parse, body]
    simp only [List.mem_cons, List.not_mem_nil, or_false] at hc
    rcases hc with rfl | rfl | rfl | rfl | rfl | rfl | rfl <;>
      simp only [cmdBody, nested, whileBody, accept, if_true, if_false, Bool.false_eq_true,
        dbl_clist cfg o _ r rest h2 n, dbl_pipeline cfg o _ r rest h2 n]

/-- A trap before a line that begins with `(`, `{`, `if`, `while`, `until`, `!` or `time`: the line
is read as if this word stood there twice. -/
theorem doubled (cfg : Cfg) (o : DbOps) (n : Nat) (multi : Bool) (c : Tok) (r : Raw) (rest : List Raw)
    (h : lex KW (r :: rest) = (c, rest))
    (hc : c ∈ [Tok.lpar, .kw .klbrace, .kw .kif, .kw .kwhile, .kw .kuntil, .kw .kbang, .kw .ktime]) :
    yyparseT cfg o n true multi (r :: rest) = yyparseT cfg o n false multi (r :: r :: rest) := by
  have hr : r ≠ .nl := by
    rintro rfl
    simp only [lex, KW] at h
    simp at h
    subst h
    simp at hc
  have key : commandT cfg o n true ⟨none, r :: rest⟩ = commandT cfg o n false ⟨none, r :: r :: rest⟩ :=
    command_doubled cfg o n false c r rest h hr hc
  simp only [yyparseT, clistT, clistBody, andorT, pipelineT, key, reduceCtorEq, if_true, if_false]

/-- In terms of the grammar: with the trap, the tree is one of the text with its first word
written twice. -/
theorem doubled_grammar (cfg : Cfg) (o : DbOps) (n : Nat) (multi : Bool) (c : Tok) (r : Raw) (rest : List Raw)
    (h : lex KW (r :: rest) = (c, rest))
    (hc : c ∈ [Tok.lpar, .kw .klbrace, .kw .kif, .kw .kwhile, .kw .kuntil, .kw .kbang, .kw .ktime])
    (hn : 12 * (r :: r :: rest).length + 10 ≤ n + 4) (t : Op) (s : St) :
    yyparseT cfg o n true multi (r :: rest) = .ok t s ↔
      ∃ left, Program cfg o multi (r :: r :: rest) left t ∧ s = atS left := by
  rw [doubled cfg o n multi c r rest h hc, no_trap]
  exact parser_is_grammar hn t s

/-- and without an effect of the trap it is one of the text. -/
theorem unnoticed_grammar_partial (cfg : Cfg) (o : DbOps) (n : Nat) (multi : Bool) (l : List Raw)
    (h : ¬ Compound (lex KW l).1) (hn : 12 * l.length + 10 ≤ n + 4) (t : Op) (s : St) :
    yyparseT cfg o n true multi l = .ok t s ↔ ∃ left, Program cfg o multi l left t ∧ s = atS left := by
  rw [trap_unnoticed_partial cfg o n multi l h, no_trap]
  exact parser_is_grammar hn t s

/-! ### `do` on a line of its own -/

theorem clist_do (cfg o) (rest : List Raw) (n : Nat) :
    parse cfg o (n + 5) (.clist true []) ⟨some (.kw .kdo), rest⟩ = .ok .nil ⟨some (.kw .kdo), rest⟩ := rfl

/-- A trap while the shell waits for the line with `do` makes it a syntax error, whatever follows. -/
theorem do_refused (cfg : Cfg) (o : DbOps) (n : Nat) (l : List Raw)
    (h : (lex { contin := true, keyword := true } l).1 = .kw .kdo) :
    dogroupT cfg o (n + 5) true ⟨none, l⟩ = .err := by
  simp only [dogroupT, tokenT, h, closeOf, if_true]
  rw [clist_do cfg o]
  rfl

/-- A trap while the shell waits for the line with `in` of a `for` makes it a syntax error. -/
theorem in_refused (l : List Raw) (h : (lex { contin := true, keyword := true } l).1 = .kw .kin) :
    wordlistT true ⟨none, l⟩ = .err := by
  simp [wordlistT, tokenT, h]

/-- Without a trap these are the functions of `Ksh.Syn`. -/
theorem wordlist_no_trap (s : St) : wordlistT false s = wordlist s := by
  have e : tokenT false { contin := true, keyword := true } s = token { contin := true, keyword := true } s := by
    simp only [tokenT, token]; rfl
  have hp : (token { contin := true, keyword := true } s).2.pk = none := by
    simp only [token]; split <;> rfl
  simp only [wordlistT, wordlist, e]
  generalize token { contin := true, keyword := true } s = q at hp
  obtain ⟨c, s'⟩ := q
  simp only at hp
  cases c with
  | kw k => cases k <;> simp [hp] <;> rfl
  | _ => rfl

theorem dogroup_no_trap (cfg : Cfg) (o : DbOps) (n : Nat) (s : St) :
    dogroupT cfg o n false s = parse cfg o (n + 1) .dogroup s := by
  have e : tokenT false { contin := true, keyword := true } s = token { contin := true, keyword := true } s := by
    simp only [tokenT, token]; rfl
  simp only [dogroupT, parse, body, e]
  rfl

/-! ### tpeek -/

/-- Where the parser only looks, a trap has no effect. -/
theorem peek_unnoticed (trap : Bool) (cf : Cf) (s : St) : tpeekT trap cf s = tpeek cf s := by
  simp only [tpeekT, tpeek, token, unget]
  cases s.pk <;> rfl

/-! ### Here documents -/

/-- The documents that are read: up to the first one during which a trap is run. -/
def upTo : List (Here.Iop × Bool) → List Here.Iop
  | [] => []
  | (p, trap) :: ps => p :: if trap then [] else upTo ps

/-- After a trap the documents that were still to come are not read: their lines stay in the input,
as commands. -/
theorem documents_left (ps : List (Here.Iop × Bool)) : ∀ (i : List Char) (sk : Nat),
    gethereT ps i sk = Here.gethere (upTo ps) i sk := by
  induction ps with
  | nil => intro i sk; rfl
  | cons a ps ih =>
    intro i sk
    obtain ⟨p, trap⟩ := a
    cases hr : Here.readhere (!Here.ioeval p.delim) p.skip (Here.delimText p.delim) (i.length + 1) i sk [] with
    | none => simp [gethereT, upTo, Here.gethere, hr]
    | some r =>
      obtain ⟨doc, i', sk'⟩ := r
      cases trap
      · cases hg : Here.gethere (upTo ps) i' sk' <;> simp [gethereT, upTo, Here.gethere, hr, ih, hg]
      · simp [gethereT, upTo, Here.gethere, hr]

theorem upTo_all : ∀ (ps : List Here.Iop) (q : Here.Iop) (t : Bool), upTo (ps.map (·, false) ++ [(q, t)]) = ps ++ [q]
  | [], q, t => by cases t <;> rfl
  | p :: ps, q, t => by
    have := upTo_all ps q t
    simp [upTo, this]

/-- All documents are read if a trap is run at most while the last one is.  Missing: the others. -/
theorem documents_partial (ps : List Here.Iop) (q : Here.Iop) (t : Bool) (i : List Char) (sk : Nat) :
    gethereT (ps.map (·, false) ++ [(q, t)]) i sk = Here.gethere (ps ++ [q]) i sk := by
  rw [documents_left, upTo_all]

/-! ### Examples -/

/-- `! true` after a trap is `! ! true`: its status is turned round. -/
theorem bang_twice : yyparseT cfg0 ops0 40 true false [pw "!", pw "true", .nl] =
    .ok (block .bang .nil (block .bang .nil (cmd1 ["true"]))) (unget .nl ⟨none, []⟩) := by decide +kernel

example : yyparseT cfg0 ops0 40 false false [pw "!", pw "true", .nl] =
    .ok (block .bang .nil (cmd1 ["true"])) (unget .nl ⟨none, []⟩) := by decide +kernel

/-- `{ a; }` is not finished with its line. -/
theorem brace_unfinished : yyparseT cfg0 ops0 60 true false [pw "{", pw "a", .semi, pw "}", .nl] = .err ∧
    yyparseT cfg0 ops0 60 false false [pw "{", pw "a", .semi, pw "}", .nl] =
      .ok (.node .brace {} (cmd1 ["a"]) .nil) (unget .nl ⟨none, []⟩) := by decide +kernel

example : yyparseT cfg0 ops0 60 true false [pw "for", pw "x", pw "in", pw "a", .semi, pw "do", pw "b", .semi, pw "done", .nl] = .err :=
  refused _ _ 59 _ _ .kfor (by simp) (by decide)

example : yyparseT cfg0 ops0 60 true false [pw "echo", pw "a", .nl] = .ok (cmd1 ["echo", "a"]) (unget .nl ⟨none, []⟩) := by
  decide +kernel

/-- Two documents, a trap during the first: the second stays. -/
example : gethereT [(⟨false, [.chr 'A']⟩, true), (⟨false, [.chr 'B']⟩, false)] ['x', '\n', 'A', '\n', 'r', '\n', 'B', '\n'] 0 =
    some ([['x', '\n']], ['r', '\n', 'B', '\n'], 0) := by
  rw [documents_left]
  decide +kernel

end Ksh.Trapread
