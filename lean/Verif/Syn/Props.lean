import Verif.Syn.Ends
/-!
# Properties of the parser

The parser accepts exactly the token sequences that are programs of the grammar in
Verif/Syn/Grammar.lean, and answers their tree; every sequence is at most one program; the
parser ends.
-/

namespace Ksh.Syn

variable {cfg : Cfg} {o : DbOps}

theorem program_at {rest : List Raw} : (lex KW rest).1 = .eof ↔ rest = [] := by
  constructor
  · intro h
    rcases lex_inv (kw := true) (l := rest) (t := .eof) (r := (lex KW rest).2) (by rw [← h]; rfl) with ⟨_, h1, _⟩ | ⟨a, _, ha⟩
    · exact h1
    · cases a <;> simp [Reads] at ha
  · rintro rfl; rfl

/-- What `yyparse` answers is a program with its tree, and where it stops. -/
theorem yyparse_sound {n : Nat} {m : Bool} {l : List Raw} {t : Op} {s : St} (h : yyparse cfg o n m l = .ok t s) :
    ∃ rest, Program cfg o m l rest t ∧ s = atS rest := by
  replace h := bind_ok h
  obtain ⟨u, s1, h1, h⟩ := h
  obtain ⟨x, rest, e, v, rfl, hx, hv, hp⟩ := parse_sound n _ _ _ _ h1 l rfl
  rw [chainTo_nil] at hv
  subst hv
  rcases hp with ⟨rfl, hok⟩ | ⟨w, hw⟩
  · rw [tpeek_at] at h
    split at h
    · rename_i heq
      cases h
      exact ⟨rest, ⟨x, e, u, rfl, hx, hok, .inl ⟨program_at.1 heq, rfl⟩⟩, rfl⟩
    · rename_i heq
      cases h
      obtain ⟨a, hl, ha⟩ := at_inv heq (by simp)
      have ha : a = .nl := ha
      subst ha
      exact ⟨rest, ⟨x, e, _, rfl, hx, hok, .inr ⟨_, hl, rfl⟩⟩, rfl⟩
    · cases h
  · obtain ⟨pk, r⟩ := s1
    simp only at hw
    subst hw
    simp at h

/-- A program is accepted, with its tree. -/
theorem yyparse_complete {m : Bool} {l rest : List Raw} {t : Op} (h : Program cfg o m l rest t) :
    ∃ n, ∀ k ≥ n, yyparse cfg o k m l = .ok t (atS rest) := by
  obtain ⟨x, e, u, rfl, hx, hok, hr⟩ := h
  obtain ⟨n, h⟩ := hx.complete (by simp) rest [] hok
  refine ⟨n, fun k hk => ?_⟩
  have h := h k hk
  rw [chainTo_nil] at h
  unfold yyparse
  have h : parse cfg o k (.clist m []) ⟨none, x ++ rest⟩ = .ok u (atS rest) := h
  rw [h]
  simp only [Res.bind, tpeek_at]
  rcases hr with ⟨rfl, rfl⟩ | ⟨r, rfl, rfl⟩ <;> rfl

/-- The parser ends, whatever the tokens are. -/
theorem yyparse_ends {n : Nat} {m : Bool} {l : List Raw} (h : 12 * l.length + 10 ≤ n) : yyparse cfg o n m l ≠ .out := by
  have h1 := parse_ends (cfg := cfg) (o := o) n (.clist m []) ⟨none, l⟩ (by simp only [Call.size, St.size, Call.rank]; omega)
  unfold yyparse
  cases hp : parse cfg o n (.clist m []) ⟨none, l⟩ with
  | out => exact absurd hp h1
  | err => simp [Res.bind]
  | ok t s =>
    simp only [Res.bind]
    split <;> simp

/-- The answer does not depend on the fuel when there is enough. -/
theorem yyparse_mono {n k : Nat} {m : Bool} {l : List Raw} (h : n ≤ k) (hn : yyparse cfg o n m l ≠ .out) :
    yyparse cfg o k m l = yyparse cfg o n m l := by
  unfold yyparse at hn ⊢
  by_cases hp : parse cfg o n (.clist m []) ⟨none, l⟩ = .out
  · rw [hp] at hn; exact absurd rfl hn
  · rw [parse_mono h _ _ hp]

/-- The parser accepts exactly the programs, with their trees. -/
theorem parser_is_grammar {n : Nat} {m : Bool} {l : List Raw} (hn : 12 * l.length + 10 ≤ n) (t : Op) (s : St) :
    yyparse cfg o n m l = .ok t s ↔ ∃ rest, Program cfg o m l rest t ∧ s = atS rest := by
  refine ⟨yyparse_sound, ?_⟩
  rintro ⟨rest, hp, rfl⟩
  obtain ⟨k, hk⟩ := yyparse_complete hp
  rw [← hk (max n k) (Nat.le_max_right ..)]
  exact (yyparse_mono (Nat.le_max_left ..) (yyparse_ends hn)).symm

/-- Everything else is a syntax error. -/
theorem parser_rejects {n : Nat} {m : Bool} {l : List Raw} (hn : 12 * l.length + 10 ≤ n) :
    yyparse cfg o n m l = .err ↔ ¬ ∃ rest t, Program cfg o m l rest t := by
  constructor
  · rintro h ⟨rest, t, hp⟩
    have := (parser_is_grammar hn t (atS rest)).2 ⟨rest, hp, rfl⟩
    rw [h] at this; cases this
  · intro h
    cases hy : yyparse cfg o n m l with
    | err => rfl
    | out => exact absurd hy (yyparse_ends hn)
    | ok t s =>
      obtain ⟨rest, hp, _⟩ := yyparse_sound hy
      exact absurd ⟨rest, t, hp⟩ h

/-- No sequence of tokens has two readings. -/
theorem program_unique {m : Bool} {l rest rest' : List Raw} {t t' : Op} (h : Program cfg o m l rest t) (h' : Program cfg o m l rest' t') :
    t = t' ∧ rest = rest' := by
  obtain ⟨n, hn⟩ := yyparse_complete h
  obtain ⟨n', hn'⟩ := yyparse_complete h'
  have h1 := (hn (max n n') (Nat.le_max_left ..)).symm.trans (hn' (max n n') (Nat.le_max_right ..))
  simp only [Res.ok.injEq] at h1
  refine ⟨h1.1, ?_⟩
  obtain ⟨_, _, _, _, _, _, hr⟩ := h
  obtain ⟨_, _, _, _, _, _, hr'⟩ := h'
  have h2 := h1.2
  rcases hr with ⟨rfl, _⟩ | ⟨r, rfl, _⟩ <;> rcases hr' with ⟨rfl, _⟩ | ⟨r', rfl, _⟩
  · rfl
  · simp [atS, lex, KW] at h2
  · simp [atS, lex, KW] at h2
  · have : r = r' := by simpa [atS, lex, KW] using h2
    rw [this]

theorem list_takes_nl {nt : NT} {x : List Raw} {e : End} {u : Op} (h : Der cfg o nt x e u) : nt = .list true → e.okR .nl = false := by
  induction h with
  | listNil => intro _; rfl
  | listOne m n x e t => rintro h; cases h; simp [End.okR, End.up, listLvl]; omega
  | listMore _ _ _ _ _ _ _ _ _ _ _ _ _ _ _ _ ih => exact ih
  | _ => rintro h; cases h

/-- A string (`-c`, `eval`, command substitution) is read to its end. -/
theorem string_read_whole {l rest : List Raw} {t : Op} (h : Program cfg o true l rest t) : rest = [] := by
  obtain ⟨x, e, u, _, hx, hok, ⟨h, _⟩ | ⟨r, rfl, _⟩⟩ := h
  · exact h
  · have := list_takes_nl hx rfl
    simp [End.ok, this] at hok

/-- `p` holds at every node. -/
def Op.All (p : Data → Prop) : Op → Prop
  | .nil => True
  | .node _ d l r => p d ∧ l.All p ∧ r.All p

theorem Der.ios {nt : NT} {x : List Raw} {e : End} {u : Op} (h : Der cfg o nt x e u) : u.All fun d => d.io.length ≤ 32 := by
  induction h <;> simp_all [Op.All, block, simpleTree, NUFILE, colon, consList]
  case listMore hs _ _ ih =>
    rename_i t u p r _ _ _ _ ih2
    have hp : Op.All (fun d => d.io.length ≤ 32) p := by
      unfold sepTree at hs
      split at hs
      · cases hs; exact ih2
      · split at hs
        · cases hs; exact ih2
        · cases hs
      · cases hs; exact ⟨Nat.zero_le _, ih2, trivial⟩
      · cases hs; exact ⟨Nat.zero_le _, ih2, trivial⟩
      · cases hs
    split
    · exact hp
    · exact ⟨Nat.zero_le _, hp, ih⟩

/-- No command has more redirections than the array `iops` holds (`NUFILE + 1` with the final `NULL`). -/
theorem redirs_bounded {n : Nat} {m : Bool} {l : List Raw} {t : Op} {s : St} (h : yyparse cfg o n m l = .ok t s) :
    t.All fun d => d.io.length ≤ 32 := by
  obtain ⟨rest, ⟨x, e, u, _, hx, _, ⟨_, rfl⟩ | ⟨r, _, rfl⟩⟩, _⟩ := yyparse_sound h
  · split
    · exact ⟨Nat.zero_le _, trivial, trivial⟩
    · exact hx.ios
  · exact hx.ios

/-! ## Examples -/

/-- Plain words. -/
def pw (s : String) : Raw := .word (plainWord s.toList)

def ops0 : DbOps := ⟨fun s => s = ['-', 'f'], fun s => s = ['=']⟩

def cfg0 : Cfg := ⟨false, false⟩

def cmd1 (ws : List String) : Op := .node .com { vars := some [], args := some (ws.map fun s => plainWord s.toList) } .nil .nil

/-- `if a && b || c; then ! d | e & fi` -/
example : yyparse cfg0 ops0 202 true [pw "if", pw "a", .andand, pw "b", .oror, pw "c", .semi, pw "then", pw "!", pw "d", .pipe, pw "e", .amp, pw "fi", .nl] =
    .ok (block .if (block .or (block .and (cmd1 ["a"]) (cmd1 ["b"])) (cmd1 ["c"]))
      (block .then (block .async (block .bang .nil (block .pipe (cmd1 ["d"]) (cmd1 ["e"]))) .nil) .nil)) (atS []) := by decide +kernel

/-- A reserved word is one only where a command may begin: `echo if`, but not `echo; if`. -/
example : yyparse cfg0 ops0 50 true [pw "echo", pw "if"] = .ok (cmd1 ["echo", "if"]) (atS []) := by decide +kernel
example : yyparse cfg0 ops0 50 true [pw "echo", .semi, pw "if"] = .err := by decide +kernel

/-- Hence `echo; if` is no program. -/
example : ¬ ∃ rest t, Program cfg0 ops0 true [pw "echo", .semi, pw "if"] rest t :=
  (parser_rejects (n := 50) (by decide)).1 (by decide +kernel)

/-- `case x in a|(b) ;; esac` is an error, `case x in a|b) c;; esac` is not. -/
example : yyparse cfg0 ops0 130 true [pw "case", pw "x", pw "in", pw "a", .pipe, .lpar, pw "b", .rpar, .dsemi, pw "esac"] = .err := by decide +kernel
example : yyparse cfg0 ops0 130 true [pw "case", pw "x", pw "in", pw "a", .pipe, pw "b", .rpar, pw "c", .dsemi, pw "esac"] =
    .ok (.node .case { word := some (plainWord ['x']) } (.node .pat { vars := some [plainWord ['a'], plainWord ['b']] } (cmd1 ["c"]) .nil) .nil) (atS []) := by
  decide +kernel

/-- Line by line the parser stops behind the first line. -/
example : yyparse cfg0 ops0 50 false [pw "a", .nl, pw "b"] = .ok (cmd1 ["a"]) (atS [.nl, pw "b"]) := by decide +kernel

/-- `while ( a ) { b; }` is a loop although no separator precedes the `{`, and `{` is taken for `do`. -/
example : yyparse cfg0 ops0 150 true [pw "while", .lpar, pw "a", .rpar, pw "{", pw "b", .semi, pw "}"] =
    .ok (.node .while {} (.node .paren {} (cmd1 ["a"]) .nil) (cmd1 ["b"])) (atS []) := by decide +kernel

/-- `if >f (a) then b; fi` is an error, `if (a) then b; fi` is not. -/
example : yyparse cfg0 ops0 150 true [pw "if", .redir ⟨1, .write, false⟩, pw "f", .lpar, pw "a", .rpar, pw "then", pw "b", .semi, pw "fi"] = .err := by
  decide +kernel
example : yyparse cfg0 ops0 150 true [pw "if", .lpar, pw "a", .rpar, pw "then", pw "b", .semi, pw "fi"] =
    .ok (block .if (.node .paren {} (cmd1 ["a"]) .nil) (block .then (cmd1 ["b"]) .nil)) (atS []) := by decide +kernel

/-- A function without a body is accepted; its body is `:`. -/
example : yyparse cfg0 ops0 50 true [pw "f", .lpar, .rpar] = .ok (.node .funct { str := ['f'] } colon .nil) (atS []) := by decide +kernel

/-- `[[ ! -f a && b = c ]]` -/
example : yyparse cfg0 ops0 150 true [pw "[[", pw "!", pw "-f", pw "a", .andand, pw "b", pw "=", pw "c", pw "]]"] =
    .ok (.node .dbracket { vars := some [], args := some [dbWord .not, plainWord ['-', 'f'], plainWord ['a'], dbWord .and, plainWord ['b'], plainWord ['='], plainWord ['c']] } .nil .nil)
      (atS []) := by decide +kernel

/-- 32 redirections are accepted, 33 are not. -/
def manyRedirs (n : Nat) : List Raw := (List.replicate n [Raw.redir ⟨1, .write, false⟩, pw "f"]).flatten

example : (match yyparse cfg0 ops0 800 true (manyRedirs 32) with | .ok _ _ => true | _ => false) = true := by decide +kernel
example : yyparse cfg0 ops0 850 true (manyRedirs 33) = .err := by decide +kernel

end Ksh.Syn
