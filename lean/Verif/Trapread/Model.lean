import Verif.Syn.Model
import Verif.Here.Model

/-!
# Traps taken while a command is being read

While `yylex` waits for a line a signal may arrive for which a trap is set; `getsc_line`
(lex.c:1115-1120) and `x_getc` (edit.c:122-128) then run the trap's commands at once: `runtraps`,
`runtrap`, `command`, `shell`, `compile` (trap.c:190-258, main.c:545-553, 600-660, syn.c:762-771).
This `compile` works on the same variables as the one that is reading:

* `reject` is true afterwards: the last that `yyparse` does is `tpeek(0)` (syn.c:65, 54-55), in the
  last round of `shell` for the end of the trap's text.  `symbol` is set by the interrupted call
  itself, when `yylex` returns (syn.c:52-55);
* `herep` is `heres` afterwards (syn.c:767).

Here: the parser of `Ksh.Syn` with a trap during the first token of a line, of `do` and of `then`,
and `gethere` of `Ksh.Here` with traps while the documents are read.  `nesting` only matters for
messages, `source` is put back (lex.c:1146, main.c:586-594, 663).  The trap's commands return: `exit`
and errors in them are not considered, and they contain no `<<` themselves.
-/
namespace Ksh.Trapread

open Ksh.Syn

/-- `token(cf)`, syn.c:52-53, with (`trap`) or without a trap being run inside of `yylex`. -/
def tokenT (trap : Bool) (cf : Cf) (s : St) : Tok × St :=
  match s.pk with
  | some t => (t, ⟨none, s.rest⟩)
  | none => ((lex cf s.rest).1, ⟨if trap then some (lex cf s.rest).1 else none, (lex cf s.rest).2⟩)

/-- `tpeek(cf)`, syn.c:54-55: `reject` is true before and after. -/
def tpeekT (_trap : Bool) (cf : Cf) (s : St) : Tok × St :=
  match s.pk with
  | some t => (t, ⟨some t, s.rest⟩)
  | none => ((lex cf s.rest).1, ⟨some (lex cf s.rest).1, (lex cf s.rest).2⟩)

/-- `reject = false` for `((` and `[[`, syn.c:281, 290. -/
def accept (c : Tok) (s : St) : St :=
  match c with
  | .dlpar => ⟨none, s.rest⟩
  | .kw .kdbracket => ⟨none, s.rest⟩
  | _ => s

/-- `get_command(cf)`, syn.c:184-414, the trap during its first token.  Every command anywhere in a
program begins with this token; behind `|`, `&&` and `||` newlines may precede it (`contin`). -/
def getCommandT (cfg : Cfg) (o : DbOps) (n : Nat) (trap contin : Bool) (s : St) : Res Op :=
  parse cfg o n (.cmd (tokenT trap ⟨contin, true, false⟩ s).1)
    (accept (tokenT trap ⟨contin, true, false⟩ s).1 (tokenT trap ⟨contin, true, false⟩ s).2)

/-- `get_command(0)` -/
def commandT (cfg : Cfg) (o : DbOps) (n : Nat) (trap : Bool) (s : St) : Res Op := getCommandT cfg o n trap false s

/-- `pipeline(0)`, syn.c:72-90 -/
def pipelineT (cfg : Cfg) (o : DbOps) (n : Nat) (trap : Bool) (s : St) : Res Op :=
  (commandT cfg o n trap s).bind fun t s => if t.isNil then .ok .nil s else parse cfg o (n + 1) (.pipeLoop [t]) s

/-- `andor`, syn.c:92-108 -/
def andorT (cfg : Cfg) (o : DbOps) (n : Nat) (trap : Bool) (s : St) : Res Op :=
  (pipelineT cfg o n trap s).bind fun t s => if t.isNil then .ok .nil s else parse cfg o (n + 2) (.andorLoop t) s

/-- `c_list` whose first `andor` reads the line, syn.c:110-145. -/
def clistT (cfg : Cfg) (o : DbOps) (n : Nat) (trap multi : Bool) (s : St) : Res Op :=
  clistBody (fun c s => if c = .andor then andorT cfg o n trap s else parse cfg o (n + 3) c s) multi [] s

/-- `yyparse`, syn.c:57-70: a trap is run while the shell waits for the first token. -/
def yyparseT (cfg : Cfg) (o : DbOps) (n : Nat) (trap multi : Bool) (l : List Raw) : Res Op :=
  (clistT cfg o n trap multi ⟨none, l⟩).bind fun t s =>
  match (tpeek {} s).1 with
  | .eof => .ok (if t.isNil then .node .eof {} .nil .nil else t) (tpeek {} s).2
  | .nl => .ok t (tpeek {} s).2
  | _ => .err

/-- `dogroup`, syn.c:416-437, the trap while it waits for the line with `do`. -/
def dogroupT (cfg : Cfg) (o : DbOps) (n : Nat) (trap : Bool) (s : St) : Res Op :=
  match closeOf .kdo .kdone (tokenT trap { contin := true, keyword := true } s).1 with
  | none => .err
  | some close =>
    (parse cfg o n (.clist true []) (tokenT trap { contin := true, keyword := true } s).2).bind fun l s =>
    (musthave (.kw close) KW s).bind fun _ s => .ok l s

/-- `wordlist`, syn.c:560-581, the trap while it waits for the line with `in`: the loop asks for words
with `token` as well. -/
def wordlistT (trap : Bool) (s : St) : Res (Option (List Word)) :=
  match tokenT trap { contin := true, keyword := true } s with
  | (.kw .kin, s) =>
    match s.pk with
    | some _ => .err
    | none =>
      match takeWords s.rest with
      | (ws, .nl :: r) => .ok (some ws) ⟨none, r⟩
      | (ws, .semi :: r) => .ok (some ws) ⟨none, r⟩
      | _ => .err
  | (.semi, s) => .ok none s
  | (c, s) => .ok none (unget c s)

/-! ### Here documents -/

open Ksh.Here in
/-- `gethere`, lex.c:857-865, the flag of each document saying that a trap was run while it was read:
`herep` is `heres` then and the loop ends. -/
def gethereT : List (Iop × Bool) → List Char → Nat → Option (List (List Char) × List Char × Nat)
  | [], i, sk => some ([], i, sk)
  | (p, trap) :: ps, i, sk =>
    match readhere (!ioeval p.delim) p.skip (delimText p.delim) (i.length + 1) i sk [] with
    | none => none
    | some (doc, i', sk') =>
      if trap then some ([doc], i', sk')
      else
        match gethereT ps i' sk' with
        | none => none
        | some (docs, r) => some (doc :: docs, r)

end Ksh.Trapread
