import Verif.Lex.Model
import Verif.Lexbuf.Props

/-!
# The paths of Lexbuf and the lexer of Lex

Every round of the lexer as modelled in `Ksh.Lex` is one of the paths of `Ksh.Lexbuf`: the path is told from the symbols
that are added (`Match`), and writes as many bytes as the encoded word becomes longer.
-/
namespace Ksh.Lexbuf
open Ksh.Lex

/-- The bytes of a symbol in the word (lex.h:40-52, tree.h). -/
def symSize : Sym → Nat
  | .chr _ => 2
  | .qchr _ => 2
  | .oq => 1
  | .cq => 1
  | .osub _ name => 2 + name.length + 1
  | .csub _ => 2
  | .opat _ => 2
  | .spat => 1
  | .cpat => 1
  | .com buf => 1 + buf.length + 1
  | .exp buf => 1 + buf.length + 1

/-- What has been written for a substitution that is not closed yet. -/
def stSize : St → Nat
  | .csparen _ _ buf => 1 + buf.length
  | .asparen _ buf => 1 + buf.length
  | .bquote _ buf => 1 + buf.length
  | _ => 0

def outSize (l : List Sym) : Nat := (l.map symSize).sum
def stkSize (l : List St) : Nat := (l.map stSize).sum
def size (s : LS) : Nat := outSize s.out + stkSize s.stack

@[simp] theorem outSize_append (a b : List Sym) : outSize (a ++ b) = outSize a + outSize b := by simp [outSize]
@[simp] theorem outSize_cons (a : Sym) (b : List Sym) : outSize (a :: b) = symSize a + outSize b := by simp [outSize]
@[simp] theorem outSize_nil : outSize [] = 0 := rfl
@[simp] theorem stkSize_cons (a : St) (b : List St) : stkSize (a :: b) = stSize a + stkSize b := by simp [stkSize]

theorem bytes_append : ∀ a b : List Ev, bytes (a ++ b) = bytes a + bytes b
  | [], b => by simp [bytes]
  | e :: a, b => by cases e <;> simp [bytes, bytes_append a b] <;> omega

theorem bytes_times (n : Nat) (l : List Ev) : bytes (times n l) = n * bytes l := by
  induction n with
  | zero => simp [times, bytes]
  | succ n ih => rw [times_succ, bytes_append, ih, Nat.succ_mul]; omega

/-- What a path of the lexer puts into the word, so that the path can be told from its result: the paths of
variable length belong to the symbols of a name of just that length, the others to one change of a given size. -/
def Match (s s' : LS) : Path → Prop
  | .nothing => s'.out = s.out ∧ s'.stack = s.stack
  | .one => size s' = size s + 1
  | .two => size s' = size s + 2
  | .keep => ∃ d, s'.out = s.out ++ [.chr '\\', .chr d] ∧ s'.stack = s.stack
  | .brace v colon => v.sub = none ∧ ∃ name st, name.length = v.n ∧ stSize st = 0 ∧ s'.stack = st :: s.stack ∧
      s'.out = s.out ++ (.osub true name :: (if colon then [.chr ':'] else []))
  | .name n => ∃ name, name.length = n + 1 ∧ s'.out = s.out ++ [.osub false name, .csub false] ∧ s'.stack = s.stack
  | .special => ∃ d, alpha d = false ∧ s'.out = s.out ++ [.osub false [d], .csub false] ∧ s'.stack = s.stack
  | .mismatch _ => ∃ n buf c st, s.stack = .asparen n buf :: st ∧ s'.stack = .csparen 1 0 ('(' :: buf ++ [c]) :: st ∧
      s'.out = s.out
  -- modes that Lex leaves out
  | .subscript _ => False
  | .bracket => False
  | .delim => False

/-- One round: the path that belongs to what was put into the word, with as many bytes. -/
def Fits (s s' : LS) : Prop := ∃ p : Path, Match s s' p ∧ size s' = size s + bytes p.body

theorem nameRun_length : ∀ (n : Nat) (i : List Char) (k : Nat) (acc : List Char), acc.length ≤ (nameRun n i k acc).1.length
  | 0, i, k, acc => by simp [nameRun]
  | n + 1, i, k, acc => by
    unfold nameRun
    simp only
    split
    · split
      · have := nameRun_length n (getsc false k i).2.1 (getsc false k i).2.2
        refine Nat.le_trans ?_ (this _)
        simp
      · simp
    · simp

theorem fits_nothing {s s' : LS} (ho : s'.out = s.out) (hs : s'.stack = s.stack) : Fits s s' :=
  ⟨.nothing, ⟨ho, hs⟩, by simp [Path.body, bytes, size, ho, hs]⟩
theorem fits_one {s s' : LS} (h : size s' = size s + 1) : Fits s s' := ⟨.one, h, by simp [Path.body, bytes, h]⟩
theorem fits_two {s s' : LS} (h : size s' = size s + 2) : Fits s s' := ⟨.two, h, by simp [Path.body, bytes, h]⟩
theorem fits_keep {s s' : LS} {d : Char} (ho : s'.out = s.out ++ [.chr '\\', .chr d]) (hs : s'.stack = s.stack) : Fits s s' :=
  ⟨.keep, ⟨d, ho, hs⟩, by simp [Path.body, bytes, size, symSize, ho, hs]; omega⟩
theorem fits_special {s s' : LS} {d : Char} (hd : alpha d = false) (ho : s'.out = s.out ++ [.osub false [d], .csub false])
    (hs : s'.stack = s.stack) : Fits s s' :=
  ⟨.special, ⟨d, hd, ho, hs⟩, by simp [Path.body, bytes, size, symSize, ho, hs]; omega⟩

theorem fits_brace {s s' : LS} (name : List Char) (b : Bool) (st : St)
    (ho : s'.out = s.out ++ (.osub true name :: (if b then [.chr ':'] else []))) (hs : s'.stack = st :: s.stack)
    (h0 : stSize st = 0) : Fits s s' := by
  refine ⟨.brace ⟨name.length, none⟩ b, ⟨rfl, name, st, rfl, h0, hs, ho⟩, ?_⟩
  cases b <;> simp [size, symSize, ho, hs, h0, Path.body, Brace.path, bytes_append, bytes_times, bytes] <;> omega

theorem fits_name {s s' : LS} (name : List Char) (hn : 1 ≤ name.length)
    (ho : s'.out = s.out ++ [.osub false name, .csub false]) (hs : s'.stack = s.stack) : Fits s s' := by
  refine ⟨.name (name.length - 1), ⟨name, by omega, ho, hs⟩, ?_⟩
  simp only [size, ho, hs, outSize_append, outSize_cons, outSize_nil, symSize, Path.body, bytes_append, bytes_times, bytes]
  omega

theorem subst_fits (s s' : LS) (c : Char) (h : subst s c = some s') : Fits s s' := by
  unfold subst at h
  simp only at h
  split at h
  · split at h
    · cases h; exact fits_nothing (by simp) rfl
    · split at h
      · cases h; exact fits_two (by simp [size, symSize]; omega)
      · cases h; exact fits_keep rfl rfl
  · split at h
    · split at h
      · cases h; exact fits_two (by simp [size, symSize]; omega)
      · split at h
        · split at h
          · cases h; exact fits_one (by simp [size, stSize]; omega)
          · cases h; exact fits_one (by simp [size, stSize]; omega)
        · split at h
          · split at h
            · cases h
            · rename_i name i sk hb
              cases h
              refine fits_brace name (decide ((getsc (ignoring s.stack) sk i).1 = some ':')) _ ?_ rfl ?_
              · by_cases he : (getsc (ignoring s.stack) sk i).1 = some ':'
                · simp [he]
                · simp [he]
              · have h0 : ∀ (q : Prop) [Decidable q], stSize (if q then St.tbrace else match s.stack with
                    | .dquote :: _ => .braceq
                    | .braceq :: _ => .braceq
                    | _ => .brace) = 0 := by
                  intro q _
                  by_cases hq : q
                  · rw [if_pos hq]; rfl
                  · rw [if_neg hq]
                    split <;> rfl
                exact h0 _
          · split at h
            · rename_i d _ _ _ _
              cases h
              exact fits_name _ (by simpa using nameRun_length _ _ _ [d]) rfl rfl
            · split at h
              · cases h
                rename_i ha _
                exact fits_special (by simpa using ha) rfl rfl
              · cases h; exact fits_two (by simp [size, symSize]; omega)
    · split at h
      · cases h; exact fits_one (by simp [size, stSize]; omega)
      · cases h; exact fits_two (by simp [size, symSize]; omega)

theorem Fits.inp {s s' : LS} {i : List Char} {k : Nat} (h : Fits { s with inp := i, skip := k } s') : Fits s s' := h

theorem sbase2_fits (s s' : LS) (c : Char) (h : sbase2 s c = some s') : Fits s s' := by
  unfold sbase2 at h
  simp only at h
  split at h
  · split at h
    · cases h; exact fits_nothing (by simp) rfl
    · cases h; exact fits_two (by simp [size, symSize]; omega)
  · split at h
    · split at h
      · cases h; exact fits_two (by simp [size, symSize]; omega)
      · cases h; exact fits_one (by simp [size, symSize, stSize]; omega)
    · split at h
      · cases h; exact fits_one (by simp [size, symSize, stSize]; omega)
      · exact subst_fits s s' c h

theorem sbase1_fits (s s' : LS) (c : Char) (h : sbase1 s c = some s') : Fits s s' := by
  unfold sbase1 at h
  simp only at h
  split at h
  · split at h
    · cases h; exact fits_two (by simp [size, symSize, stSize]; omega)
    · exact Fits.inp (sbase2_fits _ s' c h)
  · exact sbase2_fits s s' c h

/-- Each round of the lexer is the path that belongs to what it puts into the word. -/
theorem step_fits (s s' : LS) (c : Char) (h : step s c = some s') : Fits s s' := by
  unfold step at h
  split at h
  · cases h
  · exact sbase1_fits s s' c h
  · rename_i st hst
    split at h
    · split at h
      · cases h; exact fits_two (by simp [size, symSize, hst, stSize]; omega)
      · cases h; exact fits_one (by simp [size, symSize, hst, stSize]; omega)
    · cases h; exact fits_two (by simp [size, symSize]; omega)
  · rename_i st hst
    split at h
    · cases h; exact fits_one (by simp [size, symSize, hst, stSize]; omega)
    · exact subst_fits s s' c h
  · rename_i np cs buf st hst
    simp only at h
    split at h
    · cases h; exact fits_one (by simp [size, symSize, hst, stSize]; omega)
    · cases h; exact fits_one (by simp [size, hst, stSize]; omega)
  · rename_i np buf st hst
    split at h
    · cases h; exact fits_one (by simp [size, hst, stSize]; omega)
    · split at h
      · split at h
        · simp only at h
          split at h
          · cases h; exact fits_one (by simp [size, symSize, hst, stSize]; omega)
          · cases h
            exact ⟨.mismatch 0, ⟨np, buf, c, st, hst, rfl, rfl⟩, by simp [size, hst, stSize, Path.body, bytes]; omega⟩
        · cases h; exact fits_one (by simp [size, hst, stSize]; omega)
      · cases h; exact fits_one (by simp [size, hst, stSize]; omega)
  · rename_i st hst
    split at h
    · cases h; exact fits_two (by simp [size, symSize, hst, stSize]; omega)
    · exact sbase2_fits s s' c h
  · rename_i st hst
    split at h
    · cases h; exact fits_two (by simp [size, symSize, hst, stSize]; omega)
    · exact sbase1_fits s s' c h
  · rename_i st hst
    split at h
    · cases h; exact fits_two (by simp [size, symSize, hst, stSize]; omega)
    · split at h
      · cases h; exact fits_one (by simp [size, symSize]; omega)
      · split at h
        · cases h; exact fits_two (by simp [size, symSize, stSize]; omega)
        · exact sbase1_fits s s' c h
  · rename_i indq buf st hst
    split at h
    · cases h; exact fits_one (by simp [size, symSize, hst, stSize]; omega)
    · split at h
      · simp only at h
        split at h
        · cases h; exact fits_nothing (by simp) rfl
        · cases h
          split
          · exact fits_one (by simp [size, hst, stSize]; omega)
          · exact fits_two (by simp [size, hst, stSize]; omega)
      · cases h; exact fits_one (by simp [size, hst, stSize]; omega)
  · rename_i st hst
    split at h
    · cases h; exact fits_one (by simp [size, symSize, hst, stSize]; omega)
    · split at h
      · cases h; exact fits_one (by simp [size, symSize]; omega)
      · split at h
        · cases h; exact fits_two (by simp [size, symSize, stSize]; omega)
        · exact sbase1_fits s s' c h

theorem loop_fits : ∀ (n : Nat) (s : LS) (w : List Sym) (r : List Char), loop n s = .word w r →
    ∃ l : List Path, outSize w = size s + bytes (l.flatMap fun p => .chk :: p.body)
  | 0, s, w, r, h => by simp [loop] at h
  | n + 1, s, w, r, h => by
    have stop : ∀ (r' : List Char), (if s.stack = [St.base] then Res.word s.out r' else .unclosed) = .word w r →
        ∃ l : List Path, outSize w = size s + bytes (l.flatMap fun p => .chk :: p.body) := by
      intro r' h
      split at h
      · rename_i hs
        simp only [Res.word.injEq] at h
        exact ⟨[], by simp [size, hs, stkSize, stSize, bytes, h.1]⟩
      · cases h
    unfold loop at h
    simp only at h
    split at h
    · exact stop _ h
    · have next : ∀ (t : LS) (c : Char), size t = size s →
          (match step t c with | none => Res.missing | some s' => loop n s') = .word w r →
          ∃ l : List Path, outSize w = size s + bytes (l.flatMap fun p => .chk :: p.body) := by
        intro t c ht h
        split at h
        · cases h
        · rename_i s' hs
          obtain ⟨l, hl⟩ := loop_fits n s' w r h
          obtain ⟨p, _, hp⟩ := step_fits _ s' _ hs
          refine ⟨p :: l, ?_⟩
          simp only [List.flatMap_cons, bytes_append, bytes]
          omega
      split at h
      · split at h
        · exact stop _ h
        · exact next _ _ (by rfl) h
      · split at h
        · exact stop _ h
        · exact next _ _ (by rfl) h

/-- The word that the lexer of `Ksh.Lex` reads is written inside of the buffer, by a sequence of paths, and fills it
to the length of its encoding. -/
theorem word_in_bounds (n : Nat) (i : List Char) (w : List Sym) (r : List Char) (h : lexWord n i = .word w r) :
    ∃ l b, yylex false l false = some b ∧ b.pos = outSize w + 1 ∧ b.pos ≤ b.len := by
  obtain ⟨l, hl⟩ := loop_fits n _ w r h
  obtain ⟨b, hb, ho⟩ := lexer_in_bounds false l false
  refine ⟨l, b, hb, ?_, ho⟩
  have := pos_counts _ _ _ hb
  rw [this, hl]
  simp [bytes_append, bytes, start, size, outSize, stkSize, stSize]

/-- `a${x:-"b"}$1`: 22 bytes and the end. -/
example : (match lexWord 50 "a${x:-\"b\"}$1".toList with | .word w _ => outSize w | _ => 0) = 2 + (4 + 2) + 2 + (1 + 2 + 1) + 2 + 6 := by
  decide +kernel

end Ksh.Lexbuf
