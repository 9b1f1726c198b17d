import Verif.Shf.In

/-!
# Model of reading the script: lines and characters (lex.c, misc.c)

On top of the model of shf_getse and shf_flush (`Ksh.Shf`).  The expandable string `s->xs` is its
size `cap` (the allocation is `X_EXTRA` = 8 bytes larger) and the bytes in front of `xp`; an access
outside of it is the outcome `fault`.  A line whose text is not terminated by a NUL (because
shf_getse copied bytes to `xp` and answered NULL) is the outcome `loose`.

Left out: the line editor (x_read), prompts, `TMOUT`, the history (see `Ksh.History`), the traps
run when a read is interrupted, closing of the file at its end.
-/

namespace Ksh.Line

open Ksh.Shf

/-! ## strip_nuls -/

/-- `memchr(p, '\0', n)` as an offset; `fault` is the outer `none` -/
def memchr0 (m : Bytes) (p n : Nat) : Option (Option Nat) :=
  if p + n ≤ m.length then some ((((m.drop p).take n).findIdx? (· == 0)).map (· + p)) else none

/-- `memmove(dst, p, n)` -/
def memmove (m : Bytes) (dst p n : Nat) : Option Bytes :=
  if p + n ≤ m.length ∧ dst + n ≤ m.length then
    some (m.take dst ++ ((m.drop p).take n) ++ m.drop (dst + n))
  else none

/-- `while (++p < end && *p == '\0') ;` (misc.c:1078-1079) -/
def skipNuls (m : Bytes) (e : Nat) : Nat → Nat → Option Nat
  | 0, _ => none
  | fuel + 1, p =>
    if p + 1 < e then
      match m[p + 1]? with
      | some c => if c = 0 then skipNuls m e fuel (p + 1) else some (p + 1)
      | none => none
    else some (p + 1)

/-- the loop of strip_nuls (misc.c:1076-1085): the memory and `dst` -/
def stripLoop (e : Nat) : Nat → Bytes → Nat → Nat → Option (Bytes × Nat)
  | 0, _, _, _ => none
  | fuel + 1, m, dst, p =>
    if p < e then
      match skipNuls m e (e + 1) p with
      | none => none
      | some p =>
        match memchr0 m p (e - p) with
        | none => none
        | some q0 =>
          let q := q0.getD e
          match memmove m dst p (q - p) with
          | none => none
          | some m => stripLoop e fuel m (dst + (q - p)) q
    else some (m, dst)

/-- strip_nuls (misc.c:1066-1090) for the buffer at the start of the memory `m` -/
def stripNuls (m : Bytes) (n : Nat) : Option (Bytes × Nat) :=
  match memchr0 m 0 n with
  | none => none
  | some none => some (m, n)
  | some (some d) =>
    match stripLoop n (n + 1) m d d with
    | none => none
    | some (m, dst) => if dst < m.length then some (m.set dst 0, dst) else none

/-! ## getsc_line -/

/-- sh.h:39 -/
def LINE : Nat := 4096

/-- `XcheckN(xs, xp, n)` and Xcheck_grow_ (expand.h:55-59, misc.c:111-120): the new size -/
def checkN (cap pos n : Nat) : Nat :=
  if cap < pos + n then cap + max (pos + n - cap) cap else cap

/-- `s->u.shf->errno_ == EINTR`: the last answer to a read call was an interruption -/
def interrupted (w w2 : W) : Bool :=
  (w.rs.take (w.rs.length - w2.rs.length)).getLast? == some .intr

/-- How getsc_line ended -/
inductive Out
  | line (bs : Bytes)
  | eof
  | loose
  | stuck
  | fault
  | abort
  deriving DecidableEq, Repr

def bad : St → Out
  | .stuck => .stuck
  | .abort => .abort
  | _ => .fault

structure LR where
  shf : Shf
  w : W
  cap : Nat
  out : Out
  deriving DecidableEq, Repr

/-- The end of the loop: the bytes in front of `xp`, and whether a NUL follows them. -/
def done (acc : Bytes) (term : Bool) : Out :=
  if acc = [] then .eof else if term then .line acc else .loose

/-- The loop of getsc_line (lex.c:1105-1122); `term`: there is a NUL at `xp`. -/
def lineLoop : Nat → Nat → Bytes → Bool → Shf → W → LR
  | 0, cap, _, _, s, w => ⟨s, w, cap, .stuck⟩
  | fuel + 1, cap, acc, term, s, w =>
    let r := getse (cap - acc.length) s w
    let bs := r.2.2.2
    if cap + 8 < acc.length + bs.length + 1 then ⟨r.1, r.2.1, cap, .fault⟩
    else if r.2.2.1 = .eof then
      let t := if r.1.err then term && bs.isEmpty else true
      if r.1.err && interrupted w r.2.1 then lineLoop fuel cap acc t (clearerr r.1) r.2.1
      else ⟨r.1, r.2.1, cap, done acc t⟩
    else if r.2.2.1 = .ok then
      match (acc ++ bs).getLast? with
      | none => ⟨r.1, r.2.1, cap, .fault⟩
      | some c =>
        if c = 0x0a then ⟨r.1, r.2.1, cap, done (acc ++ bs) true⟩
        else
          let n := (acc ++ bs).length + 1
          lineLoop fuel (checkN cap n n) (acc ++ bs) true r.1 r.2.1
    else ⟨r.1, r.2.1, cap, bad r.2.2.1⟩

/-- The text of the line after strip_nuls (lex.c:1141); the memory is the line and its NUL. -/
def stripped : Out → Out
  | .line bs =>
    match stripNuls (bs ++ [0]) bs.length with
    | some (m, k) => .line (m.take k)
    | none => .fault
  | o => o

/-- getsc_line (lex.c:1073-1158) without the line editor.  `stdin`: the type is `SSTDIN`. -/
def getscLine (stdin : Bool) (fuel cap : Nat) (s : Shf) (w : W) : LR :=
  let r := lineLoop fuel (checkN cap 0 LINE) [] true s w
  if stdin then
    let f := flush r.shf r.w
    ⟨f.1, f.2.1, r.cap, stripped r.out⟩
  else { r with out := stripped r.out }

end Ksh.Line
