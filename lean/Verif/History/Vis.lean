/-!
# The encoding of the history file

`vis` and `strvis` of vis.c for the flags the history uses, `VIS_SAFE | VIS_NL` (history.c:731,
862), and the part of `history_load` that cuts the file into lines.  The decoder `strunvis` is not
in the repository (it comes from libbsd); `unvis` below is written after its manual page.
-/
namespace Ksh.History

abbrev Byte := UInt8
abbrev Bytes := List UInt8

/-- isgraph() of an ASCII character. -/
def isgraph (c : Byte) : Bool := 0x21 ≤ c && c ≤ 0x7e

/-- iscntrl() of an ASCII character. -/
def iscntrl (c : Byte) : Bool := c ≤ 0x1f || c == 0x7f

/-- `isvisible(c, VIS_SAFE | VIS_NL)`, vis.c:42-53.  `hi` is isgraph() of the bytes above
127, which depends on the locale. -/
def isvisible (hi : Byte → Bool) (c : Byte) : Bool :=
  (c < 0x80 && isgraph c) || c == 0x20 || c == 0x09 ||
    (c == 0x08 || c == 0x07 || c == 0x0d || (if c < 0x80 then isgraph c else hi c))

/-- vis, vis.c:58-135, without the branches for flags that are not set (VIS_DQ,
VIS_NOSLASH, VIS_CSTYLE, VIS_OCTAL, VIS_GLOB).  `nextc` is only used with VIS_CSTYLE. -/
def vis (hi : Byte → Bool) (c : Byte) : Bytes :=
  if isvisible hi c then
    if c == 0x5c then [0x5c, c] else [c]
  else if c &&& 0x7f == 0x20 then
    [0x5c, (c >>> 6 &&& 7) + 0x30, (c >>> 3 &&& 7) + 0x30, (c &&& 7) + 0x30]
  else
    let m : Bytes := if c &&& 0x80 != 0 then [0x4d] else []
    let c := c &&& 0x7f
    if iscntrl c then
      if c == 0x7f then [0x5c] ++ m ++ [0x5e, 0x3f] else [0x5c] ++ m ++ [0x5e, c + 0x40]
    else [0x5c] ++ m ++ [0x2d, c]

/-- strvis, vis.c:151-162. -/
def strvis (hi : Byte → Bool) (s : Bytes) : Bytes := s.flatMap (vis hi)

/-! ### unvis(3) -/

/-- The states of unvis. -/
inductive US
  | ground
  | start
  | high
  | high1
  | ctrl (m : Byte)
  | octal2 (v : Byte)
  | octal3 (v : Byte)
  | bad
  deriving DecidableEq, Repr

def isoctal (c : Byte) : Bool := 0x30 ≤ c && c ≤ 0x37

/-- unvis(3) for one character: the new state and the characters produced. -/
def unvis1 : US → Byte → US × Bytes
  | .ground, c => if c == 0x5c then (.start, []) else (.ground, [c])
  | .start, c =>
    if c == 0x5c then (.ground, [0x5c])
    else if isoctal c then (.octal2 (c - 0x30), [])
    else if c == 0x4d then (.high, [])
    else if c == 0x5e then (.ctrl 0, [])
    else if c == 0x6e then (.ground, [0x0a])
    else if c == 0x72 then (.ground, [0x0d])
    else if c == 0x62 then (.ground, [0x08])
    else if c == 0x61 then (.ground, [0x07])
    else if c == 0x76 then (.ground, [0x0b])
    else if c == 0x74 then (.ground, [0x09])
    else if c == 0x66 then (.ground, [0x0c])
    else if c == 0x73 then (.ground, [0x20])
    else if c == 0x45 then (.ground, [0x1b])
    else if c == 0x0a || c == 0x24 then (.ground, [])
    else (.bad, [])
  | .high, c =>
    if c == 0x2d then (.high1, [])
    else if c == 0x5e then (.ctrl 0x80, [])
    else (.bad, [])
  | .high1, c => (.ground, [c ||| 0x80])
  | .ctrl m, c => (.ground, [if c == 0x3f then m ||| 0x7f else m ||| (c &&& 0x1f)])
  | .octal2 v, c =>
    if isoctal c then (.octal3 ((v <<< 3) + (c - 0x30)), [])
    else if c == 0x5c then (.start, [v]) else (.ground, [v, c])
  | .octal3 v, c =>
    if isoctal c then (.ground, [(v <<< 3) + (c - 0x30)])
    else if c == 0x5c then (.start, [v]) else (.ground, [v, c])
  | .bad, _ => (.bad, [])

def unvisRun : US → Bytes → US × Bytes
  | u, [] => (u, [])
  | u, c :: s =>
    let (u', o) := unvis1 u c
    let (u'', o') := unvisRun u' s
    (u'', o ++ o')

/-- strunvis(3).  On a syntax error it leaves the output as it is. -/
def strunvis (s : Bytes) : Bytes :=
  match unvisRun .ground s with
  | (.octal2 v, o) => o ++ [v]
  | (.octal3 v, o) => o ++ [v]
  | (_, o) => o

theorem unvisRun_append (u : US) (s t : Bytes) :
    unvisRun u (s ++ t) = ((unvisRun (unvisRun u s).1 t).1, (unvisRun u s).2 ++ (unvisRun (unvisRun u s).1 t).2) := by
  induction s generalizing u with
  | nil => rfl
  | cons c s ih => simp [unvisRun, ih]

theorem all_bytes {P : Byte → Prop} [DecidablePred P] (h : ∀ n : Fin 256, P (UInt8.ofNat n.val)) (c : Byte) : P c := by
  have := h ⟨c.toNat, c.toNat_lt⟩
  simpa using this

/-- The encoding of one byte is decoded to that byte. -/
theorem vis_byte (hi : Byte → Bool) (c : Byte) (h0 : c ≠ 0) : unvisRun .ground (vis hi c) = (.ground, [c]) := by
  have key : ∀ b : Bool, ∀ c : Byte, c ≠ 0 → unvisRun .ground (vis (fun _ => b) c) = (.ground, [c]) := by
    intro b
    refine all_bytes (P := fun c => c ≠ 0 → unvisRun .ground (vis (fun _ => b) c) = (.ground, [c])) ?_
    revert b
    decide +kernel
  have e : vis hi c = vis (fun _ => hi c) c := by simp [vis, isvisible]
  rw [e]
  exact key _ c h0

/-- **C41** Decoding the encoding of a command gives the command back. -/
theorem vis_round_trip (hi : Byte → Bool) (s : Bytes) (h0 : 0 ∉ s) : strunvis (strvis hi s) = s := by
  have key : ∀ s : Bytes, 0 ∉ s → unvisRun .ground (strvis hi s) = (.ground, s) := by
    intro s
    induction s with
    | nil => intro _; rfl
    | cons c s ih =>
      intro h
      simp only [List.mem_cons, not_or] at h
      have e : strvis hi (c :: s) = vis hi c ++ strvis hi s := rfl
      rw [e, unvisRun_append, vis_byte hi c (Ne.symm h.1), ih h.2]
      rfl
  simp only [strunvis, key s h0]

/-- **C41** The encoding has no newline in it (and no NUL, which would end it). -/
theorem vis_one_line (hi : Byte → Bool) (s : Bytes) (h0 : 0 ∉ s) : 0x0a ∉ strvis hi s ∧ 0 ∉ strvis hi s := by
  have key : ∀ b : Bool, ∀ c : Byte, c ≠ 0 → 0x0a ∉ vis (fun _ => b) c ∧ 0 ∉ vis (fun _ => b) c := by
    intro b
    refine all_bytes (P := fun c => c ≠ 0 → 0x0a ∉ vis (fun _ => b) c ∧ 0 ∉ vis (fun _ => b) c) ?_
    revert b
    decide +kernel
  have e : ∀ c, vis hi c = vis (fun _ => hi c) c := fun c => by simp [vis, isvisible]
  simp only [strvis, List.mem_flatMap, not_exists, not_and]
  refine ⟨fun c hc => ?_, fun c hc => ?_⟩
  · rw [e]; exact (key _ c (fun h => h0 (h ▸ hc))).1
  · rw [e]; exact (key _ c (fun h => h0 (h ▸ hc))).2

/-- An encoded command takes at most four times its length: the buffer of stravis,
vis.c:211, is large enough. -/
theorem vis_length (hi : Byte → Bool) (s : Bytes) : (strvis hi s).length ≤ 4 * s.length := by
  have key : ∀ b : Bool, ∀ c : Byte, (vis (fun _ => b) c).length ≤ 4 := by
    intro b
    refine all_bytes (P := fun c => (vis (fun _ => b) c).length ≤ 4) ?_
    revert b
    decide +kernel
  induction s with
  | nil => simp [strvis]
  | cons c s ih =>
    have e : vis hi c = vis (fun _ => hi c) c := by simp [vis, isvisible]
    have := key (hi c) c
    rw [← e] at this
    simp only [strvis, List.flatMap_cons, List.length_append, List.length_cons] at ih ⊢
    omega

/-! ### The file -/

/-- `LINE`, sh.h:39. -/
def LINE : Nat := 4096

/-- One fgets(encoded, LINE + 1): up to LINE bytes, and the rest of the file. -/
def fgets : Nat → Bytes → Bytes × Bytes
  | 0, f => ([], f)
  | _ + 1, [] => ([], [])
  | n + 1, c :: f =>
    if c == 0x0a then ([c], f)
    else
      let (l, r) := fgets n f
      (c :: l, r)

theorem fgets_length (n : Nat) (f : Bytes) : (fgets n f).1.length + (fgets n f).2.length = f.length := by
  induction n generalizing f with
  | zero => simp [fgets]
  | succ n ih =>
    cases f with
    | nil => simp [fgets]
    | cons c f =>
      simp only [fgets]
      split
      · simp; omega
      · have := ih f
        simp only [List.length_cons]
        omega

/-- The inner loop that discards an overlong line, history.c:777-785: `none` if the file
is corrupt (its end is reached in the middle of a line). -/
def discard : Nat → Bytes → Bytes → Option Bytes
  | 0, _, f => some f
  | k + 1, enc, f =>
    if enc.length ≠ LINE then none
    else
      let (enc', f') := fgets LINE f
      -- fgets returns NULL at the end of the file
      if enc' = [] then some f' else if 0x0a ∈ enc' then some f' else discard k enc' f'

/-- The loop of history_load, history.c:773-798: the encoded lines in turn, without the
newline.  The first argument bounds the number of lines; a file of `k` bytes has at most `k`. -/
def lines : Nat → Bytes → List Bytes
  | 0, _ => []
  | k + 1, f =>
    let (enc, f') := fgets LINE f
    if enc = [] then []
    else if 0x0a ∈ enc then enc.dropLast :: lines k f'
    else
      match discard k enc f' with
      | none => []
      | some f'' => lines k f''

/-- fprintf(histfh, "%s\n", encoded) for each command. -/
def fileOf (hi : Byte → Bool) (l : List Bytes) : Bytes := l.flatMap (fun s => strvis hi s ++ [0x0a])

theorem fgets_line (n : Nat) (s f : Bytes) (hs : 0x0a ∉ s) (hn : s.length < n) : fgets n (s ++ 0x0a :: f) = (s ++ [0x0a], f) := by
  induction s generalizing n with
  | nil =>
    cases n with
    | zero => simp at hn
    | succ n => simp [fgets]
  | cons c s ih =>
    cases n with
    | zero => simp at hn
    | succ n =>
      simp only [List.mem_cons, not_or] at hs
      simp only [List.length_cons, Nat.add_lt_add_iff_right] at hn
      have : (c == 0x0a) = false := by simpa using Ne.symm hs.1
      simp [fgets, this, ih n hs.2 hn]

theorem fgets_long (n : Nat) (s f : Bytes) (hs : 0x0a ∉ s) (hn : n ≤ s.length) : fgets n (s ++ f) = (s.take n, s.drop n ++ f) := by
  induction s generalizing n with
  | nil =>
    simp only [List.length_nil, Nat.le_zero] at hn
    subst hn
    simp [fgets]
  | cons c s ih =>
    cases n with
    | zero => simp [fgets]
    | succ n =>
      simp only [List.mem_cons, not_or] at hs
      simp only [List.length_cons, Nat.add_le_add_iff_right] at hn
      have : (c == 0x0a) = false := by simpa using Ne.symm hs.1
      simp [fgets, this, ih n hs.2 hn]

/-- The rest of an overlong line is discarded. -/
theorem discard_line (k : Nat) (enc s f : Bytes) (he : enc.length = LINE) (hs : 0x0a ∉ s) (hk : s.length < k) :
    discard k enc (s ++ 0x0a :: f) = some f := by
  induction k generalizing enc s with
  | zero => simp at hk
  | succ k ih =>
    simp only [discard, he, ne_eq, not_true, if_false]
    by_cases hl : s.length < LINE
    · simp [fgets_line LINE s f hs hl]
    · rw [fgets_long LINE s _ hs (by omega)]
      have hlen : (s.take LINE).length = LINE := by simp; omega
      have hne : s.take LINE ≠ [] := by
        intro e
        rw [e] at hlen
        simp [LINE] at hlen
      have hnm : (0x0a : Byte) ∉ s.take LINE := fun h => hs (List.mem_of_mem_take h)
      simp only [hne, if_false, hnm]
      refine ih _ _ hlen (fun h => hs (List.mem_of_mem_drop h)) ?_
      simp only [List.length_drop, LINE] at hl ⊢
      omega

/-- **C41** The file is cut into the lines that were written, and decoding them gives the
commands back, byte for byte and in order; only commands that take more than 4095 bytes are left
out. -/
theorem file_round_trip (hi : Byte → Bool) (l : List Bytes) (h0 : ∀ s ∈ l, 0 ∉ s) (k : Nat) (hk : (fileOf hi l).length ≤ k) :
    (lines k (fileOf hi l)).map strunvis = l.filter (fun s => (strvis hi s).length < LINE) := by
  induction l generalizing k with
  | nil =>
    cases k with
    | zero => rfl
    | succ k => simp [fileOf, lines, fgets, LINE]
  | cons s l ih =>
    have e : fileOf hi (s :: l) = strvis hi s ++ 0x0a :: fileOf hi l := by simp [fileOf]
    have h1 := h0 s List.mem_cons_self
    have nn := (vis_one_line hi s h1).1
    have h2 : ∀ s ∈ l, 0 ∉ s := fun s hs => h0 s (List.mem_cons_of_mem _ hs)
    rw [e] at hk
    simp only [List.length_append, List.length_cons] at hk
    cases k with
    | zero => omega
    | succ k =>
      rw [e]
      by_cases hl : (strvis hi s).length < LINE
      · have ne : strvis hi s ++ [0x0a] ≠ [] := by simp
        have mm : (0x0a : Byte) ∈ strvis hi s ++ [0x0a] := by simp
        simp only [lines, fgets_line LINE _ _ nn hl, ne, if_false, mm, if_true, List.dropLast_concat, List.map_cons, vis_round_trip hi s h1]
        rw [ih h2 k (by omega), List.filter_cons_of_pos (by simpa using hl)]
      · have hlen : ((strvis hi s).take LINE).length = LINE := by simp; omega
        have ne : (strvis hi s).take LINE ≠ [] := by
          intro e
          rw [e] at hlen
          simp [LINE] at hlen
        have nm : (0x0a : Byte) ∉ (strvis hi s).take LINE := fun h => nn (List.mem_of_mem_take h)
        have hd := discard_line k ((strvis hi s).take LINE) ((strvis hi s).drop LINE) (fileOf hi l) hlen
          (fun h => nn (List.mem_of_mem_drop h)) (by simp only [List.length_drop, LINE] at hl ⊢; omega)
        simp only [lines, fgets_long LINE _ _ nn (by omega), ne, if_false, nm, hd]
        rw [ih h2 k (by omega), List.filter_cons_of_neg (by simpa using hl)]

/-- `a<newline>b\<0x80><0xa0>`: -/
example : strvis (fun _ => false) [0x61, 0x0a, 0x62, 0x5c, 0x80, 0xa0] =
    "a\\^Jb\\\\\\M^@\\240".toUTF8.toList := by decide +kernel

end Ksh.History
