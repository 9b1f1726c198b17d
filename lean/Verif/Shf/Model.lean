/-!
# Model of the buffered I/O (shf.c)

`struct shf` with its buffer as memory: reading or writing outside of the buffer is the outcome
`fault`.  Pointers into the buffer are offsets.  `internal_errorf` and `errorf` do not return
(`abort`).  The system calls are given by lists of results: a `write` or `read` that has not
returned (end of the list) is the outcome `stuck`.  An interrupted or failed call has no effect.

Left out: opening and closing of descriptors (shf_open, shf_close; the initial states are those
of shf_fdopen and shf_sopen), the values of `errno` other than `EINTR`, non-blocking descriptors
(`blocking_read`), sizes above `INT_MAX`.  A `struct shf` for both reading and writing does not
occur in the shell (every call of shf_open, shf_fdopen, shf_reopen passes one of `SHF_RD` and
`SHF_WR`, or `O_RDONLY`) and shf_sopen excludes it.
-/

namespace Ksh.Shf

abbrev Byte := UInt8
abbrev Bytes := List UInt8

/-- shf.h:48-61 and the flags shf.h:24-44 -/
structure Shf where
  /-- `SHF_WR`; if not set then `SHF_RD` is -/
  wr : Bool
  unbuf : Bool
  dyn : Bool
  intr : Bool
  str : Bool
  allocB : Bool
  err : Bool
  eof : Bool
  reading : Bool
  writing : Bool
  /-- the memory at `shf->buf` -/
  buf : Bytes
  rp : Nat
  rbsize : Nat
  rnleft : Nat
  wp : Nat
  wbsize : Nat
  wnleft : Int
  deriving DecidableEq, Repr

/-- Result of a `write` call: up to `n` bytes were written; interrupted; another error. -/
inductive WR
  | n (k : Nat)
  | intr
  | err
  deriving DecidableEq, Repr

/-- Result of a `read` call: up to `k + 1` bytes; interrupted; another error. -/
inductive RR
  | n (k : Nat)
  | intr
  | err
  deriving DecidableEq, Repr

/-- The world: what has been written to the descriptor, the results of the coming calls, the
contents of the file that is read, the file position, and whether `lseek` works. -/
structure W where
  sent : Bytes
  ws : List WR
  data : Bytes
  pos : Nat
  rs : List RR
  seek : Bool
  deriving DecidableEq, Repr

/-- What a function answers: success, `EOF` or `NULL`, and the outcomes explained above -/
inductive St
  | ok
  | eof
  | stuck
  | fault
  | abort
  deriving DecidableEq, Repr

/-- The loop `while (ntowrite > 0) { n = write(fd, buf, ntowrite); ... }` (shf.c:345-367,
656-674): the bytes written, those left, the results left, how it ended. -/
def writeLoop (intr : Bool) : List WR → Bytes → Bytes × Bytes × List WR × St
  | ws, [] => ([], [], ws, .ok)
  | [], bs => ([], bs, [], .stuck)
  | .intr :: ws, bs => if intr then ([], bs, ws, .eof) else writeLoop intr ws bs
  | .err :: ws, bs => ([], bs, ws, .eof)
  | .n k :: ws, bs =>
    let r := writeLoop intr ws (bs.drop k)
    (bs.take k ++ r.1, r.2)

/-- `memcpy(shf->wp, bs, n)` and the update of `wp` and `wnleft` -/
def put (s : Shf) (bs : Bytes) : Option Shf :=
  if s.wp + bs.length ≤ s.buf.length then
    some { s with
      buf := s.buf.take s.wp ++ bs ++ s.buf.drop (s.wp + bs.length)
      wp := s.wp + bs.length
      wnleft := s.wnleft - bs.length }
  else none

/-- the branch of shf_flush for reading (shf.c:295-302); an `lseek` on something that has no
position fails and nobody looks -/
def unread (s : Shf) (w : W) : Shf × W :=
  if s.rnleft > 0 then
    ({ s with eof := false, reading := false, rnleft := 0, rp := 0 },
     if w.seek then { w with pos := w.pos - s.rnleft } else w)
  else ({ s with eof := false, reading := false }, w)

/-- `areallocarray(buf, 2, wbsize)`; the new bytes are not initialised (0 here, nothing below
depends on it) -/
def grown (s : Shf) : Shf :=
  { s with
    buf := s.buf.take (2 * s.wbsize) ++ List.replicate (2 * s.wbsize - s.buf.length) 0
    rbsize := s.rbsize + s.wbsize
    wnleft := s.wnleft + s.wbsize
    wbsize := s.wbsize * 2
    writing := true }

/-- What shf_emptybuf does after the write loop (shf.c:350-378). -/
def emptied (readsw : Bool) (s : Shf) : St → Bytes → Shf
  | .ok, _ =>
    if readsw then { s with wp := 0, wnleft := 0, writing := false }
    else { s with wp := 0, wnleft := s.wbsize, writing := true }
  | .eof, rest =>
    { s with err := true, wnleft := 0, buf := rest ++ s.buf.drop rest.length, wp := rest.length }
  | _, rest => { s with buf := rest ++ s.buf.drop rest.length, wp := rest.length }

/-- shf_emptybuf (shf.c:311-380); `readsw` is `EB_READSW`, `grow` is `EB_GROW` -/
def emptybuf (readsw grow : Bool) (s : Shf) (w : W) : Shf × W × St :=
  if s.err then (s, w, .eof)
  else if s.reading && readsw then (s, w, .ok)
  else
    let x := if s.reading then unread s w else (s, w)
    if x.1.str then
      if grow && x.1.dyn && x.1.allocB then (grown x.1, x.2, .ok) else (x.1, x.2, .eof)
    else if x.1.writing then
      let r := writeLoop x.1.intr x.2.ws (x.1.buf.take x.1.wp)
      (emptied readsw x.1 r.2.2.2 r.2.1, { x.2 with sent := x.2.sent ++ r.1, ws := r.2.2.1 }, r.2.2.2)
    else (emptied false x.1 .ok [], x.2, .ok)

/-- shf_flush (shf.c:281-306) -/
def flush (s : Shf) (w : W) : Shf × W × St :=
  if s.str then (s, w, if s.wr then .eof else .ok)
  else if s.err then (s, w, .eof)
  else if s.reading then ((unread s w).1, (unread s w).2, .ok)
  else if s.writing then emptybuf false false s w
  else (s, w, .ok)

/-- shf_putchar (shf.c:565-601).  An unbuffered string does not occur. -/
def putchar (c : Byte) (s : Shf) (w : W) : Shf × W × St :=
  if !s.wr then (s, w, .abort)
  else if s.unbuf then
    if s.str then (s, w, .abort)
    else if s.err then (s, w, .eof)
    else
      let r := writeLoop s.intr w.ws [c]
      ((if r.2.2.2 = .eof then { s with err := true } else s),
       { w with sent := w.sent ++ r.1, ws := r.2.2.1 }, r.2.2.2)
  else
    let e := if s.wnleft = 0 then emptybuf false true s w else (s, w, .ok)
    if e.2.2 = .ok then
      match put e.1 [c] with
      | some s' => (s', e.2.1, .ok)
      | none => (e.1, e.2.1, .fault)
    else e

/-- the macro shf_putc (shf.h:14-15) -/
def putc (c : Byte) (s : Shf) (w : W) : Shf × W × St :=
  if s.wnleft = 0 then putchar c s w
  else
    match put s [c] with
    | some s' => (s', w, .ok)
    | none => (s, w, .fault)

/-- shf_write, the part for what did not fit in the buffer (shf.c:645-684), after shf_emptybuf -/
def writeRest (bs : Bytes) (s : Shf) (w : W) : Shf × W × St :=
  let n := if bs.length > s.wbsize then bs.length - (if s.wbsize = 0 then 0 else bs.length % s.wbsize) else 0
  let r := writeLoop s.intr w.ws (bs.take n)
  let w' := { w with sent := w.sent ++ r.1, ws := r.2.2.1 }
  -- for a string the descriptor is -1 and `write` fails
  if n > 0 && s.str then ({ s with err := true, wnleft := 0 }, w, .eof)
  else if r.2.2.2 = .ok then
    match put s (bs.drop n) with
    | some s' => (s', w', .ok)
    | none => (s, w', .fault)
  else ((if r.2.2.2 = .eof then { s with err := true, wnleft := 0 } else s), w', r.2.2.2)

/-- the number of bytes that shf_write puts in the buffer first (shf.c:632-637) -/
def firstPart (s : Shf) (n : Nat) : Nat :=
  if s.wnleft ≠ 0 ∧ (s.wp ≠ 0 ∨ (n : Int) < s.wnleft) then min s.wnleft.toNat n else 0

/-- shf_write (shf.c:618-688); `memcpy` with a negative size is a fault -/
def write (bs : Bytes) (s : Shf) (w : W) : Shf × W × St :=
  if !s.wr then (s, w, .abort)
  else if s.wnleft < 0 then (s, w, .fault)
  else
    match put s (bs.take (firstPart s bs.length)) with
    | none => (s, w, .fault)
    | some s' =>
      let rest := bs.drop (firstPart s bs.length)
      if rest = [] then (s', w, .ok)
      else
        let e := emptybuf false true s' w
        if e.2.2 = .ok then writeRest rest e.1 e.2.1 else e

/-- the macro shf_clearerr (shf.h:18) -/
def clearerr (s : Shf) : Shf := { s with eof := false, err := false }

/-- shf_fdopen and shf_reopen with `SHF_WR` (shf.c:76-133); `bsize` is `SHF_BSIZE`, the buffer is
not initialised -/
def openW (unbuf intr : Bool) (buf : Bytes) : Shf :=
  { wr := true, unbuf := unbuf, dyn := false, intr := intr, str := false, allocB := !unbuf
    err := false, eof := false, reading := false, writing := false
    buf := if unbuf then [] else buf, rp := 0, rbsize := if unbuf then 0 else buf.length, rnleft := 0
    wp := 0, wbsize := if unbuf then 0 else buf.length, wnleft := 0 }

/-- shf_fdopen and shf_reopen with `SHF_RD`; an unbuffered file has one byte of buffer -/
def openR (unbuf intr : Bool) (buf : Bytes) : Shf :=
  { wr := false, unbuf := unbuf, dyn := false, intr := intr, str := false, allocB := true
    err := false, eof := false, reading := false, writing := false
    buf := buf, rp := 0, rbsize := if unbuf then 1 else buf.length, rnleft := 0
    wp := 0, wbsize := if unbuf then 0 else buf.length, wnleft := 0 }

/-- shf_sopen with `SHF_WR` (shf.c:190-221) for a buffer of `buf.length` bytes, either given or
(`dyn`) allocated -/
def sopenW (dyn : Bool) (buf : Bytes) : Shf :=
  { wr := true, unbuf := false, dyn := dyn, intr := false, str := true, allocB := dyn
    err := false, eof := false, reading := false, writing := false
    buf := buf, rp := 0, rbsize := buf.length, rnleft := buf.length
    wp := 0, wbsize := buf.length, wnleft := (buf.length : Int) - 1 }

/-- shf_sclose (shf.c:265-278): the memory of the buffer afterwards -/
def sclose (s : Shf) (w : W) : Shf × W × St := putc 0 { s with wnleft := s.wnleft + 1 } w

/-! ## Reading -/

/-- The loop of shf_fillbuf (shf.c:402-409): the bytes read (none at the end of the file). -/
def readLoop (intr : Bool) (size : Nat) (data : Bytes) : List RR → Bytes × List RR × St
  | [] => ([], [], .stuck)
  | .intr :: rs => if intr then ([], rs, .eof) else readLoop intr size data rs
  | .err :: rs => ([], rs, .eof)
  | .n k :: rs => (data.take (min size (k + 1)), rs, .ok)

/-- shf_fillbuf (shf.c:384-421) -/
def fillbuf (s : Shf) (w : W) : Shf × W × St :=
  if s.str then (s, w, .ok)
  else if s.eof || s.err then (s, w, .eof)
  else
    let e := if s.writing then emptybuf true false s w else (s, w, .ok)
    if e.2.2 = .ok then
      let r := readLoop e.1.intr e.1.rbsize (e.2.1.data.drop e.2.1.pos) e.2.1.rs
      let s' := { e.1 with reading := true, rp := 0 }
      let w' := { e.2.1 with rs := r.2.1, pos := e.2.1.pos + r.1.length }
      if r.2.2 = .ok then
        if r.1.length ≤ s'.buf.length then
          ({ s' with buf := r.1 ++ s'.buf.drop r.1.length, rnleft := r.1.length
                     eof := s'.eof || r.1.isEmpty }, w', .ok)
        else (s', w', .fault)
      else if r.2.2 = .eof then ({ s' with err := true, rnleft := 0 }, w', .eof)
      else (s', w', r.2.2)
    else e

/-- `memcpy(p, shf->rp, n)` and the update of `rp` and `rnleft` -/
def take (s : Shf) (n : Nat) : Option (Bytes × Shf) :=
  if s.rp + n ≤ s.buf.length ∧ n ≤ s.rnleft then
    some ((s.buf.drop s.rp).take n, { s with rp := s.rp + n, rnleft := s.rnleft - n })
  else none

/-- The test `shf->rnleft == 0 && (shf_fillbuf(shf) == EOF || ...)`: the buffer is filled if it is
empty. -/
def need (s : Shf) (w : W) : Shf × W × St :=
  if s.rnleft = 0 then fillbuf s w else (s, w, .ok)

/-- shf_getchar and shf_getc (shf.c:512-521, shf.h:12-13) -/
def getc (s : Shf) (w : W) : Shf × W × St × Bytes :=
  if s.wr then (s, w, .abort, [])
  else
    let e := need s w
    if e.2.2 = .ok then
      if e.1.rnleft = 0 then (e.1, e.2.1, .eof, [])
      else
        match take e.1 1 with
        | some (bs, s') => (s', e.2.1, .ok, bs)
        | none => (e.1, e.2.1, .fault, [])
    else (e.1, e.2.1, e.2.2, [])

/-- shf_read (shf.c:427-461); `acc` is what has been copied.  `fuel` bounds the number of rounds,
each of which copies a byte at least; the first call passes the size of the buffer.  A partial
result is answered as success. -/
def readN : Nat → Nat → Bytes → Shf → W → Shf × W × St × Bytes
  | 0, _, acc, s, w => (s, w, .ok, acc)
  | fuel + 1, n, acc, s, w =>
    if n = 0 then (s, w, .ok, acc)
    else
      let e := need s w
      if e.2.2 = .eof ∨ (e.2.2 = .ok ∧ e.1.rnleft = 0) then
        (e.1, e.2.1, (if acc = [] ∧ e.1.err then .eof else .ok), acc)
      else if e.2.2 = .ok then
        match take e.1 (min e.1.rnleft n) with
        | some (bs, s') =>
          if 0 ∈ bs then (e.1, e.2.1, .abort, acc) else readN fuel (n - bs.length) (acc ++ bs) s' e.2.1
        | none => (e.1, e.2.1, .fault, acc)
      else (e.1, e.2.1, e.2.2, acc)

/-- `ncopy` of shf_getse (shf.c:488-491): up to and with the first newline -/
def lineLen : Bytes → Nat
  | [] => 0
  | c :: bs => if c = 0x0a then 1 else lineLen bs + 1

/-- The loop of shf_getse (shf.c:479-504), `n` is `bsize` after the decrement; the result is in
`acc`.  `NULL` with bytes in the buffer is `eof` with these bytes. -/
def getseLoop : Nat → Nat → Bytes → Shf → W → Shf × W × St × Bytes
  | 0, _, acc, s, w => (s, w, .ok, acc)
  | fuel + 1, n, acc, s, w =>
    let e := need s w
    if e.2.2 = .ok then
      if e.1.rnleft = 0 then (e.1, e.2.1, (if acc = [] then .eof else .ok), acc)
      else
        let avail := (e.1.buf.drop e.1.rp).take e.1.rnleft
        match take e.1 (min (lineLen avail) n) with
        | some (bs, s') =>
          if 0 ∈ bs then (e.1, e.2.1, .abort, acc)
          else if 0x0a ∈ avail ∨ n = bs.length then (s', e.2.1, .ok, acc ++ bs)
          else getseLoop fuel (n - bs.length) (acc ++ bs) s' e.2.1
        | none => (e.1, e.2.1, .fault, acc)
    else (e.1, e.2.1, e.2.2, acc)

/-- shf_getse (shf.c:467-507) -/
def getse (bsize : Nat) (s : Shf) (w : W) : Shf × W × St × Bytes :=
  if s.wr then (s, w, .abort, [])
  else if bsize = 0 then (s, w, .eof, [])
  else getseLoop bsize (bsize - 1) [] s w

/-- shf_ungetc (shf.c:527-559) for a file -/
def ungetc (c : Byte) (s : Shf) (w : W) : Shf × W × St :=
  if s.wr then (s, w, .abort)
  else if s.err ∨ (s.rp = 0 ∧ s.rnleft ≠ 0) then (s, w, .eof)
  else
    let rp := if s.rp = 0 then s.rbsize else s.rp
    if rp = 0 ∨ s.buf.length < rp then (s, w, .fault)
    else if s.str then
      if s.buf[rp - 1]? = some c then
        ({ s with eof := false, rp := rp - 1, rnleft := s.rnleft + 1 }, w, .ok)
      else ({ s with rp := rp }, w, .eof)
    else
      ({ s with eof := false, rp := rp - 1, rnleft := s.rnleft + 1, buf := s.buf.set (rp - 1) c }, w, .ok)

end Ksh.Shf
