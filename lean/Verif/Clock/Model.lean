/-!
# The times that `time` and `times` print

`p_tv`, `p_ts` (c_sh.c:682-705) and the sums and differences `timex` forms of times (c_sh.c:763-776).
The formatted output of a number (`%*lld`, `%02lld`) is modelled by its digits with blanks or zeros before them;
times are not negative where they are printed.  When `timex` prints what is in `Time`.
-/
namespace Ksh.Clock

/-- `struct timeval` (with `U` = 10^6 fractions in a second) or `struct timespec` (`U` = 10^9) -/
structure T where
  sec : Int
  frac : Int
  deriving DecidableEq, Repr

/-- The macros `timersub` and `timespecsub` of sys/time.h as used in c_sh.c:768,770,775: borrow a second if the
fraction is negative. -/
def sub (U : Int) (a b : T) : T :=
  if a.frac - b.frac < 0 then ⟨a.sec - b.sec - 1, a.frac - b.frac + U⟩ else ⟨a.sec - b.sec, a.frac - b.frac⟩

/-- The macro `timeradd`, c_sh.c:765-766,769,771: carry a second. -/
def add (U : Int) (a b : T) : T :=
  if a.frac + b.frac ≥ U then ⟨a.sec + b.sec + 1, a.frac + b.frac - U⟩ else ⟨a.sec + b.sec, a.frac + b.frac⟩

/-- `TIMEVAL_TO_TIMESPEC`, c_sh.c:688 -/
def toTs (a : T) : T := ⟨a.sec, a.frac * 1000⟩

def digit (n : Nat) : Char := Char.ofNat (48 + n)

/-- The digits of a number, `%lld`. -/
def dec (n : Nat) : List Char :=
  if n < 10 then [digit n] else dec (n / 10) ++ [digit (n % 10)]
termination_by n
decreasing_by omega

/-- Filled up on the left to `width`. -/
def pad (c : Char) (width : Nat) (s : List Char) : List Char := List.replicate (width - s.length) c ++ s

/-- `p_ts` without prefix and suffix, c_sh.c:692-705 -/
def pTs (posix : Bool) (width : Nat) (t : T) : List Char :=
  let s := t.sec.toNat
  let c := (t.frac / 10000000).toNat
  if posix then pad ' ' width (dec s) ++ '.' :: pad '0' 2 (dec c)
  else pad ' ' width (dec (s / 60)) ++ 'm' :: (pad '0' 2 (dec (s % 60)) ++ '.' :: (pad '0' 2 (dec c) ++ ['s']))

/-- `p_tv`, c_sh.c:682-690 -/
def pTv (posix : Bool) (width : Nat) (t : T) : List Char := pTs posix width (toTs t)

end Ksh.Clock
