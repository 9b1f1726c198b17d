/-!
# The process group of a pipeline, and whose the terminal is

With job control the shell and each child put the child into the group of the first one (`exchild`,
jobs.c:457-494), both because neither knows who comes first; for the first child of a job in the foreground both
give the terminal to the group.  The handler of SIGCHLD takes no status before the whole job is
started (`j_sigchld`, jobs.c:1153-1163; `j_startjob`, jobs.c:974-989).  When the job has ended the
shell takes the terminal back (`j_waitj`, jobs.c:1033-1054).  A fork that fails: jobs.c:463-468, where
nothing is done with the terminal.

Modelled are the steps of the shell, of each child and of the handler, in any order.  A child is new, then has
called setpgid, has come past tcsetpgrp, and executes its program, which may end, or take the terminal for
itself (as an interactive shell does).  Any child may be killed at any time.

The kernel: setpgid(2) fails for a process that is not the caller and has executed a program, for a group
that has no process and is not the one named after the process, and on some systems (parameter `zok`
false) for a process that has ended; a process that has ended is in its group until its status is taken.
tcsetpgrp(3) fails for a group without processes.  Processes of the job are numbered, the first gives the
group its number.  Left out: stopped processes, jobs of several pipelines at once (they share nothing here but the
terminal), commands of the last stage that the shell runs itself (there are none, exec.c:161-163), subshells
without job control.
-/
namespace Ksh.Pgrp

inductive Grp where
  | shell
  | job
  | other
  deriving DecidableEq, Repr

inductive Life where
  | alive
  | zombie       -- ended, its status not taken
  | gone
  deriving DecidableEq, Repr

/-- How far a child has come in exchild. -/
inductive Ph where
  | new          -- forked
  | grouped      -- after setpgid (jobs.c:483)
  | ready        -- after the place of tcsetpgrp (jobs.c:488-489)
  | runs         -- execute (jobs.c:530)
  deriving DecidableEq, Repr

structure Kid where
  ph : Ph := .new
  life : Life := .alive
  grp : Grp := .shell
  deriving DecidableEq, Repr

/-- Where the shell is in exchild. -/
inductive Sh where
  | fork         -- before the fork
  | group        -- before setpgid
  | tty          -- before the place of tcsetpgrp
  | wait         -- the job is started; jobs.c:552-567
  | failed       -- fork failed: errorf, back at the prompt
  | back         -- after j_waitj
  deriving DecidableEq, Repr

structure St where
  kids : Nat → Kid := fun _ => {}
  m : Nat := 0                  -- children so far
  sh : Sh := .fork
  tty : Grp := .shell

/-- JF_STARTED. -/
def St.started (s : St) : Bool := s.sh = .wait || s.sh = .back

def setKid (s : St) (i : Nat) (k : Kid) : St := { s with kids := fun j => if j = i then k else s.kids j }

/-- The group of the job has a process. -/
def Exists (s : St) : Prop := ∃ i, i < s.m ∧ (s.kids i).grp = .job ∧ (s.kids i).life ≠ .gone

/-- What setpgid does for child `i`, called by itself or by the shell. -/
inductive Setpgid (zok : Bool) (s : St) (i : Nat) (self : Bool) : St → Prop where
  | done : ((s.kids i).life = .alive ∨ ((s.kids i).life = .zombie ∧ zok = true)) →
      (self = true ∨ (s.kids i).ph ≠ .runs) → (i = 0 ∨ Exists s) →
      Setpgid zok s i self (setKid s i { s.kids i with grp := .job })
  | ended : (s.kids i).life ≠ .alive → ((s.kids i).life = .gone ∨ zok = false) → Setpgid zok s i self s
  | executed : self = false → (s.kids i).ph = .runs → Setpgid zok s i self s
  | nogroup : i ≠ 0 → ¬ Exists s → Setpgid zok s i self s

/-- tcsetpgrp to the group of the job. -/
inductive Tcset (s : St) : St → Prop where
  | done : Exists s → Tcset s { s with tty := .job }
  | nogroup : ¬ Exists s → Tcset s s

/-- Steps, of a job of `n` processes; `fg` for the foreground. -/
inductive Act where
  | fork | forkFails | shSet | shTty | kidSet (i : Nat) | kidTty (i : Nat) | exec (i : Nat)
  | ends (i : Nat) | killed (i : Nat) | reap (i : Nat) | take (i : Nat) | waited
  deriving DecidableEq

inductive Step (zok : Bool) (n : Nat) (fg : Bool) : St → Act → St → Prop where
  | fork {s} : s.sh = .fork → s.m < n →
      Step zok n fg s .fork { setKid s s.m {} with m := s.m + 1, sh := .group }
  | forkFails {s} : s.sh = .fork → s.m < n → Step zok n fg s .forkFails { s with sh := .failed }
  -- jobs.c:486 in the shell
  | shSet {s t} : s.sh = .group → Setpgid zok s (s.m - 1) false t → Step zok n fg s .shSet { t with sh := .tty }
  -- jobs.c:492-493 in the shell, for the first (dotty) only; then the next, or j_startjob
  | shTty {s t} : s.sh = .tty → (if fg = true ∧ s.m = 1 then Tcset s t else t = s) →
      Step zok n fg s .shTty { t with sh := if s.m = n then .wait else .fork }
  | kidSet {s t i} : i < s.m → (s.kids i).life = .alive → (s.kids i).ph = .new → Setpgid zok s i true t →
      Step zok n fg s (.kidSet i) (setKid t i { t.kids i with ph := .grouped })
  | kidTty {s t i} : i < s.m → (s.kids i).life = .alive → (s.kids i).ph = .grouped →
      (if fg = true ∧ i = 0 then Tcset s t else t = s) →
      Step zok n fg s (.kidTty i) (setKid t i { t.kids i with ph := .ready })
  | exec {s i} : i < s.m → (s.kids i).life = .alive → (s.kids i).ph = .ready →
      Step zok n fg s (.exec i) (setKid s i { s.kids i with ph := .runs })
  | ends {s i} : i < s.m → (s.kids i).life = .alive → (s.kids i).ph ≠ .new →
      Step zok n fg s (.ends i) (setKid s i { s.kids i with life := .zombie })
  | killed {s i} : i < s.m → (s.kids i).life = .alive → (s.kids i).ph = .new →
      Step zok n fg s (.killed i) (setKid s i { s.kids i with life := .zombie })
  -- j_sigchld: not before the job is started
  | reap {s i} : i < s.m → (s.kids i).life = .zombie → s.started = true →
      Step zok n fg s (.reap i) (setKid s i { s.kids i with life := .gone })
  | take {s i} : i < s.m → (s.kids i).life = .alive → (s.kids i).ph = .runs →
      Step zok n fg s (.take i) { s with tty := .other }
  -- j_waitj: all have ended
  | waited {s} : s.sh = .wait → (∀ i, i < s.m → (s.kids i).life = .gone) →
      Step zok n fg s .waited { s with sh := .back, tty := if fg then .shell else s.tty }

inductive Run (zok : Bool) (n : Nat) (fg : Bool) : St → List Act → St → Prop where
  | nil {s} : Run zok n fg s [] s
  | cons {s t u a as} : Step zok n fg s a t → Run zok n fg t as u → Run zok n fg s (a :: as) u

end Ksh.Pgrp
