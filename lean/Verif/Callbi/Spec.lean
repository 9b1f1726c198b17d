import Verif.Callbi.Model

/-!
# Calls of built-in commands: what is owed to each operand

No flags, no signal masks, no buffers.
-/
namespace Ksh.Callbi

/-- What an operand leads to: texts on standard output, messages, effects, a status. -/
structure Owed where
  out : List String := []
  errs : List String := []
  effs : List Eff := []
  rv : Int := 0
  deriving DecidableEq, Repr

/-- `jobs x`: the line of the job; a job that has ended is forgotten once it was shown. -/
def owedJobs (w : World) (h : List Eff) (x : String) : Owed :=
  match w.look h x with
  | .error m => { errs := [x ++ ": " ++ m.1], rv := 1 }
  | .ok j =>
    if w.shown h j then { out := [w.line h j], effs := if w.ended h j then [.gone j] else [] } else {}

/-- `bg x`: the job is announced and continued. -/
def owedBg (w : World) (h : List Eff) (x : String) : Owed :=
  match w.look h x with
  | .error m => { errs := [x ++ ": " ++ m.1], rv := 1 }
  | .ok j =>
    if j.ctl = false then { errs := ["job not job-controlled"], rv := 1 }
    else
      let o := ("[" ++ toString j.num ++ "] ") :: j.cmds ++ ["\n"]
      if j.active then
        if w.contOk h j then { out := o, effs := [.async j, .cont j] }
        else { out := o, effs := [.async j], errs := ["cannot continue job " ++ x], rv := 1 }
      else { out := o, effs := [.async j] }

/-- `fg x`: the job is announced, gets the terminal, is continued and waited for. -/
def owedFg (w : World) (h : List Eff) (x : String) : Owed :=
  match w.look h x with
  | .error m => { errs := [x ++ ": " ++ m.1], rv := 1 }
  | .ok j =>
    if j.ctl = false then { errs := ["job not job-controlled"], rv := 1 }
    else
      let o := j.cmds ++ ["\n"]
      if j.active then
        if w.tcOk h j = false then { out := o, errs := ["1st tcsetpgrp failed"], rv := 1 }
        else if w.contOk h j then { out := o, effs := [.tty j, .cont j, .waited j], rv := w.rv h j }
        else { out := o, effs := [.tty j], errs := ["cannot continue job " ++ x], rv := 1 }
      else { out := o, effs := [.waited j], rv := w.rv h j }

/-- `kill x`: the signal is sent, or there is a message. -/
def owedKill (w : World) (h : List Eff) (x : String) : Owed :=
  if x.startsWith "%" then
    match w.look h x with
    | .error m => { errs := [x ++ ": " ++ m.1], rv := 1 }
    | .ok _ =>
      match w.killErr h x with
      | none => { effs := [.sent x] }
      | some e => { errs := [x ++ ": " ++ e], rv := 1 }
  else if w.num x then
    match w.killErr h x with
    | none => { effs := [.sent x] }
    | some e => { errs := [x ++ ": " ++ e], rv := 1 }
  else { errs := [x ++ ": arguments must be jobs or process IDs"], rv := 1 }

/-- `wait x`: the job is waited for; a job that is not known gives 127, silently if there is none such. -/
def owedWait (w : World) (h : List Eff) (x : String) : Owed :=
  match w.look h x with
  | .error m => { errs := if m.2 then [] else [x ++ ": " ++ m.1], rv := -1 }
  | .ok j => if w.mine h j then { effs := [.waited j], rv := w.rv h j } else { rv := -1 }

/-- `bind x`: a binding is shown, removed or made. -/
def owedBind (w : World) (h : List Eff) (x : String × Option String) : Owed :=
  if w.xtty = false then { errs := ["cannot bind, not a tty"], rv := 1 }
  else
    match x.2 with
    | none => { out := [w.binding h x.1] }
    | some f =>
      if f = "" then { effs := [.unbind x.1] }
      else if w.isFn f then { effs := [.bind x.1 f] }
      else { errs := [f ++ ": no such function"], rv := 1 }

/-- Every operand gets what it is owed, in order. -/
def owedAll {Op : Type} (f : List Eff → Op → Owed) : List Op → List Eff → List Owed
  | [], _ => []
  | x :: l, h => f h x :: owedAll f l (h ++ (f h x).effs)

/-- 1 if one of the operands failed. -/
def anyRv (l : List Owed) : Int := if l.any (fun o => o.rv ≠ 0) then 1 else 0

/-- The status of the last operand. -/
def lastRv (l : List Owed) : Int := (l.getLast?.map Owed.rv).getD 0

def owedCall (w : World) (c : Call) (h : List Eff) : List Owed :=
  match c with
  | .jobs l => owedAll (owedJobs w) l h
  | .fg l => owedAll (owedFg w) l h
  | .bg l => owedAll (owedBg w) l h
  | .kill l => owedAll (owedKill w) l h
  | .wait l => owedAll (owedWait w) l h
  | .bind l => owedAll (owedBind w) l h

/-- The status of the call (`bg` succeeds, whatever happens: c_ksh.c:1116-1119). -/
def owedStatus (posix : Bool) (c : Call) (l : List Owed) : Int :=
  match c with
  | .jobs _ | .kill _ | .bind _ => anyRv l
  | .bg _ => 0
  | .fg _ => if posix then 0 else lastRv l
  | .wait _ => if lastRv l < 0 then 127 else lastRv l

/-- The state after a call that did all it owed: the output is written, every message carries the name of
the built-in, and the signal mask is what it was. -/
structure Did (c : Call) (l : List Owed) (s s' : St) : Prop where
  out : s'.out = s.out ++ l.flatMap Owed.out
  errs : s'.errs = s.errs ++ (l.flatMap Owed.errs).map (fun m => (some c.name, m))
  effs : s'.effs = s.effs ++ l.flatMap Owed.effs
  mask : s'.blocked = s.blocked

/-- The special built-ins of POSIX (2.14), and no others. -/
def posixSpecial : List String :=
  [".", ":", "break", "continue", "eval", "exec", "exit", "export", "readonly", "return", "set", "shift",
   "times", "trap", "unset"]

end Ksh.Callbi
