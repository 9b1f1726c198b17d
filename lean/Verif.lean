import Verif.Table.Props
import Verif.Path.Props
import Verif.Num.Fmt
import Verif.Expr.Props
import Verif.Expr.Reject
import Verif.Glob.Props
import Verif.Alloc.Props
import Verif.Ifs.Props
import Verif.Lex.Props
import Verif.Lex.Reread
import Verif.Brace.Props
import Verif.Getopt.Props
import Verif.Test.Props
import Verif.Vars.Scopes
import Verif.Print.Props
import Verif.Sh.Shift
import Verif.Sh.UmaskProps
import Verif.Sh.Read
import Verif.Exec.Errexit
import Verif.Redir.Props
import Verif.Findcom.Props
import Verif.Jobs.Names
import Verif.Trap.Action
import Verif.Trap.Sig
import Verif.History.Find
import Verif.Shf.In
import Verif.Shf.Format
import Verif.Options.Props
import Verif.Restricted.Props
import Verif.Tree.Free
import Verif.Alias.Props
import Verif.Edit.Comment
import Verif.Edit.Complete
import Verif.Ulimit.Props
import Verif.Mail.Props
import Verif.Syn.Props
import Verif.Syn.Reprints
import Verif.Time.Props
import Verif.Func.Props
import Verif.Cd.Props
import Verif.Subst.Props
import Verif.Fname.Props
import Verif.Here.Props
import Verif.Emacs.Props
import Verif.Vi.Props
import Verif.Keys.Props
import Verif.Prompt.Props
import Verif.Menu.Props
import Verif.Tilde.Props
import Verif.Getopts.Props
import Verif.Signal.Props
import Verif.Line.Props
import Verif.Line.Join
import Verif.Findcom.Whence
import Verif.History.Fc
import Verif.Typeset.Props
import Verif.Alias.Cmd
import Verif.Special.Props
import Verif.Compl.Locate
import Verif.Compl.Escape
import Verif.Compl.Quiet
import Verif.Compl.Words
import Verif.Compl.Order
import Verif.Compl.Star
import Verif.Jobs.Wait
import Verif.Leave.Model
import Verif.Leave.Props
import Verif.Coproc.Model
import Verif.Coproc.Props
import Verif.Start.Model
import Verif.Start.Props
import Verif.Newmail.Model
import Verif.Newmail.Props
import Verif.Temps.Model
import Verif.Temps.Props
import Verif.Names.Model
import Verif.Names.Props
import Verif.Substat.Model
import Verif.Substat.Props
import Verif.Hangup.Model
import Verif.Hangup.Props
import Verif.Tmout.Model
import Verif.Tmout.Props
import Verif.Joblist.Model
import Verif.Joblist.Props
import Verif.Ttymode.Model
import Verif.Ttymode.Props
import Verif.Dynvar.Model
import Verif.Dynvar.Props
import Verif.Arr.Model
import Verif.Arr.Props
import Verif.Pipes.Model
import Verif.Pipes.Props
import Verif.Clobber.Model
import Verif.Clobber.Props
import Verif.Counts.Model
import Verif.Counts.Props
import Verif.Notify.Model
import Verif.Notify.Props
import Verif.Exprmem.Model
import Verif.Exprmem.Props
import Verif.Varmem.Model
import Verif.Varmem.Props
import Verif.Vicount.Model
import Verif.Vicount.Props
import Verif.Param.Model
import Verif.Param.Spec
import Verif.Param.Props
import Verif.Callbi.Model
import Verif.Callbi.Spec
import Verif.Callbi.Props
import Verif.Varsub.Model
import Verif.Varsub.Spec
import Verif.Varsub.Props
import Verif.Lifetime.Model
import Verif.Lifetime.Spec
import Verif.Lifetime.Props
import Verif.Lexnest.Model
import Verif.Lexnest.Spec
import Verif.Lexnest.Props
import Verif.Pgrp.Model
import Verif.Pgrp.Props
import Verif.Ours.Model
import Verif.Ours.Props
import Verif.Trapread.Model
import Verif.Trapread.Props
import Verif.Alias.Safe
import Verif.Own.Props
import Verif.Fdname.Props
import Verif.Lexbuf.Props
import Verif.Lexbuf.Link
import Verif.Access.Props
import Verif.Clock.Props
import Verif.Histctl.Props
