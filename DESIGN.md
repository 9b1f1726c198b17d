# Formal model of ksh-openbsd: design

Properties are listed in `properties.jsonl` (one JSON object per line).  The
Lean 4 model lives in `lean/Verif/`, one directory per topic:

* `Verif/<Topic>/Model.lean`  – transcription of the C functions; every
  definition cites the file and lines it models and says what was simplified;
* `Verif/<Topic>/Lemmas.lean` – helper lemmas (where needed);
* `Verif/<Topic>/Props.lean`  – the independent specification, the property
  theorems, non-vacuity `example`s and `#print axioms`-clean statements.

`MANIFEST.json` maps properties to theorem names; `seeded/LOG.jsonl` records the
mutation tests of the theorems.

## Conventions

* A C string is a `List Char` (or list of bytes); the NUL terminator is the end
  of the list.  Reading the terminator is `[]`; reading past it is modelled as a
  distinct `oob`/`ub` outcome where the code can reach it.
* `int64_t` is `Int` restricted by explicit wrap functions or `BitVec 64` with
  the two's complement reading; C undefined behaviour (shift by a negative or
  too large count, signed overflow) is either a distinct outcome or excluded by
  an explicit hypothesis and said so.
* System calls (`write`, `read`, `open`, `dup`, `access`, `stat`, child status
  changes, signals) are parameters of the model (oracles): theorems quantify
  over all of their behaviours.
* Functions that recurse on C pointers become structural recursion on lists;
  where the C code loops on something else, fuel is used and a theorem shows
  that enough fuel always exists (so fuel is not a hidden bound).

## Trusted base

* Lean 4.33.0 kernel; axioms used are at most `propext`, `Classical.choice`,
  `Quot.sound` (checked with `#print axioms`, listed at the end of this file).
* The transcription from C to Lean is by hand.  Each definition cites the lines
  it models so it can be reviewed side by side.
* `libbsd`/libc functions that are not in the repository (`strunvis`, `qsort`,
  `strcmp`, `isalpha`, …) are modelled by their documented behaviour in the C
  locale.

## Plan per property

| id | what is modelled | how it is proved |
|----|------------------|------------------|
| C01 | `hash`, `texpand`, `ktsearch`, `ktenter`, `ktdelete` on an open-addressing slot array | probe-chain invariant, induction over operation histories, refinement to a finite map |
| C02 | `ktnext` walk, `ktsort` (qsort by spec) | permutation and sortedness of the listing from the C01 invariant |
| C03 | area list, alloc/aresize/afree/afreeall, overflow checks | heap-ledger invariant over operation sequences |
| C04 | `simplify_path` character loop | loop proved equal to a component-stack specification |
| C05 | `make_path`, CDPATH loop in `c_cd` | equality with splitting spec |
| C06 | `str_val` rendering, `getint` | round trip by induction on digits |
| C07 | `getn` | characterisation by an independent numeral grammar |
| C08 | `formatstr` | length and content theorems |
| C09 | `token`, `evalexpr` | printed expression trees evaluate to their denotation |
| C10 | `evalexpr` with `noassign` | state unchanged, by induction on fuel |
| C11 | division arms | case analysis over all operands |
| C12 | `do_ppmm` with the `int` temporary | proved inside the int range; violation outside proved by witness |
| C13 | variable operations with RDONLY | invariant over operation histories |
| C14 | `do_gmatch`, `pat_scan` over encoded patterns | soundness and completeness against denotational languages |
| C15 | `cclass`, `posix_cclass` | equality with set semantics |
| C16 | `has_globbing` | no-glob words match only themselves |
| C17 | `trimsub` | extremality over all splits |
| C18 | IFS state machine of `expand` | equality with a field-splitting spec |
| C19 | `print_value_quoted`, single-quote/backslash lexing | round trip |
| C20 | `alt_expand` | equality with a tree semantics |
| C21 | newline counting in `expand` | equality with strip-trailing-newlines, all chunkings |
| C22 | `ksh_getopt` | refinement to list-level option grammar |
| C23, C24 | `test_*` parser | equality with POSIX tables / grammar |
| C25 | `c_print` escape decoding | equality with decoding spec |
| C26 | `c_read` loop | consumption exactness and field spec |
| C27 | `c_shift` with int truncation | proved for int range, violation witness |
| C28 | `c_umask` | round trip, class isolation; OOB witness |
| C29–C31 | `execute` on a command-tree AST with oracle commands | big-step semantics, induction on trees |
| C32 | `iosetup`/`savefd`/`restfd`/`quitenv` over an fd table | restoration invariant |
| C33, C34 | scope stack, `global`/`local`/`makenv` | invariants over histories |
| C35 | `findcom`, `search` | decision-table theorem, first-match theorem |
| C36, C37 | `check_job`, `j_waitj`, `new_job`, `remove_job` | event-order independence, uniqueness invariant |
| C38, C39 | `trapsig`, `runtraps`, `settrap`, `setsig` | invariants over interleavings |
| C40 | `histsave`, `sethistsize` | ring = last n of log |
| C41 | `vis`, `strvis` and spec of `unvis` | round trip, line safety |
| C42 | `hist_replace` | equality with replace spec |
| C43–C46 | `shf_*` buffers | stream refinement under write/read oracles |
| C47 | `change_flag`, `getoptions` | invariant over histories |
| C48, C49 | `tcopy`/`wdcopy`, `tputS` | structural induction, re-lexing round trip |
| C50 | alias pushing in `yylex` | termination measure |
| C51, C52 | `x_do_comment`, `x_longest_prefix`, `x_basename` | involution / maximality |
| C53 | restricted-mode guards | invariant over builtin sequences |
| C54 | `set_ulimit`/`print_ulimit` | round trip, wrap witness |
| C55 | `mpset` | equality with splitting spec |

## Disagreements between code and property found while modelling

(recorded here with the theorem that proves each one as they are formalised)

- C06: `str_val` and `getint` negate the most negative value (`Ksh.Num.int_min_overflows`).
- C07: `getn` rejects `2147483647` and `-2147483648` (`Ksh.Num.getn_rejects_extremes`).
- C46: a precision on `%d` counts the sign and overrides the field width, unlike C
  (`Ksh.Num.fmtD_precision_counts_sign`).
- C56: `getint` accepts `4294967298#1` (base truncated to 32 bits), `1-2`, `--5`
  and the empty string (`Ksh.Num.non_numerals_accepted`).
- C09: `x + ++ /` is accepted and increments `x`, because a prefix `++` uses the
  operand of the last token that had one (`Ksh.Expr.ungrammatical_accepted`).
- C10: `0 && x++`, `0 ? x = 7 : 3` modify `x`: the first token of the skipped operand
  is read before `noassign` is set (`Ksh.Expr.skipped_operand_modifies`).
- C12: the old value goes through an `int` (`Ksh.Expr.postfix_truncates`).
- C14: `[[:alpha:][]` is taken for an unclosed bracket by `has_globbing`, so it matches
  only itself (`Ksh.Glob.class_then_bracket`).
- C15: a bell character (`MAGIC`) first in a bracket expression is not matched
  (`Ksh.Glob.bell_first_in_bracket`); `[:blank:]` is unknown (`Ksh.Glob.blank_class_missing`).
- C16: `*(a` is a pattern for `has_globbing`'s caller but malformed for the matcher
  (`Ksh.Glob.malformed_group_disagrees`).
- C18: a value that is a single non-white-space delimiter gives no field
  (`Ksh.Ifs.lone_delimiter`); `$x$y` with `x=a:` and `y=b`, and `a$x` with `x=:b`, give an
  extra empty field (`Ksh.Ifs.adjacent_expansions`, `Ksh.Ifs.text_before_delimiter`);
  command output beginning with a delimiter loses the empty first field
  (`Ksh.Ifs.substitution_begins_with_delimiter`).
- C57: `x="$@"` under a null IFS makes several words of which the assignment keeps the
  first (`Ksh.Ifs.assigned_at_null_ifs`).
- C19: the empty value is printed as nothing (`Ksh.Lex.empty_value_not_quoted`), `~` and
  `{a,b}` are printed unquoted (`Ksh.Lex.tilde_not_quoted`, `Ksh.Lex.brace_not_quoted`).
- C49: a quoted backslash inside double quotes is printed as a single one
  (`Ksh.Lex.backslash_in_quotes`), control characters as `^J`
  (`Ksh.Lex.newline_in_quotes`), and backquotes become `$(..)` whose text may then end
  early (`Ksh.Lex.backquote_with_paren`).
- C23: `test -n =` and `test \( -f \)` are refused with status 2 where POSIX gives 0
  (`Ksh.Test.unary_before_operator`, `Ksh.Test.operator_in_parentheses`); exactly such
  vectors are refused (`Ksh.Test.unclear_is_refused`).
- C13: `getopts` clears the read-only flag of `OPTARG` (`Ksh.Vars.getopts_overrides_readonly`),
  and the shell stores into read-only integer special variables
  (`Ksh.Vars.resize_overrides_readonly`).
- C33: `unset x` in a function removes the local variable, after which `x` is the outer one
  (`Ksh.Vars.unset_local_reveals`).
- C34: an exported variable hidden by a local one that is not exported is still passed to
  commands (`Ksh.Vars.hidden_still_exported`).
- C58: `x=abc; typeset -i x=1/0` fails and leaves `x` an integer variable whose value is the
  address of the old string (`Ksh.Vars.failed_typeset_leaks`).
- C26: with `IFS=" :"`, `read x y` on `a : b` sets `y` to `: b`
  (`Ksh.Read.separator_not_merged`); an escaped trailing blank is stripped
  (`Ksh.Read.escaped_blank_stripped`); an assignment that fails leaves the rest of the line
  for the next `read` (`Ksh.Read.failing_assignment_stops`).
- C27: `shift 4294967297` shifts by one (`Ksh.Sh.shift_wraps`).
- C28: `umask u` reads behind the end of its operand (`Ksh.Umask.reads_out_of_bounds`).
- C30: `*xerrok` is set by a tested part and never cleared within the same tree, so under
  `set -e` a failing last command of `a && b || c` or of `! a && c` does not end the shell
  (`Ksh.Exec.exemption_leaks_list`, `exemption_leaks_bang`), nor a failing command in a later
  round of a loop whose earlier round held such a list (`exemption_leaks_loop`). A dot script in
  a condition does end it (`dot_in_condition`). `eval` turns errexit off while it runs
  (`eval_ignores`), and a `return` inside leaves it off (`eval_loses_errexit`).
- C32: when `savefd` fails ("too many files open in shell") the file just opened is never closed
  (`Ksh.Redir.open_file_leaks`); `{ ulimit -n 5; } 7>x` leaves 7 redirected
  (`lowered_limit_keeps_redirection`); `savefd[]` holds shorts (`wide_descriptor_lost`).
- C35: with a relative directory in PATH, `cd` forgets only tracked aliases that are relative, so
  a command in the new directory is not found (`Ksh.Findcom.stale_after_cd`); the same for a file
  that appears in an earlier directory (`stale_after_change`). `command exec f` runs the function
  `f` (`command_exec_function`). With FPATH set a file that cannot be executed is reported as not
  found, status 127 instead of 126 (`fpath_hides_error`).
- C36 (jobs.c:1174-1179). j_sigchld looks a reported pid up over all jobs and takes the first
  process with that pid, also one that has already ended. A process that ended inside a job that
  is otherwise stopped keeps its pid in the table; when the system gives the pid to a new
  process, the new process's end is booked on the old job and the new job never ends
  (`pid_reuse_hangs`). `pipeline_status_partial` assumes `Fresh`: a new pid is not in the table.
- C37. `%+` and `%-` are the first and second record of the list, which may be a zombie: a job
  whose end nobody has asked for, that `jobs` does not list and whose number is -1
  (`plus_unlisted`).
- C59 (jobs.c:1484-1496). `%?string` goes through the processes of all jobs without leaving the
  inner loop at the first match, so one pipeline with two commands that contain the string is
  reported as ambiguous (`one_job_ambiguous`).
- C60 (jobs.c:939-969). j_set_async removes the previous async job if it is an ended one nobody
  knows of. With `set -m; a & set +m`, `a` ended, `set -m; bg %` this is the very job that is then
  stored as async_job: the pointer refers to a record on the free list, and the next background
  job removes it again (`bg_of_ended_job`).
- C61 (exec.c:139-165, jobs.c:1144-1160). In a pipeline, openpipe and savefd leave by errorf when
  no descriptor is available. The job made for the first commands then stays unstarted, and
  j_sigchld returns at once while any job is unstarted (held_sigchld is replayed only by
  j_startjob): the ends of all later children stay unread and the next foreground command waits
  for ever (`abandoned_pipeline_hangs`).
- C38 (trap.c:206-224). runtraps sets `trap = 0` before it goes through the signals. When an action
  executes `return` (or is left by an interrupt in an interactive shell), the signals after it keep
  their `set` flag, but `trap` is 0, so they are looked at only after another signal has come
  (`return_forgets`). runtrap takes the action of ERR and EXIT away while it runs (trap.c:243-252);
  after `return` in it the trap is gone (`return_loses_err`).
- C39 (jobs.c:300-391, 500-536; trap.c:60). `set -m` in a script gives SIGTSTP, SIGTTIN and SIGTTOU
  their default action in children although they were ignored on entry (`monitor_unignores`).
  SIGCHLD is always caught, and settrap stores the action of a `trap` command for it even if it was
  ignored on entry; the action is run (`chld_trap_runs`).
- C62 (exec.c:681-688, jobs.c:538, trap.c:262-278). comexec resets the disposition of SIGINT and
  SIGQUIT to the original one whenever it executes without a fork and XBGND is not set; exchild does
  not pass XBGND on. So `trap '' INT; (cmd)` and the members of a pipeline lose the ignoring
  (`subshell_unignores`), and `cmd &` does not ignore SIGINT and SIGQUIT at all
  (`background_not_ignored`). With `trap x INT; { cmd; } &` cleartraps undoes the ignoring
  (`background_action`).
- C40 (history.c:661-681, lex.c:1157-1160). A line that HISTCONTROL makes histsave ignore is still
  counted in `source->line`, so the numbers of all older entries grow by one (`ignored_shifts`).
  `print -s` and `read -s` count in `source`, which is not `hist_source` in a dot script or `eval`:
  the numbers of the older entries become smaller (`dot_shifts`). history_load sets the count to
  the number of lines in the file even if there are entries already (HISTFILE set later in the
  session): older entries get negative numbers, which `fc` takes as offsets (`file_negative`).
- C40 (history.c:443-454). hist_execute calls histbackup to take the `fc` command away, also if
  HISTCONTROL made histsave ignore it: with `ignorespace`, ` fc -s` executes the command before the
  last one and removes the last one from the history (`ignored_fc_loses`).
- C41 (history.c:670-671). histsave cuts its argument at the last newline. history_load passes it
  decoded lines without a trailing newline, so a command with embedded newlines loses its last
  line when the file is read (`load_loses_line`). The same happens with `print -sn`.
- C63 (history.c:566-585). sethistsize frees and moves the entries before it calls reallocarray; if
  that fails, `histptr` still counts the freed entries (`shrink_fails`).
- C66 (history.c:419-431, 503-504). hist_get passes `histptr - history - 1` as the start of the
  search to skip the `fc` command; if that is the only entry the start is -1, which findhist takes
  as "from the end", so it finds the `fc` command itself (`finds_itself`).
- C44 (shf.c:479-486, lex.c:1112-1120). shf_getse answers NULL when a read fails or is interrupted
  in the middle of a line, although bytes of the line have been taken; the lexer clears the error
  and reads again at the same place, so these bytes are lost (`getse_loses`). A byte put back after
  a flush is not counted by the next flush (`unget_after_flush`); the shell never does that.
- C45 (shf.c:645-684). shf_write to a growing string doubles the buffer once and then copies without
  a check (`dynamic_write_overruns`); to a full fixed string it writes to descriptor -1
  (`fixed_write_drops`). No caller in the shell does the former.
- C67 (shf.c:936-981). With a precision a number is not printed as by printf(3): the sign counts as
  a digit and the precision replaces the width; `%#x` of 0 prints `0x0` (`precision_differs`). The
  least `long long` is negated (shf.c:887), which is undefined (`least_undefined`).
- C68 (misc.c:239-245, 402-403, 316-318). The listing of `set +o` names braceexpand before posix, and
  turning posix on turns braceexpand off; so when both were on and posix has been turned off since,
  executing the listing leaves braceexpand off (`brace_not_restored`).
- C53, restricted shell: `typeset` compares the whole name with `PATH`, `ENV` and `SHELL`
  (var.c:652-653), the subscript included.  In a function `typeset PATH[0]=/tmp` passes, makes a local
  variable that is not read-only, and sets the search path: programs of the user's choice run.
  Proved: `Ksh.Restricted.escape`.  All the rest of the property is proved for every sequence of
  commands.
- C53: `readonly PATH` (or `ENV`, `SHELL`) in a profile makes the `typeset -r` of main.c:436-443 fail,
  and the shell exits instead of starting restricted (`readonly_profile`, `start_isSome`).
- C50: `getsc__` drops an alias from the source stack when its text is followed by the end of the input
  (lex.c:1036-1041), so `yylex` does not see it when it looks for a recursive alias (lex.c:836-838):
  with `alias a=a`, `$(a)` (and any input ending in `a` without a newline) loops for ever
  (`eof_loop`).
- C50: the text of an alias counts as ending in a blank for every `isspace` character, but CR, VT and FF
  are ordinary characters of a word.  An alias whose name and text are `x` + CR is popped in the middle of
  the word and expanded for ever (`ctrl_loop`).
- C51: the comment command is its own inverse only on lines that do not begin with `#`: `#a` newline `b`
  comes back as `#a` newline `#b` (`comment_not_undone`), and `##a` loses both `#`s
  (`comment_twice_off`).
- C52: edit.c:375 compares an offset in the rest of the word with the length of the common prefix
  (instead of with 0), so candidates of different directories are listed without their common directory,
  depending on its length (`listing_nested`); a candidate that is that directory is listed as an empty
  word (`listing_empty`).
- C52: the comment before `x_basename` promises 2 for `///`; the code answers 1 (`basename_slashes`).
* C54: `ulimit` multiplies without checking: `ulimit -d 18014398509481984` (2^54 kbytes) sets
  a limit of 0 (an `example` in `Ulimit/Props.lean`).  `ulimit 100` is refused for every value
  (`bare_value_refused`), although the usage message announces `[value]` and c_ulimit.c:121-126
  contain code for it; this code is dead.  `ulimit -H` alone displays nothing.  A limit of 2^63
  or more of a resource counted in single units is displayed as a negative number.
* C70 (mail.c:162-174): `munset` frees the path of the first mailbox of the value as if it
  were the copy made by `str_save`.  It is, if the first segment has a path; with
  `MAILPATH=:/x` (or `%msg:/x`) the pointer is one into the middle of the allocation, and
  `afree` takes the bytes before it for its list links (`bad_free`); if no segment has a path
  the copy is lost (`leak`).  `munset_spec` decides all cases.
- C71 (Syn): the grammar the parser accepts is larger than its comments say: `while ( a ) { b; }` is
  a loop although the comment at syn.c:423-427 says that braces cannot be used for `while` loops
  (the condition is closed by `)`, so the `{` behind it is not taken for a part of it); a function
  without a body is accepted with `:` as its body; behind `>f ( ... )` no reserved word is
  recognized, so `if >f (a) then b; fi` is an error while `if (a) then b; fi` is not.
- C72 (Syn/Print): `typeset -f` does not always print the function.  `ptree` walks `t` along the `then`
  nodes of an `if` (tree.c:113) and then prints `t->ioact`, so that the redirections of every `if`
  statement are silently dropped (`if_redirections_lost`).  A here document is printed directly
  behind its command, so that a following `|`, `&&`, `||`, `&` or `|&` stands at the beginning of a
  line, which is a syntax error (`here_before_operator`).  Redirections are printed behind the words,
  so that `>x if` becomes `if > x` (`reserved_comes_first`) and `>x export a=$b` becomes a declaration
  (`becomes_declaration`); with `set -k` the opposite (`ceases_to_declare`).  Names of functions are
  printed without their quotes (`quoted_name_printed_bare`) and names of loop variables of 64 and more
  characters are not kept (`long_variable_lost`).  For all other functions the print is read as the
  same tree (`printed_function_rereads_partial`).  Trusted: the print of a word is read as the word
  (C49) and the text of a here document as the text.
- C73 (Time): `time` saves the string of the timed command with `str_save` (syn.c:371).  The string of
  a `case` command is an encoded word, which contains zero bytes behind the name of every expansion:
  `time case $x in ... esac` leaves a word without an end (`timed_case_lost`), read out of bounds at
  execution.  `timex_hook` sets flags in the tree that nothing clears, so a report in a loop or a
  function has the format of any earlier execution (`report_sticks`).
- C74 (Func): `define` hides the entry of a running function by giving it an empty name, but a
  function can have an empty name (`'' () { ...; }` is accepted by the parser).  `ktenter` then finds
  the hidden entry and `findfunc` clears its flags, `FINUSE` among them; when the table grows the
  entry is released while `comexec` still uses it (`empty_name_released`).  `define` never clears
  `FKSH` of an existing entry: `function f { ...; }; f() { ...; }` leaves a ksh-style function
  (`style_sticks`), so `$0`, `getopts` and assignments before the call behave as for `function f`.
  Modelled: the table of functions with addresses, flags and trees; not modelled: `FPATH`, `TRACE`.
- C75 (`cd` and the current directory, `lean/Verif/Cd`): the shell checks at its start that `$PWD` is
  its directory (by `stat`), and simplifies the name afterwards.  With a `..` after a symbolic link in
  it the name then is that of another directory: with `/t/k -> /u/l`, `PWD=/t/k/.. ksh` run in `/u`
  believes to be in `/t` (`start_wrong`).  After the start the name is right for ever (`wd_right`).
  Trusted: the file system does not change, `chdir` goes where the path leads if it succeeds, `readlink`
  tells the contents of links (contents longer than `PATH_MAX` and permissions are left out), `PWD` and
  `OLDPWD` are ordinary variables.  If the file system does change, `do_phys_path` recurses without
  a bound in a loop of links.
- C76 (`Verif/Subst`): `expand` with operators. (1) After other text `${x=w}` and `${x#p}` put their value with
  `IFS_IWS`, so a value that begins with a blank is joined to the text before it: `x="1 2"; set -- a${x#1}` has one
  argument `a2` (`trim_joined`, `assign_joined`). (2) `${x=}` outside quotes makes an empty field
  (`assign_empty`). (3) `""${x-}` makes none (`quotes_lost`). (4) The inner quotes in `"${x-"a" b c}"` end the outer
  ones, so the rest is split (`inner_quotes_split`). (5) `SubType.base` is a `short`: after 32768 characters the
  word of `= ? # %` is looked for at another place, outside the string (`wide_at`). (6) `varcpy` copies
  `sizeof(struct tbl)` bytes of a read-only variable, which cuts off a long name without an end; `${name?}` and
  `${name=w}` then print it and read beyond the copy (`name_overread`).
  Trusted: `trimsub`, command output, expressions and attributes are parameters; the lexer makes the codes that
  `compile` makes (see C49 for what is proved about the lexer).
- C77 (Fname): no disagreement found.  The model takes `gmatch`, `has_globbing` (modelled in Glob) and `qsortp` as
  parameters, and the file system as functions that do not change during the call.  `Consistent` asks that names in
  a readable directory exist and that what is below a path implies the path; a directory that can be read but not
  searched is outside it (`d/*` lists its names without a check, `d/*/x` then finds nothing).  Components of a word
  are separated by slashes before patterns are recognised, so a slash inside brackets or an extended pattern ends the
  component, in the code and in the specification.
- C78 (Here): whether a delimiter is quoted is read off `ident` (syn.c:161), which is also empty when the word does
  not fit into its 64 bytes (lex.c:818-824).  An unquoted delimiter of 64 or more characters therefore turns
  expansion off (`long_delim`).  A delimiter with a newline in it (from quotes) is compared from line beginnings only
  as long as it matches, so it is missed after a line that begins like it (`delim_newline`).  Trusted: input is one
  string without NUL; parameters are a function; the temporary file gives back what was written (Shf).

- **C79–C82 (emacs.c, line editor).** Modelled: every command of `x_ftab` that changes the line, the cursor,
  the mark, the kill ring or the history position (emacs.c:403-991, 1098-1228, 1611-1648, 1700-1787, 1970-2128,
  and `x_escape` in edit.c). Not modelled: the display, key tables and `bind`, `x_literal`, macros, version and
  list commands (they only write to the screen). `x_cf_glob` is a parameter. Found while modelling:
  - a `yank` that does not fit still counts as a yank, and `yank-pop` then deletes that many bytes before the cursor:
    text that was never yanked, or bytes before the buffer (`pop_unfit_loses`, `pop_unfit_before`; emacs.c:1188-1228);
  - a refused `yank-pop` also counts as one; once twenty texts were killed a second one deletes the length of the
    oldest kill (`pop_refused`);
  - the mark is not reset when a history line is shown (emacs.c:826-844) or uncommented (emacs.c:1970-1989);
    `exchange-point-and-mark` and `kill-region` then go behind the end (`mark_stale`, `mark_stale_kill`);
  - incremental search puts the cursor at an offset of the whole history line although only what fits was copied
    (`search_long`; emacs.c:948-957);
  - `prev-hist-word` on an empty history line reads before the string (`histword_empty`; emacs.c:2016-2026);
  - completion with one empty word reads `words[0][-1]` (`complete_empty`; emacs.c:1773-1776);
  - `search-character-backward` compares a signed char with an int and never finds bytes from 0x80 on (`search_signed`);
  - arguments of character commands count bytes (`arg_bytes`) and `transpose-chars` splits characters (`transpose_splits`);
  - `kb_encode`/`kb_decode` (emacs.c:1247-1288) write to a static array of LINE+1 bytes without a check (seen while
    reading, not modelled).

- **C83–C89 (vi.c, vi editing mode).** Modelled: the state machine of `vi_hook` with all states, `vi_insert`, `vi_cmd`
  with all commands, `domove` with all motions, `redo_insert`, undo, yank, macros, history and searches, completion
  (`expand_word`, `complete_word`, `x_escape`), `vi_reset`, and the loop of `x_vi` (vi.c:195-1740, 1990-2242). Not
  modelled: the display (`edit_reset` window, `refresh`, `redraw_line`, x_putc), `x_cf_glob` and the list of file names
  printed (a parameter), `v` beyond building its command line, signals. Simplifications: counts are unbounded naturals
  (in C an `int` can overflow); after `u` the C code swaps the two `edstate` pointers, the model swaps the contents, so
  `reset` may give a new line the other of the two old buffers for its undo memory (its length is 0 either way).
  Found while modelling (all are theorems):
  - `a` steps over continuation bytes behind the end of the line, left from an earlier longer line, without a check
    against `linelen`; the cursor passes the end and the next insertion calls `memmove` with a negative count
    (`vi_append_outside`; vi.c:769-775);
  - `R`, then kill or word erase, then erase: the cursor becomes -1, since erase in R mode only compares with the
    position where the replacement began (`vi_replace_outside`; vi.c:560-578);
  - a line that begins with a UTF-8 continuation byte makes ESC, `$`, `e`, `|` read before the buffer
    (`vi_esc_outside`), and so does `cw` on an empty line (`vi_cw_outside`);
  - `^V` NUL adds a byte to the insert buffer and none to the line, so repeating it overflows `ibuf`
    (`vi_ibuf_overflow`); with `^` as erase, kill or word-erase character `^V` at the beginning of the line sets the
    cursor to -1 (`vi_caret_outside`);
  - ESC in command mode, or a command that fails, saves the line for undo again, so `x` ESC `u` does not undo
    (`undo_lost_by_esc`; vi.c:714-720);
  - `2e` is not `e` twice: each round after the first skips one byte (`counted_e_skips`; vi.c:1590-1619);
  - `NG` with the number of the line being typed, and a search with a count, restore a hold buffer that was never
    filled; a search started on a history line overwrites the hold buffer (`goto_loses_line`,
    `counted_search_loses_line`, `search_loses_line`; vi.c:376-390, 1676-1735).
  - `d` and `D` do not set `modified` (`x`, `c`, `p` and the rest do), so a deletion made after a visit to the history
    is undone by the next visit (`deletion_forgotten`; vi.c:822-832, 865-868).
- **Key bindings** (`Verif/Keys`, C90-C93).  Modelled: kb_encode, kb_decode, kb_match, kb_add_string, kb_add, kb_del,
  kb_print, x_bind, x_init_emacs (the whole table), x_emacs_keys, the key loop of x_emacs up to the call, x_e_getc,
  x_e_getu8, x_set_arg, the operand splitting of c_bind.  Entries have addresses, so a read through a pointer into a
  released entry is `none`, and so is a write behind one of the LINE + 1 byte buffers.  Not modelled: what the functions do
  (see `Emacs`), iscntrl of other locales, int overflow in x_set_arg, traps that run inside functions which read characters
  themselves.  Findings: a binding that begins an older one is silently hidden by it being refused, and the refusal comes
  after the old binding was removed while bind returns 0 (rebind_loses); a longer binding hides a shorter one (bind_shadows);
  three buffer overflows with long operands; use of released memory when a text ends in a newline and its line rebinds the
  same key (text_released) and when a trap removes the binding of quote (quote_released); bytes above 127 in texts are
  negative, 255 is taken for the end of input (text_byte_ends); the listing is ambiguous for ^ and = (caret_misread,
  equals_misread); `bind '^@=..'` is the empty sequence (nul_not_bound).
- **Prompt** (`Verif/Prompt`, C94-C95): special_prompt_expand, dopprompt, pprompt, promptlen (lex.c:1167-1512).  Everything the
  system supplies (time, host, terminal, user, directories) is in `Env`.  Findings: `\[...\]` parts are truncated although
  they take no columns (truncation_breaks: the ESC of a colour is lost and the rest shows as text); the line break is counted
  as a column of the last line (newline_counted), also a tab takes 9; `\\$` shows `\p` (quoted_backslash); `\D` at the end
  reads behind the string; `\l` without a terminal uses an uninitialised buffer (prompt_undefined).
- **Menu** (`Verif/Menu`, C96-C97): print_columns with its four users, do_selectargs, the select loop.  `read -r REPLY` and the
  commands of the loop are parameters; strtonum (libc) is modelled from its manual.
- `Tilde` (C98): tilde expansion inside expand, maybe_expand_tilde, tilde, homedir.  The specification is the relation `Expands`, which replaces tilde prefixes in a list of pieces; the theorem says that the code expands a word as field splitting (`Ifs`) would expand the replaced word.  Findings: `echo a=~` expands the tilde; so do `echo $x~` when the value of x ends with a separator or is `=`, and `y=$x~` when it ends with `:`; `a[i==1]=~` is not expanded; with an empty HOME the word `~` disappears.  tilde_ok is an int shifted left once for each character: signed overflow after 31 characters is not modelled.  getpwnam is a parameter.
- `Getopts` (C99): c_getopts, getopts_reset, assignments to OPTIND, and saving the position around functions, on top of `Getopt`.  The specification of the loop is `Getopt.scan` (C22).  Findings: a missing argument of an option given with `+` sets name to `+:`; option characters outside ASCII are negative ints and end the loop; OPTIND does not advance for unknown options; after `--` a further call takes options out of the operands.  char is assumed to be signed.
- `Signal` (C100, C101): inittraps' table of names, gettrap, c_trap with its listing, c_kill.  The table is a parameter with assumptions (`Good`), which are proved for the Linux table.  Findings: `trap '' INT; trap` prints `trap --  INT`, which when read again resets INT instead of ignoring it; traps of signals without a name (real time signals) are printed as `(null %s)`; second names such as IOT are unknown; kill accepts ERR as signal NSIG.
- **Line** (C102, C103): getsc_line with its growing buffer, strip_nuls and Xcheck_grow_ on top of the
  Shf model (system calls are given by lists of answers), and getsc/getsc_bn/ungetsc over a flat text.
  Not modelled: x_read (Emacs, Vi), prompts, TMOUT, traps during a read, history saving.  Findings: on
  a terminal a signal during a partly read line loses the part (`interrupted_line_lost`); a read
  error inside a line longer than the buffer leaves the text without its NUL
  (`long_line_read_error`).
- `Findcom/Whence` (C104): c_whence after its options, with findcom as modelled in `Findcom`. The reserved words, the aliases that are set and the `EXPORT`/`TRACE` flags are parameters; the printed text is exact.
- `History/Fc` (C105): c_fc after its options up to the call of the editor or of hist_execute; `getn` is a parameter. Pointers into `history` are positions; forming the pointer `history - 1` is not counted as a fault.
- `Typeset` (C106, C107): c_typeset without `-f`. The sets of flags are functions; `typeset()` itself is `Vars.act`. The tables of variables are given as sorted lists of entries per scope.
- `Alias/Cmd` (C108): c_alias and c_unalias after their options. The tables are functions of the name, `ktsort` and `search` are parameters.
- `Special` (C109): one special name whose internal copy is set by setspec and reset by unsetspec (IFS, PATH, TMPDIR, HISTCONTROL, MAIL, MAILPATH), followed through the blocks. What the shell derives from the text is a function parameter. Attributes are left out. Findings: `f() { typeset IFS[1]=,; }; f` leaves the shell splitting at commas for good; `typeset IFS` without a value does not change the splitting; after `typeset IFS=,; unset IFS` in a function `$IFS` shows the outer value but the default is used.
- `Lex/Reread` (C49): now with array subscripts in `${..}` (`arraysub`), `${x op word}` and extended patterns; the grammar `Good` follows the states of the lexer, and `same_expansion` connects the printed word with the model of `expand` of `Subst`. New findings: `"${x-\}}"` is printed as `"${x-}}"`, `"${x#\*}"` as `"${x#*}"`, `${x#(a|b)}` as `${x# (a|b)}`; and `${x:+(a)}` is a bad substitution because `+(` is read as a pattern (`plus_paren`).
- `Compl` (C110-C114): completion in edit.c: x_locate_word, add_glob, the lexer with ONEWORD and UNESCAPE, x_try_array, the sorting of x_command_glob, glob_table and glob_path. Trusted: qsort(3) gives a sorted permutation; opendir, lstat and access are parameters; bytes of the line are characters of the C locale. The assumption `EnvOk.range` of `Emacs` and `Vi` on the word located is what `located_inside` proves. Findings: after `a\\ bc` the word completed is `a\\ bc` read as one although the blank is not quoted (`word_before_cursor`); names with a newline, a leading tilde, or a blank when IFS lacks it are inserted in a form that means something else; a command name that needs a backslash is not found again; `complete_ls[1]=x` without an element 0 is ignored.
- `Jobs/Wait` (C115): the built-in wait on the job table of `Jobs`. Trusted: what happens during sigsuspend(2) is a list of calls of the SIGCHLD handler; a trap may end a wait at any time. Findings: a trapped signal does not end `wait 10 11`, the second is still waited for and its status returned (`trap_goes_on`); a job whose number was asked for by `$!` is forgotten once a prompt was shown, by `jobs -z`, or when more than child_max jobs have ended.
- `Leave` (C116-C118): unwind and all handlers (shell, include, functions, loops, herein, set_prompt, v_evaluate, TCOPROC) on a stack of environments, runtrap for EXIT and ERR, c_exitreturn, and the loop of the interactive shell as far as leaving is concerned. Trap actions are a parameter (any function on the state which ends or calls unwind). Not modelled: pending signal traps run inside unwind, hist_finish and j_exit at the end. Findings: no EXIT action after `${x?}` without `set -e`, in `(f)` when `f` sets it, after a failing `exec`, after `exit` in a script with stopped jobs; an error in the EXIT action inside a function lets the script go on after `exit`; `set -e` with an error in a here-document runs the action twice; errors inside functions and dot scripts do not end a script; an error in a command substitution of a `MAILPATH` message leaves a second interactive shell; `ignoreeof` counts 13 ends of file over the whole session although the manual says in a row.
- Co-processes (`Coproc`): `coproc_read_close`, `coproc_readw_close`, `coproc_write_close`, `coproc_getfd`, `coproc_cleanup` (io.c:350-430), the case TCOPROC (exec.c:175-233) in two halves because SIGCHLD is let in between them, the part of `exchild` and of `check_job` that counts co-processes, and the closing by `exec n<&p`/`n>&p`. Numbers of new descriptors are chosen by the kernel and only assumed not to be open. Copies of descriptors made by the user are theirs and not in the table; the child's side (it closes everything, jobs.c:501-503) is not modelled. Findings: `fork_fails` (after a failed fork the shell keeps both ends of the output pipe, so `read -p` waits for ever), `race_loses` (the first of two sharing co-processes ends between sigprocmask at exec.c:220 and exchild: the end for writing is closed and a third co-process no longer shares the output), `unread_lost` (output not yet read is thrown away by the next `|&`), `moved_not_guarded` (ksh.1 says writes to a moved input of a co-process do not kill the shell; c_ksh.c:371 only looks at coproc.write).
- Start of the shell (`Start`): `main` from the parsing of the arguments on (main.c:342-460), `make_argv`, `is_restricted`, and what `change_flag` does to the user ids (misc.c:300-308, without PLEDGE). Parsing is `Options.parseArgs`. Which files can be opened, what substitution gives and what a start-up file does to the shell are parameters of the theorems; setresuid, setresgid and setgroups are modelled with the rule that the super-user may set anything and others only ids they have. An empty argument vector (argc 0, where main.c:260 dereferences a null pointer) is excluded by the form `name :: args`. Findings: `missing_script` (status 1, the manual says 127), `login_not_restricted` (`-rksh` is not recognised), `real_becomes_effective`/`root_for_ever` (clearing `privileged` sets all user ids to the effective one at the start, ksheuid, instead of the real one; the manual says the contrary).
* C123 (mail.c:78-97, 209): the message of a mailbox is expanded while `mcheck` walks the list
  of MAILPATH.  A message which assigns MAILPATH in the shell itself, such as
  `MAILPATH='/var/mail/me?$((MAILPATH=1))'`, has `mpset` free the list; `mcheck` then stores
  `mb_mtime` into the freed box and follows its `mb_next` (`use_after_free`; `freed` says exactly
  when).  Times are compared in whole seconds, so mail of the same second as the last look is
  never announced (`same_second`).  The manual says that MAIL is ignored if MAILPATH is set; it is
  ignored only if MAILPATH names at least one file (`empty_mailpath`).  Modelled: mail.c:20-122
  and 176-216; trusted: `stat`, `clock_gettime`, and that nothing else in a message changes the
  mail variables.
* C124 (io.c:437-461, main.c:808-835): `maketemp` puts the entry on the list although `mkstemp`
  has failed, so that `remove_temps` later removes whatever has the name left in the buffer
  (`mkstemp_fails`).  `cleanup_proc_env` removes the files before `execve` but leaves them on the
  lists; if `execve` fails they are removed again when the environment is left, although the name
  may by then be somebody else's (`exec_fails`).  A process is told from its ancestors only by
  its number (`tp->pid == procpid`), which can come round again (`pid_reused`).  Trusted:
  `mkstemp` gives a name that was free, `unlink` succeeds, nobody else removes the files.
* C125 (lex.c:817-824, syn.c:319-322): the variable of `for` and `select` is taken from `ident`,
  which is empty for words of 64 characters or more, although `is_wdvarname` accepts the word: the
  loop then fails on a variable with an empty name (`long_loop_variable`; `global("")` also reads
  one byte past the string, var.c:212).  `array_index_calc` ignores what follows the closing
  bracket, so `unset 'x[1]y'` removes `x[1]` and `typeset 'x[1]y'` is no error
  (`trailing_ignored`, `typeset_trailing`); `unset 'x[1'` makes a variable named `x[1`
  (`unclosed`).
* C126 (tree.c:568-584): `wdstrip` does not step over the NUL that ends the text of a command
  substitution or an expression and takes it for the end of the word (`strip_truncates`).  Its
  only caller refuses every such name, so that only an error message is cut.  A function can have
  the empty name (`empty_name`).
- **Substat** (C127; `eval.c` comsub and the end of a substitution, the simple command in
  `execute`, `comexec`, `c_set`, `c_eval`). Oracles: what a substitution does and its status,
  the words the arguments expand to, `findcom`, options of `command`, redirections and
  assignments. Not modelled: traps between the steps, the text of substitutions. Findings:
  `x=$(false)$( )` fails (`empty_last`); with `set -x` and `PS4='$(true)+ '` the command
  `x=$(false)` succeeds (`traced`); `x=$(false) command` fails against the comment at
  exec.c:492 (`command_alone`); `false; eval 'echo $?'` prints 0 (`eval_dollar`); in POSIX mode
  `false; eval ''` gives 1 (`posix_eval`).
- **Hangup** (C128; `kill_job`, `j_kill`, the signals of `j_exit`, `j_stopped_running` and its
  callers, over a model of the processes of the system). Trusted: the kernel gives no new
  process the number of a process, of one not yet waited for, or of a process group in use;
  `killpg` reaches the members of the group. As in Jobs, the shell's own children get no number
  the job table remembers; other processes may. Not modelled: permission to signal, sessions,
  processes that join a group not their own. Findings: a pipeline without a process group
  (a script) keeps the numbers of processes it has waited for, and both `kill %1` and the end
  of the shell signal them (`stranger_hit`); `true | sleep 9 & kill %1` fails in a script
  although it kills the job (`kill_reports_failure`); `exec` skips the warning
  (`exec_unwarned`).
- **Tmout** (C129): `getsc_line`'s timeout, `alarm_catcher`, `trapsig`, the start of `runtraps`
  and the assignment to TMOUT, as a machine over events (prompts, reads, keys, lines, seconds,
  signals, commands, assignments).  `alarm` is taken to count whole seconds.  Findings: a
  background job that ends while the shell waits for a line switches the timeout off until the
  next prompt (`child_ends`); an alarm that fires between two reads is not noticed (`missed`);
  `unset TMOUT` leaves the timeout on (`unset_keeps`); `TMOUT=4294967298` means two seconds
  (`truncated`).
- **Joblist** (C130): `j_print` as text, `j_jobs` and `c_jobs`, on a list of jobs with the
  states of their processes; the signal messages are a parameter and `buf` is taken to be long
  enough.  The specification describes the text by rows and by the runs of equal states.
  Findings: with ten jobs the continuation lines of job 10 are one column off (`column_slips`);
  `jobs -p` discards the report of jobs that ended (`pgrp_swallows`); operands are looked up
  one by one in a list that the ones before have shortened, so `jobs %+ %-` can show the first
  and the third job (`operand_shift`).
- **Ttymode** (C131): who sets the modes of the terminal when: `x_mode` and its callers, the
  flags of a job, the end of `j_waitj`, `j_resume`, `j_suspend`, `set -m`, over events.  A mode
  is a number, the editor's mode a function of it.  Trusted: the kernel keeps processes that do
  not own the terminal from setting its modes, and the system calls succeed.  Finding: modes set
  by a command substitution are forgotten or kept depending on the next command
  (`substitution_lost`).
- **Dynvar** (C132): `getspec`, `setspec`, `unsetspec`, `popblock`, `setint`, `setstr`, `global` and `typeset` for SECONDS, RANDOM and LINENO. `rand`/`srand` are a parameter (any state machine), the clock is a natural number of nanoseconds. Found: `popblock` calls `setspec` with the *stored* value of the outer variable, so a function with a local SECONDS turns the clock back (`local_seconds`), one with a local RANDOM seeds the generator with the last number (`local_random`), one with a local LINENO takes its meaning away or shifts the numbering (`local_lineno`); `LINENO=v` gives `v - 1` in the rest of the same line (`same_line`); `readonly LINENO; echo $LINENO` reads a pointer `ktenter` never set, since `setint` marks the variable as set although `setstr` refused (`readonly_wild`).
- **Arr** (C133): the linked list behind arrays (`arraysearch`, `set_array`, `unset`, `c_unset`, the loop of `typeset`, `${a[*]}`, `${#a[*]}`) refined to a map from indices to values. Attributes are an abstract type, `setstr` a parameter; `Vars` covers what the attributes do. Found: `global` puts SPECIAL on whatever `arraysearch` returned, so when a special variable that is not defined is first mentioned with a subscript (`: ${TMOUT[1]}`), later assignments to the variable have no special effect (`special_lost`) and those to the element have it (`TMOUT[1]=10`, `unset PATH; PATH[1]=/x`; `special_element`); `unset a[0]` takes the attributes from elements made later but not from those there are (`attributes_split`).
- **Pipes** (C134): TPIPE in `execute`, the pipe of `comsub`, the descriptors of `exchild`, `openpipe`, `savefd`, `restfd`, `ksh_dup2`, over a kernel table of limited size with close-on-exec; `fork` and the limit are parameters. Found: the child of a pipeline closes the read end but not the spare descriptor of the write end, so `{ exec >&-; sleep 100; } | cat` gives no end of file until the sleep ends (`writes_twice`); when fork fails in `$(…)` nothing restores descriptor 1, so the shell's standard output is a pipe nobody reads for ever (`comsub_fork_lost`); a failing fork or a failing `F_DUPFD` leaks the ends of the pipe (`fork_leaks`, `limit_leaks`), though what was open is restored (`failure_restores`).
- **Clobber** (C135): the flags `iosetup` gives to `open`, over a file system of names, links and contents, with other processes between `stat` and `open`; `mutual_exclusion` is about any number of shells interleaved at the level of system calls. Trusted: the semantics of `open` with O_CREAT, O_EXCL, O_TRUNC and O_APPEND written down in the model. Found: the `stat` of noclobber is a race (`noclobber_race`: a fifo replaced by a file, which is emptied), and a dangling symbolic link can never be created through with noclobber (`dangling_never`).
- **Counts** (C136): `x_set_arg` with the `int` it really uses and the commands that compute positions from the count; the screen is left out. This lifts the simplification of `Ksh.Emacs` and `Ksh.Keys`, where counts are natural numbers. Found: ten digits overflow the count; with wrap-around `ESC 4294967291 ^B` puts the cursor behind the end of the line and `ESC 4294967291 ^D` reads four gigabytes from the buffer on (`huge_breaks`).
- **Notify** (C137): JF_CHANGED and the removal of jobs in `check_job`, `j_notify`, `j_jobs`, `j_waitj`, `j_resume`, with a log of what happened and what was reported; a job has one state, what is printed is in Joblist. Found: `jobs -p` discards ended jobs it has not reported (`pgrp_loses`).
- **Exprmem** (C138): the evaluator of `Ksh.Expr` where the text of a variable is read in the variable's own storage, which assignments free; `only_memory` relates it to `Ksh.Expr`. Found: `x='x=5,7'; echo $((x))` reads freed memory (`self_assign`), since `intvar` passes `str_val(vp)` to `v_evaluate` without a copy and `setstr` frees it; `x=x; typeset -i x` prints an address (`typeset_address`), since `typeset` sets INTEGER before it evaluates the text, so the union is read as an integer.
- `Ksh.Varmem` (C139) models `setstr`, `setint`, `str_val`, `export`, `typeset`, `unset` and `makenv`
  (var.c:303-432, 578-784, 868-905) for one variable with the flags ISSET, INTEGER, ALLOC, EXPORT,
  RDONLY, the union `val` and a heap of blocks.  Left out: arrays, special variables, `local`, the
  copies of one name in several scopes; all formatting attributes are one flag, and how an
  expression is evaluated is an oracle.  Findings: `setint` sets ISSET although `setstr` refused a
  read-only variable, so after `LINES=24; unset LINES; readonly LINES` a resized window makes
  `$LINES` read a freed block (`window_dangling`); `typeset -i x=1+` that fails leaves `x` an integer
  whose value is the address of its old text (`failed_address`, `unwound_address`); `typeset -i x=5`
  leaks the old text (`old_value_leaks`).
- `Ksh.Vicount` (C140) models the counts of vi mode as `int`s (vi.c:291-294, 323-357) and the commands
  `|`, `h`, `l`, `x`, `s`, `X`, `r` that compute positions from them; `Ksh.Vi` has all commands with
  natural numbers.  Findings: the digits and the product of two counts overflow (`column_outside`,
  `count_wraps`); with a negative count `|` always reads before the line (`negative_column`).  The
  line is assumed not to begin with a UTF-8 continuation byte for `|` (see `Ksh.Vi` for that case).
- `Ksh.Param` (C141) models the arrays of positional parameters and the pointers into them: `shift`,
  `set --` (c_sh.c:34-65, 614-648), functions (exec.c:590-600), `.` (c_sh.c:192-231, main.c:476-540), `for`
  without words (exec.c:278-304) and commands run in a copy of the block (exec.c:448-508).  The
  specification (`Spec.lean`) has lists only.  Findings: `shift` writes `$0` into the shared array, so
  `for i; do shift 2; done` sees `$0` in place of a parameter (`each_shift2`); `command shift` shifts a
  copy of the block and destroys `$1` (`command_shift`), `command set -- x` sets nothing
  (`command_set`); `shift` truncates its argument to 32 bits (`shift_wraps`).  Left out: `break` and
  `continue`, `getopts`, recursion (bodies are unfolded), the release of arrays.
- Callbi (C142): `bi_errorf` clears `shl_stdout_ok`, which only `call_builtin` sets again.  `bg %9 %1`,
  `fg %9 %1` and `bind ^X=nonsense ^B` therefore end in "internal error: shl_stdout not valid" instead of
  serving the second operand (`bg_works_iff`, `fg_works_iff`, `bind_works_iff` say exactly when).  The error is
  raised inside `j_resume`, between blocking SIGCHLD and restoring the mask: SIGCHLD stays blocked for
  the rest of the session and in every program started (`blocked_for_good`).  Output of `bind` still in the buffer
  is dropped (`bind_loses`).  `command . nofile` ends a script like `. nofile` does (`command_ends`), against the
  comment in exec.c:487-489 and POSIX; with `set -o posix` a complaint of `wait`, a regular built-in, ends the shell
  (`posix_ends`).  `bg` reports success whatever happens (`bg_succeeds`).  Trusted: the answers of the system, the job table and the table of keys are
  parameters that depend on what was done before the operand.
- Varsub (C143): `varsub` asks "null?" of the first text of a list only: after `set -- "" b`, `${*:-none}` gives `none` and
  `${*:+yes}` gives the parameters; likewise for arrays whose first set element is empty (`headless_list`).  Under
  `set -u`, `${#*}` and `${#@}` are errors when there are no parameters (`count_unset`).  `${A[*]?w}` is a bad
  substitution (`array_question`).  Trusted: that a set parameter's text is never the pointer `null`.
- **C144 (Lifetime)**: modelled are the assignments in front of a command and the block made for them (exec.c:448-527), newblock/popblock (var.c:55-98), global/local (var.c:246-325) as lookups in a stack of blocks, and typeset into the innermost block. Not modelled: attributes, arrays, read-only and special variables (own topics), unset (C33), errors and jumps out of a body (C53, Leave), `set -a`. Values of words are functions of the visible variables. Findings (proved): a typeset behind `command`, or in what `command eval` or `command .` runs, is lost at once; what a Bourne-style function assigns to a variable that is assigned in front of its call is lost while the assignment in front is kept; `x=1 x=2 f` keeps 1; typeset of such a variable inside the function does not make a new one.
- **C145 (Lexnest)**: modelled are the blocks of lexer states with their links (lex.c:36-77, 112-124, 139-153, 1672-1695) and the search of a double quote around a backquote (lex.c:432-451), over a heap of blocks in which reading released or other memory is a distinct outcome (none). Not modelled: which states the lexer enters (Lex, Line), failure of the allocator, the release of all blocks at an error by the area (Alloc).
- **C146 (Pgrp)**: modelled are setpgid/tcsetpgrp in exchild by the shell and by each child (jobs.c:457-494), j_startjob and the test in j_sigchld that holds the handler back (jobs.c:974-989, 1153-1163), the end of j_waitj (jobs.c:1033-1054), as interleaved steps. Trusted: the rules of setpgid(2) and tcsetpgrp(3) as stated in the header of the model; whether an ended process can be put into a group is a parameter. Not modelled: stopped jobs, several jobs at once, fg and bg (Callbi has j_resume), SIGTTOU (ignored by the shell and by children until after the calls, jobs.c:510-514). Findings: a failing fork in the middle of a foreground pipeline leaves the terminal with the killed group; a first child killed before setpgid leaves the rest in the group of the shell on kernels that refuse setpgid for zombies; a late tcsetpgrp by the shell takes the terminal from where the program has put it.
- **C147 (Ours)**: modelled are `j_change`, `j_suspend`, the end of `j_exit`, the tcsetpgrp at the end of a foreground job, and what an `exec` that fails in execve leaves (main process of an interactive shell with a controlling terminal). Trusted: setpgid/tcsetpgrp succeed for the own group and for the first group exactly if it exists; /dev/tty can be opened; the loop that waits for the terminal ends only when it has been given. Not modelled: the warnings, terminal modes (Ttymode), the other signals (Sig has those that are passed on). Findings: `suspend` in the shell and `bg` in its parent make the shell take the terminal from the parent (j_suspend does not wait to be given it as j_change does); `set +m; suspend` in a shell that was not started as the leader of its group stops it with the terminal in its hands; `exec prog` failing in execve (too many arguments, text busy, bad interpreter) in an interactive shell returns to the prompt after `restoresigs`, so SIGCHLD has its default action from then on and the next foreground command is waited for without end (nothing but restarting the shell brings the handler back).
- **C148 (Trapread)**: the parser of `Syn` and `gethere` of `Here` when the commands of a trap are run inside of `yylex` (lex.c:1115-1120, edit.c:122-128). Modelled is the effect of the nested `compile` on `reject` (true afterwards, from the `tpeek` at the end of `yyparse`) and on `herep` (reset). Not modelled: traps whose commands do not return or contain `<<`, `nesting`, traps while a line is awaited inside of a word or behind a backslash-newline, `ignore_backslash_newline` being seen by the trap's own parser. Finding: since `token()` assigns only `symbol` after `yylex` and `reject` is shared, the token during which the trap ran is delivered twice. `trap : USR1`, the signal at the prompt, then `for i in ...` is a syntax error; `{ a; }`, `( a )`, `if ...` wait for another end; `! true` succeeds. `((` and `[[` are safe because get_command clears `reject` for them. With two here documents and a trap during the first, the lines of the second are executed.
- **Alias/Safe (C149).** Models the memory a source of type `SALIAS` points into: `str` points into `val.s` of the table entry, which `alias` and `unalias` free. Commands can run while sources are in use only in a trap while the bottom source waits for a line (`getsc_line`, `x_getc`); this is an assumption about the callers of `runtraps`, checked by reading. Trusted: `ungetsc` puts a character back on the source it came from; `SREREAD` sources hold copies. Not modelled: an entry of the table freed by `texpand` is still compared with `u.tblp` (lex.c:840-842), so after a trap that removes an alias and defines many, a new alias at the same address could be taken for a recursive one.
- **C150 (Own)**: modelled are the descriptors opened by `shf_open`, `maketemp`/`herein` and `comsub` and who closes them on each way out, including `shf_fdclose` at the end of a file before its last command is run. Trusted: the kernel returns no number in use, and `F_DUPFD` none below `FDBASE`. The pipe of `comsub` is taken as one number at or above `FDBASE` (`openpipe`, see Pipes). Found: `intrcheck` in `globit` (eval.c:1035) jumps out of `expand` while `x.u.shf` is open; an interactive shell keeps the descriptor for good (`interrupted_leaks`), and does not wait for the process. By reading only, not modelled: `savefd` failing in iosetup (exec.c:1149) jumps while `u` is open.
- **C151 (Fdname)**: modelled are `check_fd`, `coproc_getfd` and the descriptor chosen by the options of `read` and `print` and by `<&`, `>&`. Trusted: `fcntl(F_GETFL)` as a table of access modes. Not modelled: parsing of options (Getopt, Print), what is done with the descriptor (Redir, Shf, Coproc). Found: `print -u` without a number writes to descriptor 0 (c_ksh.c:286-287), ksh.1 says 1.
- **C152 (Lexbuf)**: modelled are the writes to the `XString` of a word and the calls of `Xcheck` on each path through `yylex`, `get_brace_var`, `arraysub`, and how `Xcheck_grow_` enlarges it. Trusted: that the list of paths in `Path` is complete and gives the writes of each in order. `tools/lexwrites.py` checks only that each line which writes to the buffer is cited by a path; which writes and checks follow each other was found by reading. Not modelled: the bytes (Lex), the other users of XString.
- **C152, tie to Lex**: `step_fits` (Lexbuf/Link) shows for every state and character that a round of `Ksh.Lex.step` adds as many bytes to the encoded word as the path writes that belongs to the symbols added (`Match`); it says nothing about the order of writes and checks within the path.
- **C153 (Access)**: modelled are `test_eaccess` (c_test.c:357-382) and `search_access` (exec.c:955-977) for `X_OK`, over files with kind, owner, group and three classes of bits. Trusted: the rule of `access(2)` in `access` (the class by the real ids; for user 0 an argument `lax` says whether everything is called executable), and that a failing `access` on a file `stat` found means `EACCES`. Finding: in a shell whose real and effective ids differ `test` does not tell what is permitted (`real_root_wrong`, `setuid_wrong`); the manual only says "is readable", so this may be meant.
- **C154 (Clock)**: modelled are `p_tv`, `p_ts` (c_sh.c:682-705) and the sums and differences in `timex` (c_sh.c:763-776), over unbounded integers. Trusted: the meaning of `%*lld` and `%02lld`, the BSD definitions of `timersub`, `timeradd`, `timespecsub` and `TIMEVAL_TO_TIMESPEC` (not in the repository), that the kernel gives fractions below a second and clocks that do not go back. `j_usrtime` holds the times of the last job waited for only, so for a list of several jobs the sum is less than what was used; the comment in `timex` says so and the property does not claim more.
- **C155 (Histctl)**: modelled are `sethistcontrol` (history.c:534-554) and the tests at the start of `histsave` (history.c:667-681). Trusted: the meaning of `strtok_r`, and that `setspec` and `unsetspec` call `sethistcontrol` with the value or a null pointer (var.c:1013, 1125). The last line is the one in memory: a line another shell has added to the file since is not compared, as the comment in `histsave` says.
