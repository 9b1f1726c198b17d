{
 "claims": [
  {
   "property": "C01",
   "status": "proved",
   "theorems": [
    "Ksh.Table.lookup_is_latest_definition",
    "Ksh.Table.operations_terminate",
    "Ksh.Table.too_many_needs_many"
   ],
   "note": ""
  },
  {
   "property": "C02",
   "status": "proved",
   "theorems": [
    "Ksh.Table.walk_lists_live_once",
    "Ksh.Table.sorted_listing_exact"
   ],
   "note": "qsort is modelled by merge sort"
  },
  {
   "property": "C03",
   "status": "proved",
   "theorems": [
    "Ksh.Alloc.step_agrees",
    "Ksh.Alloc.any_history",
    "Ksh.Alloc.release_frees_exactly",
    "Ksh.Alloc.no_short_block"
   ],
   "note": "malloc and realloc are assumed to return unused addresses (realloc possibly its argument); clients free or resize only blocks they hold in that region."
  },
  {
   "property": "C04",
   "status": "proved",
   "theorems": [
    "Ksh.Path.simplify_total",
    "Ksh.Path.simplify_same_place",
    "Ksh.Path.simplify_normal",
    "Ksh.Path.simplify_rooted_iff",
    "Ksh.Path.simplify_idempotent",
    "Ksh.Path.simplify_length_le"
   ],
   "note": ""
  },
  {
   "property": "C05",
   "status": "proved",
   "theorems": [
    "Ksh.Path.cdpath_candidates",
    "Ksh.Path.cdpath_not_consulted",
    "Ksh.Path.cd_enters_first_success"
   ],
   "note": ""
  },
  {
   "property": "C06",
   "status": "partial",
   "theorems": [
    "Ksh.Num.int_text_roundtrip",
    "Ksh.Num.uint_text_roundtrip",
    "Ksh.Num.int_text_fits",
    "Ksh.Num.int_min_overflows"
   ],
   "note": "The round trip holds for every 64-bit value and base; for the most negative value the C code gets there through signed overflow (int_min_overflows), which C leaves undefined."
  },
  {
   "property": "C07",
   "status": "partial",
   "theorems": [
    "Ksh.Num.getn_spec",
    "Ksh.Num.getn_rejects_extremes",
    "Ksh.Num.u64ton_fits_iff",
    "Ksh.Num.u64ton_value"
   ],
   "note": "getn_spec is exact; it rejects the two extreme int values, which the property would accept (getn_rejects_extremes)."
  },
  {
   "property": "C08",
   "status": "proved",
   "theorems": [
    "Ksh.Num.rjust_shape",
    "Ksh.Num.ljust_shape",
    "Ksh.Num.case_attributes",
    "Ksh.Num.justified_width",
    "Ksh.Num.plain_unchanged"
   ],
   "note": ""
  },
  {
   "property": "C09",
   "status": "partial",
   "theorems": [
    "Ksh.Expr.evaluates_to_meaning_partial",
    "Ksh.Expr.evaluates_with_postfix_partial",
    "Ksh.Expr.accepted_parses_partial",
    "Ksh.Expr.G.liberal",
    "Ksh.Expr.L.balanced",
    "Ksh.Expr.ungrammatical_accepted"
   ],
   "note": "Every text that lexes and parses by C's rules evaluates to its C meaning, except operands of && || ?: that begin with the variable they modify. Accepted texts parse in a slightly larger grammar; ungrammatical_accepted shows the code accepts a text that is no C expression. Array references are not modelled."
  },
  {
   "property": "C10",
   "status": "partial",
   "theorems": [
    "Ksh.Expr.land_skips_partial",
    "Ksh.Expr.lor_skips_partial",
    "Ksh.Expr.tern_skips_partial",
    "Ksh.Expr.noassign_inert_partial",
    "Ksh.Expr.skipped_operand_modifies"
   ],
   "note": "False for the code when the skipped operand begins with the variable it modifies (skipped_operand_modifies); proved otherwise."
  },
  {
   "property": "C100",
   "status": "partial",
   "theorems": [
    "Ksh.Signal.gettrap_iff",
    "Ksh.Signal.names_agree",
    "Ksh.Signal.trap_sets",
    "Ksh.Signal.listing_restores_partial",
    "Ksh.Signal.linux_good",
    "Ksh.Signal.ignored_not_restored",
    "Ksh.Signal.unnamed_signal"
   ],
   "note": "False of the code: an ignored signal (trap '' INT) is printed as trap --  INT, which resets it (ignored_not_restored), and signals without a name are printed as (null %s) (unnamed_signal). Proved for all other traps set by any sequence of trap commands; tilde and brace expansion of unquoted command texts are not considered (see C19). The meaning of signal texts is proved completely."
  },
  {
   "property": "C101",
   "status": "proved",
   "theorems": [
    "Ksh.Signal.kill_plain",
    "Ksh.Signal.kill_old",
    "Ksh.Signal.kill_s",
    "Ksh.Signal.target_spec",
    "Ksh.Signal.status_named"
   ],
   "note": "The system calls and j_kill are recorded, not modelled. NSIG at most 129 for kill -l."
  },
  {
   "property": "C102",
   "status": "proved",
   "theorems": [
    "Ksh.Line.script_read",
    "Ksh.Line.script_inv",
    "Ksh.Line.getscLine_spec",
    "Ksh.Line.stripNuls_spec"
   ],
   "note": "For inputs without SHF_INTERRUPT (everything but terminals) whose reads do not fail. On a terminal a signal loses the part of the line already read (interrupted_line_lost), and a read error in a line longer than the buffer leaves it without a terminating NUL (long_line_read_error); both are outside the claim. The line editor is not part of it (C79-C89)."
  },
  {
   "property": "C103",
   "status": "proved",
   "theorems": [
    "Ksh.Line.continued_lines",
    "Ksh.Line.quoted_text",
    "Ksh.Line.joined_exists",
    "Ksh.Line.joined_unique"
   ],
   "note": "The source stack is flat: the text that getsc_ delivers. One character is put back at a time (putback_two shows that the condition is needed)."
  },
  {
   "property": "C104",
   "status": "proved",
   "theorems": [
    "Ksh.Findcom.whence_reports",
    "Ksh.Findcom.type_is_run",
    "Ksh.Findcom.lookup_means"
   ],
   "note": "For states in which the tracked aliases are those the shell makes (Fresh, which findcom preserves). Option parsing is C28's; the text of a line is modelled exactly."
  },
  {
   "property": "C105",
   "status": "partial",
   "theorems": [
    "Ksh.History.fc_two_partial",
    "Ksh.History.fc_one_partial",
    "Ksh.History.fc_default",
    "Ksh.History.fc_s",
    "Ksh.History.hget_spec",
    "Ksh.History.fc_itself"
   ],
   "note": "False of the code when the fc command is the only entry: a string operand then selects this command itself (fc_itself). Proved whenever there is a command before. getn is a parameter; running the editor is not modelled."
  },
  {
   "property": "C106",
   "status": "proved",
   "theorems": [
    "Ksh.Typeset.last_wins",
    "Ksh.Typeset.options_disjoint",
    "Ksh.Typeset.exclude_disjoint",
    "Ksh.Typeset.effect",
    "Ksh.Typeset.never_both"
   ],
   "note": "Functions (-f) are not modelled. The options come from the model of ksh_getopt (C28)."
  },
  {
   "property": "C107",
   "status": "partial",
   "theorems": [
    "Ksh.Typeset.typeset_line_partial",
    "Ksh.Typeset.export_p",
    "Ksh.Typeset.word_reread",
    "Ksh.Typeset.export_restores",
    "Ksh.Typeset.zerofil_loses_width",
    "Ksh.Typeset.unlimited_not_restored",
    "Ksh.Typeset.base_not_shown",
    "Ksh.Typeset.shadowed_listed",
    "Ksh.Typeset.typeset_p_readonly",
    "Ksh.Typeset.readonly_array"
   ],
   "note": "False of the code: -Z loses the width (typeset -R5 -Z x), the base of integers is not shown, a variable named unlimited is taken for a number, typeset -p prints readonly for every variable, variables hidden by local ones are listed after them, and the elements of a readonly array cannot be set by the lines shown. Proved without these; unquoted tildes and braces in values are C19's."
  },
  {
   "property": "C108",
   "status": "partial",
   "theorems": [
    "Ksh.AliasCmd.alias_runs",
    "Ksh.AliasCmd.alias_value",
    "Ksh.AliasCmd.tracked_value",
    "Ksh.AliasCmd.tracked_U",
    "Ksh.AliasCmd.options_spec",
    "Ksh.AliasCmd.options_bad",
    "Ksh.AliasCmd.alias_list",
    "Ksh.AliasCmd.alias_other",
    "Ksh.AliasCmd.unalias_value",
    "Ksh.AliasCmd.unalias_status",
    "Ksh.AliasCmd.unalias_all",
    "Ksh.AliasCmd.hash_r",
    "Ksh.AliasCmd.alias_p_partial",
    "Ksh.AliasCmd.name_unquoted",
    "Ksh.AliasCmd.dash_name",
    "Ksh.AliasCmd.export_lost",
    "Ksh.AliasCmd.export_undefined"
   ],
   "note": "All but the list is proved in full. The list read back is false of the code for names that need quotes or begin with - or + and loses the export flag; alias -x of an unknown name is not reported and enters it."
  },
  {
   "property": "C109",
   "status": "partial",
   "theorems": [
    "Ksh.Special.step_sync_partial",
    "Ksh.Special.run_sync_partial",
    "Ksh.Special.return_sync_partial",
    "Ksh.Special.start_ok",
    "Ksh.Special.declared_unset",
    "Ksh.Special.unset_local",
    "Ksh.Special.element_local",
    "Ksh.Special.element_global"
   ],
   "note": "False of the code: typeset IFS without value, unset of a local IFS, and elements IFS[1] declared local or made while IFS is unset leave the shell with a value that the variable does not have, the third even after the function has returned. Proved for all other histories."
  },
  {
   "property": "C11",
   "status": "proved",
   "theorems": [
    "Ksh.Expr.division_never_traps",
    "Ksh.Expr.zero_divisor_error",
    "Ksh.Expr.most_negative_division",
    "Ksh.Expr.division_meaning"
   ],
   "note": ""
  },
  {
   "property": "C110",
   "status": "partial",
   "theorems": [
    "Ksh.Compl.located_inside",
    "Ksh.Compl.located_word_partial",
    "Ksh.Compl.word_before_cursor"
   ],
   "note": "False of the code when a blank or other ending character follows an even, non-zero number of backslashes: the search backwards takes it for quoted and the word found is an earlier one (word_before_cursor). Bounds, maximality and the command test hold always; the word is the one around the cursor in all other lines."
  },
  {
   "property": "C111",
   "status": "partial",
   "theorems": [
    "Ksh.Compl.inserted_reads_back_partial",
    "Ksh.Compl.typed_prefix_pattern_partial",
    "Ksh.Compl.star_appended",
    "Ksh.Compl.newline_lost",
    "Ksh.Compl.blank_ends_word",
    "Ksh.Compl.tilde_unquoted",
    "Ksh.Compl.command_keeps_backslash",
    "Ksh.Compl.command_not_found_again"
   ],
   "note": "False of the code: a newline in a name is escaped by a backslash and lost, a blank not in IFS is not quoted, a leading tilde is not quoted, and for commands the typed word is read with backslashes kept. Proved for all other names."
  },
  {
   "property": "C112",
   "status": "proved",
   "theorems": [
    "Ksh.Compl.completion_runs_nothing"
   ],
   "note": "For the models of x_locate_word, add_glob and the lexer reading one word; the expansion is that of Subst."
  },
  {
   "property": "C113",
   "status": "partial",
   "theorems": [
    "Ksh.Compl.array_offers_partial",
    "Ksh.Compl.Split.unique",
    "Ksh.Compl.split_total",
    "Ksh.Compl.Before.unique",
    "Ksh.Compl.no_element_0",
    "Ksh.Compl.quoted_blank_counts"
   ],
   "note": "False of the code for arrays without an element 0, which are ignored (no_element_0), and quotes are not understood in counting the arguments (quoted_blank_counts). Proved for all others."
  },
  {
   "property": "C114",
   "status": "proved",
   "theorems": [
    "Ksh.Compl.commands_sorted",
    "Ksh.Compl.paths_in_order"
   ],
   "note": "qsort is any function that gives a sorted permutation."
  },
  {
   "property": "C115",
   "status": "partial",
   "theorems": [
    "Ksh.Jobs.wait_reports_partial",
    "Ksh.Jobs.wait_unknown",
    "Ksh.Jobs.wait_all",
    "Ksh.Jobs.wait_last",
    "Ksh.Jobs.bang_keeps",
    "Ksh.Jobs.lookup_pid",
    "Ksh.Jobs.trap_goes_on",
    "Ksh.Jobs.notified_forgotten",
    "Ksh.Jobs.jobs_z_forgets",
    "Ksh.Jobs.too_many_forgotten"
   ],
   "note": "False of the code: a trapped signal does not end wait with several operands, a job is forgotten when an interactive shell has reported it before a prompt, by jobs when it lists it, and when more than child_max ended jobs are remembered. Proved for all other histories without job control."
  },
  {
   "property": "C116",
   "status": "partial",
   "theorems": [
    "Ksh.Leave.exit_runs_trap_partial",
    "Ksh.Leave.exit_in_trap",
    "Ksh.Leave.exit_without_trap",
    "Ksh.Leave.errexit_runs_trap",
    "Ksh.Leave.not_run",
    "Ksh.Leave.error_skips_trap",
    "Ksh.Leave.simple_child_skips_trap",
    "Ksh.Leave.stopped_skips_trap",
    "Ksh.Leave.trap_error_goes_on",
    "Ksh.Leave.here_runs_twice"
   ],
   "note": "False of the code: a shell error without set -e, exec of a missing command, an untrapped SIGHUP, exit in a script with stopped jobs and the end of a subshell that is one simple command (such as a call of a function that sets the trap) do not run the action; an error in the action inside a function makes the script go on after exit; with set -e an error in a here-document runs it twice. Proved for exit, the end of the script and errexit elsewhere."
  },
  {
   "property": "C117",
   "status": "partial",
   "theorems": [
    "Ksh.Leave.error_ends_script_partial",
    "Ksh.Leave.error_to_prompt",
    "Ksh.Leave.function_survives",
    "Ksh.Leave.dot_survives",
    "Ksh.Leave.here_survives",
    "Ksh.Leave.child_stays_partial",
    "Ksh.Leave.child_at_prompt"
   ],
   "note": "False of the code: an error inside a function, a dot script or a here-document ends only that, also in a script; and a child made by a command substitution in the message of MAILPATH returns to the prompt of the interactive shell on an error. Proved for all other stacks."
  },
  {
   "property": "C118",
   "status": "partial",
   "theorems": [
    "Ksh.Leave.eof_ignored",
    "Ksh.Leave.eof_leaves",
    "Ksh.Leave.eof_not_in_a_row",
    "Ksh.Leave.leaves",
    "Ksh.Leave.refused_first",
    "Ksh.Leave.second_leaves",
    "Ksh.Leave.not_at_once"
   ],
   "note": "False of the code: the 13 ends of file are counted over the whole session, not in a row as the manual says; and a command that fails by a shell error between two attempts does not make the shell warn again. The rest is proved."
  },
  {
   "property": "C119",
   "status": "partial",
   "theorems": [
    "Ksh.Coproc.table",
    "Ksh.Coproc.eof_seen_partial",
    "Ksh.Coproc.print_goes",
    "Ksh.Coproc.refused",
    "Ksh.Coproc.started",
    "Ksh.Coproc.shares_partial",
    "Ksh.Coproc.fork_fails",
    "Ksh.Coproc.moved_not_guarded",
    "Ksh.Coproc.race_loses",
    "Ksh.Coproc.unread_lost"
   ],
   "note": "the descriptors for all histories, incl. failures of pipe and fork; end of file, destination of print -p, refusal and sharing for histories without such failures; false as stated: after a failed fork read -p waits for ever, the sharing can be lost when the first co-process ends between the two halves of a start, and after exec 3>&p writes to 3 are not guarded against SIGPIPE although the manual says so"
  },
  {
   "property": "C12",
   "status": "partial",
   "theorems": [
    "Ksh.Expr.postfix_partial",
    "Ksh.Expr.postfix_truncates",
    "Ksh.Expr.prefix_value"
   ],
   "note": "The update is right for every value; the yielded old value is truncated to int by the code (postfix_truncates)."
  },
  {
   "property": "C120",
   "status": "partial",
   "theorems": [
    "Ksh.Start.begins",
    "Ksh.Start.script",
    "Ksh.Start.alone",
    "Ksh.Start.with_c",
    "Ksh.Start.with_s",
    "Ksh.Start.missing_script"
   ],
   "note": "all but the exit status of a missing script, which is 1 and not 127 as the manual says (errorf overwrites it): missing_script proves the violation for all such command lines"
  },
  {
   "property": "C121",
   "status": "partial",
   "theorems": [
    "Ksh.Start.restricted_runs",
    "Ksh.Start.files_unrestricted",
    "Ksh.Start.privileged_files",
    "Ksh.Start.plain_files",
    "Ksh.Start.login_rksh",
    "Ksh.Start.login_not_restricted"
   ],
   "note": "false for a login shell, whose name begins with -: the base name -rksh is not taken for that of a restricted shell (login_not_restricted). privileged_files assumes that /etc/profile does not clear the option, plain_files that the files do not change privileged and interactive"
  },
  {
   "property": "C122",
   "status": "partial",
   "theorems": [
    "Ksh.Start.clear_groups_partial",
    "Ksh.Start.real_becomes_effective",
    "Ksh.Start.root_for_ever",
    "Ksh.Start.untouched"
   ],
   "note": "false of the code for user ids: they are all set to the effective id of the start, so that set +p in a set-user-id root shell makes the real user root; proved for the group ids, and the opposite for all user ids"
  },
  {
   "property": "C123",
   "status": "partial",
   "theorems": [
    "Ksh.Newmail.announced_partial",
    "Ksh.Newmail.freed",
    "Ksh.Newmail.announced_mail",
    "Ksh.Newmail.mail_ignored",
    "Ksh.Newmail.once",
    "Ksh.Newmail.spaced",
    "Ksh.Newmail.each_prompt",
    "Ksh.Newmail.same_second",
    "Ksh.Newmail.empty_mailpath",
    "Ksh.Newmail.use_after_free"
   ],
   "note": "The announcements of every run of prompts are exactly the news since the last look. The full claim fails: a message which assigns MAILPATH makes mcheck write to a freed box (freed decides when, use_after_free), mail of the same second is missed (same_second), and MAILPATH set to nothing leaves MAIL in force (empty_mailpath)."
  },
  {
   "property": "C124",
   "status": "partial",
   "theorems": [
    "Ksh.Temps.gone_partial",
    "Ksh.Temps.own_only_partial",
    "Ksh.Temps.stays_partial",
    "Ksh.Temps.outer_stays",
    "Ksh.Temps.killed_leaves",
    "Ksh.Temps.exec_fails",
    "Ksh.Temps.mkstemp_fails",
    "Ksh.Temps.pid_reused"
   ],
   "note": "Every interleaving. The full claim is false: a killed shell leaves its files (killed_leaves); a failed execve removes the names a second time, whoever has them now (exec_fails); a failed mkstemp leaves a name on the list which is later removed (mkstemp_fails); the test on the process number is fooled by reuse (pid_reused). Each theorem excludes only those of these events which break it."
  },
  {
   "property": "C125",
   "status": "partial",
   "theorems": [
    "Ksh.Names.subscript",
    "Ksh.Names.subscript_only",
    "Ksh.Names.assignment",
    "Ksh.Names.variable_word",
    "Ksh.Names.assigned",
    "Ksh.Names.looked_up",
    "Ksh.Names.imported",
    "Ksh.Names.loop_variable_partial",
    "Ksh.Names.long_loop_variable",
    "Ksh.Names.trailing_ignored",
    "Ksh.Names.unclosed",
    "Ksh.Names.typeset_trailing"
   ],
   "note": "All but the variable of a for loop, for which the claim is false from 64 characters on: the loop then assigns to a variable without a name (long_loop_variable). Beyond the claim: text after a subscript is ignored by the look-up (trailing_ignored, typeset_trailing) and an unclosed subscript makes an odd name (unclosed)."
  },
  {
   "property": "C126",
   "status": "proved",
   "theorems": [
    "Ksh.Names.function_name",
    "Ksh.Names.empty_name",
    "Ksh.Names.strip_truncates"
   ],
   "note": "For every word in which an expansion is opened before it is closed, as in every word the lexer makes. The empty name is accepted (empty_name); wdstrip cuts words off after a command substitution (strip_truncates), which only shortens the error message."
  },
  {
   "property": "C127",
   "status": "partial",
   "theorems": [
    "Ksh.Substat.null_exact",
    "Ksh.Substat.null_status_partial",
    "Ksh.Substat.null_fresh",
    "Ksh.Substat.redirection_fails",
    "Ksh.Substat.set_status_partial",
    "Ksh.Substat.eval_nothing_partial",
    "Ksh.Substat.empty_last",
    "Ksh.Substat.traced",
    "Ksh.Substat.command_alone",
    "Ksh.Substat.eval_dollar",
    "Ksh.Substat.posix_eval"
   ],
   "note": "The full claim is false: an empty substitution leaves the status of the one before it (empty_last), and under set -x a PS4 with a command substitution replaces the status (traced); null_exact says what the code does in every case and null_status_partial excludes those two. Beyond the claim: x=$(false) command fails though the code means it to succeed (command_alone), eval hides $? from the commands it runs (eval_dollar), and in POSIX mode an empty eval repeats the last status (posix_eval)."
  },
  {
   "property": "C128",
   "status": "partial",
   "theorems": [
    "Ksh.Hangup.kill_reaches_partial",
    "Ksh.Hangup.kill_continues_partial",
    "Ksh.Hangup.exit_hangup_partial",
    "Ksh.Hangup.subshell_spares",
    "Ksh.Hangup.warned",
    "Ksh.Hangup.unwarned_spares",
    "Ksh.Hangup.stranger_hit",
    "Ksh.Hangup.stranger_group",
    "Ksh.Hangup.kill_reports_failure",
    "Ksh.Hangup.not_continued",
    "Ksh.Hangup.exec_unwarned"
   ],
   "note": "Every interleaving. The full claim is false: kill_job signals numbers of processes already waited for, which may be anybody's (stranger_hit), the group of a finished job may be another's (stranger_group), a stopped job without a process group is not continued (not_continued) and exec hangs jobs up without warning (exec_unwarned). The partial theorems ask that the numbers still mean the job (Known). Beyond the claim: kill reports failure though it reached all that is left of the job (kill_reports_failure)."
  },
  {
   "property": "C129",
   "status": "partial",
   "theorems": [
    "Ksh.Tmout.not_early",
    "Ksh.Tmout.only_waiting",
    "Ksh.Tmout.leaves_partial",
    "Ksh.Tmout.never",
    "Ksh.Tmout.no_alarm_partial",
    "Ksh.Tmout.left_over",
    "Ksh.Tmout.child_ends",
    "Ksh.Tmout.missed",
    "Ksh.Tmout.unset_keeps",
    "Ksh.Tmout.truncated"
   ],
   "note": "Every sequence of events. Never early (not_early), never while a command runs (only_waiting), never without TMOUT (never). That it does leave is false in general: any caught signal, such as CHLD when a job in the background ends, switches the timeout off until the next prompt (child_ends), and an alarm between two reads is forgotten (missed); leaves_partial excludes both. Beyond the claim: unset TMOUT keeps the timeout (unset_keeps), and large values are truncated to 32 bits (truncated)."
  },
  {
   "property": "C13",
   "status": "partial",
   "theorems": [
    "Ksh.Vars.readonly_kept_partial",
    "Ksh.Vars.sound_run",
    "Ksh.Vars.sound_start",
    "Ksh.Vars.getopts_overrides_readonly",
    "Ksh.Vars.resize_overrides_readonly"
   ],
   "note": "Every history in the block and in inner blocks, all elements. getopts storing OPTARG and the shell's own stores into special integer variables ignore the flag (two witnesses), so they are excluded."
  },
  {
   "property": "C130",
   "status": "partial",
   "theorems": [
    "Ksh.Joblist.long_text",
    "Ksh.Joblist.rows_pids",
    "Ksh.Joblist.rows_state",
    "Ksh.Joblist.medium_text",
    "Ksh.Joblist.runs_exist",
    "Ksh.Joblist.short_text",
    "Ksh.Joblist.columns_partial",
    "Ksh.Joblist.column_slips",
    "Ksh.Joblist.plus",
    "Ksh.Joblist.minus",
    "Ksh.Joblist.told",
    "Ksh.Joblist.all_listed",
    "Ksh.Joblist.operands_partial",
    "Ksh.Joblist.operand_shift",
    "Ksh.Joblist.pgrp_swallows",
    "Ksh.Joblist.zombie_current",
    "Ksh.Joblist.last_flag"
   ],
   "note": "Texts, rows, runs and marks are proved for all jobs. False in the code: the rows of job 10 are a column off, as the test is > 10 (column_slips); jobs -p drops jobs that ended without telling how (pgrp_swallows); jobs %+ %- lists the first and third job when the current one has ended (operand_shift); no job is marked + when the first of the list is a hidden zombie (zombie_current). columns_partial and operands_partial exclude these."
  },
  {
   "property": "C131",
   "status": "partial",
   "theorems": [
    "Ksh.Ttymode.at_rest_partial",
    "Ksh.Ttymode.kept_or_undone",
    "Ksh.Ttymode.comes_back",
    "Ksh.Ttymode.stopped_unseen",
    "Ksh.Ttymode.changes_only",
    "Ksh.Ttymode.stopped_never_keeps",
    "Ksh.Ttymode.substitution_lost"
   ],
   "note": "Every sequence of events. at_rest_partial asks that no command substitution sets the modes: one that does ($(stty -echo)) changes the terminal for a while, and whether that lasts depends on the status of the next command (substitution_lost). The system calls on the terminal are taken to succeed."
  },
  {
   "property": "C132",
   "status": "partial",
   "theorems": [
    "Ksh.Dynvar.seconds_partial",
    "Ksh.Dynvar.random_range",
    "Ksh.Dynvar.random_seeded",
    "Ksh.Dynvar.lineno_partial",
    "Ksh.Dynvar.lineno_current",
    "Ksh.Dynvar.unset_ordinary",
    "Ksh.Dynvar.unset_forever",
    "Ksh.Dynvar.unset_assigned",
    "Ksh.Dynvar.local_seconds",
    "Ksh.Dynvar.local_random",
    "Ksh.Dynvar.local_lineno",
    "Ksh.Dynvar.same_line",
    "Ksh.Dynvar.readonly_wild"
   ],
   "note": "Every value, history and generator. The partial ones ask that no function makes the variable local and it is not made read-only; the witnesses show each of these breaks the code (stale value written back by popblock, uninitialised pointer)."
  },
  {
   "property": "C133",
   "status": "partial",
   "theorems": [
    "Ksh.Arr.in_order",
    "Ksh.Arr.read_pure",
    "Ksh.Arr.assign_one",
    "Ksh.Arr.unset_one",
    "Ksh.Arr.unset_all",
    "Ksh.Arr.unset_ro",
    "Ksh.Arr.set_exact",
    "Ksh.Arr.set_overlay",
    "Ksh.Arr.typeset_all",
    "Ksh.Arr.words_all",
    "Ksh.Arr.special_partial",
    "Ksh.Arr.special_acts",
    "Ksh.Arr.attributes_split",
    "Ksh.Arr.special_lost",
    "Ksh.Arr.special_element"
   ],
   "note": "Every sequence of operations from a new variable (in_order); the other theorems hold in every state in_order allows. Partial because of special names: global() puts SPECIAL on the element instead of the variable when a variable is first mentioned with a subscript (special_lost, special_element); special_partial covers the rest."
  },
  {
   "property": "C134",
   "status": "partial",
   "theorems": [
    "Ksh.Pipes.connects",
    "Ksh.Pipes.only_ends",
    "Ksh.Pipes.failure_restores",
    "Ksh.Pipes.comsub_connects",
    "Ksh.Pipes.writes_twice",
    "Ksh.Pipes.comsub_fork_lost",
    "Ksh.Pipes.fork_leaks",
    "Ksh.Pipes.limit_leaks"
   ],
   "note": "Every table, length, limit and outcome of fork. Partial because of the failure of fork in a command substitution, after which the shell keeps the pipe as its standard output (comsub_fork_lost), and because a subshell in a pipeline keeps a second descriptor for its pipe until it executes a program (writes_twice), so 'nobody else' holds only for programs (only_ends)."
  },
  {
   "property": "C135",
   "status": "partial",
   "theorems": [
    "Ksh.Clobber.noclobber_partial",
    "Ksh.Clobber.noclobber_alone",
    "Ksh.Clobber.noclobber_race",
    "Ksh.Clobber.write_empties",
    "Ksh.Clobber.read_pure",
    "Ksh.Clobber.keeps",
    "Ksh.Clobber.append_all",
    "Ksh.Clobber.mutual_exclusion",
    "Ksh.Clobber.lock_got",
    "Ksh.Clobber.dangling_never"
   ],
   "note": "Every file system and schedule. noclobber_partial asks that the name was not a device, fifo or directory at the stat: if it is replaced by a regular file before the open, that file is emptied (noclobber_race). The lock theorems have no such condition, as the name starts free and only the shells use it."
  },
  {
   "property": "C136",
   "status": "partial",
   "theorems": [
    "Ksh.Counts.typed_partial",
    "Ksh.Counts.nonneg_safe",
    "Ksh.Counts.plain_exact",
    "Ksh.Counts.load_safe",
    "Ksh.Counts.wraps",
    "Ksh.Counts.huge_breaks",
    "Ksh.Counts.huge_before"
   ],
   "note": "Counts below 2^31. From there on x_set_arg overflows an int (typed_partial says exactly when), and where the processor wraps (wraps), a count such as 4294967291 becomes -5, which puts the cursor outside of the line or makes a deletion run out of the buffer (huge_breaks, huge_before)."
  },
  {
   "property": "C137",
   "status": "partial",
   "theorems": [
    "Ksh.Notify.told_partial",
    "Ksh.Notify.faithful_partial",
    "Ksh.Notify.notices_le_partial",
    "Ksh.Notify.pgrp_loses",
    "Ksh.Notify.monitor_loses"
   ],
   "note": "Every sequence of events with job control on. Partial because the code loses reports in two ways: jobs -p removes an ended job from the list though it prints only its number (pgrp_loses), and so does the prompt after set +m (monitor_loses)."
  },
  {
   "property": "C138",
   "status": "partial",
   "theorems": [
    "Ksh.Exprmem.memory_partial",
    "Ksh.Exprmem.only_memory",
    "Ksh.Exprmem.self_assign",
    "Ksh.Exprmem.mutual_assign",
    "Ksh.Exprmem.message_assign",
    "Ksh.Exprmem.typeset_address"
   ],
   "note": "False in general: x='x=5,7'; $((x)) frees the text of x while it is read (self_assign; mutual_assign by way of another variable; message_assign in an error message), and x=x; typeset -i x gives x the address of its storage (typeset_address, for every address). memory_partial proves the claim for every expression when no variable holds a text with the operator =; only_memory holds without conditions: unless freed memory is read the outcome is that of Ksh.Expr. That typeset -i is right otherwise is not proved. Arrays are not modelled."
  },
  {
   "property": "C139",
   "status": "partial",
   "theorems": [
    "Ksh.Varmem.safe_partial",
    "Ksh.Varmem.careful_nowindow",
    "Ksh.Varmem.env_entry",
    "Ksh.Varmem.assign_read",
    "Ksh.Varmem.attr_keeps",
    "Ksh.Varmem.format_value",
    "Ksh.Varmem.to_integer",
    "Ksh.Varmem.window_dangling",
    "Ksh.Varmem.failed_address",
    "Ksh.Varmem.unwound_address",
    "Ksh.Varmem.old_value_leaks"
   ],
   "note": "Proved for every run in which no resized window meets a variable that is read-only and unset: no misuse of memory, environment entries are name=value, texts are read back, attributes keep or format the value. Refuted without that condition (LINES=24; unset LINES; readonly LINES and a resize read freed memory: setint sets ISSET although setstr refused), and an error while a variable is made an integer leaves the address of its old text as its value. typeset -i with a value leaks the old text."
  },
  {
   "property": "C14",
   "status": "partial",
   "theorems": [
    "Ksh.Glob.match_iff_language",
    "Ksh.Glob.checked_match_iff_language_partial",
    "Ksh.Glob.class_then_bracket"
   ],
   "note": "The matcher itself is exact for every pattern. gmatch first asks has_globbing, which misjudges a bracket expression with a [ after a class (class_then_bracket); the checked version is proved outside that case."
  },
  {
   "property": "C140",
   "status": "partial",
   "theorems": [
    "Ksh.Vicount.enter_partial",
    "Ksh.Vicount.forward_count",
    "Ksh.Vicount.backward_count",
    "Ksh.Vicount.column_count",
    "Ksh.Vicount.replace_count",
    "Ksh.Vicount.negative_deletes",
    "Ksh.Vicount.negative_column",
    "Ksh.Vicount.column_outside",
    "Ksh.Vicount.count_wraps"
   ],
   "note": "Proved for counts that fit in an int. Refuted beyond: nothing stops the digits or the product from overflowing (vi.c:325, 351, 356); on a machine that wraps 3000000000| reads far outside of the line, 4294967297x deletes one character and 65536d65536l deletes one character."
  },
  {
   "property": "C141",
   "status": "partial",
   "theorems": [
    "Ksh.Param.params_partial",
    "Ksh.Param.call_keeps",
    "Ksh.Param.each_shift2",
    "Ksh.Param.command_shift",
    "Ksh.Param.command_set",
    "Ksh.Param.shift_wraps"
   ],
   "note": "Refinement of the list semantics proved for all programs in which no loop over the parameters shifts more than once a turn, `command` is not used to change parameters, and arguments of shift fit in 32 bits. Each condition is needed: for i; do shift 2; done sees $0 instead of the second parameter; command shift shifts nothing and overwrites $1 with $0; shift 4294967297 (or -4294967295) shifts by one."
  },
  {
   "property": "C142",
   "status": "partial",
   "theorems": [
    "Ksh.Callbi.jobs_works",
    "Ksh.Callbi.kill_works",
    "Ksh.Callbi.wait_works_partial",
    "Ksh.Callbi.bg_works_partial",
    "Ksh.Callbi.bg_stumbles_else",
    "Ksh.Callbi.bg_works_iff",
    "Ksh.Callbi.fg_works_partial",
    "Ksh.Callbi.fg_stumbles_else",
    "Ksh.Callbi.fg_works_iff",
    "Ksh.Callbi.bind_works_partial",
    "Ksh.Callbi.bind_stumbles_else",
    "Ksh.Callbi.bind_works_iff",
    "Ksh.Callbi.after_mask",
    "Ksh.Callbi.blocked_for_good",
    "Ksh.Callbi.complaint_ends",
    "Ksh.Callbi.spec_iff",
    "Ksh.Callbi.complaint_ends_iff_partial",
    "Ksh.Callbi.posix_ends",
    "Ksh.Callbi.command_ends",
    "Ksh.Callbi.nested_forgets",
    "Ksh.Callbi.bg_nine_one",
    "Ksh.Callbi.bind_loses",
    "Ksh.Callbi.bg_succeeds"
   ],
   "note": "Proved for jobs and kill without condition, for wait without the option posix; fg, bg and bind are characterised exactly (works_iff): after a complaint the next operand with output ends in an internal error, and fg and bg leave SIGCHLD blocked for good. command does not take the status of a special built-in away, and the option posix makes wait, typeset and builtin end the shell."
  },
  {
   "property": "C143",
   "status": "partial",
   "theorems": [
    "Ksh.Varsub.varsub_means_partial",
    "Ksh.Varsub.other_words_bad",
    "Ksh.Varsub.len_means_partial",
    "Ksh.Varsub.len_no_form",
    "Ksh.Varsub.qual_code",
    "Ksh.Varsub.headless_list",
    "Ksh.Varsub.count_unset",
    "Ksh.Varsub.array_question"
   ],
   "note": "Proved for every parameter, form and word, except for three deviations shown by witnesses: with a colon only the first text of a list is looked at (set -- '' b; ${*:-none} gives none), ${#*} without parameters is an error under nounset, ${A[*]?w} is refused although ${*?w} is not."
  },
  {
   "property": "C144",
   "status": "partial",
   "theorems": [
    "Ksh.Lifetime.lasting_partial",
    "Ksh.Lifetime.sim",
    "Ksh.Lifetime.temporary",
    "Ksh.Lifetime.kept",
    "Ksh.Lifetime.bourne_kept",
    "Ksh.Lifetime.declared",
    "Ksh.Lifetime.command_typeset_lost",
    "Ksh.Lifetime.command_eval_typeset_lost",
    "Ksh.Lifetime.bourne_assignment_lost",
    "Ksh.Lifetime.bourne_twice",
    "Ksh.Lifetime.bourne_typeset_not_new"
   ],
   "note": "The stack of blocks refines a rule that puts values back, for every nesting without typeset behind `command` and without assigning a variable twice in front of a Bourne-style function or both in front of and in it (bourne_kept: otherwise such a call is the assignments and then the call). In those the shell does something else: `command typeset y=2` and `command eval 'typeset y=2'` declare in a block that is thrown away (proved for any state); after `f() { x=2; }; x=1 f` the value is 1; `x=1 x=2 f` keeps 1; `typeset x` in a function called with x=1 is not new."
  },
  {
   "property": "C145",
   "status": "proved",
   "theorems": [
    "Ksh.Lexnest.innermost",
    "Ksh.Lexnest.never_stuck",
    "Ksh.Lexnest.blocks_needed",
    "Ksh.Lexnest.nothing_left",
    "Ksh.Lexnest.backquote"
   ],
   "note": "The chain of blocks refines a list for every sequence of operations and every block the allocator returns; reading outside of a block or a released one, or the other member of the union, would make a step impossible, and never_stuck says none is. That the lexer pops only what it has pushed is the hypothesis runs = some (Lex models which states it enters)."
  },
  {
   "property": "C146",
   "status": "partial",
   "theorems": [
    "Ksh.Pgrp.same_group_partial",
    "Ksh.Pgrp.all_reached_partial",
    "Ksh.Pgrp.terminal_partial",
    "Ksh.Pgrp.none_reaped",
    "Ksh.Pgrp.regained",
    "Ksh.Pgrp.fork_fails_loses_terminal",
    "Ksh.Pgrp.killed_first",
    "Ksh.Pgrp.late_shell"
   ],
   "note": "Every interleaving, length and way to end. False in three cases, each proved: when the fork of a later process fails the shell goes on without the terminal (fork_fails_loses_terminal, for every run); when the first child is killed before its setpgid, on a kernel that refuses setpgid for an ended process, the others run in the group of the shell (killed_first); a shell that is slow takes the terminal away again from a group to which the started program has given it (late_shell). The partial theorems exclude these."
  },
  {
   "property": "C147",
   "status": "partial",
   "theorems": [
    "Ksh.Ours.leaves_as_found",
    "Ksh.Ours.leads_own_group",
    "Ksh.Ours.owns_terminal_partial",
    "Ksh.Ours.never_steals_partial",
    "Ksh.Ours.suspends_as_found_partial",
    "Ksh.Ours.hears_partial",
    "Ksh.Ours.steals",
    "Ksh.Ours.suspend_without_monitor",
    "Ksh.Ours.deaf_after_failed_exec",
    "Ksh.Ours.failed_exec_monitor"
   ],
   "note": "The end of the shell and its own group: without restriction. False in three cases, each proved: continued in the background by bg the shell takes the terminal from the one who has it (steals); set +m; suspend stops the shell alone while the terminal stays with it (suspend_without_monitor, all groups); after an exec that passed the search but fails in execve an interactive shell goes on with job control off and without a handler for SIGCHLD, whatever comes later, so that waiting for the next child does not end (deaf_after_failed_exec, failed_exec_monitor). The partial theorems exclude these."
  },
  {
   "property": "C148",
   "status": "partial",
   "theorems": [
    "Ksh.Trapread.command_unnoticed_partial",
    "Ksh.Trapread.command_refused",
    "Ksh.Trapread.command_doubled",
    "Ksh.Trapread.in_refused",
    "Ksh.Trapread.wordlist_no_trap",
    "Ksh.Trapread.dogroup_no_trap",
    "Ksh.Trapread.trap_unnoticed_partial",
    "Ksh.Trapread.unnoticed_grammar_partial",
    "Ksh.Trapread.no_trap",
    "Ksh.Trapread.peek_unnoticed",
    "Ksh.Trapread.refused",
    "Ksh.Trapread.doubled",
    "Ksh.Trapread.doubled_grammar",
    "Ksh.Trapread.do_refused",
    "Ksh.Trapread.bang_twice",
    "Ksh.Trapread.brace_unfinished",
    "Ksh.Trapread.documents_partial",
    "Ksh.Trapread.documents_left"
   ],
   "note": "Holds for every line that begins with a simple command, (( or [[, and for a single here document. False otherwise, proved for all inputs: after a trap at the prompt a line that begins with for, select, case or function is a syntax error (refused); one that begins with (, {, if, while, until, ! or time is read as if that word stood there twice (doubled), so that ! true yields 0; do on the line that was awaited is an error (do_refused); and after a trap during one of several here documents the later ones are left in the input as commands (documents_left). The command_ theorems say the same of every command in a program, wherever its first word is awaited; in and do of a for loop are the other words a line can be awaited for with token (then, else, fi, done, esac and patterns come through get_command or tpeek first). Lines awaited inside of a word or behind a backslash are not described."
  },
  {
   "property": "C149",
   "status": "proved",
   "theorems": [
    "Ksh.Alias.changed_aliases_harmless",
    "Ksh.Alias.asked_all_ended"
   ],
   "note": "SALIAS sources with the state of the memory they point into, over the model of getsc__ used for C50. Commands run only when the bottom source is asked for a line (traps) or when compile starts anew. Not modelled: the comparison of u.tblp with an entry that was freed when the alias table grew, SREREAD sources, and the exact buffer of ungetsc."
  },
  {
   "property": "C15",
   "status": "partial",
   "theorems": [
    "Ksh.Glob.bracket_selects_partial",
    "Ksh.Glob.unterminated_is_literal",
    "Ksh.Glob.unterminated_bracket_partial",
    "Ksh.Glob.bell_first_in_bracket",
    "Ksh.Glob.blank_class_missing"
   ],
   "note": "Exact except for a bell character first in a bracket and the missing class [:blank:], both shown as disagreements."
  },
  {
   "property": "C150",
   "status": "partial",
   "theorems": [
    "Ksh.Own.never_closed_twice",
    "Ksh.Own.all_closed_partial",
    "Ksh.Own.shfOpen_spec",
    "Ksh.Own.here_stops_jumps",
    "Ksh.Own.interrupted_leaks"
   ],
   "note": "Proved for every nesting and every jump: nothing is closed twice or taken away, numbers below 10 are kept. That everything is closed is false: a substitution interrupted while a pattern among its words is expanded (intrcheck in globit) leaves its pipe or file open, proved by interrupted_leaks; all_closed_partial assumes that this does not happen. Not modelled: other uses of descriptors (Redir, Pipes, Coproc), fork failing in a substitution, savefd failing in iosetup, close failing."
  },
  {
   "property": "C151",
   "status": "partial",
   "theorems": [
    "Ksh.Fdname.name_spec",
    "Ksh.Fdname.private_unreachable",
    "Ksh.Fdname.message_right",
    "Ksh.Fdname.read_allowed",
    "Ksh.Fdname.print_allowed_partial",
    "Ksh.Fdname.print_default_wrong"
   ],
   "note": "All proved but the last sentence for print: print -u without a number writes to 0, unchecked, where the manual says 1 (print_default_wrong); print_allowed_partial leaves out 0 and 1. The options are given as a list, the parsing of options is in Getopt and Print."
  },
  {
   "property": "C152",
   "status": "proved",
   "theorems": [
    "Ksh.Lexbuf.lexer_in_bounds",
    "Ksh.Lexbuf.path_safe",
    "Ksh.Lexbuf.arraysub_in_bounds",
    "Ksh.Lexbuf.pos_counts",
    "Ksh.Lexbuf.step_fits",
    "Ksh.Lexbuf.word_in_bounds"
   ],
   "note": "Every path through the switch of yylex is listed with its writes and checks, cited by line; any sequence of paths is allowed, so more than the lexer can do. step_fits ties the paths to the lexer of Lex: each of its rounds makes the encoded word longer by the bytes of the path that belongs to the symbols it adds. Where the checks stand in a path, and the modes that Lex leaves out (here delimiters, assignments with subscripts, arithmetic commands), rest on reading. Failure of the allocator and overflow of lengths are not modelled."
  },
  {
   "property": "C153",
   "status": "partial",
   "theorems": [
    "Ksh.Access.test_right_partial",
    "Ksh.Access.search_right_partial",
    "Ksh.Access.search_never",
    "Ksh.Access.search_error",
    "Ksh.Access.search_isdir",
    "Ksh.Access.real_root_wrong",
    "Ksh.Access.setuid_wrong"
   ],
   "note": "The two _partial theorems assume that the real and effective ids are equal. For other shells the claim is false, because access() looks at the real ids and the correction for root at the effective one: real_root_wrong (-x true of a file nobody may execute, where access() tells root so) and setuid_wrong (-r false of what may be read). search_isdir is for users other than 0. access() is modelled by its rule; access control lists, read-only file systems, the directories on the way and changes between stat and access are left out."
  },
  {
   "property": "C154",
   "status": "proved",
   "theorems": [
    "Ksh.Clock.sub_right",
    "Ksh.Clock.add_right",
    "Ksh.Clock.ksh_right",
    "Ksh.Clock.posix_right",
    "Ksh.Clock.real_right",
    "Ksh.Clock.user_right",
    "Ksh.Clock.real_posix_right",
    "Ksh.Clock.user_posix_right",
    "Ksh.Clock.ksh_unique",
    "Ksh.Clock.posix_unique"
   ],
   "note": "The arithmetic of times and p_ts, for times that are not negative; the output is read back by a relation that does not use the printing functions. The formats %*lld and %02lld are modelled by their meaning, and the macros of sys/time.h by their BSD definitions. What the job used is what j_wait leaves for the last job, as the comment in timex says; which lines are printed in which format is C73."
  },
  {
   "property": "C155",
   "status": "proved",
   "theorems": [
    "Ksh.Histctl.settings",
    "Ksh.Histctl.line_stored",
    "Ksh.Histctl.plain_stored",
    "Ksh.Histctl.toks_spec"
   ],
   "note": "sethistcontrol with strtok_r as in the C library, and the tests of histsave. The entries of the list are specified without the tokenizer. line_stored is for a line with a newline at its end, plain_stored for a command without any; other commands are cut at their last newline, which no theorem describes. The last line is the one in memory before the history file is read again, as the comment in histsave says."
  },
  {
   "property": "C16",
   "status": "partial",
   "theorems": [
    "Ksh.Glob.literal_word",
    "Ksh.Glob.quoted_text_is_literal",
    "Ksh.Glob.non_pattern_is_one_string_partial",
    "Ksh.Glob.malformed_group_disagrees"
   ],
   "note": "False for a malformed group such as *(a, where has_globbing and the matcher disagree (malformed_group_disagrees)."
  },
  {
   "property": "C17",
   "status": "partial",
   "theorems": [
    "Ksh.Glob.trim_extremal",
    "Ksh.Glob.trim_removes_extremal_partial"
   ],
   "note": "Extremal with respect to gmatch for every value and pattern; with respect to the pattern's language outside the has_globbing misjudgement recorded for C14."
  },
  {
   "property": "C18",
   "status": "partial",
   "theorems": [
    "Ksh.Ifs.fields_posix_partial",
    "Ksh.Ifs.split_parameter_partial",
    "Ksh.Ifs.split_deterministic",
    "Ksh.Ifs.quoted_is_one_field",
    "Ksh.Ifs.lone_delimiter",
    "Ksh.Ifs.adjacent_expansions",
    "Ksh.Ifs.text_before_delimiter",
    "Ksh.Ifs.substitution_begins_with_delimiter"
   ],
   "note": "Exact for words whose expansions do not meet other pieces at a non-white-space delimiter; outside this the code deviates from POSIX (four counterexamples). Forms with a word part such as ${x-word} are not modelled. For ${x-word} and the other operators see C76 (white-space IFS)."
  },
  {
   "property": "C19",
   "status": "partial",
   "theorems": [
    "Ksh.Lex.quoted_value_reread_partial",
    "Ksh.Lex.empty_value_not_quoted",
    "Ksh.Lex.tilde_not_quoted",
    "Ksh.Lex.brace_not_quoted"
   ],
   "note": "Exact for every non-empty value up to tilde and brace expansion. The empty value is printed as nothing, and ~ and { are not quoted, so the full property is false for the code."
  },
  {
   "property": "C20",
   "status": "proved",
   "theorems": [
    "Ksh.Brace.brace_expansion",
    "Ksh.Brace.every_word_parses"
   ],
   "note": "The words are those expand hands to alt_expand, with the active characters marked."
  },
  {
   "property": "C21",
   "status": "proved",
   "theorems": [
    "Ksh.Ifs.trailing_newlines_removed",
    "Ksh.Ifs.trailing_newlines_unique",
    "Ksh.Ifs.quoted_substitution"
   ],
   "note": ""
  },
  {
   "property": "C22",
   "status": "proved",
   "theorems": [
    "Ksh.Getopt.options_scanned",
    "Ksh.Getopt.clustered_is_separate",
    "Ksh.Getopt.attached_is_separate",
    "Ksh.Getopt.scan_stops",
    "Ksh.Getopt.silent_no_message"
   ],
   "note": "ksh_getopt with the calling loop; the assignment of the variables by the getopts builtin (c_getopts) is not modelled."
  },
  {
   "property": "C23",
   "status": "partial",
   "theorems": [
    "Ksh.Test.few_arguments_partial",
    "Ksh.Test.unclear_is_refused",
    "Ksh.Test.bracket",
    "Ksh.Test.many_arguments",
    "Ksh.Test.many_malformed",
    "Ksh.Test.status_is_boolean",
    "Ksh.Test.unary_before_operator",
    "Ksh.Test.operator_in_parentheses"
   ],
   "note": "Exact for all vectors except a unary operator followed by the text of a binary one, and an operator-like operand in parentheses; those are always refused with status 2 although POSIX prescribes a value. File and number operators are an oracle."
  },
  {
   "property": "C24",
   "status": "proved",
   "theorems": [
    "Ksh.Test.needed_only",
    "Ksh.Test.and_skips",
    "Ksh.Test.or_skips",
    "Ksh.Test.status_is_boolean"
   ],
   "note": "The tests themselves are an oracle that sees everything evaluated before."
  },
  {
   "property": "C25",
   "status": "proved",
   "theorems": [
    "Ksh.Print.print_r_verbatim",
    "Ksh.Print.print_prints",
    "Ksh.Print.echo_prints",
    "Ksh.Print.echo_posix",
    "Ksh.Print.output_decoded",
    "Ksh.Print.output_verbatim",
    "Ksh.Print.escapes_decoded",
    "Ksh.Print.every_argument_reads",
    "Ksh.Print.written"
   ],
   "note": "Other options of print (-R, -e, -p, -s, -u) are modelled, the theorem about option words covers -n and -r."
  },
  {
   "property": "C26",
   "status": "partial",
   "theorems": [
    "Ksh.Read.read_line",
    "Ksh.Read.read_fields_partial",
    "Ksh.Read.line_raw",
    "Ksh.Read.read_interrupted",
    "Ksh.Read.separator_not_merged",
    "Ksh.Read.escaped_blank_stripped",
    "Ksh.Read.failing_assignment_stops"
   ],
   "note": "One line consumed, status and order of assignments for all inputs. Fields agree with POSIX unless IFS white space stands before another IFS character or is escaped (two witnesses); a failing assignment leaves the rest of the line unread."
  },
  {
   "property": "C27",
   "status": "partial",
   "theorems": [
    "Ksh.Sh.shift_partial",
    "Ksh.Sh.shift_default",
    "Ksh.Sh.shift_wraps",
    "Ksh.Sh.shift_mod"
   ],
   "note": "Exact for counts that fit an int; the value of the expression is cut to 32 bits, so shift 4294967297 shifts by one (shift_wraps)."
  },
  {
   "property": "C28",
   "status": "partial",
   "theorems": [
    "Ksh.Umask.symbolic_meaning",
    "Ksh.Umask.only_named_classes",
    "Ksh.Umask.symbolic_restores",
    "Ksh.Umask.octal_restores",
    "Ksh.Umask.in_bounds_partial",
    "Ksh.Umask.reads_out_of_bounds"
   ],
   "note": "Meaning and restoring for all masks and clauses. An operand that ends after the who letters makes the code read behind its end (reads_out_of_bounds)."
  },
  {
   "property": "C29",
   "status": "proved",
   "theorems": [
    "Ksh.Exec.and_or_left_to_right",
    "Ksh.Exec.bang_inverts"
   ],
   "note": "For every list, including parts that never end, exit or jump. Pipelines, select and asynchronous commands are not modelled."
  },
  {
   "property": "C30",
   "status": "partial",
   "theorems": [
    "Ksh.Exec.tested_never_exits_partial",
    "Ksh.Exec.errexit_exact_partial",
    "Ksh.Exec.exemption_leaks_list",
    "Ksh.Exec.exemption_leaks_bang",
    "Ksh.Exec.exemption_leaks_loop",
    "Ksh.Exec.dot_in_condition",
    "Ksh.Exec.eval_ignores",
    "Ksh.Exec.eval_loses_errexit"
   ],
   "note": "Exact unless an exemption leaks: the flag *xerrok is never cleared, so the last command of a && b || c, or of ! a && c, and commands of later rounds of a loop do not end the shell; a dot script in a condition is not exempt; eval turns errexit off (six witnesses)."
  },
  {
   "property": "C31",
   "status": "proved",
   "theorems": [
    "Ksh.Exec.jumps_structured",
    "Ksh.Exec.jumps_stay_inside",
    "Ksh.Exec.never_internal_error",
    "Ksh.Exec.break_ends_loop"
   ],
   "note": "The environment stack with its jumps refines a structured semantics for every tree; eval is a boundary as well. Pipelines, select and asynchronous commands are not modelled."
  },
  {
   "property": "C32",
   "status": "partial",
   "theorems": [
    "Ksh.Redir.redirections_undone_partial",
    "Ksh.Redir.applied_left_to_right",
    "Ksh.Redir.exec_applies",
    "Ksh.Redir.exec_fails",
    "Ksh.Redir.units_come_back",
    "Ksh.Redir.open_file_leaks",
    "Ksh.Redir.lowered_limit_keeps_redirection",
    "Ksh.Redir.wide_descriptor_lost"
   ],
   "note": "The whole descriptor table is restored for every outcome of every system call, nested commands and exec inside, unless the shell runs out of descriptors (then one file stays open), the limit is lowered below a redirected unit, or descriptors exceed a short (three witnesses). Coprocess descriptors (>&p) are not modelled; restoring dup2 is assumed to fail only for a closed source or a target above the limit."
  },
  {
   "property": "C33",
   "status": "partial",
   "theorems": [
    "Ksh.Vars.local_is_private_partial",
    "Ksh.Vars.undeclared_is_shared",
    "Ksh.Vars.other_names",
    "Ksh.Vars.unset_local_reveals"
   ],
   "note": "Every nesting and history; operations that remove the local variable are excluded because they reveal the outer one (unset_local_reveals). Effects of special variables are not modelled."
  },
  {
   "property": "C34",
   "status": "partial",
   "theorems": [
    "Ksh.Vars.environment_partial",
    "Ksh.Vars.environment_exact",
    "Ksh.Vars.env_once",
    "Ksh.Vars.env_value",
    "Ksh.Vars.hidden_still_exported"
   ],
   "note": "environment_exact says what the code passes for every history: the innermost instance that is exported and set. A local variable that is not exported does not hide an exported outer one (hidden_still_exported), so the full property is false."
  },
  {
   "property": "C35",
   "status": "partial",
   "theorems": [
    "Ksh.Findcom.lookup_order",
    "Ksh.Findcom.lookup_order_partial",
    "Ksh.Findcom.Resolves.unique",
    "Ksh.Findcom.plain_command",
    "Ksh.Findcom.command_skips_functions",
    "Ksh.Findcom.stale_after_cd",
    "Ksh.Findcom.stale_after_change",
    "Ksh.Findcom.command_exec_function",
    "Ksh.Findcom.fpath_hides_error"
   ],
   "note": "Exact for every state whose tracked alias is not stale, and after every history with absolute PATH directories and an unchanged file system. A tracked alias hides a file that appears earlier in PATH, also after cd with a relative directory in PATH (two witnesses)."
  },
  {
   "property": "C36",
   "status": "partial",
   "theorems": [
    "Ksh.Jobs.pipeline_status_partial",
    "Ksh.Jobs.complete_returns",
    "Ksh.Jobs.pipeline_members",
    "Ksh.Jobs.waited_job_stays",
    "Ksh.Jobs.pid_reuse_hangs"
   ],
   "note": "Every history and order of child events, provided a new process does not get the pid of a process still in the table; with such a reuse the event goes to the older job (pid_reuse_hangs). Foreground stopped jobs return 128 plus the signal as the model says. Terminal handling and times are not modelled."
  },
  {
   "property": "C37",
   "status": "proved",
   "theorems": [
    "Ksh.Jobs.numbers_distinct",
    "Ksh.Jobs.new_number",
    "Ksh.Jobs.percent_number",
    "Ksh.Jobs.percent_signs",
    "Ksh.Jobs.stopped_is_current",
    "Ksh.Jobs.plus_unlisted"
   ],
   "note": "Every reachable table. plus_unlisted records that %+ may denote an ended, unlisted job."
  },
  {
   "property": "C38",
   "status": "partial",
   "theorems": [
    "Ksh.Trap.handled_once",
    "Ksh.Trap.safe_point",
    "Ksh.Trap.action_runs",
    "Ksh.Trap.nothing_forgotten_partial",
    "Ksh.Trap.exit_err_partial",
    "Ksh.Trap.not_reentered",
    "Ksh.Trap.return_forgets",
    "Ksh.Trap.return_loses_err"
   ],
   "note": "Every interleaving of arrivals and shell steps, and several arrivals before a safe point count as one. A signal pending while an action leaves runtraps by `return` is forgotten until another signal comes (return_forgets) and `return` in the action of ERR or EXIT loses the trap (return_loses_err)."
  },
  {
   "property": "C39",
   "status": "partial",
   "theorems": [
    "Ksh.Sig.ignored_stays_partial",
    "Ksh.Sig.monitor_unignores",
    "Ksh.Sig.chld_trap_runs"
   ],
   "note": "Every signal and every sequence of operations, except SIGTSTP, SIGTTIN and SIGTTOU with set -m, which get their default action in children (monitor_unignores). The action of a trap for SIGCHLD is run although it was ignored on entry (chld_trap_runs)."
  },
  {
   "property": "C40",
   "status": "partial",
   "theorems": [
    "Ksh.History.keeps_recent",
    "Ksh.History.keeps_lines",
    "Ksh.History.number_gets",
    "Ksh.History.numbers_partial",
    "Ksh.History.ignored_shifts",
    "Ksh.History.dot_shifts",
    "Ksh.History.file_negative",
    "Ksh.History.ignored_fc_loses"
   ],
   "note": "The contents are proved for every sequence of lines and HISTSIZE and HISTCONTROL changes. A shown number that is not negative finds its entry at that moment; it stays the same only if no line is ignored (ignored_shifts), nothing is saved from a dot script (dot_shifts) and HISTFILE is not set later (file_negative). An ignored fc command loses an entry (ignored_fc_loses)."
  },
  {
   "property": "C41",
   "status": "partial",
   "theorems": [
    "Ksh.History.vis_round_trip",
    "Ksh.History.vis_one_line",
    "Ksh.History.vis_length",
    "Ksh.History.file_round_trip",
    "Ksh.History.load_loses_line"
   ],
   "note": "For every byte string without NUL and every locale's isgraph. strunvis comes from libbsd; it is modelled after its manual page. Commands of more than 4095 encoded bytes are left out when the file is read, and histsave cuts loaded commands at their last newline (load_loses_line)."
  },
  {
   "property": "C42",
   "status": "proved",
   "theorems": [
    "Ksh.History.replace_fails",
    "Ksh.History.replace_first",
    "Ksh.History.replace_all",
    "Ksh.History.cut_unique",
    "Ksh.History.split_arg"
   ],
   "note": "Every command, pattern and replacement; cut_unique shows that replace_all determines the result."
  },
  {
   "property": "C43",
   "status": "proved",
   "theorems": [
    "Ksh.Shf.output_took",
    "Ksh.Shf.output_prefix",
    "Ksh.Shf.output_complete",
    "Ksh.Shf.output_flushed",
    "Ksh.Shf.output_interrupted"
   ],
   "note": "Write-only files, buffered and unbuffered, every sequence of operations and every behaviour of write(2); files open for reading and writing do not occur in the shell."
  },
  {
   "property": "C44",
   "status": "partial",
   "theorems": [
    "Ksh.Shf.input_order_partial",
    "Ksh.Shf.input_ends",
    "Ksh.Shf.unbuffered_exact",
    "Ksh.Shf.unbuffered_position",
    "Ksh.Shf.getse_loses",
    "Ksh.Shf.unget_after_flush"
   ],
   "note": "Holds until a read in the middle of a line fails or is interrupted (getse_loses: shf_getse drops the part of the line it has) and unless a byte is put back after a flush (unget_after_flush)."
  },
  {
   "property": "C45",
   "status": "proved",
   "theorems": [
    "Ksh.Shf.snprintf_bounded",
    "Ksh.Shf.smprintf_complete",
    "Ksh.Shf.swrite_safe",
    "Ksh.Shf.numbuf_fits"
   ],
   "note": "For output through shf_putc; dynamic_write_overruns shows that shf_write to a growing string would overrun, which the shell never calls."
  },
  {
   "property": "C46",
   "status": "proved",
   "theorems": [
    "Ksh.Num.fmtD_shape",
    "Ksh.Num.fmtD_width",
    "Ksh.Num.fmtD_fits",
    "Ksh.Num.fmtD_precision_counts_sign"
   ],
   "note": "Without a precision (the property does not mention one); fmtD_precision_counts_sign records how a precision differs from C's printf."
  },
  {
   "property": "C47",
   "status": "proved",
   "theorems": [
    "Ksh.Options.edit_modes_exclusive",
    "Ksh.Options.posix_brace",
    "Ksh.Options.dollar_minus",
    "Ksh.Options.dollar_minus_once",
    "Ksh.Options.letters_unique",
    "Ksh.Options.change_frame",
    "Ksh.Options.change_self",
    "Ksh.Options.parse_total",
    "Ksh.Options.no_internal_error"
   ],
   "note": "Every sequence of set commands, command lines, EDITOR/VISUAL/POSIXLY_CORRECT assignments and internal assignments."
  },
  {
   "property": "C48",
   "status": "proved",
   "theorems": [
    "Ksh.Tree.tcopy_faithful",
    "Ksh.Tree.tcopy_independent",
    "Ksh.Tree.rep_unique",
    "Ksh.Tree.rep_frame",
    "Ksh.Tree.wdcopy_word",
    "Ksh.Tree.wdscan_end",
    "Ksh.Tree.wdscan_close",
    "Ksh.Tree.tfree_spec",
    "Ksh.Tree.tfree_tcopy"
   ],
   "note": "For every tree in memory: the copy is the same tree, of new objects only, each allocation part of it; it stays the same when the old memory is freed or overwritten.  Words: every sequence of characters, quoting marks, substitutions and patterns.  tfree frees exactly the copy."
  },
  {
   "property": "C49",
   "status": "partial",
   "theorems": [
    "Ksh.Lex.printed_word_reread_partial",
    "Ksh.Lex.same_expansion",
    "Ksh.Lex.sample_good",
    "Ksh.Lex.backslash_in_quotes",
    "Ksh.Lex.newline_in_quotes",
    "Ksh.Lex.backquote_with_paren",
    "Ksh.Lex.brace_in_quotes",
    "Ksh.Lex.pattern_in_quotes",
    "Ksh.Lex.pattern_group",
    "Ksh.Lex.plus_paren"
   ],
   "note": "Proved for all words of characters, quoted text, parameters and array elements, ${x op word}, extended patterns, $(..) and $((..)) nested in any way: the word read back expands to the same in every environment of the Subst model. False for quoted backslashes and control characters inside quotes, unbalanced parentheses inside backquotes, an escaped closing brace or pattern character in ${..} inside double quotes, and a group (a|b) in a trim pattern (six witnesses)."
  },
  {
   "property": "C50",
   "status": "partial",
   "theorems": [
    "Ksh.Alias.yylex_terminates_partial",
    "Ksh.Alias.calls_terminate_partial",
    "Ksh.Alias.start_ok",
    "Ksh.Alias.again_spec",
    "Ksh.Alias.word_final",
    "Ksh.Alias.blank_next",
    "Ksh.Alias.not_looked_up",
    "Ksh.Alias.eof_loop",
    "Ksh.Alias.ctrl_loop"
   ],
   "note": "The full claim is false: an alias for itself that is the last word of an input without final newline (eof_loop) and an alias name and text ending in CR, VT or FF (ctrl_loop) are expanded for ever.  Proved for every set of aliases without such endings and every input whose last line is complete, for any sequence of yylex calls.  Words continued with backslash-newline and array subscripts are not modelled."
  },
  {
   "property": "C51",
   "status": "partial",
   "theorems": [
    "Ksh.Edit.comment_twice_partial",
    "Ksh.Edit.comments",
    "Ksh.Edit.uncomments",
    "Ksh.Edit.no_room",
    "Ksh.Edit.doComment_safe",
    "Ksh.Edit.uncommented_commented",
    "Ksh.Edit.comment_not_undone",
    "Ksh.Edit.comment_twice_off"
   ],
   "note": "Memory safety and what commenting and uncommenting do are proved for every buffer; reversibility for every line that does not begin with #.  It is false for lines that do (comment_not_undone, comment_twice_off)."
  },
  {
   "property": "C52",
   "status": "partial",
   "theorems": [
    "Ksh.Edit.longestPrefix_spec",
    "Ksh.Edit.longest_unique",
    "Ksh.Edit.basename_spec",
    "Ksh.Edit.parts_exist",
    "Ksh.Edit.basename_slashes",
    "Ksh.Edit.listing_common",
    "Ksh.Edit.listing_single",
    "Ksh.Edit.listing_same_dir_partial",
    "Ksh.Edit.listing_nested",
    "Ksh.Edit.listing_empty"
   ],
   "note": "The longest prefix and the base name are proved in full.  The listing omits only a common directory part; that it is the whole directory part is proved for one candidate and for candidates of one directory, and false in general (listing_nested, listing_empty)."
  },
  {
   "property": "C53",
   "status": "partial",
   "theorems": [
    "Ksh.Restricted.restricted_kept_partial",
    "Ksh.Restricted.restricted_events",
    "Ksh.Restricted.open_readonly",
    "Ksh.Restricted.open_read_same",
    "Ksh.Restricted.start_isSome",
    "Ksh.Restricted.escape",
    "Ksh.Restricted.readonly_profile",
    "Ksh.Options.set_keeps_cmdline",
    "Ksh.Findcom.restricted_no_slash"
   ],
   "note": "For every sequence of commands of a shell started restricted.  Directory, commands, redirections and the option: proved without exception (restricted_events).  PATH, ENV and SHELL: proved except for `typeset PATH[0]=...` in a function, which the check does not see; escape shows that it gives PATH another value, so the property does not hold as stated."
  },
  {
   "property": "C54",
   "status": "proved",
   "theorems": [
    "Ksh.Ulimit.set_shown",
    "Ksh.Ulimit.set_unlimited",
    "Ksh.Ulimit.restore",
    "Ksh.Ulimit.ulimit_set",
    "Ksh.Ulimit.ulimit_show",
    "Ksh.Ulimit.ulimit_roundtrip",
    "Ksh.Ulimit.ulimit_all",
    "Ksh.Ulimit.bare_value_refused",
    "Ksh.Ulimit.pass2_frame",
    "Ksh.Ulimit.ulimit_frame"
   ],
   "note": "Exactly the values whose scaled value is below 2^64 and is not RLIM_INFINITY are shown as given; the others wrap around silently (recorded). evaluate, getrlimit and setrlimit are parameters."
  },
  {
   "property": "C55",
   "status": "proved",
   "theorems": [
    "Ksh.Mail.mpset_spec",
    "Ksh.Mail.pct_first",
    "Ksh.Mail.pct_none",
    "Ksh.Mail.pct_escape",
    "Ksh.Mail.entry_escape"
   ],
   "note": "For every string, in posix mode and not: no read or write outside the copy, and the list read back from memory is the specified one in reverse order. In posix mode '?' is not a separator."
  },
  {
   "property": "C56",
   "status": "partial",
   "theorems": [
    "Ksh.Num.numeral_accepted",
    "Ksh.Num.bad_character_rejected_partial",
    "Ksh.Num.accepted_texts_partial",
    "Ksh.Num.non_numerals_accepted"
   ],
   "note": "Well-formed numerals are accepted with the right value. The converse is false for the code (non_numerals_accepted); rejection is proved for texts with a foreign character."
  },
  {
   "property": "C57",
   "status": "proved",
   "theorems": [
    "Ksh.Ifs.quoted_at_exact",
    "Ksh.Ifs.quoted_at_affixes",
    "Ksh.Ifs.quoted_at_none",
    "Ksh.Ifs.quoted_star_joined"
   ],
   "note": "In contexts where fields are split; assigned_at_null_ifs records that an assignment from \"$@\" under a null IFS keeps only the first parameter."
  },
  {
   "property": "C58",
   "status": "partial",
   "theorems": [
    "Ksh.Vars.failure_keeps",
    "Ksh.Vars.failed_typeset_leaks"
   ],
   "note": "Holds for every operation except typeset; typeset -i with a bad value leaves the address of the old string as the integer value (failed_typeset_leaks)."
  },
  {
   "property": "C59",
   "status": "partial",
   "theorems": [
    "Ksh.Jobs.percent_string",
    "Ksh.Jobs.percent_substring_partial",
    "Ksh.Jobs.one_job_ambiguous"
   ],
   "note": "%string is exact. %?string counts matching processes, not jobs, so a pipeline with two matching commands is ambiguous with itself (one_job_ambiguous)."
  },
  {
   "property": "C60",
   "status": "partial",
   "theorems": [
    "Ksh.Jobs.async_listed_partial",
    "Ksh.Jobs.bg_of_ended_job"
   ],
   "note": "Every history in which bg is not applied to the last background job after its end; there the code makes a removed record the job of $! (bg_of_ended_job)."
  },
  {
   "property": "C61",
   "status": "partial",
   "theorems": [
    "Ksh.Jobs.wait_returns_partial",
    "Ksh.Jobs.abandoned_pipeline_hangs"
   ],
   "note": "When every job of the table is started. A pipeline that is given up in the middle leaves a job that is never started; then no child event is handled any more and the next wait hangs (abandoned_pipeline_hangs)."
  },
  {
   "property": "C62",
   "status": "partial",
   "theorems": [
    "Ksh.Sig.inherited_partial",
    "Ksh.Sig.subshell_unignores",
    "Ksh.Sig.background_not_ignored",
    "Ksh.Sig.background_action"
   ],
   "note": "Every signal but SIGTSTP, SIGTTIN and SIGTTOU. For SIGINT and SIGQUIT without programs executed without a fork and without background commands while an action is set; there the code does not do what the property says (subshell_unignores, background_not_ignored, background_action)."
  },
  {
   "property": "C63",
   "status": "partial",
   "theorems": [
    "Ksh.History.history_safe_partial",
    "Ksh.History.shrink_fails"
   ],
   "note": "Every sequence of operations; a reallocarray that makes the array smaller must not fail (shrink_fails)."
  },
  {
   "property": "C64",
   "status": "proved",
   "theorems": [
    "Ksh.History.file_appended",
    "Ksh.History.file_rewritten",
    "Ksh.History.write_spec",
    "Ksh.History.load_spec"
   ],
   "note": "Errors of the system calls and NUL bytes in the file are not modelled."
  },
  {
   "property": "C65",
   "status": "proved",
   "theorems": [
    "Ksh.History.fc_replaces",
    "Ksh.History.cmdLines_spec"
   ],
   "note": "Without a history file, for an fc command that was saved as the last entry; ignored_fc_loses (C40) shows what happens when it was not."
  },
  {
   "property": "C66",
   "status": "partial",
   "theorems": [
    "Ksh.History.find_recent_partial",
    "Ksh.History.finds_itself"
   ],
   "note": "Every history with a command before the fc command; when there is none the search finds the fc command itself (finds_itself)."
  },
  {
   "property": "C67",
   "status": "partial",
   "theorems": [
    "Ksh.Shf.conv_signed",
    "Ksh.Shf.conv_unsigned",
    "Ksh.Shf.conv_string",
    "Ksh.Shf.format_literal",
    "Ksh.Shf.format_text",
    "Ksh.Shf.precision_differs",
    "Ksh.Shf.least_undefined"
   ],
   "note": "Without a precision for numbers (precision_differs) and except for the least long long (least_undefined) and %#x of 0."
  },
  {
   "property": "C68",
   "status": "partial",
   "theorems": [
    "Ksh.Options.options_restored_partial",
    "Ksh.Options.brace_not_restored"
   ],
   "note": "Holds if the command-line-only options have not changed and unless posix and braceexpand were both on and posix has been turned off (brace_not_restored). The words of the listing are taken as the arguments of set."
  },
  {
   "property": "C69",
   "status": "proved",
   "theorems": [
    "Ksh.Options.set_dashes",
    "Ksh.Options.set_operands",
    "Ksh.Options.set_minus",
    "Ksh.Options.set_plus",
    "Ksh.Options.set_named",
    "Ksh.Options.set_fails"
   ],
   "note": "-A and -s are modelled but not part of these theorems; qsort(3) is a parameter."
  },
  {
   "property": "C70",
   "status": "partial",
   "theorems": [
    "Ksh.Mail.released_partial",
    "Ksh.Mail.munset_spec",
    "Ksh.Mail.bad_free",
    "Ksh.Mail.leak"
   ],
   "note": "The full claim is false: munset_spec says exactly when the copy is released, lost, or an interior pointer is freed (first segment without a path, e.g. MAILPATH=:/x)."
  },
  {
   "property": "C71",
   "status": "proved",
   "theorems": [
    "Ksh.Syn.parser_is_grammar",
    "Ksh.Syn.parser_rejects",
    "Ksh.Syn.program_unique",
    "Ksh.Syn.yyparse_ends",
    "Ksh.Syn.string_read_whole",
    "Ksh.Syn.redirs_bounded"
   ],
   "note": "The parser model of syn.c on tokens: an iff with an inductive grammar, unambiguity, termination with fuel linear in the number of tokens. Words, aliases and here document texts are inputs of the model."
  },
  {
   "property": "C72",
   "status": "partial",
   "theorems": [
    "Ksh.Syn.printed_function_rereads_partial",
    "Ksh.Syn.redir_text",
    "Ksh.Syn.redirLex_lexed",
    "Ksh.Syn.if_redirections_lost",
    "Ksh.Syn.here_before_operator",
    "Ksh.Syn.reserved_comes_first",
    "Ksh.Syn.becomes_declaration",
    "Ksh.Syn.ceases_to_declare",
    "Ksh.Syn.quoted_name_printed_bare",
    "Ksh.Syn.long_variable_lost"
   ],
   "note": "The full claim is false: redirections of if statements are dropped, a here document followed by an operator is printed as a syntax error, and other cases listed in CleanAt; each is proved as a witness. For all other functions the round trip is proved on tokens (words by C49)."
  },
  {
   "property": "C73",
   "status": "partial",
   "theorems": [
    "Ksh.Time.timed_command_kept_partial",
    "Ksh.Time.saved_word",
    "Ksh.Time.timed_case_lost",
    "Ksh.Time.hook_spec",
    "Ksh.Time.reports_accumulate",
    "Ksh.Time.first_report_partial",
    "Ksh.Time.report_sticks"
   ],
   "note": "The full claim is false: the word of a timed case command is copied with str_save and cut at the first expansion (timed_case_lost: any later scan leaves the object); the flags set by one execution stay for all later ones (report_sticks, reports_accumulate says exactly how)."
  },
  {
   "property": "C74",
   "status": "partial",
   "theorems": [
    "Ksh.Func.functions_live_partial",
    "Ksh.Func.run_spec",
    "Ksh.Func.style_of_definition_partial",
    "Ksh.Func.style_sticks",
    "Ksh.Func.empty_name_released"
   ],
   "note": "For all names but the empty one: the entry of a running function with an empty name is released and then used (empty_name_released). A function defined as f() over a function f keeps the old style (style_sticks; style_of_definition_partial is exact). Functions to be loaded from FPATH are not modelled."
  },
  {
   "property": "C75",
   "status": "partial",
   "theorems": [
    "Ksh.Cd.wd_right",
    "Ksh.Cd.cd_spec",
    "Ksh.Cd.cd_back",
    "Ksh.Cd.cd_physical",
    "Ksh.Cd.cd_ends",
    "Ksh.Cd.cd_fails",
    "Ksh.Cd.pwd_right",
    "Ksh.Cd.physPath_spec",
    "Ksh.Cd.start_right_partial",
    "Ksh.Cd.start_wrong",
    "Ksh.Cd.ofFS_sound"
   ],
   "note": "Everything except the start is proved as stated; at the start a PWD with .. in it can be simplified to another directory (start_wrong), start_right_partial covers the others."
  },
  {
   "property": "C76",
   "status": "partial",
   "theorems": [
    "Ksh.Subst.exec",
    "Ksh.Subst.string_spec",
    "Ksh.Subst.string_plain",
    "Ksh.Subst.fields_spec_partial",
    "Ksh.Subst.world_spec",
    "Ksh.Subst.error_spec",
    "Ksh.Subst.unused_word",
    "Ksh.Subst.not_wide",
    "Ksh.Subst.debunk_text",
    "Ksh.Subst.assign_joined",
    "Ksh.Subst.trim_joined",
    "Ksh.Subst.assign_empty",
    "Ksh.Subst.quotes_lost",
    "Ksh.Subst.inner_quotes_split",
    "Ksh.Subst.wide_at",
    "Ksh.Subst.name_overread"
   ],
   "note": "Proved for all words against a recursive meaning (den): text, variables, what is evaluated, errors; fields if the text has none of the places where the code joins or loses fields (Harmless). The claim is false there: witnesses assign_joined, trim_joined, assign_empty, quotes_lost; quotes directly inside quotes are excluded by WF and inner_quotes_split shows why. SubType.base is a short, so = ? # % after 32768 characters work at a wrong place (wide), and a message with the name of a read-only variable is read beyond a truncated copy (over). $*, $@, arrays, tilde and braces are not in this model."
  },
  {
   "property": "C77",
   "status": "proved",
   "theorems": [
    "Ksh.Fname.glob_spec",
    "Ksh.Fname.glob_literal",
    "Ksh.Fname.globit_mem",
    "Ksh.Fname.globit_nodup",
    "Ksh.Fname.parse",
    "Ksh.Fname.names_text",
    "Ksh.Fname.Fs.consistent",
    "Ksh.Fname.Fs.isDir_iff"
   ],
   "note": "The matcher, has_globbing and qsort are parameters; the file system is any that does not change and is consistent (every directory graph is, Fs.consistent)."
  },
  {
   "property": "C78",
   "status": "partial",
   "theorems": [
    "Ksh.Here.heredoc_partial",
    "Ksh.Here.readhere_spec",
    "Ksh.Here.doc_unique",
    "Ksh.Here.gethere_spec",
    "Ksh.Here.gethere_none",
    "Ksh.Here.herein_spec",
    "Ksh.Here.means_plain",
    "Ksh.Here.delim_word",
    "Ksh.Here.delim_text",
    "Ksh.Here.ioeval_partial",
    "Ksh.Here.long_delim",
    "Ksh.Here.delim_newline"
   ],
   "note": "Violated: an unquoted delimiter of 64 or more characters counts as quoted, so the document is not expanded (long_delim); a delimiter with a newline in it can be missed (delim_newline).  Not described: ${, $( and backquotes inside an expanded document."
  },
  {
   "property": "C79",
   "status": "partial",
   "theorems": [
    "Ksh.Emacs.edit_safe_partial",
    "Ksh.Emacs.edit_safe_simple",
    "Ksh.Emacs.enter_partial",
    "Ksh.Emacs.pop_unfit_before",
    "Ksh.Emacs.pop_unfit_loses",
    "Ksh.Emacs.pop_refused",
    "Ksh.Emacs.mark_stale",
    "Ksh.Emacs.mark_stale_cursor",
    "Ksh.Emacs.mark_stale_kill",
    "Ksh.Emacs.search_long",
    "Ksh.Emacs.histword_empty",
    "Ksh.Emacs.complete_empty"
   ],
   "note": "False of the code: six defects, each shown by a concrete key sequence that leaves the buffer (yank that does not fit followed by yank-pop, refused yank-pop with a full ring, stale mark after showing a history line, incremental search in a history line longer than the buffer, prev-hist-word on an empty line, completion with one empty word). edit_safe_partial covers every command under the condition that the six commands are given only when what they trust is true; edit_safe_simple needs no condition for all other commands. The display (xbp, xlp, columns), key lookup, x_literal/quote and macros are not modelled; x_cf_glob is a parameter that returns a range of the line and words."
  },
  {
   "property": "C80",
   "status": "partial",
   "theorems": [
    "Ksh.Emacs.kill_yank_partial",
    "Ksh.Emacs.yank_pop_partial"
   ],
   "note": "Same model; partial because killRegion needs a mark inside the line and yank-pop needs room for each text (pop_unfit_loses, pop_refused show what happens otherwise)."
  },
  {
   "property": "C81",
   "status": "partial",
   "theorems": [
    "Ksh.Emacs.one_char",
    "Ksh.Emacs.forward_boundary",
    "Ksh.Emacs.arg_bytes",
    "Ksh.Emacs.transpose_splits"
   ],
   "note": "The claim is proved for the four commands without an argument. With an argument the code counts bytes (arg_bytes), and transpose-chars swaps bytes (transpose_splits)."
  },
  {
   "property": "C82",
   "status": "partial",
   "theorems": [
    "Ksh.Emacs.does_partial",
    "Ksh.Emacs.completes_partial",
    "Ksh.Emacs.searches_partial",
    "Ksh.Emacs.search_signed",
    "Ksh.Emacs.lastWord_spec",
    "Ksh.Emacs.comment_spec",
    "Ksh.Emacs.expand_spec"
   ],
   "note": "Line.cmd is the specification, written on the text left and right of the cursor. Same exclusions as C79. Searching backwards for a byte beyond ASCII never succeeds (search_signed), which the specification of that command records."
  },
  {
   "property": "C83",
   "status": "partial",
   "theorems": [
    "Ksh.Vi.vi_stays_inside_partial",
    "Ksh.Vi.vi_next_line",
    "Ksh.Vi.run_spec",
    "Ksh.Vi.hook_spec",
    "Ksh.Vi.reset_inv",
    "Ksh.Vi.politeRunB_ok",
    "Ksh.Vi.vi_append_outside",
    "Ksh.Vi.vi_replace_outside",
    "Ksh.Vi.vi_esc_outside",
    "Ksh.Vi.vi_cw_outside",
    "Ksh.Vi.vi_ibuf_overflow",
    "Ksh.Vi.vi_caret_outside"
   ],
   "note": "The full claim is false (six witnesses). Proved for all runs in which each key is one the editor can stand in its state (Polite): no line or insertion beginning with a continuation byte, room in the insert buffer, no erase before the line in R mode, no count before a search, no stale continuation byte behind the line for a, no cw on an empty line, no repeated completion unless bytes are characters."
  },
  {
   "property": "C84",
   "status": "partial",
   "theorems": [
    "Ksh.Vi.undo_restores_partial",
    "Ksh.Vi.undo_twice",
    "Ksh.Vi.undo_lost_by_esc"
   ],
   "note": "For every command that is undoable in the table of vi.c, followed by what is typed and u. The claim as a user reads it is false: ESC and other commands that change nothing also overwrite the undo buffer (undo_lost_by_esc)."
  },
  {
   "property": "C85",
   "status": "proved",
   "theorems": [
    "Ksh.Vi.delete_then_put"
   ],
   "note": "For lines that do not begin with a continuation byte (otherwise motions read outside, C83)."
  },
  {
   "property": "C86",
   "status": "partial",
   "theorems": [
    "Ksh.Vi.word_forward",
    "Ksh.Vi.big_word_forward",
    "Ksh.Vi.word_back",
    "Ksh.Vi.big_word_back",
    "Ksh.Vi.word_end_partial",
    "Ksh.Vi.big_word_end_partial",
    "Ksh.Vi.counted_e_skips",
    "Ksh.Vi.word_after_multibyte"
   ],
   "note": "For lines without high bytes; e and E without a count. The full claim is false: 2e is not e twice (counted_e_skips), and beside multibyte characters a word end is missed (word_after_multibyte)."
  },
  {
   "property": "C87",
   "status": "partial",
   "theorems": [
    "Ksh.Vi.browsing_keeps_line_partial",
    "Ksh.Vi.viCmds_held",
    "Ksh.Vi.goto_loses_line",
    "Ksh.Vi.search_loses_line",
    "Ksh.Vi.counted_search_loses_line",
    "Ksh.Vi.deletion_forgotten"
   ],
   "note": "For j, k, +, -, ^N, ^P and all motions. G with the number of the current line, searches and counted searches lose the line (witnesses)."
  },
  {
   "property": "C88",
   "status": "proved",
   "theorems": [
    "Ksh.Vi.macros_end",
    "Ksh.Vi.run_macros"
   ],
   "note": ""
  },
  {
   "property": "C89",
   "status": "proved",
   "theorems": [
    "Ksh.Vi.typed_line_is_read",
    "Ksh.Vi.plain_line_is_read",
    "Ksh.Vi.typed_in_place",
    "Ksh.Vi.foldl_plain"
   ],
   "note": ""
  },
  {
   "property": "C90",
   "status": "partial",
   "theorems": [
    "Ksh.Keys.reach_inv",
    "Ksh.Keys.bound_key_runs_partial",
    "Ksh.Keys.unbound_keys",
    "Ksh.Keys.character_inserted",
    "Ksh.Keys.shadowed_never_runs",
    "Ksh.Keys.defaults_run",
    "Ksh.Keys.bind_function_partial",
    "Ksh.Keys.bind_keeps_partial",
    "Ksh.Keys.refused_iff",
    "Ksh.Keys.set_arg_value",
    "Ksh.Keys.bind_shadows",
    "Ksh.Keys.rebind_loses",
    "Ksh.Keys.nul_not_bound"
   ],
   "note": "False of the code for a sequence that begins another binding: binding ^Tx takes ^T away (bind_shadows), binding ^T again then removes it and returns 0 (rebind_loses). Otherwise proved for every table a shell can have; typed sequences of bytes below 192 for bindings, UTF-8 for insertion."
  },
  {
   "property": "C91",
   "status": "partial",
   "theorems": [
    "Ksh.Keys.listing_restores_partial",
    "Ksh.Keys.shown_reads_back",
    "Ksh.Keys.caret_misread",
    "Ksh.Keys.equals_misread",
    "Ksh.Keys.set_arg_not_listed"
   ],
   "note": "Exactly the sequences without a ^ before a control character or one of ? .. ~ read back; sequences with = cannot be given to bind, and bindings to set-arg are not listed."
  },
  {
   "property": "C92",
   "status": "partial",
   "theorems": [
    "Ksh.Keys.session_safe_partial",
    "Ksh.Keys.encode_overflow",
    "Ksh.Keys.bind_overflows",
    "Ksh.Keys.list_overflows",
    "Ksh.Keys.longMap_bound",
    "Ksh.Keys.line_overflows",
    "Ksh.Keys.text_released",
    "Ksh.Keys.quote_released"
   ],
   "note": "False of the code (five witnesses). Proved for operands of at most 2048 bytes when bindings are not changed while a text is read or a quoted key is awaited. A trap that changes bindings inside a function that reads characters itself is not modelled."
  },
  {
   "property": "C93",
   "status": "partial",
   "theorems": [
    "Ksh.Keys.text_starts",
    "Ksh.Keys.text_as_typed_partial",
    "Ksh.Keys.text_byte_ends",
    "Ksh.Keys.text_byte_lost"
   ],
   "note": "For ASCII texts without keys of other texts. Bytes above 127 are read as negative numbers: 255 ends the input and others are lost (two witnesses)."
  },
  {
   "property": "C94",
   "status": "partial",
   "theorems": [
    "Ksh.Prompt.escape_shows",
    "Ksh.Prompt.date_shown",
    "Ksh.Prompt.octal_shown",
    "Ksh.Prompt.plain_shown",
    "Ksh.Prompt.bang_shown",
    "Ksh.Prompt.cwd_shown",
    "Ksh.Prompt.special_spec",
    "Ksh.Prompt.dollar_shown",
    "Ksh.Prompt.truncation_partial",
    "Ksh.Prompt.prompt_safe_partial",
    "Ksh.Prompt.truncation_breaks",
    "Ksh.Prompt.quoted_backslash",
    "Ksh.Prompt.prompt_undefined"
   ],
   "note": "False of the code: truncation takes uncounted escape text (truncation_breaks), a quoted backslash before $ is taken for an escape (quoted_backslash), \\D at the end reads behind the prompt and \\l without a terminal uses an uninitialised buffer (prompt_undefined). Proved without \\[, and without these two escapes."
  },
  {
   "property": "C95",
   "status": "partial",
   "theorems": [
    "Ksh.Prompt.last_line_partial",
    "Ksh.Prompt.newline_counted"
   ],
   "note": "False of the code: the line break itself is counted, and a tab counts one column too many (newline_counted). Proved for prompts without tabs, carriage returns and \\[: the rest is exactly the last line, and the length is its columns, plus one after a line break. Prompts with a delimiter character are modelled but not covered by the theorem."
  },
  {
   "property": "C96",
   "status": "proved",
   "theorems": [
    "Ksh.Menu.printColumns_shown",
    "Ksh.Menu.menu_shown",
    "Ksh.Menu.list_shown",
    "Ksh.Menu.signals_shown",
    "Ksh.Menu.options_shown"
   ],
   "note": "Widths are bytes. kill -l assumes that signals without a name have numbers not above NSIG."
  },
  {
   "property": "C97",
   "status": "proved",
   "theorems": [
    "Ksh.Menu.strtonum_iff",
    "Ksh.Menu.choose_shown",
    "Ksh.Menu.choose_other",
    "Ksh.Menu.select_runs",
    "Ksh.Menu.select_menus"
   ],
   "note": "The values of REPLY come from read, which is modelled in Sh/Read. Fewer than 2^31 words."
  },
  {
   "property": "C98",
   "status": "partial",
   "theorems": [
    "Ksh.Tilde.word_expanded_partial",
    "Ksh.Tilde.assignment_expanded_partial",
    "Ksh.Tilde.expands_exists",
    "Ksh.Tilde.expands_unique",
    "Ksh.Tilde.tilde_directory",
    "Ksh.Tilde.tilde_cached",
    "Ksh.Tilde.equals_in_word",
    "Ksh.Tilde.substitution_before_tilde",
    "Ksh.Tilde.equals_in_subscript",
    "Ksh.Tilde.empty_home"
   ],
   "note": "False of the code for a=~ in ordinary words (equals_in_word), for tildes directly after unquoted substitutions (substitution_before_tilde), for assignments with = in the subscript (equals_in_subscript) and for empty directories (empty_home). Proved for all other words without $*, $@ and ${x op word}. The protection of the directory from pattern matching is not modelled."
  },
  {
   "property": "C99",
   "status": "partial",
   "theorems": [
    "Ksh.Getopts.while_getopts_partial",
    "Ksh.Getopts.while_getopts_posix",
    "Ksh.Getopts.never_out_of_bounds",
    "Ksh.Getopts.function_keeps_position",
    "Ksh.Getopts.plus_missing",
    "Ksh.Getopts.non_ascii_option",
    "Ksh.Getopts.optind_after_unknown",
    "Ksh.Getopts.options_after_end"
   ],
   "note": "False of the code: name is +: for a missing argument of a + option (plus_missing); an option byte outside ASCII ends the loop (non_ascii_option). The loop is proved for ASCII option strings without the first case; safety and the independence of functions without assumptions. Two oddities the manual does not forbid are recorded: OPTIND does not advance for unknown options, and options are taken out of the operands when getopts is called again after --."
  }
 ]
}