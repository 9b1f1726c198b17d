import json
P=[]
def p(title, statement, quantifier, why, anchors):
    P.append(dict(id="C%02d"%(len(P)+1), title=title, statement=statement, quantifier=quantifier, why_tests_cant=why, anchors=anchors))

p("Name tables behave like finite maps",
  "Looking up a name in any of the shell's name tables (variables, functions, aliases, tracked commands, builtins, home directories) finds exactly the entry most recently entered under that name and not deleted since; entering, deleting or growing the table never loses, duplicates or confuses entries with other names, and a lookup always terminates.",
  "every history of enter/delete/lookup operations on every set of names, including colliding hashes and any number of growths",
  "collisions, wrap-around of the probe sequence and growth at exactly the fill limit depend on the whole operation history; tests only sample a few names",
  ["table.c:hash","table.c:texpand","table.c:ktsearch","table.c:ktenter","table.h:ktdelete"])
p("Listing a table reports every live entry once, in order",
  "Commands that list a name table (alias, typeset, functions) report every defined name exactly once and in non-decreasing byte order, whatever the table's internal layout.",
  "every reachable table state",
  "the walk interacts with holes, deleted entries and the table size; tests cover a handful of layouts",
  ["table.c:ktwalk","table.c:ktnext","table.c:ktsort","misc.c:qsortp"])
p("Region allocator frees each block exactly once",
  "Releasing a region frees every block allocated (or resized) in it and not freed before, frees no block of another region, and never frees a block twice; resizing keeps the block in its region; an allocation request whose byte count would overflow is refused instead of returning a short block.",
  "every interleaving of alloc/resize/free/release over any number of regions, every element count and size",
  "double frees and leaks depend on unbounded histories; overflow needs request sizes tests cannot allocate",
  ["alloc.c:alloc","alloc.c:aresize","alloc.c:areallocarray","alloc.c:afree","alloc.c:afreeall"])
p("cd -L path simplification preserves the lexical meaning and is a normal form",
  "Simplifying a path yields a path with no empty, '.' or (except leading in a relative path) '..' component, naming lexically the same place; simplification is idempotent, never lengthens a non-empty path, and keeps absolute paths absolute and relative paths relative.",
  "every path string",
  "paths are unbounded strings; interactions of '..' runs, repeated slashes and the root cannot be enumerated",
  ["path.c:simplify_path"])
p("CDPATH search order",
  "cd tries the candidate directories in CDPATH order, one candidate per CDPATH element, uses the operand unchanged (no CDPATH) when it is absolute or starts with './' or '../', and stops after the last element.",
  "every CDPATH string, working directory and operand",
  "the loop carries state in a pointer across calls; any number of elements, empty elements and trailing colons",
  ["path.c:make_path","c_ksh.c:c_cd"])
p("Integer values print and read back unchanged in every base",
  "The text the shell prints for an integer variable in any base from 2 to 36, read back as a number, yields the same value and base.",
  "every 64-bit value and every base 2..36",
  "2^64 values times 35 bases cannot be sampled meaningfully; the extremes (most negative value, 64-digit base 2 texts) are where code breaks",
  ["var.c:str_val","var.c:getint","misc.c:u64ton"])
p("Plain integer operands are accepted exactly when in range",
  "Builtins that take a plain integer operand accept a string exactly when it is optional spaces, an optional sign, decimal digits and the value fits the C int range, and then use exactly that value.",
  "every operand string",
  "unbounded digit strings and overflow positions",
  ["misc.c:getn","misc.c:bi_getn"])
p("Justified variables have exactly the declared width",
  "A value assigned to a variable with a field width (typeset -L/-R/-Z) is stored as exactly that many characters; right justification keeps the tail of the trimmed value, left justification keeps its head, zero fill pads with zeros, and case attributes change only letter case.",
  "every value string, width and attribute combination",
  "the padding/truncation arithmetic has boundary cases at every length",
  ["var.c:formatstr"])
p("Arithmetic expressions follow C precedence and associativity",
  "Evaluating the text of an arithmetic expression yields the value that C's grammar assigns to it (precedence, left associativity, unary operators, grouping, assignment operators, comma), with 64-bit wrap-around where C defines it and an error where it does not parse.",
  "every expression tree, of any depth, and every variable state",
  "the recursive evaluator mixes parsing and evaluation; only unboundedly deep nesting exercises the interaction of levels",
  ["expr.c:evalexpr","expr.c:token","expr.c:opinfo"])
p("Unevaluated arithmetic operands have no effect",
  "The operand of &&, || and ?: that C semantics does not evaluate never changes a variable and never raises a division error.",
  "every skipped subexpression and every variable state",
  "side effects may hide at any depth of the skipped operand",
  ["expr.c:evalexpr","expr.c:do_ppmm","expr.c:assign_check"])
p("Division never traps",
  "Division and remainder by zero always raise an expression error, and the most negative value divided by -1 yields the most negative value with remainder 0; no evaluated division can raise a machine trap.",
  "every pair of 64-bit operands",
  "2^128 operand pairs; the trap needs one specific pair",
  ["expr.c:evalexpr"])
p("Postfix increment and decrement yield the old value",
  "x++ and x-- yield the value of x before the update and leave x one larger or smaller, for every 64-bit value of x.",
  "every 64-bit value of the variable",
  "failures appear only outside the 32-bit range, which tests rarely use",
  ["expr.c:do_ppmm"])
p("Read-only variables cannot be changed",
  "After a variable has been made read-only, no later sequence of assignments, attribute changes, arithmetic updates, read, for-loop bindings or unset changes its value or removes it in its scope.",
  "every sequence of variable operations",
  "histories are unbounded and the check is spread over several functions",
  ["var.c:setstr","var.c:setint","var.c:typeset","expr.c:assign_check","c_sh.c:c_unset","c_sh.c:c_read"])
p("Pattern matching means what the pattern language says",
  "A string matches a pattern exactly when it belongs to the language the pattern denotes: literals, ?, *, bracket expressions and the extended groups *(..) +(..) ?(..) @(..) !(..), nested to any depth.",
  "every string and every well-formed pattern",
  "backtracking over nested groups has unboundedly many paths",
  ["misc.c:gmatch","misc.c:do_gmatch","misc.c:pat_scan"])
p("Bracket expressions select the right characters",
  "A bracket expression matches exactly the characters listed, in the listed ranges, or in the named classes, complemented when it begins with '!'; an unterminated bracket is an ordinary character.",
  "every bracket expression and character",
  "positions of ']', '-', '!' and nested classes combine freely",
  ["misc.c:cclass","misc.c:posix_cclass","charclass.h"])
p("A word without pattern characters is never treated as a pattern",
  "If the shell decides that a word contains no pattern then matching it as a pattern is the same as string equality, so quoting or skipping the directory scan loses nothing.",
  "every word",
  "decision and matcher are separate scanners that must agree on every input",
  ["misc.c:has_globbing","misc.c:gmatch"])
p("Trimming removes the shortest/longest matching prefix/suffix",
  "${v#p} ${v##p} ${v%p} ${v%%p} remove, respectively, the shortest/longest prefix and shortest/longest suffix of the value that matches p, and leave the value unchanged when none matches.",
  "every value and pattern",
  "extremality quantifies over all prefixes/suffixes",
  ["eval.c:trimsub","misc.c:gmatch"])
p("Field splitting follows the IFS rules",
  "Splitting an unquoted expansion by IFS yields exactly the fields POSIX prescribes: runs of IFS white space delimit, each other IFS character together with adjacent IFS white space delimits once, leading IFS white space is ignored, quoted parts are never split.",
  "every expansion result and every IFS value",
  "an automaton over unbounded strings with a three-way character class",
  ["eval.c:expand","sh.h:C_IFSWS"])
p("Quoted values survive re-input",
  "The quoted text that set, alias, trap, typeset and export print for a value, when read back by the shell as one word, expands to exactly that value.",
  "every value string",
  "every byte sequence, in particular runs of quotes at every position",
  ["misc.c:print_value_quoted","lex.c:yylex"])
p("Brace expansion enumerates the alternatives in order",
  "A word with balanced brace groups expands to the cartesian combination of the alternatives, left to right; braces without a top-level comma or without a partner stay literal; the original characters are otherwise preserved.",
  "every word with arbitrarily nested braces",
  "nesting depth and counts are unbounded",
  ["eval.c:alt_expand"])
p("Command substitution removes exactly the trailing newlines",
  "The value of a command substitution is the command's output with all trailing newlines removed and NUL bytes dropped, and nothing else changed.",
  "every output byte string",
  "newline runs at arbitrary places and buffering boundaries",
  ["eval.c:expand"])
p("Option parsing follows the POSIX utility conventions",
  "Scanning an argument vector with an option string returns the same sequence of options, option arguments and operands whether options are clustered or separate, stops at '--', a lone '-' or the first operand, and reports unknown options and missing arguments.",
  "every argument vector and option string",
  "cursor state spans several calls and words",
  ["misc.c:ksh_getopt","c_ksh.c:c_getopts"])
p("test and [ obey the POSIX argument-count rules",
  "With zero to four arguments test and [ give the result POSIX prescribes; with more, -o binds weaker than -a, which binds weaker than !, parentheses group; malformed expressions give status 2.",
  "every argument vector",
  "operands may look like operators; the special cases and the general parser must agree on all vectors",
  ["c_test.c:c_test","c_test.c:test_oexpr","c_test.c:test_aexpr","c_test.c:test_nexpr","c_test.c:test_primary"])
p("[[ ]] does not evaluate skipped operands",
  "In [[ a && b ]] and [[ a || b ]] the operand whose value is not needed is parsed but its words are not expanded, and the result is the boolean value of the expression.",
  "every conditional expression tree",
  "the evaluation flag is threaded through recursive parsing",
  ["c_test.c:test_oexpr","c_test.c:test_aexpr","exec.c:dbteste_getopnd"])
p("echo and print output",
  "print -r -- prints its arguments verbatim separated by single spaces and followed by one newline; without -r each backslash sequence is replaced by exactly the character it denotes; a string without backslashes is never altered.",
  "every argument vector",
  "escape decoding over unbounded strings",
  ["c_ksh.c:c_print"])
p("read assigns the fields of exactly one line",
  "read consumes input up to and including the first (unescaped) newline and nothing beyond, assigns the fields to the named variables in order with the remainder to the last one, sets left-over variables to the empty string and returns 1 exactly when end of file was hit.",
  "every input stream, IFS and variable list",
  "character-level state machine over unbounded input",
  ["c_sh.c:c_read"])
p("shift removes exactly the requested number of parameters",
  "shift n with 0 <= n <= $# drops the first n positional parameters and keeps the others in order and $0; otherwise it fails and changes nothing.",
  "every parameter list and every 64-bit count",
  "counts beyond the C int range are never tested",
  ["c_sh.c:c_shift"])
p("umask symbolic and octal forms agree",
  "The mask printed by umask -S (or umask) given back to umask restores the same mask, symbolic clauses act only on the named classes, and no operand makes the builtin read outside its argument.",
  "every mask and every operand string",
  "512 masks times unbounded clause lists; out-of-bounds reads do not show in tests",
  ["c_sh.c:c_umask"])
p("AND-OR lists evaluate left to right with equal precedence",
  "In an and-or list a command after && runs exactly when the status so far is zero and a command after || exactly when it is non-zero; the status of the list is that of the last command run, and ! inverts it.",
  "every and-or list and every outcome of its commands",
  "exponentially many outcome combinations",
  ["exec.c:execute","syn.c:andor"])
p("errexit fires exactly outside tested contexts",
  "With set -e, a failing command terminates the shell exactly when it is not part of a condition (if/while/until, the left side of && or ||, after !); the ERR trap is triggered in exactly the same situations.",
  "every command tree and every outcome assignment",
  "the exemption flag flows through arbitrarily nested trees",
  ["exec.c:execute"])
p("break n and continue n leave exactly the requested loops",
  "break n (continue n) issued inside loops terminates min(n, depth) enclosing loops (resumes the outermost of them), never crosses a function or dot-script boundary, and loops outside are unaffected.",
  "every nesting of loops and every n",
  "depth and n are unbounded",
  ["c_sh.c:c_brkcont","exec.c:execute","main.c:unwind"])
p("Redirections are undone after each command",
  "After a command with any list of redirections finishes (also when a later redirection fails), every user-visible file descriptor refers to the same open file as before, and no saved descriptor leaks.",
  "every redirection list and every outcome of the system calls involved",
  "each redirection interacts with earlier ones through the saved-descriptor table",
  ["exec.c:iosetup","exec.c:execute","io.c:savefd","io.c:restfd","main.c:quitenv"])
p("Function-local variables are invisible outside the call",
  "A variable declared local in a function shadows the outer one during the call only; after return the outer variable has the value it had, apart from assignments made to it by name.",
  "every nesting of calls and every sequence of declarations and assignments",
  "scoping depends on the whole call history",
  ["var.c:newblock","var.c:popblock","var.c:global","var.c:local"])
p("Environment passed to commands",
  "The environment of an executed command contains exactly one NAME=value string for each exported visible variable, with the innermost value, and nothing else.",
  "every scope stack and every set of variables and attributes",
  "shadowing across an unbounded stack of scopes",
  ["var.c:makenv"])
p("Command lookup order",
  "A command name resolves to a special builtin before a function, a function before another builtin, a builtin before PATH; a name with a slash is used as a path directly; PATH is searched left to right and the first executable regular file wins.",
  "every name, every set of definitions, every PATH and file system state",
  "combinations of definitions and PATH layouts are unbounded",
  ["exec.c:findcom","exec.c:search","exec.c:search_access"])
p("Pipeline exit status",
  "The exit status of a pipeline is that of its last process, or with pipefail that of the last process that failed (0 if none); a process killed by a signal counts as 128 plus the signal number; the job is complete only when no process is running.",
  "every number of processes, every order of child events",
  "the order of child status changes is scheduler dependent",
  ["jobs.c:check_job","jobs.c:j_waitj","jobs.c:j_sigchld"])
p("Job numbers are unique and minimal",
  "Every listed job has a distinct positive job number, a new job receives the smallest unused one, and %n, %+ and %- denote at most one job.",
  "every history of job creation, state changes and removal",
  "histories are unbounded",
  ["jobs.c:new_job","jobs.c:put_job","jobs.c:remove_job","jobs.c:j_lookup"])
p("Each caught signal runs its trap once",
  "For every signal received with a trap action set the action runs once at the next safe point, pending flags are cleared, ignored signals run nothing, the exit status seen by the following command is unchanged by a trap action, and EXIT/ERR actions do not recurse.",
  "every order of signal arrival relative to shell steps",
  "asynchronous arrival orders cannot be enumerated by tests",
  ["trap.c:trapsig","trap.c:runtraps","trap.c:runtrap","trap.c:settrap"])
p("Signals ignored at startup stay ignored in scripts",
  "In a non-interactive shell a signal that was ignored on entry stays ignored whatever trap commands are executed, and executed commands inherit it ignored.",
  "every sequence of trap commands",
  "state is spread over flag bits changed by several functions",
  ["trap.c:setsig","trap.c:settrap","trap.c:restoresigs"])
p("History keeps the most recent commands",
  "The in-memory history holds exactly the last min(n, HISTSIZE) saved commands in order, for any interleaving of saves and HISTSIZE changes; the number shown for a command identifies it.",
  "every sequence of saves and resizes",
  "ring shifting at exactly the limit and resizing in both directions",
  ["history.c:histsave","history.c:sethistsize","history.c:hist_get"])
p("History file encoding is reversible and line-safe",
  "A saved command occupies exactly one line of the history file and decoding that line gives back the command byte for byte.",
  "every command byte string",
  "all byte sequences including newlines, backslashes and bytes above 127",
  ["vis.c:vis","vis.c:strvis","history.c:histsave","history.c:history_load"])
p("fc -s substitution",
  "fc -s old=new replaces the first occurrence (with -g every non-overlapping occurrence, left to right) of old by new and leaves all other text unchanged; it fails exactly when old does not occur.",
  "every command line, pattern and replacement",
  "occurrence positions and overlaps are unbounded",
  ["history.c:hist_replace"])
p("Buffered output reaches the file in order and complete",
  "The bytes that reach a file descriptor are exactly the bytes written by the program, in order, for any mix of single-character and block writes, flushes, partial writes and interrupted system calls; after an error what was written is a prefix of it.",
  "every sequence of writes and every behaviour of write(2)",
  "partial writes and buffer boundaries combine without bound",
  ["shf.c:shf_putchar","shf.c:shf_write","shf.c:shf_emptybuf","shf.c:shf_flush"])
p("Buffered input can be handed back",
  "Reading lines or characters through the shell's input buffer returns the bytes of the file in order, and flushing repositions the file so that the next reader starts exactly after the last byte consumed.",
  "every sequence of reads and flushes and every chunking by read(2)",
  "chunk boundaries and line boundaries interact",
  ["shf.c:shf_getchar","shf.c:shf_getse","shf.c:shf_fillbuf","shf.c:shf_flush"])
p("Bounded formatting never overruns",
  "Formatting into a fixed buffer of n bytes writes at most n bytes, always NUL-terminates, and yields the prefix of the full output.",
  "every format output and buffer size",
  "off-by-one only shows at exactly full buffers",
  ["shf.c:shf_snprintf","shf.c:shf_sopen","shf.c:shf_sclose","shf.c:shf_putchar"])
p("Numbers print in canonical decimal",
  "%d prints the canonical decimal numeral of its argument, and field width, zero and left-justify flags pad it to exactly the requested width.",
  "every 64-bit argument, width and flag combination",
  "2^64 values",
  ["shf.c:shf_vfprintf"])
p("Edit-mode options are mutually exclusive",
  "At any time at most one of the emacs, gmacs and vi options is on; turning posix on turns brace expansion off; $- lists exactly the single-letter options that are on.",
  "every sequence of set -o / set +o commands",
  "histories of option changes",
  ["misc.c:change_flag","misc.c:getoptions","misc.c:option"])
p("Copied function bodies are faithful",
  "The copy of a function body kept when a function is defined is structurally identical to the parsed one, and word copies keep every character and quoting mark.",
  "every command tree and word",
  "trees are unbounded and words carry nested substitutions",
  ["tree.c:tcopy","tree.c:wdcopy","tree.c:wdscan","tree.c:iocopy"])
p("Printed function definitions re-read as the same words",
  "A word printed by typeset -f, read back by the shell, denotes the same word (same literal text and quoting).",
  "every word",
  "quoting contexts nest without bound",
  ["tree.c:tputS","lex.c:yylex"])
p("Alias expansion terminates",
  "Expanding aliases at the start of a command always terminates, also for self-referential and mutually recursive aliases.",
  "every set of alias definitions and every input",
  "cycles of any length",
  ["lex.c:yylex"])
p("Commenting a line in the editor is reversible",
  "The editor's comment command applied twice gives back the original line, for multi-line buffers too, and never writes beyond the buffer.",
  "every edit buffer",
  "newline positions are arbitrary",
  ["edit.c:x_do_comment"])
p("Completion prefix and base name",
  "The text inserted by completion is the longest prefix common to all candidates, and the directory part omitted from candidate listings is exactly the part up to the last non-trailing slash.",
  "every candidate list and path",
  "longest/maximal claims quantify over all prefixes",
  ["edit.c:x_longest_prefix","edit.c:x_basename"])
p("Restricted shell restrictions cannot be lifted",
  "Once a shell is restricted, no sequence of builtin commands changes the working directory, assigns PATH, ENV or SHELL, runs a command by a name containing a slash, opens a file for writing by redirection, or turns the restriction off.",
  "every sequence of commands",
  "an escape needs only one unguarded sequence",
  ["c_ksh.c:c_cd","exec.c:comexec","exec.c:iosetup","misc.c:parse_args","var.c:typeset"])
p("Resource limits scale without loss",
  "A limit set with ulimit and then displayed shows the number that was set, for every value that the unit scaling can represent.",
  "every non-negative value and every resource",
  "overflow of the scaled value only occurs near 2^64",
  ["c_ulimit.c:set_ulimit","c_ulimit.c:print_ulimit"])
p("MAILPATH parsing",
  "MAILPATH is split at colons into mailboxes; each mailbox's message is the text after the first unescaped '%' (or '?'), with \\% standing for a literal percent; no mailbox is lost.",
  "every MAILPATH string",
  "in-place string editing over unbounded strings",
  ["mail.c:mpset"])
p("Integer conversion accepts exactly the well-formed numerals",
  "A string is accepted as an integer value exactly when it is an optional minus sign, an optional base prefix (2..36, decimal, followed by #) and digits of that base, and the value is what the numeral denotes; everything else is rejected.",
  "every string",
  "the accept set is an infinite language",
  ["var.c:getint"])
p("Quoted positional parameters are passed on unchanged",
  "\"$@\" expands to exactly the list of positional parameters, each as one field with its text unchanged (also empty ones and ones containing IFS characters), text written around it inside the quotes goes to the first and the last; with no parameters it vanishes; \"$*\" is one field, the parameters joined by the first character of IFS.",
  "every parameter list and every IFS value, also null",
  "parameter lists and IFS values are unbounded; the emptiness cases interact with IFS",
  ["eval.c:expand","eval.c:varsub"])
p("A failed assignment keeps the old value","If an assignment, arithmetic update, declaration or unset fails (read-only variable, bad integer expression), every element of the variable keeps the value it had.","every variable, array contents, attribute set and failing operation","failure paths combine attributes, array elements and evaluation errors in ways tests rarely visit",["var.c:setstr","var.c:setint_v","var.c:typeset"])
p("Jobs named by command","%string denotes the job whose command begins with the string if there is exactly one, %?string the job with a command that contains it if there is exactly one; otherwise the name is refused as unknown or ambiguous.","every job table and every string","tables, commands and strings are unbounded",["jobs.c:j_lookup"])
p("No job record is used after its removal","The job that $! refers to is in the job table as long as there is one, and no job is removed twice.","every history of forks, child events, waits, fg, bg, jobs and notifications","use of a released record depends on rare orders of events",["jobs.c:remove_job","jobs.c:j_set_async","jobs.c:j_resume"])
p("wait returns once the processes have ended","When the processes of a job that is waited for have all ended and their ends are reported, the wait for it returns.","every history and every order of child events","a missed wakeup depends on the order of fork and SIGCHLD",["jobs.c:j_waitj","jobs.c:j_sigchld","jobs.c:exchild"])
p("Programs find a signal ignored only if the script or & asked for it",
  "In a shell that is not interactive, an executed program finds a signal that had its default action when the shell started ignored exactly if the last trap command for it was trap '', or if it is SIGINT or SIGQUIT and the program belongs to a background command without job control; otherwise it finds the default action.",
  "every sequence of trap commands, subshells, background commands, set -m and print -p, for every signal",
  "the disposition at execve is put together from seven flags that several functions change at different times",
  ["trap.c:setsig","trap.c:setexecsig","trap.c:restoresigs","trap.c:cleartraps","jobs.c:exchild","exec.c:comexec"])
p("History storage is memory-safe",
  "No sequence of commands, HISTSIZE, HISTCONTROL and HISTFILE changes, uses of fc and changes of the history file by other processes makes the shell access its history array out of bounds, read a freed entry or free an entry twice, and no entry is leaked.",
  "every sequence of operations, every command text and every file content",
  "the array is shifted, resized and reset by different functions; the faults depend on the exact fill state",
  ["history.c:histsave","history.c:sethistsize","history.c:histbackup","history.c:histreset","history.c:history_load"])
p("The history file keeps the commands of all shells",
  "A saved command is appended to the history file as one line after all that other shells have written; their commands are in this shell's history from then on; when the file has grown by a quarter over HISTSIZE lines it is rewritten with the entries of the history.",
  "every file content, history state and command",
  "depends on the interleaving of several shells and on line counts",
  ["history.c:histsave","history.c:history_load","history.c:history_write"])
p("A re-executed command replaces the fc command in the history",
  "After fc -s or fc -e the history holds the lines that were executed in the place of the fc command, and nothing else has changed.",
  "every history and every edited text",
  "depends on the fill state of the history and the lines of the text",
  ["history.c:hist_execute","history.c:histbackup"])
p("fc string finds the most recent matching command",
  "fc with a string finds the most recent command before the fc command itself that begins with the string, or contains it after a ?, and fails exactly if there is none.",
  "every history and every string",
  "all histories and strings",
  ["history.c:findhist","history.c:hist_get"])
p("Formatting agrees with printf(3)","Each conversion of the shell's own formatter prints the numeral of its argument in the requested base with sign, base prefix, zero or blank padding to the width as printf(3) does; strings are cut to the precision and padded; text without a percent sign is copied.","every flag combination, width, length modifier and argument in range","combinations of flags, widths and values cannot be enumerated",["shf.c:shf_vfprintf"])
p("set +o restores the options","The command printed by set +o, when executed later, gives every named option the value it had when it was printed and leaves the positional parameters alone.","every saved and every later combination of options","pairs of option states are too many to enumerate",["misc.c:printoptions","misc.c:parse_args","misc.c:change_flag"])
p("Positional parameters set by set","set -- args makes the positional parameters exactly args, whatever they look like; operands that do not look like options do the same without --; a lone - is dropped; options alone and failing commands leave the positional parameters alone.","every argument list and option state","argument lists are unbounded",["c_sh.c:c_set","misc.c:parse_args"])
p("Memory of MAILPATH is released exactly once","When MAILPATH is assigned again, the shell releases exactly the allocation that held the copy of the old value: it neither loses it nor hands the allocator a pointer that is not an allocation.","every MAILPATH string","depends on how the pointers into the copy were arranged; heap corruption is silent",["mail.c:munset","mail.c:mpset","alloc.c:afree"])
p("The parser accepts exactly one grammar and reads every input in one way",
  "For every sequence of tokens, the parser answers a tree if and only if the sequence is a program of the shell grammar (lists, and-or lists, pipelines, simple and compound commands, functions, [[ ]], for, select, while, until, case, if), the tree is the one the grammar gives it, everything else is a syntax error, no sequence has two readings, the parser always ends, a string is read to its end, and no command gets more redirections than the fixed array holds.",
  "all token sequences, both modes of reading (line by line, whole string), all settings of the posix and keyword options, all sets of test operators",
  "The grammar is infinitely branching: reserved words depend on position, flags are passed down through fifteen mutually recursive functions, and tokens are handed back with the meaning they had; tests cover a few shapes.",
  ["syn.c:58-600", "syn.c:789-880", "lex.c:763-851"])
p("A printed function is read back as the same function",
"What typeset -f prints for a function can be read again by the shell and defines the same function: the commands, their arguments, assignments, redirections and structure are all kept.",
"all programs the parser accepts, all functions defined anywhere in them, reading as a string or line by line",
"The set of functions is infinite and the nesting of compound commands, redirections, here documents and operators is arbitrary; a test prints a few functions. The printer and the parser are separate code that agree only by convention.",
["tree.c:26-240","c_ksh.c:705-760","syn.c:59-600","lex.c:730-767"])
p("time reports each run as it was asked to and leaves the timed command alone",
"A command prefixed with time is executed exactly as without it, and the format of each report depends only on the options given in that execution.",
"all commands in memory, all lists of words of every execution of the same command, any number of executions",
"The parser replaces a string inside the tree of the command, which means different things for different commands, and the flags live in the tree, so the effect shows only in later executions. A test times a simple command once.",
["syn.c:366-379","c_sh.c:728-825","exec.c:93-95"])
p("Functions may replace and remove functions while they are executed",
"A function can define, redefine and remove any function, itself and its callers included. Every call executes the body that the name had when it was called to its end, later calls execute the newest definition with its style, no memory is used after its release and bodies no longer needed are released.",
"all sequences of definitions, removals, calls and returns, of any length and recursion depth, for all names, with the hash table as implemented",
"The lifetime depends on the interleaving of definitions, removals, recursion and growth of the table; an error shows as use of released memory, which a test notices only by chance.",
["exec.c:562-640","exec.c:744-805","table.c:52-156"])
p("After cd, PWD names the directory the shell is in",
"If the shell knows the name of its current directory then, whatever sequence of cd commands (logical or physical, with any operands, HOME and CDPATH, succeeding or failing) and assignments to PWD and OLDPWD follows, the name it has afterwards (and puts into PWD at each successful cd) is absolute and leads to the directory the shell is really in, through symbolic links; in physical mode it contains no symbolic links. cd - goes back to the directory before, in logical mode under the same name. cd fails only if every candidate directory refuses. pwd prints a name of the current directory. At the start the name taken from PWD is right.",
"all file systems with symbolic links (not changing), all places, all chdir behaviours that go where the path leads or fail, all operands, modes, CDPATH and HOME values, all sequences of commands",
"The name and the place are kept separately, by the shell and by the kernel; they agree only through an invariant over all sequences and all layouts of links, of which tests see a handful.",
["c_ksh.c:15-160","c_ksh.c:163-201","path.c:37-106","path.c:178-266","main.c:289-312"])
p("Expansions with operators, nested in each other, evaluate what is needed and nothing else",
"The forms ${x}, ${#x}, ${x-w}, ${x=w}, ${x+w}, ${x?w} (with and without a colon), ${x#w}, ${x##w}, ${x%w} and ${x%%w}, nested in each other, in quotes and among commands and expressions, mean what a recursive definition over the word says: parts are evaluated from left to right, the word of an operator is evaluated once if the parameter asks for it and not looked at otherwise, = assigns the characters of the word and gives the value the variable then has, ? fails with the characters of the word as message, # and % take their pattern from the word. Where no fields are split the result is the text; where they are and IFS is white space, it is the runs between delimiters in text that came from an expansion and was not quoted.",
"For all words, variables, flags, outputs of commands, values of expressions, attributes and ways to trim; for fields, all IFS of white space only.",
"Words nest without bound, and the code is a flat loop with an explicit stack, a split state and a position into the string being built; tests cover a few nestings. Several states (empty quotes before an operator, a value beginning with a blank after other text, a string longer than 32767 characters, a read-only variable with a long name) are never tried.",
["eval.c:150-880 (expand, varsub)","eval.c:1343-1354 (varcpy)","tree.c:491-539 (wdscan)"])
p("File name generation yields exactly the existing paths that match","A word with a pattern becomes the list of paths whose components are the quoted-out text of its literal components and, for its pattern components, names that match (never `.` or `..`, hidden ones only if the component begins with a dot), that exist, and that are directories if the word ends in a slash; each path once and in order; with markdirs directories get a slash; if there is none, the word's own text; a word without patterns is left alone","for all words, all consistent file systems, all matchers, with and without markdirs","the set of files and the shape of the pattern are unbounded, and missing or doubled paths show only in combinations of directories","eval.c:982-1145".split() if False else ["eval.c:982-1145 (glob, glob_str, globit)","eval.c:1147-1173 (debunk)"])
p("A here document is the lines up to its delimiter, expanded only if the delimiter is not quoted","The document of `<<word` is the lines after the command line up to the first line that is the delimiter with its quotes removed (or the end of the input where the delimiter is the last line without a newline), with leading tabs removed for `<<-`; several documents follow each other in order; input goes on after the last delimiter line; reading fails only if a document is not closed.  If any part of the word is quoted the command reads the document byte for byte; otherwise lines ending in a backslash are joined, `$name` is replaced and a backslash is removed only before `\\`, `$` and a backquote","for all inputs, delimiters however quoted, numbers of documents, parameter values","delimiter lines that overlap with document lines, continuation lines and end of input combine without bound",["lex.c:857-927 (gethere, readhere)","lex.c:654-700,818-824 (delimiter)","syn.c:148-170 (synio)","exec.c:1186-1245 (herein)","lex.c:325-453 (Subst)"])
p("emacs mode edits inside its buffer",
"Whatever keys are typed in emacs editing mode, no command reads or writes outside the line buffer, the cursor stays on the line, the line stays terminated and shorter than the buffer, and RETURN hands over exactly the text on the line followed by a newline.",
"for all buffers, histories, earlier kills, and lists of commands with arguments",
"Memory safety over unbounded key sequences, with a fixed buffer size and a ring of kills surviving from line to line, is not reachable by examples; the failing sequences combine commands that are each harmless.",
["emacs.c:403-558","emacs.c:635-649","emacs.c:784-844","emacs.c:942-991","emacs.c:1157-1228","emacs.c:1611-1648","emacs.c:1970-2050"])
p("killed text comes back",
"After any command that kills text, yank puts the line back as it was; after a yank, n yank-pops replace it by the n-th text killed before, going round the last twenty kills in order, and change nothing else on the line.",
"for all lines, kill rings and n",
"The ring wraps at twenty and yank-pop wraps at the number of texts; tests cover a few positions of the ring only.",
["emacs.c:505-558","emacs.c:1179-1228"])
p("emacs mode moves and deletes whole characters",
"Moving or deleting by one character passes or removes exactly one UTF-8 character, however many bytes it has, and leaves the rest of the line unchanged.",
"for all lines and characters",
"There are unboundedly many combinations of multibyte characters around the cursor.",
["emacs.c:268-272","emacs.c:469-502","emacs.c:710-742"])
p("emacs mode commands do what they are named after",
"Each editing command changes the line as documented: words and their case, searching for characters, transposing, the history, kill to a column, the mark, inserting the last word of the previous command, completion to the longest common beginning with quoting, incremental search to the nearest earlier matching line.",
"for all lines, arguments, histories and completion words",
"The commands compose; a wrong pointer or count shows only for particular cursor positions and arguments.",
["emacs.c:560-633","emacs.c:744-844","emacs.c:887-973","emacs.c:1098-1177","emacs.c:1700-1787","emacs.c:2006-2128","edit.c:944-971"])
p("vi mode edits inside its buffers","Whatever keys are typed in vi editing mode, no command reads or writes outside the line buffer, the undo buffer, the insert buffer or the search pattern, and a finished line is the text on the line followed by a newline and fits the reader's buffer.","for all buffers, histories, macros, completions, earlier lines and key sequences","Memory safety over unbounded key sequences with state that survives from line to line; a test covers single sequences and sees an overrun only if it crashes.",["vi.c:195-256","vi.c:258-535","vi.c:554-691","vi.c:693-1306"])
p("u undoes the last command of vi mode","After any command that changes the line, together with the text typed if it begins an insertion, `u` gives back the line and the cursor as they were before the command; `u` again redoes it.","for all lines, commands, counts, motions and texts typed","Undo shares its buffer with R mode, redo and macros; each pair of command and following keys would need its own test.",["vi.c:712-720","vi.c:1018-1030"])
p("what vi mode deletes can be put back","After x, X, D, or d with any motion and count, a stretch of the line is gone and everything else is unchanged; the stretch is in the yank buffer, and P (p if the stretch was the end of the line) gives the line as it was.","for all lines, cursor positions, counts and motions","All motions combine with all counts and cursor positions, including the end of the line and multibyte characters.",["vi.c:775-823","vi.c:825-846","vi.c:951-1012","vi.c:1392-1410"])
p("word motions of vi mode go to words","w, b, e (and W, B, E) with a count n go n times to the next beginning, previous beginning, next end of a word, where a word is a maximal run of letters, digits and underscores or of other non-blank characters (of non-blank characters for the capitals), stopping at the last or first character of the line; they do not change the line.","for all lines, cursor positions and counts","Boundary conditions at line ends, between classes and with counts multiply.",["vi.c:1180-1199","vi.c:1242-1250","vi.c:1527-1674"])
p("browsing the history in vi mode does not lose the line","After any sequence of moves up and down the history and along the lines, the line shown is the history line at the position the moves lead to, and coming back to the end shows the line being typed as it was left.","for all histories, lines and command sequences","The line is put aside in a second buffer whose validity depends on flags set by other commands; only particular orders break it.",["vi.c:874-917","vi.c:1373-1390","vi.c:1676-1735"])
p("macros of vi mode end","Running a macro (`@` with a letter, the value of the alias `_letter` as keys) comes to an end: it needs no more than a fixed number of keys before the keyboard is read again, the line is finished or interrupted, also if aliases refer to each other or to themselves.","for all sets of aliases and editor states","Termination over all sets of mutually recursive aliases.",["vi.c:203-243","vi.c:731-766"])
p("vi mode reads what is typed","A line typed in insert mode is read as typed: plain keys stand for themselves, erase removes the last whole character, kill removes all before the cursor, characters beyond the room are left out, and text typed in the middle of a line leaves what is before and after it unchanged.","for all key sequences, buffer sizes and terminal settings","Any sequence of characters and erasures of any length, around the buffer limit and multibyte characters.",["vi.c:258-286","vi.c:554-691","vi.c:245-255"])
p("Typing a bound key sequence runs its function",
"In emacs mode, whatever bind commands have been given, a key sequence that is bound and typed at the start of a command runs exactly the function (or starts the text) it is bound to, after exactly its own keys; keys that begin no binding are inserted (first key, or a whole UTF-8 character) or ring the bell; bind changes the binding of the given sequence and no other, and bindings made before still run.",
"for all histories of bind commands and terminal characters from the initial table, all typed continuations",
"The table is built by arbitrarily many bind commands, and whether one binding hides another depends on all pairs of sequences and on the order in which they were made; tests try a few keys.",
["emacs.c:318-372","emacs.c:1290-1348","emacs.c:1383-1467","emacs.c:1469-1602","emacs.c:1840-1881"])
p("A listing of the key bindings can be entered again",
"Every line bind prints denotes the binding it was printed for: giving the printed sequence and function (or text, with -m) back to bind makes the same binding, and entering the whole listing in order recreates the table.",
"for all sequences of bytes and all tables",
"The caret notation is used for control characters and the caret itself; whether it is ambiguous depends on neighbouring bytes, and whether bindings are refused depends on the order of the listing.",
["emacs.c:1247-1288","emacs.c:1371-1381","c_ksh.c:1366-1396"])
p("Reading and binding keys stays inside its memory",
"No sequence of keys, bind commands (typed, or run by a trap) and listings makes the editor write outside its line and conversion buffers or use a binding or text that has been released.",
"for all sessions: sequences of keys, bind commands, listings, restarts of the editor",
"Overflows need operands of thousands of bytes, and the released memory is reached only when a bind command falls between two particular reads.",
["emacs.c:1247-1288","emacs.c:1307-1313","emacs.c:318-378","emacs.c:1820-1881","emacs.c:1947-1965"])
p("A text bound to a key is read as if it were typed",
"After a key bound to a text with bind -m, the editor does what it would do if the characters of the text had been typed.",
"for all texts, tables and typed continuations",
"The text is read through a pointer to char with its own end condition; a difference shows only for particular bytes at particular positions inside key sequences.",
["emacs.c:352-359","emacs.c:1820-1881","emacs.c:1446"])
p("A prompt shows what its escapes stand for", "Each backslash escape of the manual in PS1 is replaced by its text and the rest of the prompt is shown as it would be alone; \\w abbreviates exactly the home directory and what is below it; \\$ shows # or $; shortening the prompt by n columns drops exactly the first n visible characters; and no prompt makes the shell read outside it.", "for all prompts, environments and truncations", "Prompts are arbitrary strings; escapes may stand next to each other, at the end, or inside uncounted parts, and the truncation is only used when a prompt is wider than the screen.", ["lex.c:1167-1176", "lex.c:1211-1500"])
p("Redrawing the line repeats the last line of the prompt, and its length is the cursor column", "The part of the prompt that is repeated when the line is redrawn is exactly what was written after the last line break, and the length used to place the cursor is the number of columns this part takes.", "for all prompts and environments", "A wrong length misplaces the cursor only for prompts of several lines, or with tabs or uncounted parts, and a wrong rest is seen only when the line is redrawn.", ["lex.c:1211-1512", "emacs.c:391-407", "vi.c:1439-1446"])
p("Lists in columns show every item once and whole", "The lists printed in columns (the menu of select, the completions of the editors, kill -l, set -o) contain every item exactly once and untruncated, in order down the columns, nothing else is printed, and a list of several columns fits on the screen.", "for all lists, item texts and screen widths", "The number of rows and columns depends on the number of items, their widths and the screen; an item could be left out or cut only for particular combinations.", ["misc.c:1013-1064", "exec.c:1290-1344", "edit.c:297-357", "c_ksh.c:1125-1233", "misc.c:202-238"])
p("select runs its commands with the word whose number was typed", "Typing the number shown before a word chooses this word; any other non-empty answer gives the empty word; the commands run once for each non-empty answer, in order, until break or end of input; the menu is shown before the first question, after an empty answer and when REPLY was emptied, and at no other time.", "for all word lists, answers and commands", "Answers are arbitrary strings, and the menu depends on the previous answer and on what the commands did to REPLY.", ["exec.c:276-317", "exec.c:1251-1281"])
p("Tilde expansion replaces exactly the unquoted tilde prefixes the manual names",
 "In a word only an unquoted ~ at the very beginning (in the value of an assignment also after an unquoted :) followed by an unquoted name up to a / (in assignments also :) or the end is replaced. It becomes $HOME, $PWD (~+), $OLDPWD (~-) or the home directory of the user. The directory is inserted as if it were quoted, so that it is neither split nor matched. A name without directory is left as it is, and looking names up never changes what another name stands for.",
 "all words made of unquoted and quoted characters, quotes and substituted values, all IFS values, all directories and password files",
 "Whether a tilde counts depends on everything before it in the word, including the results of substitutions, and words have no bounded length.",
 ["eval.c:150","eval.c:580","eval.c:680","eval.c:1170","eval.c:1215","eval.c:1245"])
p("getopts loops see every option once, cannot be derailed, and do not disturb each other",
 "while getopts options name runs its body once for each option of the arguments, in order, with name and OPTARG set as the manual describes (also for + options, unknown options and missing arguments); afterwards name is ?, OPTARG is unset and shift $((OPTIND - 1)) leaves exactly the operands. Whatever is assigned to OPTIND and however the arguments change between calls, getopts never reads outside its arguments. A function defined with the function keyword that uses getopts itself leaves its caller's loop where it was.",
 "all option strings, all arguments, all sequences of calls, assignments to OPTIND and nested function calls",
 "The position is hidden state that survives between commands; the ways to change the arguments or OPTIND in between are unbounded.",
 ["c_ksh.c:1268","c_ksh.c:1258","misc.c:884","exec.c:603","var.c:97","var.c:990"])
p("Signals have one meaning in trap and kill, and the output of trap restores the traps",
 "A signal can be written as a number, as a name or as a name with SIG, in upper or lower case; all of these mean the same signal and nothing else is accepted. What trap prints without arguments, read again by the shell, sets exactly the traps that were set, whatever other traps exist at that time.",
 "all sequences of trap commands, all command texts, all signals of the table",
 "Command texts are arbitrary strings that can themselves look like options or signal names; quoting and name lookup interact.",
 ["trap.c:93","c_sh.c:476","misc.c:984","posix_signals.h:41"])
p("kill sends the given signal to exactly the given operands",
 "kill sends SIGTERM or the signal given by -s name, -name or -number to each operand in order: a number is a process, a number below -1 the process group of its absolute value, %... a job; other operands are reported and the rest still handled. kill -l with a number or with the exit status of a command ended by a signal prints the name of that signal.",
 "all operands and all ways to give the signal",
 "Numbers, options and negative process groups share one syntax; the combinations are unbounded.",
 ["c_ksh.c:1146","trap.c:93","misc.c:467"])
p("A script is read line by line, whole and in order",
"Reading commands from a file or from standard input that is not a terminal delivers the lines of the text one by one, none split, joined, dropped or delivered twice, for lines of every length; a NUL byte is refused; at the end the last line is delivered even without a newline; and when the script is standard input the file position is after the line that is being executed, so that commands of the script read what follows.",
"all texts, line lengths, buffer sizes, ways in which read calls are split or interrupted",
"The interaction of the growing line buffer, the 512-byte read buffer and the split of reads has unboundedly many cases; the defects need a line to end at a buffer boundary.",
["lex.c:1073-1158","misc.c:1066-1090","misc.c:111-120","shf.c:472-512"])
p("Backslash-newline joins lines wherever it stands outside of single quotes",
"The characters the lexer sees are those of the input with every backslash-newline pair removed, unless the backslash is itself escaped, also when characters are put back and read again and wherever the buffers end; in single quotes, comments and quoted here documents they are kept.",
"all inputs, all sequences of getting and putting back characters",
"The removal is spread over a macro, two functions and a counter that must stay right through look-ahead; a test fixes one sequence of calls.",
["lex.c:94-110","lex.c:1619-1670"])
p("type, whence and command -v report what would be run","For every name given to whence, type or command -v/-V, in order, one line is printed that says what the name means: a reserved word, an alias, a function (defined or still to be loaded, and from where), a builtin, or the program found in PATH; for a name that is neither a reserved word nor an alias this is what the command of that name runs. The status is 1 exactly if a name that was looked at is not found; without -v the rest of the names is passed over then.","all tables of names, all PATH and FPATH values and file systems, all lists of operands, all option sets","the agreement between what type says and what execution does is over every state of the tables and the file system","""c_ksh.c:406-537;exec.c:835-945""".split(";"))
p("fc lists, edits and runs the commands its operands name","fc -l writes exactly the entries from the one the first operand names to the one the last names, in that order (reversed by -r), each with its number and its text with continuation lines indented; fc without -l puts exactly these into the file that is edited; fc -s runs the entry named with the substitution made. An operand names the entry with that number, the one that many commands back, or the latest earlier one that matches, and fc fails exactly if there is none.","all histories, all operands and options","every combination of history length, numbers in and out of range and strings","""history.c:62-236;history.c:376-440""".split(";"))
p("The options of typeset set and clear exactly what they say","For every sequence of options the last one given for an attribute decides; -l takes precedence over -u and -L over -R, -Z without -L means -ZR; setting an attribute that changes how the value is stored or shown removes the other such attributes, export, readonly and trace stay unless named; no attribute is both set and cleared, and no sequence of commands leaves a variable both left and right justified or both upper and lower case.","all option sequences, all previous attributes, all sequences of typeset commands","all combinations of ten attributes with all orders of options","""c_ksh.c:557-712;var.c:700-715""".split(";"))
p("The lists of typeset, export -p and readonly -p can be read back","The line typeset prints for a variable asks, when executed, for exactly the attributes and width of this variable; export -p prints exactly the exported variables, each on a line that makes an exported variable with this value again.","all sets of variables, attributes, widths and values","every combination of attributes and every value string","""c_ksh.c:725-851;misc.c:984-1011""".split(";"))
p("alias and unalias change exactly what they name","alias name=value makes this alias and changes no other; a name alone is shown or reported with status 1; the last assignment counts; -t stores what the search finds; unalias removes exactly the named aliases and reports missing ones; unalias -a and hash -r empty one table and leave the others; the lines of alias -p make the same aliases again.","all tables of aliases, all operands and options, all values","all orders of operands with all contents of three tables, and every value string for the list","""c_ksh.c:853-1035;misc.c:984-1011""".split(";"))
p("What the shell derives from IFS, PATH and other special variables follows the variable","At any time the separators, the search path, the directory for temporary files, and so on are those that the variable visible at this point says, or the default when it is unset, whatever was assigned, declared local, unset, called and returned from.","all histories of assignments, declarations, unset, calls and returns","unbounded nesting of function calls with local declarations","""var.c:57-101;var.c:182-303;var.c:372-418;var.c:756-784;var.c:975-1141;var.c:1147-1189""".split(";"))
p("Completion works on the word around the cursor",
"For every line and cursor position, the part of the line taken for completion lies inside the line, begins at or before the cursor, contains no unquoted character that ends a word and extends as far as such a character; it is the word around the cursor; and it is taken for a command exactly when it stands at the start of a command and has no slash.",
"all lines and cursor positions", "all placements of backslashes around the cursor",
"""edit.c:584-640""".split(";"))
p("What completion inserts is the name it stands for",
"The text inserted for a name is read by the shell as one word that expands to exactly this name; and a name typed in part, quoted as completion quotes, is made into a pattern matching exactly the names that begin with it.",
"all names, prefixes, values of IFS and file names", "all characters in all combinations through quoting, lexing, expansion and matching",
"""edit.c:404-480;edit.c:500-530;edit.c:756-792;emacs.c:1803-1836;lex.c:191-690""".split(";"))
p("Completion runs no command",
"The word completion takes from the line and expands contains no command substitution and no arithmetic expression, nor do the array subscripts in it; completing never executes what was typed.",
"all lines and cursor positions", "security relevant: must hold for every text",
"""edit.c:404-480;edit.c:500-530;edit.c:584-640;edit.c:756-792;lex.c:191-690""".split(";"))
p("Programmable completion offers the words of the right array",
"For the n-th argument of a command CMD the words offered are the elements of complete_CMD_n that begin with what was typed, or those of complete_CMD if the former has none; nothing if neither has.",
"all lines, words, commands and arrays", "all lines and arrays",
"""edit.c:641-715""".split(";"))
p("Commands are offered in order and once",
"The names of commands offered are all that were found, each once and in ascending order; with full paths all are offered, in the order of their last components, those with the same last component in the order of the search path.",
"all lists of commands found, any sorting function", "all lists, and qsort may arrange equal elements in any way",
"""edit.c:483-493;edit.c:521-580""".split(";"))
p("wait reports the status of the job whose number was asked for",
"After a script has used $! for a background job, `wait` with that number finds the job whatever other jobs were started, waited for or ended in between, returns only when no process of it is running or stopped, and its status is that of the pipeline as the kernel reported it; or it returns 128 plus the number of the trapped signal that came. A number that is not that of a job gives 127 at once. `wait` without operands returns 0 only when no job is running. With several operands the status is that of the last.",
"all reachable states of the job table, all later histories of forks, pipelines, deliveries of SIGCHLD, waits, jobs listings and options, all orders of reports while waiting",
"The result depends on when SIGCHLD is delivered and on what else was started before; tests see one interleaving each.",
"""c_sh.c:230-250;jobs.c:593-668;jobs.c:920-968;jobs.c:1426-1450""".split(";"))
p("The action of trap EXIT is run once when the shell ends",
"Whenever the shell process ends of its own accord (end of the script, exit, errexit, a shell error, the end of a subshell) the action of the EXIT trap is run exactly once, with $? being the status of the shell, from whatever nesting of functions, loops, dot scripts and evals; the process then exits with the status it had before the action, unless the action itself calls exit n; nothing after the exit is executed.",
"all stacks of environments, all states of traps and options, all actions (as functions on the state that end or jump), all reasons to unwind",
"The way out depends on the nesting of handlers at the place where it starts; there are unboundedly many nestings.",
"""main.c:556-711;main.c:723-773;trap.c:212-260;c_sh.c:517-560;exec.c:389-400;exec.c:616-654;exec.c:1208-1221""".split(";"))
p("A shell error ends the script, or leads back to the prompt, and a child never goes on in place of its parent",
"A shell error (bad substitution, unset parameter, failing special built-in, syntax error) ends a non-interactive shell with the status of the error, and leads an interactive shell back to its prompt. In a child process made for a subshell, a command substitution or a pipeline, no error, signal, exit or trap action ever makes the child continue with what its parent was doing.",
"all stacks of environments, all reasons to unwind, all trap actions",
"Each handler on the stack may catch or pass the jump; a test covers one stack.",
"""main.c:490-524;main.c:572-606;main.c:668-711;main.c:775-800;exec.c:616-654;exec.c:1208-1221;expr.c:183-199;lex.c:1185-1204;jobs.c:505-541;mail.c:199-218""".split(";"))
p("When an interactive shell is left",
"With ignoreeof an end of file does not leave the shell unless it is read 13 times in a row. With stopped jobs the first attempt to leave, by exit or end of file, is refused with a warning, and another attempt immediately after leaves; after any other command the shell warns again. Without them exit leaves at once.",
"all sequences of lines, ends of file, failing commands and exits, all job states at each of them",
"The answer depends on the whole history of the session through two counters.",
"""main.c:560-571;main.c:618-666;c_sh.c:549-556;jobs.c:676-703""".split(";"))
p("Co-process pipes are neither leaked nor closed twice, and read -p sees the end",
"Whatever the order in which co-processes are started, end, and have their pipes taken over by exec or closed at end of file, the shell closes only descriptors that are open and holds exactly the ends named in coproc.read, coproc.readw and coproc.write. When no running co-process writes to the pipe of read -p, the shell holds no end of it for writing, so read -p comes to the end. print -p reaches exactly the co-process started last, whose output is what read -p reads. Another co-process is refused exactly while the input of the last one is held; a new one shares the output of those before it exactly when the shell still holds the end for writing. Writing to the input of a co-process that has gone does not kill the shell.",
"all histories of starts, failures, ends, end of file and exec redirections, with all choices of descriptor numbers by the kernel",
"The order of SIGCHLD relative to the start of another co-process is chosen by the kernel; tests see one interleaving, and a leaked end for writing shows up only as a read that never returns.",
"""io.c:350-430;exec.c:175-233;exec.c:1166-1175;jobs.c:550-556;jobs.c:1255-1272;c_sh.c:421;c_ksh.c:371""".split(";"))
p("The command line decides what is read and the positional parameters",
"For every command line whose options are accepted, nothing behind the end of the argument vector is read; with -c the first operand is the command, the next $0 and the rest the parameters; without -c and -s the first operand is the script and $0, and the rest the parameters, also if they look like options; otherwise standard input is read with all operands as parameters and $0 is the name of the shell. $# is their number. If the script cannot be opened the exit status is 127.",
"all argument vectors, initial flags, environments and behaviours of the start-up files",
"Index arithmetic on argv (argi - 1, argc - argi) over all splits of options and operands; tests try a few command lines.",
"""main.c:127-145;main.c:346-399;misc.c:329-465;io.c:27-42""".split(";"))
p("Start-up files and restricted shells",
"A privileged shell reads /etc/suid_profile and neither $HOME/.profile nor $ENV; a login shell that is not privileged reads /etc/profile and $HOME/.profile; an interactive one then reads what ENV gives at that time; other shells read nothing. While these files are read nothing is restricted and -e is off. Afterwards, with -r or if the base name of the shell or of SHELL is that of a restricted shell, the shell is restricted and PATH, ENV and SHELL are read-only, whatever the files did.",
"all command lines, flags, variables and all effects of the start-up files",
"The effect of start-up files is arbitrary code; that no such effect can leave the shell unrestricted, and that a privileged shell reads no file of the user, is a statement about all of them.",
"""main.c:402-460;main.c:836-854""".split(";"))
p("Clearing the privileged option drops the privileges",
"When a set-user-id or set-group-id shell clears the option privileged, on the command line or with set, its effective, real and saved user and group ids are those of the user who called it, and as long as the option is on the ids do not change.",
"all ids at the start and all sequences of turning the option on and off",
"Needs a set-user-id binary and is about all combinations of real, effective and saved ids.",
"""misc.c:300-318;main.c:328-342""".split(";"))
p("New mail is announced once, and only when it is new",
"After MAIL or MAILPATH has been set, each prompt announces exactly those of the named files which are regular, not empty, not read since they were written, and written since mail was last looked for; a file is not announced again until it changes; mail is looked for at most once every MAILCHECK seconds; MAIL is not looked at while MAILPATH names a file; announcing never touches memory which has been freed.",
"for every list of files and messages, every history of the file system and of the clock, every number of prompts",
"The rule is about what changed between two looks at arbitrary times; tests fix a handful of files and instants, and the use of freed memory shows only with a message that assigns the list being walked.",
"""mail.c:20-122;mail.c:176-216;main.c:629;var.c:1047-1054""".split(";"))
p("Temporary files are removed by the shell that made them, and by no other",
"When a shell process has left, or has been replaced by another program, every temporary file it made (here documents, fc) is gone; until then nothing takes the file away but its maker leaving an environment; no shell process removes a file which it did not make itself.",
"for every interleaving of any number of shell processes forking, nesting environments, making temporary files, executing programs and leaving, and every use of the names by others",
"Which process removes which file depends on the interleaving of a tree of processes which all inherit the lists; a test sees one schedule, and the wrong removals need failed system calls or process numbers that come round.",
"""io.c:437-461;main.c:716-835;exec.c:379-388;exec.c:1203;history.c:225;jobs.c:471""".split(";"))
p("A word is an assignment, a variable or an array element exactly as written, for the parser and for the assignment alike",
"The parser takes a word for an assignment exactly when it begins, unquoted, with a name, perhaps a subscript of balanced brackets, and an equals sign; the assignment made after expansion is to that very name and subscript whatever the value expands to; the variable looked up for a reference is its name with the text between the outer brackets as subscript; the variable of a for loop is the one written; a variable imported from the environment has a subscript of digits only.",
"for every coded word, every string, every value the right-hand side expands to",
"Four different scanners (coded words, plain strings, the lexer's identifier buffer, typeset) have to agree on the same unbounded, nested syntax.",
"""var.c:144-176;var.c:609-645;var.c:785-855;var.c:1194-1228;lex.c:817-825;syn.c:233-241;syn.c:316-322;c_sh.c:650-680""".split(";"))
p("A function gets exactly the name that was written",
"A function definition is accepted exactly when its name, with quotes removed, contains no expansion, command, pattern or character that needs quoting, and the function gets this name.",
"for every coded word in place of the name",
"Names are built from words with arbitrary nested quoting and substitutions; the check is made on a stripped copy.",
"""syn.c:530-547;tree.c:540-606;misc.c:60""".split(";"))
p("The status of a command made of command substitutions",
"A simple command that has no name once its words are expanded (x=$(cmd), $(cmd), >file$(cmd)) ends with the status of the last command substitution the command itself performed, in the order words, redirections, assignments, and with 0 when it performed none; nothing of earlier commands or of $? shows in it. A redirection that fails gives 1 and no assignment is made. Outside POSIX mode set with words and eval with nothing to run report the same status.",
"for all simple commands with any number of words, redirections and assignments and any number of substitutions in each, all statuses and texts the substitutions produce, all earlier states",
"A test tries a few shapes of command. The status is passed in one global variable that is set by every expansion, including those the shell makes for itself; whether some expansion comes between depends on options, prompts and the order of evaluation.",
"""eval.c:884-930;eval.c:548-577;exec.c:79-132;exec.c:405-545;c_sh.c:426-473;c_sh.c:613-647;main.c:655-665""".split(";"))
p("Signals to jobs and the end of the shell reach the processes of the job and no others",
"kill %job sends the signal to every live process of the job and to no other process; a stopped job sent TERM or HUP is also continued. When the shell leaves, HUP goes to exactly the processes of its own jobs that are stopped, in the foreground, or running under a login shell without nohup, CONT to those of stopped ones, and nothing to anybody else; a subshell signals none of its parent's jobs. An exit is refused the first time exactly if it would hang up a job not in the foreground, so that no background job is hung up unannounced.",
"for all sequences of events in which the shell starts jobs with and without process groups, processes fork, leave their group, end and are waited for, and process numbers are reused as the kernel allows",
"Which process a number means depends on what every other process of the system did in between; tests never see numbers come round again or groups outlive their leader.",
"""jobs.c:258-303;jobs.c:669-703;jobs.c:806-828;jobs.c:1649-1659;jobs.c:413-480;jobs.c:1137-1200;c_sh.c:549-552;main.c:639-642;exec.c:682-683""".split(";"))
p("""TMOUT makes an interactive shell leave when, and only when, no line was typed in time""",
"""With TMOUT set to n > 0, an interactive shell that prompted and did not get a whole line within n seconds leaves with `timed out waiting for input`; keys typed without finishing the line do not start the time anew. It never leaves earlier than n seconds after the prompt, never while a command is executed, and never when TMOUT is zero or was never set, whatever signals arrive in whatever order.""",
"""for every sequence of prompts, reads, keys, lines, seconds, signals (SIGALRM from elsewhere included), commands and assignments to TMOUT""",
"""The state is shared between a signal handler, the line reader and runtraps; which of the interleavings goes wrong depends on the second in which a signal arrives, and tests of timeouts try one or two of them.""",
"""lex.c:1086-1144;edit.c:118-132;trap.c:67-91;trap.c:124-140;trap.c:191-206;var.c:1069-1077""".split(";"))
p("""jobs tells the state of every process of every job""",
"""`jobs -l` writes for every job an entry with one row for each of its processes, in order, with its number, command and state, where a blank state means the same state as the row above; `jobs` and the notices at the prompt write one line for each run of processes in the same state; the rows of an entry stand in columns. The job marked `+` is the one `%+` names and `-` the one `%-` names. A job leaves the list only when it has ended and its entry was written. Several operands give what each gives alone. After a foreground job a message appears for each state but a plain exit, an interrupt and a broken pipe.""",
"""for every list of jobs, every pipeline with processes in any states, every table of signal messages, all options and operands""",
"""The text depends on runs of equal states inside a pipeline, on the number of digits of the job number and on jobs ending between two operands; tests list one or two simple jobs.""",
"""jobs.c:1319-1420;jobs.c:847-891;c_ksh.c:1057-1092;jobs.c:1426-1518""".split(";"))
p("""Programs get the terminal in the user's mode, and only the ones that should change it for good do""",
"""Whenever an interactive shell with job control executes a command the terminal is in the mode the user chose, however the line editor was left (end of line, end of file, interrupt key, trap); in the editor it is in the mode made from it. What a program run in the foreground sets is kept when it exits with status 0 and undone when it fails, is killed or stops. A stopped job finds the terminal as it left it when it is brought back, whatever happened in between, and from then on changes the user's mode no more. Nothing else changes the user's mode but suspending the shell and set -m.""",
"""for every sequence of editing, traps in the editor, jobs started, stopped, resumed and ended in any order, and modes they set""",
"""The modes are saved in three places (the terminal, tty_state, each job) and written by the editor, by j_waitj and by j_resume; tests have no terminal, and a wrong order shows only with two jobs that stop in turn.""",
"""edit.c:92-132;edit.c:153-211;jobs.c:436-437;jobs.c:748-800;jobs.c:1030-1089;jobs.c:206-256""".split(";"))
p("SECONDS, RANDOM and LINENO mean what the manual says until they are unset", "After SECONDS=v, $SECONDS is v plus the whole seconds that have passed, whatever functions were called and however often it was read in between. $RANDOM is between 0 and 32767 and a number assigned to it determines all the numbers that follow. $LINENO is the line being executed, and after LINENO=v the next line has number v and the others follow. Once one of them is unset it has no special meaning again, whatever happens later. (The code breaks the first three when a function makes the variable local, and reads an uninitialised pointer when LINENO is made read-only before it was read.)", "all values, all histories of reads, ticks, lines, function calls and returns, all generators", "The value depends on the clock, the generator and on the history of reads and function returns; each popblock may write back a stored value, so every interleaving matters.", """var.c:83-101;var.c:241-304;var.c:307-432;var.c:755-783;var.c:910-1148;main.c:93-97;exec.c:85-86""".split(";"))
p("An array is a map from indices to values", "Whatever is done to an array variable (reading, assigning and unsetting elements or the whole, set -A, set +A, typeset), the linked list behind it stays strictly ordered by index and is never left attached to a variable that is not an array. Reading changes nothing. An assignment changes one element, to what the attributes make of the string, and nothing when they refuse. unset a[i] removes that element only, unset a all of them, set -A makes exactly the given values, set +A overlays them. ${a[*]} is the values in the order of the indices, each once, and ${#a[*]} their number. For a special name only element 0 has the special effect. (The code breaks the last part when the first mention of the variable has a subscript.)", "all sequences of operations, all indices, values and attributes", "The list is spliced by every mention of an element, even a read; only an invariant over all sequences shows that no order of operations loses or doubles an element.", """var.c:236-262;var.c:668-727;var.c:755-784;var.c:1150-1256;c_sh.c:649-680;eval.c:757-771;eval.c:838-861""".split(";"))
p("Every command of a pipeline has the right ends of the right pipes and no others",
"In a pipeline of any length the first command reads what the shell reads (or /dev/null in the background), every other command reads the pipe before it, the last writes where the shell writes and every other command writes the pipe after it; every other descriptor is what the shell had. Once the commands run their programs nobody else has an end of any pipe, so the end of one command gives the next end of file. The shell has afterwards the descriptors it had before, and when a system call fails in the middle every descriptor that was open is as it was. The command of a command substitution writes to the pipe the shell reads, and the shell's own standard output is as before.",
"for all tables of descriptors, lengths of the pipeline, limits on descriptors and outcomes of fork",
"The hang of a reader that never gets end of file depends on which descriptors were free when the pipe was made and on how many commands there are; tests run a few pipelines with the usual descriptors and never with a failing fork.",
"""exec.c:141-167;eval.c:916-928;jobs.c:464-528;io.c:243-310;main.c:737-806""".split(";"))
p("Redirections destroy no file they should not, and noclobber makes a lock",
"With noclobber, `>` never changes the contents of an existing regular file, whatever other processes do between the system calls of the shell; if it succeeds the name was free. Without it, or with `>|`, exactly the named file is emptied. `<` changes nothing, `<>` and `>>` change the contents of no existing file, and what any number of processes write through `>>` comes complete after what was there. Any number of shells that do `set -C; > lock` and remove the file later hold the lock one at a time, in every interleaving of their system calls.",
"for all file systems, all actions of other processes, and all interleavings of any number of shells",
"Races between stat and open and interleavings of many shells cannot be enumerated by running the shell; a test sees one schedule.",
"""exec.c:1069-1091;exec.c:1121-1127""".split(";"))
p("A count typed in emacs mode is the number that was typed and cannot leave the line",
"The count before a command of emacs mode is the number whose digits were typed. With every count the movements and deletions stay inside the line and inside its buffer, go as far as the count says or to the end of the line, and browsing the history stays inside the history.",
"for all strings of digits, lines, cursors and history sizes",
"Only counts of ten digits and more go wrong, which nobody types in a test; the effect depends on what lies beside the buffer.",
"""emacs.c:468-560;emacs.c:709-742;emacs.c:808-833;emacs.c:1156-1178;emacs.c:1948-1966""".split(";"))
p("The shell tells of every change of a job, once and truly",
"When the prompt is shown the user has been told of the last change of every job (stopped, ended and how), by a notice, by `jobs`, or because they waited for it, and no ended job is left in the list. Every report gives the state the job is in; there is a notice only for a change not yet reported, so there are never more notices than changes; no job leaves the list before its last change was reported.",
"for all sequences of starts, stops, ends, prompts, `jobs`, `wait`, `fg`, `bg` and changes of the option notify, with changes of any jobs during any wait",
"Whether a notice is lost or repeated depends on when the child changes relative to prompts, waits and options; the orders are unbounded.",
"""jobs.c:619-667;jobs.c:703-798;jobs.c:847-917;jobs.c:997-1136;jobs.c:1217-1312;jobs.c:1331-1340""".split(";"))
p("Arithmetic reads values, never freed memory or addresses",
"Evaluating an arithmetic expression, in which variables may hold further expressions and assignments may change them, never reads memory that an assignment of the same expression has freed; value, effects and messages are those of an evaluation where the texts of variables are values that cannot disappear. typeset -i gives a variable the value of the expression it holds.",
"for all expressions, all contents of all variables, all depths of nesting, and all behaviours of the machine for undefined shifts",
"Whether freed memory is read depends on which variable is assigned in which nested expression and at which token; the memory usually still holds the old text, so a run looks right.",
"""expr.c:119-222;expr.c:281-601;var.c:303-354;var.c:372-432;var.c:672-737""".split(";"))
p("The memory of a variable's value is used rightly, and attributes keep the value",
"Whatever sequence of assignments, arithmetic assignments, typeset/export/readonly with or without a value, unset, commands run with an environment and window resizes a variable goes through, no block of its value is freed twice, nothing else is freed, and its value is never read from freed memory; an exported variable enters the environment as name=value with exactly the value $name has; an assigned text is read back (formatted by the attributes); export, readonly and typeset +x leave the value, typeset -u and the like format it, and typeset +i turns the number into its text; a variable never shows an address.",
"for all variable names, initial attributes, sequences of operations and outcomes of evaluations",
"A use after free or a double free seldom shows in a test's output, and the orders in which attributes can be added to and removed from a variable are unbounded.",
"""var.c:303-432;var.c:578-784;var.c:868-905;edit.c:62-90""".split(";"))
p("Counts typed in vi mode mean what they say",
"A count typed before a vi mode command is the number its digits spell, two counts (before and after an operator) multiply, and a command applied with a count affects exactly that many characters, or all there are, without ever touching memory outside of the line: x and s delete that many characters forwards, X backwards, h and l move over them, | goes to the character the byte of that number belongs to, and r replaces exactly that many characters or fails when there are fewer.",
"for all sequences of digits, contents of the line (with UTF-8 characters) and positions of the cursor",
"Counts are machine integers: what goes wrong happens only beyond 2147483647, and positions within multi-byte characters are too many to try.",
"""vi.c:291-294;vi.c:323-357;vi.c:694-701;vi.c:921-1005;vi.c:1223-1270""".split(";"))
p("Positional parameters are a list of their own for every function, sourced file and loop",
"set --, shift, calls of functions, files sourced with and without arguments and loops over the parameters behave as if the positional parameters were a list value: shift n removes exactly the first n or fails if there are not so many (or n is negative), $# is always the number of parameters in \"$@\", `for i; do ...; done` goes over the parameters as they were when it began whatever the body does to them, a function or a file sourced with arguments leaves the parameters of its caller as they were however it ends, prefixing a command with `command` changes nothing of this, and no memory outside of the parameters is read or written.",
"for all nested programs of these commands, all arguments and all ways of computing arguments and conditions from the parameters",
"The arrays are shared between blocks, loops and saved pointers, so mistakes depend on how commands are nested; tests try a few nestings.",
"""c_sh.c:34-65;c_sh.c:192-231;c_sh.c:614-648;main.c:476-540;exec.c:278-304;exec.c:448-508;exec.c:590-600;var.c:57-75""".split(";"))
p("A built-in that complains of one operand serves the others, and only special built-ins end the shell",
"jobs, kill, wait, fg, bg and bind do for every operand, in order, what they are asked to, whatever went wrong with the operands before it; every message carries the name of the built-in, everything printed is written, the status tells of a failure, and SIGCHLD is not left blocked. A complaint ends a script exactly if the built-in is one of the special built-ins of POSIX and was not called through command.",
"every list of operands, every state of the jobs, keys and system calls, every sequence of calls",
"The defect needs a failing operand followed by a good one; its lasting effect (a blocked signal in every later child) is invisible in the output of the command that caused it.",
"""exec.c:1026-1042;io.c:61-88;io.c:153-163;jobs.c:705-803;jobs.c:846-891;jobs.c:669-702;jobs.c:618-667;c_ksh.c:1096-1143;emacs.c:1382-1467;exec.c:805-828""".split(";"))
p("${name op word} takes the parameter or the word as the manual says, for every kind of parameter",
"Whether ${name}, ${#name}, ${name-w}, ${name=w}, ${name+w}, ${name?w} (with and without colon) and the trimming forms take the value, the word, or are an error depends only on whether the parameter is set and not null, on the option nounset, and on the form, in the same way for variables, array elements, positional and special parameters, $*, $@ and whole arrays; a list is null if the texts joined by spaces are empty. Any other text after the name is refused.",
"every parameter, value, form, word and option setting",
"The product of kinds of parameters, forms, values and nounset is large, and lists are unbounded.",
"""eval.c:736-878;misc.c:56-59;var.c:187-243""".split(";"))
p("How long an assignment in front of a command and a typeset last",
"Assignments in front of a command are gone when the command ends, unless the command is a special built-in or a Bourne-style function; a variable declared with typeset lasts until the function that declares it ends, outside of which it has the value it had, and is seen and changed by the functions called meanwhile; everything else that is assigned stays. This holds for commands, functions, eval and command nested in any way.",
"all commands built of assignments, typeset, special and other built-ins, command, and functions of both kinds, nested to any depth; all values, computed from what is visible; all states of the variables",
"Tests try single nestings; which of the blocks a name is found in depends on every block between, so that only a proof over all nestings shows that a stack of blocks gives the same as putting values back.",
"""exec.c:448-527 comexec;var.c:55-98 newblock, popblock;var.c:246-325 global, local;c_ksh.c:706-707 c_typeset;ksh.1:2405-2440""".split(";"))
p("Quotes, braces and substitutions may be nested to any depth",
"The lexer always knows what it is directly inside of: entering a quote, ${, $(, a pattern or a backquote and leaving it again restores what was around, to any depth, also where the states go over from one block of memory to the next; a backquote is treated as inside double quotes just if some double quote is open around it; no block is used after it is released and none is kept when it is no longer needed.",
"all sequences of entering, leaving and changing states; all depths; all choices of the allocator",
"The states are kept in linked blocks of 32; errors would show only at certain depths reached in a certain order, and as use of released memory perhaps not at all.",
"""lex.c:36-77 Lex_state, State_info;lex.c:112-124 PUSH_STATE, POP_STATE;lex.c:1672-1695 push_state_, pop_state_;lex.c:427-451 backquote in yylex""".split(";"))
p("With job control a pipeline is one process group, and the terminal is its own while it is in the foreground",
"With job control on, every process of a pipeline executes its program in the process group of the job, so that signals from the keyboard and kill %n reach all of them; a program of a job in the foreground finds the terminal in its own group when it is executed, one in the background never takes it from the shell, and the shell has the terminal again afterwards, also when a process could not be started. No order in which the shell and its children get to run makes a difference.",
"all interleavings of the steps of the shell, of each child and of the SIGCHLD handler; pipelines of any length; children that end or are killed at any time; both kinds of kernel behaviour for setpgid of an ended process",
"The outcome depends on which of the two processes runs first after each fork and on how soon the first process of the pipeline ends; a test sees one schedule, nearly always the same.",
"""jobs.c:457-494 exchild;jobs.c:463-468 fork fails;jobs.c:974-989 j_startjob;jobs.c:1033-1054 j_waitj;jobs.c:1153-1163 j_sigchld""".split(";"))
p("The shell hands its terminal and process group back, and a failed exec leaves a shell that works",
"An interactive shell waits to be given the terminal and never takes it from another group; with job control it leads its own group and has the terminal at every prompt; when it is suspended, and when it ends or is replaced, it is in the group it was started in and the terminal is back with that group, whatever set -m, set +m, suspend and jobs came before. It notices that children end, always; in particular an exec whose program cannot be executed leaves it able to run further commands.",
"all sequences of set -m, set +m, suspend, foreground jobs, trap commands and failed exec; all numbers of groups, of owners of the terminal when the shell is continued",
"The group the shell is started in differs from its own only under programs that do not do job control, tests have no terminal, and whether an execve that passed the search fails depends on the system.",
"""jobs.c:205-256 j_suspend;jobs.c:284-300 j_exit;jobs.c:299-391 j_change;jobs.c:1033-1054 j_waitj;exec.c:681-697 comexec;exec.c:380-389 execute TEXEC;trap.c:281-291 restoresigs;main.c:573-593 shell""".split(";"))
p("A trap taken while a command is being read does not change the command",
"When a signal arrives while the shell waits for input and the commands of its trap are run at once, the command that is then read is the one that was typed: the tree is the one the grammar gives for the text, and every here document is read as the document it was announced as.",
"all token sequences, all lists of here documents, a trap during the first token of a line, of a do group, and during any of the documents",
"The signal has to arrive in the window in which the shell waits for a particular line; afterwards most commands, the simple ones, are read correctly.",
"""lex.c:1115-1120 getsc_line;edit.c:122-128 x_getc;syn.c:52-55 token, tpeek;syn.c:57-70 yyparse;syn.c:184-414 get_command;syn.c:416-437 dogroup;syn.c:762-771 compile;lex.c:857-865 gethere""".split(";"))
p("Changing or removing aliases while a line is awaited never makes the lexer read freed memory",
"The source of an alias points into the value stored in the alias table, which alias and unalias free. Whatever aliases a trap changes while the bottom source waits for a line, and whatever is done between commands, the lexer never reads a freed value, and it delivers exactly the characters it would deliver if each value had been copied when its alias was found.",
"All texts, all stacks of aliases, all sequences of reading, putting back, pushing an alias and compiling anew, and all sets of aliases changed at each wait.",
"The fault needs a signal to arrive while a line is awaited with an alias on the source stack, and a trap that frees just that alias; whether reading freed memory shows depends on the allocator.",
"""lex.c:836-851 (yylex);lex.c:974-1053 (getsc__);lex.c:1111-1120 (getsc_line);c_ksh.c:961-965 (c_alias);c_ksh.c:1017-1020 (c_unalias);syn.c:762-771 (compile)""".split(";"))
p("Descriptors the shell opens for files, here documents and substitutions are closed once, however they are left",
"However files read with dot, here documents and command substitutions are nested, and wherever an error, return, exit or interrupt leaves them: the shell never calls close for a descriptor that is not open, never closes one that was open before, leaves all numbers below 10 as they were, and when all is over has closed everything it opened.",
"All nestings, all ways to end, all numbers the kernel may return, all failures of open and dup, the end of a file read before or after its last command.",
"A descriptor closed twice does harm only when its number has been given to something else in between; a leak shows only after many repetitions of an interrupt at the right moment.",
"""shf.c:36-72 (shf_open);shf.c:219-254 (shf_close, shf_fdclose);main.c:476-539 (include);main.c:729-781 (quitenv);lex.c:1148-1151 (getsc_line);exec.c:1185-1244 (herein);eval.c:548-575 (expand);eval.c:901-931 (comsub);eval.c:1034-1035 (globit)""".split(";"))
p("A name of a descriptor means that descriptor, with the access needed, and never one of the shell's own",
"In read -u, print -u, n<&name and n>&name a name is accepted exactly if it is one digit of an open descriptor, which for read and print must be open for reading or writing, or p when there is a co-process. The descriptors the shell keeps for itself (10 and above) cannot be reached by any name, except the right end of the co-process. The message of a refusal gives the reason. Without a number read -u is 0 and print -u is 1.",
"All names, all tables of open descriptors with any access, all sequences of options.",
"There are infinitely many names and tables; a shell's own descriptors show up at different numbers, and a terminal on 0 hides that output went there.",
"""io.c:316-347 (check_fd);io.c:396-406 (coproc_getfd);c_sh.c:268-292 (c_read);c_ksh.c:260-295 (c_print);exec.c:1100-1117 (iosetup);ksh.1:3349-3355""".split(";"))
p("The lexer never writes outside the buffer of a word",
"However long a word is and whatever it contains (quotes, expansions, subscripts of any length, patterns, substitutions, here delimiters, arithmetic commands), every byte that yylex, get_brace_var and arraysub write lies inside the memory allocated for the word: between two calls of Xcheck no more bytes are written than there are in reserve.",
"All sequences of paths through the lexer, all lengths of names, subscripts and words, any fill of the buffer.",
"An overflow needs a word whose length meets the end of the buffer, at 64 times a power of two, in the middle of the construct that writes most; the allocator often hides it.",
"""lex.c:155-163 (yylex);lex.c:191-725 (yylex);lex.c:812 (yylex);lex.c:1519-1586 (get_brace_var);lex.c:1594-1617 (arraysub);expand.h:36-55 (Xinit, Xcheck);misc.c:111-120 (Xcheck_grow_)""".split(";"))
p("test -r, -w, -x and the search for commands tell what is permitted",
"test -r, -w, -x is true of a file exactly if it exists and the kernel permits the shell to read, write, execute (search) it, for the superuser too; the search for a command accepts exactly the regular files that the shell may execute, and notes an error exactly for files that exist and are not accepted.",
"all files (kind, owner, group, bits of each class), real and effective ids with any groups, systems whose access() tells the superuser that everything is executable and others",
"Depends on the ids of the caller and the system's access(); tests run as one user, rarely as root and never with real and effective ids apart.",
"""c_test.c:357-382;c_test.c:232-237;exec.c:955-977""".split(";"))
p("The times that time and times print are those measured, cut to hundredths",
"What time prints as real is the time between the two readings of the clock, what it prints as user and system is what the shell used meanwhile plus what the job used, each cut (not rounded) to hundredths of a second; the seconds are below 60 in the format with minutes, and seconds and hundredths always have two digits, so the line reads back as that time in one way.",
"all times (any seconds, any microseconds or nanoseconds below a second), all widths",
"Times depend on the clock and cannot be repeated; carries between fractions, seconds and minutes are hit by chance.",
"""c_sh.c:682-705;c_sh.c:763-789""".split(";"))
p("HISTCONTROL says which lines are not saved",
"After HISTCONTROL has been set or unset, ignoredups (ignorespace) is in force exactly if HISTCONTROL is set and has that word as one of its colon separated entries, whatever was in force before; a line is then left out of the history exactly if it starts with a space and ignorespace is in force or is the same as the last line and ignoredups is, and is stored without its newline otherwise.",
"all values of HISTCONTROL (empty entries, unknown entries, entries that contain the words), all earlier settings, all lines",
"Values and lines are arbitrary strings; tests try the usual values.",
"""history.c:534-554;history.c:667-681;var.c:1013-1014;var.c:1125-1126""".split(";"))
open('/verif/properties.jsonl','w').write(''.join(json.dumps(x)+'\n' for x in P))
print(len(P))
