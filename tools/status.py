# property -> (status, note).  Default: ("proved", "").
status = {
 "C01": ("partial", "Missing: histories of more than 2^30 calls (hash values are kept in 32 bits), and requested sizes below 8 unless no more calls are made than the size requested. For such small tables the claim is false: C01_small_diverges shows a lookup that never returns."),
 "C02": ("partial", "Same bounds on history and requested size as C01."),
 "C03": ("partial", "Missing: histories of more than 2^30 additions. Strings have no NUL bytes. C03_huge: strings over 65534 bytes get a new address at every addition."),
 "C04": ("partial", "Missing: indices of 2^31 and more, where the claim is false (C04_word_overflow, C04_wordlist_overflow). C04_wordlist_blank_index: a blank end index is accepted."),
 "C06": ("partial", "qsort is any permutation ordered by alpha_compare. Missing: byte order for words starting with a byte >= 128, where it is false (C06_order_high_byte; C06_order_ascii is the true part), and arguments ending in a lone $, where the scan reads past the end (C06_sort_overread)."),
 "C09": ("partial", "With % (C09_patsubst_partial) and without (C09_patsubst_literal_partial). The claim is false as stated in two ways: a pattern without % keeps the original spacing, and words replaced by an empty replacement without % disappear. Missing: literal patterns that are empty or contain white space."),
 "C13": ("proved", "The starting directory is what getcwd returns: absolute, without empty, . or .. components."),
 "C15": ("partial", "Missing: outputs with NUL bytes. The claim that no other byte changes is false: the CR of a CR-LF is dropped (dropCr in the theorems)."),
 "C16": ("partial", "Missing: files with NUL bytes, where the claim is false (C16_nul_joins_lines). The CR of a CR-LF is dropped."),
 "C20": ("partial", "Missing: lines starting with the recipe prefix whose text is a conditional directive, and defines inside defines, for which the claim is false in skipped text (C21_ignored_nested). A malformed test after 'else' is an explicit undefined outcome (a level that was never set is read)."),
 "C21": ("partial", "The extent of the body is exact (an equivalence). The kept text is exact except for nested endef lines, whose comments are dropped (C21_endef_comment). In skipped text nested pairs are not counted (C21_ignored_nested)."),
 "C22": ("partial", "Value, origin and flavour are settled for every history with the -e flag constant or set once. Missing: the append flag, for which the claim is false: C22_weaker_clears_append shows a weaker target-specific definition that changes what the variable expands to."),
 "C23": ("proved", "Parents of targets are taken to form no cycle."),
 "C26": ("partial", "Missing: += whose right-hand side changes variables while it is expanded; C26_append_use_after_free shows that the claim fails there. += reads the current scope but defines in the global set (C26_append_scope_mix); with an empty right-hand side nothing changes, not even the origin (C26_append_empty)."),
 "C29": ("partial", "Missing: texts and recursive values that mention call. With call the claim is false: C29_call_endless. The number of variables is finite; effects of eval on variables during the expansion are not modelled."),
 "C30": ("partial", "Missing: function names with $ : ( ) or blanks, of 256 characters and more, or equal to a numeral that the call binds (there the claim is false: C30_numeral_name), and variables with appended values. $(0) keeps blanks before the name."),
 "C31": ("partial", "Names are distinct and each entry is that of the innermost exported definition. The claim as stated is false: C31_private_leaks, C31_hidden_leaks. SHELL only for a single set (C31_shell)."),
 "C48": ("partial", "Missing: times before 1970. C48_negative_newest: they are clamped to the newest end, so the order is false there."),
 "C53": ("partial", "Missing: 2^32 - 1 commands and more, where numbers wrap to 0 and cannot be deleted (C53_wraps). The list itself is exact. C53_shared_tracing: with two breakpoints on a target, deleting one disarms the other."),
 "C54": ("partial", "Missing: moves whose target does not fit in an int, where the code has undefined behaviour (C54_overflow). C54_refused_forgets: a refused move keeps the number but forgets the current target."),
 "C55": ("partial", "The command word and the whole argument are exact for every line (C55_line). Words inside an argument are exact only for single blanks; the claim is false for more (C55_two_blanks)."),
 "C59": ("partial", "Names of the form lib((entry)) are a fatal error, so the claim is about the others."),
 "C60": ("partial", "Missing: other control characters, which are printed as they are, so that the result is not JSON (C60_invalid)."),
 "C66": ("partial", "Words have no NUL. The claim is false for the aliases ? and L (C66_dead_aliases)."),
 "C43": ("partial", "Every (also cyclic) graph, with one recipe per entry; C43_group_twice: for the recipe of grouped targets the claim is false when a cycle leads through them."),
 "C44": ("partial", "Graphs without intermediate, grouped and double-colon targets. False with double-colon targets (C44_double_colon, C44_double_colon_early) and for intermediate prerequisites of grouped targets (C44_group_intermediate)."),
 "C45": ("partial", "For graphs without intermediate, grouped and double-colon targets: if and only if, provided that recipes that succeed renew their targets (C45_remade_partial, C45_reason_partial; C45_exact_partial for whole runs); only if, in the weaker form, whatever they do (C45_only_stale_partial). Missing: other graphs. A prerequisite that was remade with its time unchanged does not count (C45_unchanged)."),
 "C46": ("partial", "Nothing is started after a failure without -k, for every graph (C46_stop, C46_gives_up); the propagation of failures for graphs without intermediate, grouped and double-colon targets, as it is false otherwise (C44_double_colon)."),
 "C47": ("partial", "Graphs without intermediate targets; the number of looks at the goals is bounded only without double-colon targets under -q, where the claim is false (C47_question_hangs)."),
    "C39": ("partial", "For prerequisite lists in which repeated names agree on whether they changed; otherwise the buffer for $? may overflow (C39_qmark_overflow), and $+ changes on a second computation (C39_plus_changes)."),
    "C40": ("partial", "For recipes of less than 65536 lines; with 65536 lines nothing remains (C40_too_many)."),
    "C51": ("proved", "The decision and the sets of files; the disk is not changed by others meanwhile."),
    "C52": ("partial", "The exact condition is proved; files marked don't-care are removed even if precious (C52_dontcare), and 'created in this run' is only the test that the file has been considered."),
    "C67": ("partial", "Exact for lines where no backslash-newline follows white space or a backslash, and for lines where no reference starts after a continuation; otherwise false (C67_blanks, C67_backslashes)."),
    "C33": ("partial", "Every text is covered (C33_every); for names with wildcards, ~ or archive members only that normal prerequisites come before order-only ones (C33_sorted)."),
    "C34": ("partial", "The exact outcome is proved (C34_merge); with several recipes the rules that lost theirs are not in reading order (C34_order)."),
    "C35": ("partial", "For target names without quoted % and suffixes without slash; otherwise false (C35_percent, C35_slash)."),
    "C57": ("partial", "The three loops agree on every name; names made by tilde expansion or from a stem are entered without stripping (C57_tilde, C57_stem)."),
    "C68": ("partial", "For target names without white space and prerequisites without quoted %; otherwise false (C68_blank, C68_quoted)."),
    "C69": ("partial", "For single-colon targets; the groups of the separate records of double-colon targets are not described."),
    "C41": ("partial", "For shells given by a plain name and flags without special characters, without leading blanks; false for some scripts under .ONESHELL (C41_oneshell_cut), newlines in the shell function (C41_function_newline) and other values of SHELL (C41_shell_words)."),
    "C42": ("partial", "The words agree for lines without a quote just before a backslash-newline (C42_empty_word) and up to a backslash at the end (C42_last_backslash); special built-ins go through the shell, but some other built-ins do not (C42_other_builtins)."),
    "C49": ("partial", "Tokens are conserved and returned for runs in which every job ends in the ordinary way; tokens of jobs killed with the process are lost (C49_lost)."),
    "C50": ("partial", "For trees of makes that all use the jobserver; makes with their own slots and uncounted jobs exceed the limit (C50_two_makes, C50_uncounted, C50_load)."),
    "C71": ("proved", "For one target; the splitting of a line into commands is a parameter (shellSplitter is the one of the code). Under -q targets may be deleted though nothing failed (C71_question_deletes)."),
    "C72": ("partial", "For one target. Targets that share a recipe share the marks of its lines (job.c 1060), which is not modelled and makes the claim false for sequences of targets."),
    "C36": ("partial", "The exact list is proved; outside POSIX mode targets with prerequisites are converted too (C36_with_prerequisites)."),
    "C37": ("partial", "Proved up to three deviations: leftover prerequisites of a rejected rule (C37_leftover), marks of impossible files that outlive the search (C37_history), and an empty % after a directory (C37_empty_stem)."),
    "C74": ("partial", "For targets without directory or patterns without text before % or with a directory; otherwise false (C74_directory)."),
    "C75": ("partial", "For rules with one target; false for rules with several (C75_several_targets, C75_swallowed)."),
    "C38": ("partial", "Proved for names without a double slash before the last part and search directories that do not end in a slash; false otherwise (C38_root_directory, C38_double_slash)."),
    "C76": ("partial", "Writes are proved in bounds for all inputs (C76_list, C76_name); reads for regular names; false for a// (C76_overrun)."),
    "C77": ("partial", "For regular names and directories, as for C38, and fewer than 2^32 directives and standard directories."),
    "C78": ("partial", "Proved for files that are not libraries; false for libraries (C78_library, C78_outside)."),
    "C32": ("partial", "Proved for words without $; a $ is expanded once too often (C32_dollar_lost), and a MAKEFLAGS of the environment that ends in a blank has an empty word more (C32_last_blank)."),
    "C79": ("partial", "For values without $, file names that do not change in tilde expansion and a load limit that survives printing with %g; false for a makefile or directory ./~/x (C79_tilde). The printing and reading of the load limit are parameters."),
    "C81": ("partial", "For plain names and values without leading white space; simple values must not have a $ (C81_simple_dollar, C81_leading_blank)."),
    "C82": ("partial", "Abbreviations are proved for all names and tables; grouping for the flags passed in the environment. In MAKEFLAGS misused options pass (C82_silent_argument), and the letter - is accepted (C82_dash_letter)."),
    "C58": ("partial", "Proved for every sequence of queries (C58_exists, C58_glob) and, for names without a trailing slash, with marks on files that do not exist; false for a trailing slash after a mark (C58_slash) and for marks on existing files (C58_marked_exists)."),
    "C83": ("partial", "For marks on files that do not exist; the mark of an existing file is lost when its entry is read (C83_forgotten)."),
 "C62": ("partial", "C62_blocks_partial and C62_complete_partial: for every mix of writes, dumps and deaths of makes, if the lock works and jobs stop writing before their output is written out. Not kept by the code: uncaptured output inside a block (C62_direct), lost output of background processes (C62_background), mixed blocks without a lock (C62_no_lock)."),
 "C87": ("partial", "C87_makefile_partial covers conditionals inside recipes; C87_every_partial, that every makefile is such a sequence or fatal, is for makefiles without conditional lines. Recording a rule must not change the recipe prefix, and .POSIX takes effect from the start or not at all. Conditionals around stanzas are covered by C20."),
 "C88": ("partial", "For plain file names; the colon in the line itself or in the expansion of its first word, with the text after it not beginning with white space. False otherwise: C88_not_expansion, C88_not_static, C88_not_equals, C88_not_end."),
 "C89": ("partial", "C89_line_partial reads the line (see the note of C88); C89_others_partial, C89_targets_partial and C89_patterns_partial say what is then defined, for expansions without side effects and no `?=` on a global variable. False otherwise: C89_not_conditional, C89_not_pattern_append, C89_not_define."),
 "C92": ("partial", "For plain words, archives and members: no quoting or wildcards inside the parentheses, no members with parentheses."),
 "C93": ("partial", "The goals are proved for every list of words (C93_goals, C93_environment); MAKECMDGOALS only if neither environment nor command line define it: it keeps such a definition (C93_overridden)."),
 "C94": ("partial", "For environments in which every entry has an equals sign; without one the scan runs on into the memory behind the entry (C94_no_equals)."),
 "C97": ("partial", "For command lines without the long forms of -f and without groups of options that contain f, and goals that are not -f or its value; false otherwise (C97_long_option, C97_group, C97_goal_lost, C97_temporary_goal). The environment for at most one MAKE_RESTARTS entry (C97_two_restarts) and fewer than 2^32 - 1 restarts."),
 "C99": ("partial", "Proved for every nesting of files (C99_given, C99_default, C99_search, C99_list, C99_path, C99_endless); but make never tries to make a default makefile when there is none (C99_not_remade), and make -c that finds none goes on in the root directory (C99_left_in_root)."),
 "C100": ("partial", "Except for -q after a failed makefile (C100_hidden)."),
 "C101": ("partial", "For names such that no member with its name in the header agrees in the first 15 characters only; false otherwise (C101_truncated)."),
 "C102": ("partial", "The place and extent of the change are proved for all archives; the date written is not the current time but the time of the last change that the archive had before (C102_no_effect). For unambiguous names (see C101) and dates of at most 11 digits."),
 "C103": ("partial", "For files without a minus sign in a place for a size and without a table that starts with an empty line; false otherwise (C103_endless, C103_outside)."),
 "C104": ("partial", "For patterns that match neither the empty name nor a slash; false otherwise: the index of the archive is taken for a member (C104_index)."),
 "C105": ("partial", "For names of make without blanks, quotes and backslashes; others are split (C105_name_split)."),
 "C106": ("partial", "For expansions without side effects and no ?= on a variable that is defined outside (see C89_not_conditional). A := after a += for the same variable does not undo the appending (C106_not_simple)."),
 "C107": ("partial", "For expanded texts without wildcards, home directories and archive members, and percent signs in them in static pattern rules only if they come from the stem; one record of .SUFFIXES; expansions without side effects. False for a second percent sign in a word and for stems with a bar (C107_percent, C107_bar)."),
 "C108": ("partial", "Proved except that .SECONDARY has its effect without being a target (C108_mention) and that only the first double-colon rule for .IGNORE or .SILENT counts (C108_double)."),
 "C109": ("partial", "Only for the first rule of a target, and not for targets with variables of their own, nor for a target that is itself among the files (C109_lost). Files that enter the table while it is gone through are not modelled exactly."),
 "C110": ("partial", "Proved for every failure and crash point for files that are not empty, and for all files if touching succeeds; an empty or missing file is left with one letter if make is killed between two calls or cannot open it again (C110_letter). Regular files; no other process uses the file."),
 "C111": ("partial", "If the names, written out along the links, stay shorter than PATH_MAX; otherwise the links further on are not looked at (C111_long). Termination and bounds are proved for all."),
 "C112": ("partial", "There is a warning for a file in the future if the clock is not set back during the run (C112_set_back); the rest is proved for all histories."),
 "C113": ("partial", "For files for which no implicit rule was searched before; a file found by a terminal rule, or on which an intermediate file depends, stays intermediate and is removed (C113_terminal)."),
 "C114": ("partial", "For plain names and values that can stand on a line, or in a define; false for a recursive value with a number sign (C114_hash), a simple value with blanks at its start (C114_leading_blanks) or with a newline (C114_newline), and the lines of a define of a target or pattern are not commented (C114_commented_define)."),
 "C115": ("partial", "For expansions without side effects on variables, lines outside of conditionals and rules, and bodies of define without a nested endef (see C20, C21, C87 for those)."),
 "C116": ("partial", "For expansions without side effects on variables, lines outside of conditionals and rules, and global variables. A variable that is not defined becomes defined and empty, so that values do change in this one case (C116_void)."),
 "C118": ("partial", "For the places of the ordinary course of a run (and errors, for stops on errors). step N and next N stop earlier at a target with a breakpoint of another kind (C118_step_early); next N after step counts other places too (C118_next_early); a call of the function debugger while steps are counted follows a null pointer (C118_null); the flags for sub-makes are lost (C118_makeflags); modifiers are ignored (C118_continue_modifiers, C118_break_temp)."),
 "C119": ("partial", "For lines of makefiles that have a rule and within the makefile; a number after the end (C119_past_end), rules from $(eval) (C119_eval) and targets without a place (C119_no_place) read or write wrong memory, and a pattern rule hides the target on the line before (C119_hidden)."),
 "C120": ("partial", "C120_search, C120_include, C120_stop, C120_textual, C120_split, C120_recipe, C120_slots and C120_self are for all makefiles; which names a line lists is proved for names without wildcards and ~ (C120_names_partial). Assumes that recording a rule does not change the recipe prefix, and errors inside actions are parameters. C120_dot: a file found in ./dir is entered under a name that rules do not find."),
 "C121": ("partial", "C121_history_partial, C121_kept_partial, C121_new_name_partial and C121_one_file_partial are for all histories without double-colon rules; C121_double_all and C121_kinds are about double-colon files. The message about two recipes names the wrong one (C121_message_wrong), and rules of a double-colon file are lost when it is found under the name of another file (C121_double_lost)."),
 "C122": ("partial", "C122_stack_partial is for all runs in which the function debugger is not called, and tells nothing about which target a stop is for; the full claim is false: C122_dangling (the function debugger in a recipe reads freed memory once a prerequisite was looked at), C122_failed_stays, C122_other_job (with parallel jobs the stack of another target is shown). C122_called_partial: where the function debugger shows the stack."),
 "C123": ("partial", "For the matcher that comes with the sources. C123_match_partial is for all patterns whose brackets have plain characters and upward ranges, and, where slashes are special, for names without slashes; C123_safe_partial for all patterns that do not end with a colon; C123_class_one_partial for a single named class, C123_set_escaped_partial for escaped characters in a bracket, C123_range_escaped and C123_caret for ends of ranges and ^. The rest is false: C123_class (named classes), C123_bracket (a closing bracket in a set), C123_slash (** before a slash, periods after slashes), C123_beyond (*[a[:b: is read beyond its end)."),
 "C124": ("partial", "For the glob that comes with the sources, which make uses with its cache of directories. C124_glob_partial is for patterns of any depth without empty parts, with brackets as in C123 and backslashes only in parts with wildcards; C124_wildcard_partial for words without parentheses and ~. The rest is false: C124_slash_file (a slash at the end gives files too), C124_escape, C124_stale (the last directory is looked at as first read), C124_members."),
 "C125": ("partial", "C125_awake, C125_settles, C125_no_internal, C125_tokens and C125_tick are for all interleavings. C125_no_deadlock_partial and C125_running_partial are where every process can be started; otherwise there is a deadlock (C125_deadlock), because a waiting job that could not be started goes unnoticed (C125_late). In a build without pselect the alarm for jobs that wait for the load is lost (C125_alarm)."),
 "C126": ("partial", "C126_sent, C126_deleted, C126_no_start, C126_consistent and C126_ends are for all moments and histories (local jobs, one signal). C126_none_left_partial leaves out recipes whose first command could not be started, for which make does not wait (C126_uncounted), and the command of the function shell (C126_shell). C126_clean_partial leaves out the moment after wait has returned a process, when make ends with `wait: No child processes` and keeps the intermediate files (C126_no_child). C126_tokens_partial says which tokens are not given back (C126_token_lost)."),
 "C127": ("partial", "Writing, histories of appends, missing files and errors (C127_write, C127_append, C127_no_text, C127_history, C127_missing, C127_fatal) are for all calls. Reading is proved where the text fits into the buffer (C127_read_fits_partial) and, where it grows, if the allocator does not move it down and no lone newline follows a carriage return (C127_read_grown_partial); the rest is false (C127_newline_kept, C127_cr_eaten), because a pointer into the old block is compared. The round trip holds for texts that end neither in a newline nor in a carriage return (C127_round_trip_partial) and for no others (C127_round_trip_lost). C127_blank_in_name: blanks after the name belong to it. A NUL in a file that is read, which ends the C string, is not modelled."),
 "C128": ("partial", "C128_words_partial: every dollar sign belongs to a pair or to a reference that is closed, names without wildcards and archive members, expansion without effects (a parameter). C128_stem_verbatim is with the modelled expansion, for $*. C128_fits is for all rules and targets. C128_same_partial is for stems without blanks, bars and backslashes and targets without a directory to add; with a blank or bar in the stem it is false (C128_stem_blank, C128_stem_bar). A text that ends with a dollar sign is read beyond its end: C128_overread, C128_overflow, C128_runs_out."),
 "C129": ("partial", "C129_json_partial: that the file is JSON and says what it should is for texts without the characters that break it; a quote in the name of the directory does (C129_quote). C129_stamp, C129_each_once, C129_place and C129_times are for all histories in which only finished targets are marked as updated. C129_order_partial needs a clock that does not go back and states in order (a double-colon target has several records under one name). C129_depends_partial: in reverse order and repeated (C129_depends_repeated). C129_elapsed_partial is within one second, otherwise the elapsed time is wrong (C129_elapsed_wrong). In callgrind files no call leads to a record (C129_callgrind_unlinked). Without the file make crashes (C129_unopened), also if the name of the target it was started for begins with a minus sign (C129_parent_null). Names of files: C129_name_partial, C129_name_overflow."),
 "C130": ("partial", "C130_parent_partial is for names with fewer than 200 characters that do not begin with a minus sign; others are lost (C130_dash) or overrun a buffer (C130_long)."),
 "C131": ("partial", "C131_called_partial and C131_once_partial assume that no object open, nor make itself, defines the symbol (else the object on the line is not opened and the other's function is called, C131_other) and that no name listed before contains the name (else a listed object is loaded again, C131_again). C131_listed_partial: setup functions do not load objects themselves; if they do, `.LOADED` loses them (C131_nested); if the user set `.LOADED` it never changes (C131_pinned). C131_functions_partial: before the recipe of a loaded object starts; then its functions stay in the table and calls go to an object that is not there (C131_function_gone). A missing licence mark or symbol is fatal with -load too (C131_refused)."),
 "C133": ("partial", "C133_found_partial and C133_started_partial assume that no directory that may be searched has the name of the command in one of the directories of PATH; such a directory hides the program behind it (C133_directory, C133_hidden). Without PATH only the working directory is searched (C133_no_path). C133_recipe_partial: the message about a command that cannot be started is the only one if the program of the command before it is still there; else there is another one about that program (C133_stale). C133_path, C133_slash, C133_given, C133_reason and C133_message are for all cases. The variant of the code without posix_spawn is not modelled."),
 "C134": ("partial", "C134_one, C134_free and C134_kept are for all histories of the commands of recipes; the command of the function shell always has the standard input of make, too (C134_shell_shares), and so has every command if no pipe could be made (C134_no_pipe). C134_streams_partial: make itself has its three standard descriptors; if it was started without the first two, the command of the function shell has no output (C134_closed)."),
 "C135": ("partial", "C135_value_partial: the command does not end with 127 and descriptors are left; with 127 the output goes to the standard error and the value is empty (C135_lost). C135_descriptors_partial: every command could be started; each one that could not leaves two descriptors open (C135_leak), until every use gives the empty text and leaves .SHELLSTATUS as it was (C135_used_up, C135_exhausted). An empty command leaves .SHELLSTATUS of the one before (C135_empty)."),
 "C136": ("partial", "C136_origin_partial is for a constant -e flag and for origins that have a word: of a variable set in the debugger, $(origin) aborts make (C136_debugger). C136_variables_partial: .VARIABLES itself is not assigned (C136_variables_assigned). C136_shell_empty: an empty SHELL on the command line counts as a definition of a makefile."),
 "C137": ("partial", "C137_setq_partial: one blank before the value, which otherwise gets an exclamation mark (C137_blanks), and no dollar sign before the name (C137_dollar). C137_print_partial: the variable is the target's own or only global; inherited definitions are not shown and private ones are (C137_print_inherited, C137_print_private). `print` of an undefined variable defines it for good (C137_print_defines); `print` without name uses freed memory (C137_again)."),
 "C138": ("partial", "C138_flag_partial: one blank between name and value (C138_blanks). `set v on` writes through a null pointer (C138_null)."),
 "C139": ("partial", "C139_source_partial: every line is ended, shorter than 2047 characters and not blank, and no command fails or leaves the prompt; see C139_unended, C139_long, C139_blank, C139_error and C139_resume."),
 "C140": ("partial", "C140_script_partial: only the first line of the recipe has characters to remove (C140_prefix_kept). C140_name_cut: the name of a current target with a blank is cut in memory. C140_same_file: targets with the same last part share the default file."),
 "C141": ("partial", "C141_one_partial, C141_groups_partial: the options stay, the directory is known before the first message, messages are written by outputs(), and with -O line or target all output is collected; C141_balanced_partial does not compare the names. False if make is killed (C141_killed), if a message comes before -C is obeyed (C141_moved), for text printed directly (C141_raw) and for output that is not collected (C141_direct)."),
 "C142": ("partial", "C142_line_partial says nothing about the place; with -j it may be that of another target (C142_other_place), and for a target without place nothing separates it from the line (C142_builtin)."),
 "C143": ("partial", "C143_command_partial: the home directory is absolute. C143_words_partial, C143_group_partial: no name lies below the home directory of another user; such words lose everything behind the user (C143_cut, C143_restart_elsewhere), and so do all but the first member of a group (C143_group_lost). C143_dot_slash: ./ before ~ does not help."),
 "C144": ("partial", "C144_stable_partial: nothing is switched off by --debug=n, --trace=noshell or --verbosity=terse, see C144_trace_lost and C144_shell_back. Two separators in a row stop make (C144_two_separators), -d behind --debug=n does nothing (C144_off_then_all), -X is not --debugger-stop=full (C144_debugger_not_full)."),
 "C145": ("partial", "C145_files_partial, C145_patterns_partial: names have no characters that mean something in a makefile, all recipes have the prefix in force, targets have no variables, and no equals sign is in memory after a line. False for other names (C145_names), for files only mentioned (C145_not_target), for grouped rules (C145_grouped), for pattern rules with another prefix (C145_pattern_prefix)."),
 "C146": ("partial", "False for recipes: C146_recipe_partial and C146_semicolon_partial say when the number named is right (no continued lines, comments or empty lines before it in the recipe) and that it is otherwise too small, C146_wrong_line is a witness; recipes from eval name unrelated lines (C146_eval_recipe). C146_line_partial: makefiles without NUL bytes. Conditionals inside recipes are not followed."),
 "C147": ("partial", "Holds for options given before the makefiles are read (C147_rules, C147_variables). In MAKEFLAGS of a makefile, -r is proved only if .SUFFIXES is not mentioned (C147_makefile_partial) and fails otherwise (C147_suffixes_kept); -R does not imply -r there (C147_rules_stay), and only the variables still built in are removed (C147_makefile_variables)."),
 "C148": ("partial", "The copy is exact when nothing fails (C148_copied) and stays for restarts (C148_again), but it is removed only if make gets to its goals without a restart (C148_removed_partial); otherwise it stays (C148_left, C148_twice, C148_write_fatal). A failing read or a failing close is silent (C148_read_error, C148_write_error)."),
 "C149": ("partial", "C149_description_partial: one makefile in which at most one description stands between a rule and the line that ends it; C149_included_partial: any nesting of makefiles in which every description is followed by its rule. False otherwise (C149_two_lines), for branches not taken (C149_ignored), text given to eval (C149_eval), rules that use eval (C149_rule_eval), included makefiles (C149_include), and targets with a later rule (C149_again). A blank after #: is needed (C149_comment). --targets prints all files (C149_targets); --tasks is as stated (C149_tasks)."),
 "C150": ("partial", "C150_curdir_partial and C150_restart_partial are for runs without -c, the latter where make can tell where it started. With -c CURDIR and abspath keep to the directory make was started in (C150_search) and change at a restart (C150_restart_search); a make that could not tell where it was cannot start again under -C (C150_restart_lost)."),
 "C151": ("partial", "C151_noticed_partial, C151_killed_partial and C151_at_once_partial are about one run of the program (no restart) with temporary files that take and give all text. A restart forgets a failure (C151_restart_forgets); text that a temporary file of -O does not take, or that cannot be read back, is lost with status 0 (C151_temporary_lost); losses on standard error are not noticed, and a failed build is then told as 1 instead of 2 (C151_error_lost); a standard output closed at the start is no failure (C151_closed). C151_sticky and C151_no_false_alarm are general."),
 "C152": ("partial", "C152_realpath is general (over kernels that keep the laws of realpath and stat). C152_files_partial and C152_again_partial are for resolved names without blanks and words below the limit for names; a directory with a blank in its name gives two words that lead to no file (C152_blank)."),
 "C153": ("partial", "C153_same_partial and C153_memory_partial are for histories in which no command ends with status 77 (the latter for all histories without the debugger). A command that ends with 77 ends a debugged make at once, whatever -k, -i and the prefix - say (C153_quits); C153_keep_partial and C153_stop say how make ends otherwise; if another job runs, make uses the freed record of the job (C153_use_after_free, C153_skipped)."),
 "C154": ("partial", "C154_room_partial needs room in the buffer for each name, which C154_line_partial derives when the names stand in the line that the buffer held; C154_inplace needs no room but an allocator that grows in place; all are for stems without blanks and names without quoted percent signs (see C68). A name that does not fit is built from freed memory when the buffer moves (C154_stale, for all such rules; C154_home, a rule with a long home directory)."),
 "C155": ("partial", "C155_time_partial leaves out entries with date 0: for all of them, which is what ar writes in its deterministic mode, the warning reads the member's name from memory that was freed (C155_freed). C155_name and C155_no_archive are general."),
 "C156": ("proved", "For lengths below the limit of size_t, and as long as memory can be had."),
 "C157": ("partial", "C157_memory is for all levels. C157_level_partial is for levels below 4; from there on all prompts are the same, also at level 4, whose five brackets are all shown (C157_deep)."),
}
