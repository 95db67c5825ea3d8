# Formal model of rocky/remake — design

Subject: rocky/remake (GNU Make 4.3 plus a debugger, C), pinned commit, source in `/repo`
(read only as text, never built or run).  Prover: Lean 4.33.0, with single Mathlib modules
imported where a lemma is needed.

## 1. Conventions

* **Text.** A C string is a NUL-free byte sequence.  The model uses `Str := List Char`; a byte `b`
  stands for `Char.ofNat b`.  Theorems quantify over all `List Char`, a superset of the byte strings.
  Where a NUL inside the buffer, a buffer boundary or integer width matters (hash functions,
  string cache, timestamps, `chop_commands`) the model uses `Nat`/`BitVec`/explicit cells.
* **Pointers into a string** become suffixes (`List Char`) or split points; a loop over a pointer
  becomes structural recursion over the suffix.
* **Mutation** becomes returning the new value.
* **fatal() / abort() / undefined behaviour** become explicit outcomes, never a default value.
* **System calls, the clock, the file system, child processes** become parameters (functions or
  event lists over which the theorems quantify).
* **Platform.** POSIX build: no VMS, Windows, MS-DOS, OS/2, Amiga, no `HAVE_DOS_PATHS`,
  no `HAVE_CASE_INSENSITIVE_FS`; `NDEBUG` (asserts off) as in the default build.
* Every definition in `lean/Verif/**` cites the file and lines it models; simplifications are
  stated in the same comment.
* Layout: `Verif/<Area>/Model.lean` (model of the code), `Verif/<Area>/Spec.lean` (independent
  specification), `Verif/<Area>/Lemmas.lean` (helpers), `Verif/<Area>/Props.lean` (the property
  theorems, with a non-vacuity `example` beside each).

## 2. Trusted base

* Lean's kernel.  Axioms used by the theorems: at most `propext`, `Classical.choice`, `Quot.sound`
  (checked with `#print axioms`; see section 5).  No `sorry`, no added axioms, no `native_decide`,
  no `bv_decide`.
* The faithfulness of the model to the C text (by reading; nothing is executed).
* Parameters that stand for the environment (listed with each module).

## 3. Plan per property

| id | model | proof idea |
|----|-------|------------|
| C01 | `hash.c` table as vector of `empty/deleted/item` cells with double hashing over arbitrary hash functions | representation invariant; probe sequence covers the table (odd step, power-of-two size); refinement to a finite map by induction over operations |
| C02 | `hash_map`/`hash_dump` as scan over the vector | corollary of the invariant (no duplicate key in the vector) |
| C03 | `strcache.c` buffers as lists of byte cells with `bytesfree`, hash as finite map (C01) | invariant: every recorded string occupies its own disjoint cells; monotonicity |
| C04 | `find_next_token` scanner and the five functions | equality with spec `words` (split at whitespace) |
| C05 | `func_strip` | equals join of words; idempotent |
| C06 | `func_sort` with `qsort` as any permutation-producing comparison sort | strict sortedness, same set, uniqueness of result |
| C07 | both strategies of `func_filter_filterout` | both equal the spec filter |
| C08 | `subst_expand` with strstr | equality with a declarative leftmost-replacement spec |
| C09 | `patsubst_expand_pat` | word-wise map spec; the doubled blank for empty replacement is shown as a deviation |
| C10 | `pattern_matches` | iff spec `∃ stem` |
| C11 | `func_notdir_suffix`, `func_basename_dir` | recombination |
| C12 | `func_join`, `func_addsuffix_addprefix` | zip spec |
| C13 | `abspath` component loop | normal form, idempotence |
| C14 | `func_if/or/and` over an expansion oracle with an event trace | trace spec |
| C15 | `fold_newlines` | spec |
| C16 | `readline`/`readstring` with buffer size and growth | spec split at unescaped newline; buffer independence |
| C17 | `collapse_continuations` | spec; idempotence |
| C18 | `find_char_unquote`, `remove_comments` | parity spec |
| C19 | `find_percent(_cached)` | parity spec |
| C20 | `conditional_line` stack machine | structured-program spec by induction on nesting |
| C21 | `do_define` level counter | matching-bracket spec |
| C22 | `define_variable_in_set` | fold over definitions = spec |
| C23 | `lookup_variable` over set list | first-visible spec |
| C24 | push/pop scope incl. global-set swap | balanced-sequence invariant |
| C25 | `create_pattern_var` with tail cache, `lookup_pattern_var` | stable insertion sort |
| C26 | `do_variable_definition` | per-operator spec |
| C27 | `parse_variable_definition` | grammar spec (possibly partial) |
| C28 | `variable_expand_string` | homomorphism on literal parts |
| C29 | recursive expansion with `expanding` flags | well-founded measure: number of non-expanding variables, text size |
| C30 | `func_call` | scope spec |
| C31 | `target_environment` | spec set |
| C32 | `quote_for_env` / `decode_env_switches` | round trip |
| C33 | `split_prereqs` | spec |
| C34 | `record_files` dependency merging | fold spec |
| C35 | default goal choice in `eval` | first-eligible spec |
| C36 | `convert_to_pattern`, `convert_suffix_rule` | set characterisation |
| C37 | `pattern_search` candidate collection/ordering/selection | optimality statement |
| C38 | `vpath_search` | first-existing spec |
| C39 | `set_file_variables` list construction | dedup specs |
| C40 | `chop_commands` | split/rejoin round trip; 16-bit counter deviation |
| C41, C42 | `construct_command_argv_internal` | escape/parse round trip; POSIX-subset field-splitting spec |
| C43–C47 | update engine: sequential `update_file`/`update_file_1`/`check_dep` and an event model for parallel runs | invariants over runs |
| C48 | `file_timestamp_cons` | arithmetic |
| C49, C50 | jobserver transition system over any number of makes | invariant over all interleavings |
| C51 | `delete_target` | decision table |
| C52 | `remove_intermediates` | decision logic over the file list |
| C53 | breakpoint linked list | refinement to a list |
| C54 | `dbg_adjust_frame` | decision logic |
| C55 | `get_word` | code deviates on leading blanks: negation plus partial |
| C56 | `writebuf`/`readbuf` over a system-call oracle | induction over the outcome list |
| C57 | `./` stripping loops | equality and idempotence |
| C58 | incremental directory reader | invariant: read part ∪ rest = directory |
| C59 | `ar_name`/`ar_parse_name` | round trip |
| C60 | `escape_print` | JSON string grammar; deviation for other control characters |
| C61 | `set_command_state` | monotonicity |
| C62 | output dump with a lock | interleaving model |
| C63 | `variable_append` over the chain of sets | induction on the chain |
| C64, C65 | `func_foreach`, `func_value` inside the expansion model | induction on the words; scope restored |
| C66 | `find_command`, `execute_line`, the tables of `cmd_initialize.h` | the table as data; decision logic |
| C67 | in-place rewriting loop of `expand_command_lines` | equality with a left-to-right specification; deviations for blanks and backslashes |
| C68, C69 | static pattern rules and grouped targets in `record_files` | specification per target name |
| C70 | `construct_command_argv_internal` | length bounds on every buffer, termination |
| C71, C72 | `start_job_command`/`job_next_command`/`reap_children` for one target | induction on the lines of the recipe |
| C73, C74 | `pattern_search` as a total function | measure (rules not in use); group of targets |
| C75 | `new_pattern_rule` list operations | refinement to a list without duplicates |
| C76–C78 | `construct_vpath_list`, `selective_vpath_search`, `library_search`, `gpath_search` | buffers as lengths; first match |
| C79–C82 | `define_makeflags`, `decode_switches`, `getopt_long` | round trip parent → child; buffer sizes; prefix search |
| C83–C85 | the cache of directories with marks, streams and the limit of open directories | invariant over all histories of calls |
| C86 | `message`/`error`/`fatal` and their macros | lengths of what `sprintf` writes against the buffer asked for |
| C87, C88, C90 | the loop of `eval`: recipes, rule lines with the piecewise expansion, modifiers of assignments | stanzas given as text; induction on the lines, on the words, on the modifiers |
| C89 | `record_target_var`, `do_variable_definition` for a target, `create_pattern_var` | frame and effect per target, invariant that no two targets share a set |
| C91 | `decode_env_switches` with the table of options | every option the environment sets is one it may set |
| C92 | `parse_file_seq` on groups of archive members | rewriting of the listing, induction on the words |
| C93, C94, C95, C96 | goals, environment, level and job limit at the start of `main` | words against an inductive classification; last entry for each name; round trip of the level; decision table |
| C99 | `read_all_makefiles`, `eval_makefile` up to the contents, `construct_include_path` | makefiles as scripts that stop at includes; induction on descriptors and scripts |
| C97, C98, C100 | the restart of make: words, environment, decision | the words decoded again give the same options; decisions stated outright |
| C101–C104 | `ar_scan` over the bytes of a file with an arbitrary function for the members; dates, touching, matching | archives as an inductive grammar; induction on the text of the archive, on the offset for arbitrary bytes |
| C106 | the loop of `initialize_file_variables` | definitions as steps on the variables of the target; induction on the patterns |
| C107–C109 | `snap_deps`: `expand_deps`, special targets, `snap_file`, over a table in any order | relation between lists of prerequisites; invariant over the names done so far; marks as one map over the table |
| C110 | `touch_file` as a sequence of system calls, each of which may fail or not be reached | all outcomes enumerated by cases on the calls, contents arbitrary |
| C111 | the loop of `name_mtime` with its two buffers | chains of links as an inductive relation; kernel as hypotheses, shown satisfiable |
| C112, C113 | the end of `f_mtime` | induction on histories of lookups and events |
| C114 | `print_variable` and the part of `eval` that carries out assignments | round trip: the printed text goes through `readline`, the loop of `eval`, the parsing of assignments and their expansion |
| C115 | assignments through the loop of `eval`, their parsing and `do_variable_definition` | the text of the lines as an inductive grammar; statements as a relation between states; induction on the lines |
| C116 | `export`, `unexport`, `vpath` through the loop of `eval` (read.c 832-894) | the grammar of C115 with directives; marks as a relation between states; the list of `vpath` texts passed to C38, the marks to C31 |
| C117 | the update engine of C43–C47, all graphs, `updateIntermediates` and `checkDeps` included | invariant over runs: everything that is reached is in a set closed under prerequisites, entries and grouped targets |
| C118 | `enter_debugger`, the conditions of all calls of it, `step`, `next`, `continue`, `finish`, `quit`, `break`, `delete`; a run as a list of places | induction over the places; the state between stops is a pair of counters |
| C119 | `file2line.c`, `break` and `list` with a number, places of pattern rules | invariant of the table (sizes, last item of each line) |
| C120 | `include` lines of `eval`, `eval_makefile` with a bound on open files, on top of the reader of C87 | the loop of `eval` over a concatenation; stopped states are absorbing; monotony in the number of files that can be opened |
| C121 | records of files with their pointers, `enter_file`, `rehash_file`, `rename_file`, merging of variable sets, the walk over double-colon records | invariant of the pointers with a rank; number of live records bounds every chain |
| C122 | nodes of the target stack with allocation, `trace_push_target`, `trace_pop_target`, `p_stack_top`, the calls of `update_file_1` as a list, events of a run | invariant: the nodes of the calls that go on are allocated and linked; induction over all sequences of events |
| C123 | `internal_fnmatch`, `fnmatch` with the text as lists and reads beyond the pattern as an outcome | refinement: equal to an inductive relation between parts of a pattern and pieces of a name, by induction over the pattern with the greedy choice at each `*` shown enough |
| C124 | `glob`, `glob_in_dir`, `prefix_array`, `string_glob` over a file system given by `stat`, directory contents and the cache | refinement: members are exactly the paths a recursive relation over the parts finds, by induction over the depth; laws of files as hypotheses, met by a small tree |
| C125 | where make sleeps: the loop of `new_job`, `jobserver_acquire` with and without `pselect`, signals between any two steps, any number of makes on one pipe | invariant over all interleavings; asleep = no step of its own is possible; lexicographic measure for the search; greatest make for the absence of deadlocks; two explicit runs for where it fails |
| C126 | the chain of children and the number of slots with `block_sigs`/`unblock_sigs` at each step, `fatal_error_signal` at any moment, `die` | invariant over all histories (who owns which process; counts); measure for the end of the handler; explicit runs for where it fails |
| C127 | `func_file` on a map of files, with the addresses of the buffer that `variable_buffer_output` may move | refinement to lines and ends of lines; history of appends by induction; decision table of errors; families of wrong results |
| C128 | `get_next_word` and the loop over words in `pattern_search`, on memory with a string in it and a buffer with a size | refinement to a grammar of words, references and lists of names; lengths by induction over rules; stem through the modelled expansion; families of wrong programs for a last dollar sign |
| C129, C130 | the table of the profiler with its events, the JSON file character by character, the lines of the callgrind file, the directory and name of the file, `MAKEPARENT_*` | membership in the grammar of JSON with the value it stands for; refinement of the table to functions of the history; a parity argument for what is not JSON |
| C131 | `load_file`, `load_object`, `unload_file`, the names on a `load` line, functions added by objects; the dynamic linker and the setup functions are parameters, with loads inside loads | names by an inductive relation; a preorder kept by each part for all depths; a record of calls by induction over the history; families of wrong results |
| C132 | `load_too_high`, `start_waiting_job`, `start_waiting_jobs`, the counter of jobs; loads as rational numbers | invariants over all histories; decision stated outright; a bound for one second |
| C133 | `child_execute_job` with `posix_spawn`, `find_in_given_path`; the file system is a parameter | the search against "the first file that may be executed"; messages by induction over the recipe |
| C134 | the choice of the standard input, the descriptors a command gets | an invariant over all histories; tables of descriptors before and after |
| C135 | `func_shell_base` as far as descriptors, `.SHELLSTATUS` and the use of the output are concerned | induction over the uses |
| C136 | `func_origin`, `func_flavor`, `func_value`, `lookup_special_var` with the change counter, `SHELL` in `define_automatic_variables` | C22 and C23 for the winner; invariant over histories for `.VARIABLES` |
| C137 | `dbg_cmd_set_var`, `try_without_dollar`, `dbg_cmd_show_exp`, `dbg_cmd_print` | decision logic on the sets of C22/C23; induction over later definitions |
| C138 | `dbg_cmd_set`, `on_off_toggle` | decision logic |
| C139 | `dbg_cmd_source`, the loop of `enter_debugger` | refinement: the file against the lines typed |
| C140 | `dbg_cmd_write`, `get_target` | refinement to the commands of the lines |
| C141 | `output_start`, `outputs`, `output_dump`, `output_close`, `log_working_directory`, `die`, `print_directory` in `main` | invariant over histories; the output is balanced, one group, or a sequence of groups |
| C142 | `child_error`, `err_with_stack`, their callers in `reap_children` | refinement to the lines expected; injectivity |
| C143 | `remake_tilde_expand` and the names its callers keep using | refinement to the home directory meant; what is left of the name |
| C144 | `decode_debug_flags`, `decode_trace_flags`, the debugger's options, their order in `main` | refinement to the manual's table; stability over decoding again |
| C145 | `print_file`, `print_prereqs`, `print_commands`, `print_rule`, read with the modelled reader | round trip through `readstring` and `eval` (C16, C33, C87, C88) |
| C146 | `func_error`, `error`, `fatal`, line numbers in `eval` and `eval_buffer`, `cmds_started`, `offset` of recipe lines, `reading_file` | induction over the counted lines of C16; splitting of C40 |
| C147 | default.c (its tables as parameters), `-r` and `-R` in `main`, the mark `builtin` of `.SUFFIXES` | comparison with a run that has empty tables, by induction over the lines read |
| C148 | `main` on `-f -`, the removal of the copy, `get_tmpfile` (`mkstemp` a parameter) | induction over reads, makefiles and restarts |
| C149 | `record_waiting_files`, `remove_comments` as far as descriptions go, `--tasks`, `--targets` (info.c); what each line is, is given | invariant over the lines of a makefile, refinement to a specification that walks over rules |
| C150 | `-C`, `CURDIR`, `MAKE_COMMAND`, the moves of `-c` and of a restart (main.c, read.c); the file system is a parameter with four laws | decision logic over an abstract kernel, induction over directories |
| C151 | `_outputs`, `pump_from_tmp`, `output_dump`, `close_stdout`, restart; streams of the C library are described, each answer of the kernel is a parameter | invariant over histories: what is in the file and the buffer is what was meant, or the error indicator is set |
| C152 | `func_realpath`; the kernel is a parameter with five laws | refinement to a map over words, round trip |
| C153 | `reap_children`, `free_child`, `die` as far as the list of jobs, freed records and the debugger are concerned | equality of runs, invariant over histories |
| C154 | the first part of `enter_prereqs` with the addresses of the buffer, `variable_buffer_output` | refinement of the model without a buffer, induction over the list |
| C155 | `f_mtime` for references to members, `ar_parse_name` with its block of memory | equations, the scan of C101 |
| C156 | `concat` with its static memory | invariant of the loop, induction over histories |
| C157 | the prompt in `enter_debugger` | cases by the level |
| C105 | `buildargv` with the growth of the vector | words given as quoted text; room as an invariant |

## 4. What is modelled, and what is not

Each `Model.lean` starts with the line ranges it covers.  In summary (POSIX build):

| C file | modelled | not modelled |
|--------|----------|--------------|
| `hash.c` | all operations | statistics, the hash functions' quality |
| `strcache.c` | all operations | statistics |
| `misc.c` | scanner, `collapse_continuations`, `alpha_compare`, `writebuf`/`readbuf`, the character map, `concat` | allocation, uid switching |
| `function.c` | word, pattern, sorting, path (with `realpath`) and conditional functions, `foreach`, `call`, `value`, `file`, the function table and argument splitting, `info`/`warning`/`error` | `guile`, the arguments of loaded functions |
| `expand.c` | the whole expansion loop, recursive and appended variables, the buffer | allocation failure |
| `variable.c` | sets, scopes, pattern-specific variables, definitions, parsing of definitions, `target_environment`, printing of variables (`-p`) | statistics of the tables, Windows `SHELL` search |
| `read.c` | `readline`, conditionals, `define`, comments and quoting, `parse_file_seq`, the loop of `eval` with rule lines and assignments, `record_target_var`, the explicit and static pattern part of `record_files`, the default goal | the text of `load` lines (their names are given to the model of C131); `include` lines are modelled twice, with makefiles as scripts (C99) and with their text (C120); `export`, `unexport` and `vpath` lines and second expansion are modelled in their own areas |
| `file.c`, `file_basic.c` | entering files and prerequisites, the buffer in which stems are put in (C154), `set_command_state`, time stamps, `remove_intermediates`, `snap_deps`, `expand_deps`, data base printing of rules | statistics in the data base |
| `implicit.c`, `rule.c` | pattern search, rule lists, suffix-rule conversion, second expansion of the prerequisites of pattern rules with its buffer (C128) | unterminated references in second expansion |
| `vpath.c`, `remake.c` | search paths, library search, `GPATH`, the update engine, `check_dep`, goals, touching, times of symbolic links, the end of `f_mtime`, times of archive members (C155) | what stands between: `f_mtime` as one function |
| `commands.c`, `job.c` | automatic variables, recipe splitting, deletion of targets, command lines to words, running a recipe, counting of jobs, the jobserver, sleeping and `SIGCHLD`, fatal signals, starting programs (C133), standard streams (C134) | fatal signals for remote jobs and a second signal in the handler, `child_execute_job` and `exec_command` without `posix_spawn`; the load average is a choice except in C132 |
| `dir.c` | the cache, marks, `glob` hooks | case-insensitive and DOS/VMS variants |
| `main.c`, `getopt.c` | options, `MAKEFLAGS`, command-line variables, goals, import of the environment, job limit, the decision to restart and the new command line, `-r` and `-R`, the makefile from standard input | the order of what `die` does |
| `default.c` | all functions, the tables being parameters | the contents of the tables |
| `output.c` | captured output, dumping under a lock, sizes of messages, messages about the directory, failing writes | line buffering as such (it is part of the described library stream), append mode |
| `posixos.c` | the jobserver pipe, waiting for tokens with `pselect` and with `read` | error returns other than `EINTR`, `EBADF`, `EAGAIN` |
| `ar.c`, `arscan.c`, `buildargv.c` | names, scan, dates, touching, wildcards of members; the words of `run` | AIX and VMS formats, errors of `read` and `write`, interrupted calls, allocation failure |
| `libdebugger/` | breakpoints, frames, command words and tables, stops and the commands that resume, lines of targets, the stack of targets, `set`, `setq`, `print`, `source`, `write`, lists of tasks and targets | printing of the rest, reading with readline, `load`, `edit`, `shell` |
| `lib/glob.c` | `glob` with the flags make gives | braces, `~`, `GLOB_NOCHECK`, memory |
| `lib/fnmatch.c` | all of it | `FNM_CASEFOLD`, `FNM_LEADING_DIR`, wide characters |
| `load.c`, `loadapi.c` | loading, `.LOADED`, unloading, added functions (C131) | the dynamic linker, `gmk_expand`, `gmk_eval` other than `load` lines |
| `profile.c`, `json_format.c`, `callgrind_format.c` | the table, time stamps, the JSON file, the calls and costs of the callgrind file (C129) | the header of the callgrind file; failures of printing to an open file |

The models of different areas are linked where the code is: search for implicit rules uses the parsing of names and the
search paths; recipes are split by the shell model; options are expanded by the expansion model.  Where an area calls another
through a parameter, the theorems quantify over that parameter.

## 5. Axioms

Every theorem listed in `MANIFEST.json` depends on a subset of `propext`, `Classical.choice`, `Quot.sound`
(`tools/axioms.sh` prints them with `#print axioms` for all of them).

## 6. Deviations found

Where the code does not keep a property as a user would state it, the property keeps its statement in `properties.jsonl`, its
status is `partial`, and the negation is proved on a concrete input.  The main ones:

* **Undefined behaviour / memory.** `C06_sort_overread` (scan past the terminating NUL after a lone `$`), `C26_append_use_after_free`,
  `C39_qmark_overflow` (buffer of `$?`), `C54_overflow`, `C76_overrun` (read before the start for `a//`), `C01_small_diverges` (a table of
  requested size below 8 can fill up: lookups never end).
* **Integer widths.** `C04_word_overflow`, `C04_wordlist_overflow`, `C40_too_many` (65536 recipe lines), `C53_wraps`,
  `C48_negative_newest` (times before 1970).
* **Non-termination.** `C29_call_endless`, `C47_question_hangs`.
* **Lost or mixed text.** `C16_nul_joins_lines`, `C21_endef_comment`, `C32_dollar_lost`, `C41_oneshell_cut`, `C62_direct`, `C62_background`,
  `C62_no_lock`, `C67_blanks`, `C67_backslashes`, `C81_simple_dollar`.
* **Wrong choice.** `C34_order`, `C35_percent`, `C35_slash`, `C36_with_prerequisites`, `C37_leftover`, `C37_history`, `C37_empty_stem`,
  `C38_root_directory`, `C38_double_slash`, `C43_group_twice`, `C44_double_colon`, `C44_group_intermediate`, `C58_slash`,
  `C58_marked_exists`, `C74_directory`, `C75_several_targets`, `C75_swallowed`, `C78_library`, `C78_outside`, `C83_forgotten`.
* **Rule lines.** `C88_not_expansion`, `C88_not_static` (text after the colon taken twice), `C88_not_equals` (blanks put around `=`),
  `C88_not_end` (`a::#=b` reads what follows the end of the line), `C89_not_define` (null pointer for `%.o: define x`).
* **Scopes.** `C89_not_conditional`, `C89_not_pattern_append`, `C106_not_simple`, `C22_weaker_clears_append`, `C26_append_scope_mix`, `C30_numeral_name`, `C31_private_leaks`, `C31_hidden_leaks`.
* **After reading.** `C107_percent` (every percent sign of a word becomes the stem), `C107_bar` (a stem with `|` is split), `C108_mention` (`.SECONDARY` as a mere
  prerequisite), `C108_double`, `C109_lost` (targets with own variables, or with a prerequisite that was expanded again, have no extra prerequisites).
* **Start and restart.** `C93_overridden` (`MAKECMDGOALS` of the environment stays), `C94_no_equals` (the scan of the environment runs on past the end of an
  entry), `C97_long_option`, `C97_group`, `C97_goal_lost`, `C97_temporary_goal` (the command line of the restarted make), `C97_two_restarts`,
  `C99_not_remade`, `C99_left_in_root` (`-c` ends in the root directory), `C100_hidden`.
* **Marks.** `C116_void`: `export X` of an undefined `X` defines it as empty, and `X ?= v` then does nothing.
* **Renaming.** `C121_message_wrong` (the message about two recipes says that the one that is kept is ignored), `C121_double_lost` (a double-colon file that is found
  under the name of a mere prerequisite: only its first rule is looked at).
* **Stack of the debugger.** `C122_dangling`: `trace_pop_target` frees the top node and leaves `p_stack_top` pointing to it; `$(debugger)` in the recipe of a target with prerequisites passes this pointer to `enter_debugger`, which reads it. `C122_failed_stays`: a target that has failed before is never taken off. `C122_other_job`: a command of another job is started with the stack of the target that is looked at.
* **Wildcards** (in the matcher that comes with the sources, used where the C library is not GNU's). `C123_class`: `[[:alpha:]]` matches a colon, `[[:alpha:][:digit:]]` does not match a letter, `[[:xdigit:]]` matches nothing.
  `C123_bracket`: `[]a]` and `[\]]` do not match `]`.  `C123_slash`: with special slashes `**/b` misses `/b`, and `*b/?c` matches `ab/.c`.  `C123_beyond`: `*[a[:b:` is read beyond its end.
  `C124_slash_file`: `$(wildcard b.c/)` gives `b.c` for a file.  `C124_escape`: `$(wildcard \a)` does not find `a`.  `C124_stale`: wildcards do not see files made since the directory was first read.
  `C124_members`: `$(wildcard l(*))` gives `l` for each member (read.c 3433 takes the name of the archive).
- **C125** (job.c 1650-1694, posixos.c 420).  `C125_deadlock`: make A runs make B; B has a running job and one that waits for the load (`-l`), and sleeps for a token.  The job ends, B takes it off and gives
  its token back, and then the waiting job cannot be started (`fork` or `posix_spawn` fails): it is put into `children` after the last `reap_children`, no signal comes, and B sleeps (`C125_late`).  A takes the token for a
  job that has to wait for the load, and waits for B with `reap_children (1)`, which has no time limit.  Nothing is running, and nobody wakes up.
  `C125_alarm`: without `pselect`, `EINTRLOOP` around `read` calls `read` again after the alarm, so the load is not looked at again until a job ends or a token comes.
- **C126** (commands.c 664-666, job.c 1446-1454, 599-601).  `C126_uncounted`: the recipe `-missing` (a command that cannot be started, ignored) followed by `sleep 100`: the job was put on the chain without a slot,
  so neither `die` nor `fatal_error_signal` waits for its second command; make ends and the command goes on.  `C126_shell`: `SIGTERM` is not sent to the command of `$(shell)`, and nobody waits for it.
  `C126_no_child`: a signal that comes after `wait` has returned the last process and before the job is off the chain makes the handler call `wait` again: `*** wait: No child processes.  Stop.`, status 2,
  intermediate files stay; `SIGTERM` goes to a number that may belong to another process by then, and a complete target is deleted.  `C126_token_lost`: tokens of jobs that wait for the load are not given back.
- **C127** (function.c 2075, 2110-2113, expand.c 66).  `C127_newline_kept`: `preo` points into the buffer as it was before the reading; if the buffer has to grow and `realloc` puts it at a lower address,
  `o > preo` fails and the last newline stays in the value.  `C127_cr_eaten`: if it is put higher, a file that is just a newline takes a carriage return of the text before the call with it.  (Comparing with a
  pointer into a freed block is undefined in C; the model compares addresses.)  `C127_round_trip_lost`: a text ending in a newline or a carriage return is not read back.  `C127_blank_in_name`: `$(file >a ,x)` writes `a `.
- **C128** (implicit.c 97-111, 132).  `C128_overread`, `C128_overflow`, `C128_runs_out`: after a dollar sign `get_next_word` passes over the next character whatever it is.  If the text ends with a dollar sign
  (`%.o: foo$$` after `.SECONDEXPANSION:`) this is the NUL, and the word goes on in the memory after the text, a block from `xstrndup`: words found there become prerequisites, and a long string there is copied over the
  end of `depname`, which is on the stack.  `C128_stem_blank`, `C128_stem_bar`: the expanded word is split again, so that a blank or a bar in the stem splits the prerequisite, other than without second expansion.
- **C129** (profile.c, json_format.c, callgrind_format.c, main.c 1526, trace.c 69-91).  `C129_unopened`: `main` ignores the result of `profile_init`, which returns before the table is initialised if the file cannot be
  opened; the first target calls a null pointer.  `C129_parent_null`: the name of the parent's target is printed though it is null.  `C129_quote`: the directory, the makefile names and the status are printed with `%s`, so that
  a quote in them makes the file invalid.  `C129_elapsed_wrong`: stamps are seconds shifted by 30 bits plus nanoseconds; their difference is divided by 1000 as if a second were 10^9, so that every second counts as 1.0737 seconds.
  `C129_depends_repeated`: each time a target is considered for another it is listed again.  `C129_callgrind_unlinked`: `fl=` has the directory in front of the file name and `cfi=` has not, so that no call leads to a record.
  `C129_name_overflow`: `sprintf` to a buffer of `PATH_MAX` bytes, without a check in `decode_profile_options`.
- **C130** (main.c 1427-1432, variable.c 869-880).  `C130_dash`: the test for a minus sign, meant for numbers, is also made for the name of the target.  `C130_long`: the name is printed to a buffer of 200 bytes, so that a make
  that is started for a target with a name of 200 characters or more overruns its stack.
- **C131** (load.c 64, 168-170, 216-227, 234-247; commands.c 573-574).  `C131_again`: whether an object is loaded already is decided by the first place where its name occurs in `.LOADED`, so that after `load xa.so a.so` another `load a.so`
  calls its setup function again and lists it twice.  `C131_other`: the symbol is looked up in everything open first, so that of `dir1/foo.so` and `dir2/foo.so` only the first is ever opened; its setup function is called for both.
  `C131_nested`: `.LOADED` is read before the setup function is called and written afterwards, so that objects which the function loads are not listed.  `C131_function_gone`: the recipe of a loaded object starts after the object was closed, but
  its functions stay in the table; a use in that recipe, or later if make does not start again (the recipe fails or leaves the file's time as it was), calls into memory that is gone.  `C131_refused`: `-load` does not cover a missing licence
  mark or setup function.
- **C133** (job.c 739-766, 2098-2157; findprog-in.c 137, 211).  `C133_directory`: the search takes the first name that passes `eaccess`, which a directory does, too: with `PATH=/a:/b`, a directory `/a/cc` and a program `/b/cc`
  the command `cc` fails with "Permission denied", although the shell runs `/b/cc`.  `C133_no_path`: with `unexport PATH` the command is looked for in the working directory only; shells have a default path.  `C133_stale`: the name of the program
  in the job is replaced only when a program could be started; if a command cannot be started and the program of the command before is gone make complains about that one, too.
- **C134** (function.c 1711-1715, job.c 2003, posixos.c 447-473).  `C134_shell_shares`: the command of `$(shell)` in a recipe has the standard input of make while another job has it.  `C134_no_pipe`: if the pipe for the unreadable input cannot be made
  jobs share the input.  `C134_closed`: `make <&- >&-`: the pipe of `$(shell)` in a recipe has the descriptors 0 and 1; descriptor 1 is not duplicated and is closed when the command starts.
- **C135** (function.c 1409-1424, 1696-1724, 1783-1789).  `C135_leak`: when a command cannot be started the two ends of the pipe stay open; after some 500 uses like `$(shell nosuchprogram)` every `$(shell ...)` is empty (`C135_exhausted`).
  `C135_lost`: the output of a command that ends with 127 goes to the standard error, for example that of `$(shell echo a; exit 127)`.  `C135_empty`: `$(shell )` leaves `.SHELLSTATUS` as it was.
- **C136** (function.c 465-492, variable.c 444, 962-968).  `C136_debugger`: `func_origin` has no case for `o_debugger` and calls `abort`: after `setq X 1`, or after `continue` (which sets `MAKEFLAGS`, C118), `$(origin X)`, `$(origin MAKEFLAGS)` end make with a core dump.
  `C136_variables_assigned`: an assigned `.VARIABLES` keeps its value until the next change.  `C136_shell_empty`: `make SHELL=` gives the default shell with origin `file`.
- **C137** (cmd.c 201-202, fns.c 409, 432-440, print.c 49-50).  `C137_print_defines`: `print X` of an undefined variable defines it, empty and stronger than any makefile.  `C137_blanks`: `setq X  a` sets `!a`.  `C137_again`: a second `print` without name reads freed memory (so does `expand`, expand.c 55-56).
  `C137_print_inherited`, `C137_print_private`: only the target's own set and the global one are looked at.
- **C138** (set.c 82-88, 124-125).  `C138_null`: the table entry `variable` has no variable and needs no letter, so `set v on` and `set va on` crash.  `C138_blanks`: two blanks spoil the value.
- **C139** (source.c 69-86).  `C139_unended`, `C139_blank`, `C139_error`, `C139_resume`: the last line without newline is lost; blank lines are not `step`; an error ends the file; `continue` in a file does not continue.
- **C140** (write.c 83-95, fns.c 204-214).  `C140_prefix_kept`: only the first line loses its `@`, `-`, `+`.  `C140_name_cut`: `get_word` writes into the name of the current target.  `C140_same_file`.  Not modelled: the lines run in one shell, and go on after an error.
- **C141** (output.c 511-527, main.c 1522, 1546, 1663, 3321; job.c 1139; commands.c 588).  `C141_moved`: the warning that the jobserver is not available comes before `-C` is obeyed, so that
  `Entering` names the parent's directory and `Leaving` the new one.  `C141_killed`: no `Leaving` after a fatal signal.  `C141_raw`: text of `-d` before `Entering`.
  `C141_direct`: with `-O target`, the output of commands marked as recursive and messages after the makefiles are read have no such lines around them.
- **C142** (job.c 1493, print.c 104-121).  `C142_other_place`: with `-j` the message about a failed command gives the place of the target that make has just begun with.
- **C143** (read.c 3103-3117, main.c 639-644).  `C143_cut`, `C143_restart_elsewhere`: expanding `~user/rest` leaves a NUL in place of the slash in the text handed over, which is the command line itself; after a restart `-C ~user/dir` is `-C ~user`, and a goal `~user/x` is `~user`.  `C143_group_lost`: for the same reason `~user/lib(a b)` means `lib(a)` and, for `b`, the home directory.  `C143_dot_slash`: `./` is removed first, so `./~/m` is looked for in the home directory.
- **C144** (main.c 680-740, 586-588, 1479-1481, 1877-1883).  `C144_trace_lost`, `C144_shell_back`: the options are decoded again after reading makefiles (if `MAKEFLAGS` has single letters), which makes `--debug=n` end tracing, and `-d` undo `--trace=noshell`.  `C144_off_then_all`: `--debug=n -d` shows nothing.  `C144_two_separators`: `--debug="b, v"` is fatal.  `C144_debugger_not_full`: by the precedence of `?:` nothing is added to the level for `--debugger-stop`.
- **C145** (file.c 995-997, 1017-1025; rule.c 518-536).  `C145_not_target`: a file that is only mentioned is printed as a rule and read as a target.  `C145_names`: names are printed without quoting.  `C145_grouped`: grouped targets come back as separate rules.  `C145_pattern_prefix`: `print_rule` does not look at the prefix of the recipe, `print_file` does (`C145_prefix`, `C145_prefix_in_force`).  `C145_blank_prefix`: the line printed for a blank as prefix is read as a tab.
  `C142_builtin`: `<builtin>*** [a.o] error 1`, without a separator.
- **C146** (job.c 1614; read.c 717-720, 2614, 2629).  `C146_wrong_line`: the place named while a recipe line is expanded is the first line of the recipe plus the number of recipe lines before it, so after
  a continued line, a comment or an empty line the number is too small (`C146_recipe_partial` says exactly when it is right).  `C146_eval_recipe`: for rules from `$(eval)` the numbers run on past the line of
  the `$(eval)`.
- **C147** (main.c 1637-1639, 1916-1929; file_basic.c 160-165).  `C147_suffixes_kept`: when a makefile mentions `.SUFFIXES` and sets `MAKEFLAGS += -r`, the built-in suffix rules are still used.  `C147_rules_stay`: `MAKEFLAGS += -R` in a
  makefile does not imply `-r`: the built-in rules stay while `$(COMPILE.c)` and the like are gone.
- **C148** (main.c 1051, 1715-1722, 2356).  `C148_left`: the copy of a makefile from standard input stays in the temporary directory when a makefile has an error, and whenever make starts itself
  again, since the new make does not know that it should remove it.  `C148_read_error`: a failing read is silent; `make -f - < DIRECTORY` takes an empty makefile.  `C148_write_error`: so is a failing `fclose`.
  `C148_twice`, `C148_write_fatal`: the errors about standard input leave the copy too.
- **C149** (read.c 565, 594-656, 750, 1445-1450, 2145).  `C149_two_lines`: when a comment of two lines `#: ` stands before a rule, its first line replaces the description of the rule before it.
  `C149_ignored`: descriptions in branches of conditionals that are not taken go to the next rule read.  `C149_eval`: in text given to `eval`, where all lines have one number, each rule gets the description
  of the next.  `C149_rule_eval`, `C149_include`: `eval` and `include` set the two static variables to null, or leave something in them.  `C149_again`: a later rule for the target takes its description away.
  `C149_targets`: `--targets` also lists files that are only prerequisites.
- **C150** (main.c 1663-1666, 2262-2276; read.c 256).  `C150_search`: when `-c` has found the makefile further up, `CURDIR` and `abspath` still use the directory make was started in, and after a restart
  they do not (`C150_restart_search`).  `C150_restart_lost`: with `-C`, a make whose first `getcwd` failed cannot start again.
* **Archives.** `C101_truncated` (names longer than 15 characters), `C102_no_effect` (the old time of the archive is written, not the current time), `C103_endless`
  (a member of size -60), `C103_outside` (bytes before or after the table of names), `C104_index` (`lib(*)` gives `lib()`), `C102_far` (dates of more than 11 digits).
* **Printing.** `C114_hash`, `C114_leading_blanks`, `C114_newline`, `C114_commented_define`: values that the printed data base gives back cut or changed, or that
  are taken for other lines.  The origin and `override`, `private`, `export` are only in comments.
* **Processes.** `C49_lost`, `C50_two_makes`, `C50_load`, `C50_uncounted`, `C71_question_deletes`, `C52_dontcare`.
* **Times.** `C110_letter` (an empty file gets an `x`), `C110_leak` (descriptors stay open), `C111_long`, `C112_set_back`, `C113_terminal` (an existing file declared
  intermediate is removed).  C111 takes from the kernel what there is under a name; a name that ends with a slash is followed by the kernel itself, so
  the time of the last link before the slash is not seen.
* **Debugger and formats.** `C118_null`, `C118_next_early`, `C118_step_early`, `C118_makeflags` (after `continue` sub-makes lose `-n`, `-k` and the variables of the command line),
  `C118_continue_modifiers`, `C118_break_temp`; `skip` skips nothing, since no caller looks at what `enter_debugger` returns; `finish` leaves a breakpoint that `info break` does
  not list.  `C120_dot` (a makefile found through `-I ./dir` is not remade by a later rule for it).  `C119_past_end`, `C119_eval` (heap written outside; the same happens with `info lines` at a stop while a makefile is being read, when its number of lines is still 0), `C119_hidden`, `C119_no_place`.  `C53_shared_tracing`, `C54_refused_forgets`, `C55_two_blanks`, `C60_invalid`, `C66_dead_aliases`, `C105_name_split`.
- **C151** (output.c 73, 236-247, 438-453; main.c 2317-2331).  `C151_restart_forgets`: a write on standard output that fails before make starts itself again is forgotten, because `exec` makes a new
  stream and nobody looks at the indicator: with `all: ; @true`, `include inc` and `inc: in; cp in inc`, the line `cp in inc` on a full device is lost and the exit status is 0.  `C151_temporary_lost`: the
  answer of `writebuf` in `_outputs` is ignored, so that with `-O` and a full temporary directory the lines make echoes vanish, and a failing `read` in `pump_from_tmp` only says `read()`; the exit
  status is 0.  `C151_error_lost`: losses on standard error are not noticed; and since `close_stdout` exits with 1, a failed build (2) whose output is lost looks like `-q`.  Not modelled: when
  `close_stdout` reports, with `-w` and nothing said before (as in `make -w -p -q`), `output_start` writes "Entering directory" on the stream that has just been closed.
- **C152** (function.c 2020-2022).  `C152_blank`: a resolved name is added as it is, so that below a directory with a blank in its name one word becomes two that lead to no file.
- **C153** (job.c 801-807).  `C153_quits`: when `debugger_enabled` is set, an exit status of 77 is taken to come from a make whose debugger was left, but every command may have it (it is the usual
  status of skipped tests): make ends with 77, without a message, without deleting the target, and although `-k`, `-i` or `-` ask to go on.  `C153_use_after_free`: there the record of the job is freed but
  stays in `children`; with other jobs running (`--post-mortem -j2`, or `-X -j2`, since main.c 1947-1952 overwrites the 1 of `-X`) `die` walks the list and reads the freed record.
- **C154** (file.c 326, 344-365).  `C154_stale`: `buffer` is taken once, but `variable_buffer_output` may move the buffer; `buffer[0]` and `o - buffer` then use the old address.  A rule's own line has
  made the buffer long enough (`C154_line_partial`), so it takes a name that is not in the line: `a: %: ~/%.x` with a home directory longer than the buffer (`C154_home`: 195 characters and a fresh
  buffer; tilde expansion reads `HOME` into a buffer of its own), or a match of wildcards.
- **C155** (remake.c 1358, 1371; ar.c 56-66).  `C155_freed`: `arname` and `memname` are one block, which is freed before the warning about archives made in deterministic mode prints `memname`.  Many
  systems have `ar` write date 0 by default, so this is the usual case there.
- **C157** (cmd.c 316-325).  `C157_deep`: from level 4 on the prompts do not differ, on purpose; but the dots also follow at level 4, where no bracket is left out.

Observed while reading but outside the theorems: `snap_file` enters files while `hash_map_arg` walks the table, which may be moved under it; a member named `ARFILENAMES` is taken for a table of names, and truncated archives are
accepted; `build_target_list` writes `value[-1]` when there are no targets; `get_next_mword` misreads `::=`; `update_file_1` has an early
return (line 455) that leaves the debugger's target stack unbalanced; fatal signals lose the tokens of
waiting jobs; the debugger's `pwd` fails for names of 300 characters and more.

## 7. Tests against wrong programs

`seeded/LOG.jsonl` lists edits made to scratch copies of the model, the claim each breaks, and the theorems that then failed to build.  An
edit that no theorem noticed was either shown to be equivalent or led to a stronger theorem (`tightened`).
