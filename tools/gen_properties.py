#!/usr/bin/env python3
"""Writes /verif/properties.jsonl.  One entry per property: title, statement,
quantifier, why_tests_cant, anchors."""
import json, os
P = []
def p(title, statement, quantifier, why, anchors):
    P.append(dict(id="C%02d" % (len(P)+1), title=title, statement=statement,
                  quantifier=quantifier, why_tests_cant=why, anchors=anchors))

p("Hash table behaves as a finite map",
  "After any sequence of insert / insert-at-found-slot / delete / lookup calls on a table created by hash_init, a lookup of key k returns exactly the item most recently inserted under a key equal to k and not deleted since, and reports absence otherwise; rehashing never loses, duplicates or resurrects an item, and every probe sequence terminates.",
  "every history of table operations, every key type, every pair of hash functions (including colliding ones) and every initial size request",
  "The behaviour depends on the whole insertion/deletion history, on collisions and on tombstones; a test sees a handful of histories.",
  ["src/hash.c: hash_init, hash_find_slot, hash_find_item, hash_insert, hash_insert_at, hash_delete, hash_delete_at, hash_rehash, round_up_2", "src/hash.h"])
p("Enumerating a hash table yields every live item exactly once",
  "hash_map / hash_dump visit each live item of the table once and no deleted item, so 'print all variables', exporting and snapshotting never skip or repeat an entry.",
  "every history of table operations",
  "Tombstones and rehash layout are history dependent.",
  ["src/hash.c: hash_map, hash_map_arg, hash_dump, hash_free_items"])
p("String interning is canonical and stable",
  "For strings up to 65534 bytes, adding the same bytes twice returns the same pointer, adding different bytes returns different pointers, and the bytes behind a returned pointer never change whatever is added later. (Longer strings are stored but not uniqued.)",
  "every sequence of added strings of any lengths",
  "Aliasing depends on how earlier strings filled the buffers; overlap bugs appear only for particular length sequences.",
  ["src/strcache.c: add_string, add_hugestring, add_hash, new_cache, copy_string, strcache_add, strcache_add_len, strcache_iscached"])
p("words / word / wordlist / firstword / lastword agree on one notion of word",
  "$(words t) is the number of maximal non-whitespace runs of t; $(word n,t) is the n-th such run or empty; $(wordlist a,b,t) is runs a..b exactly as they are spaced in t; $(firstword t) and $(lastword t) are the first and last run.",
  "every text and every pair of indices",
  "Infinite input space with arbitrary runs of blanks, tabs and newlines.",
  ["src/function.c: func_words, func_word, func_wordlist, func_firstword, func_lastword", "src/misc.c: find_next_token, end_of_token, next_token"])
p("strip canonicalises whitespace",
  "$(strip t) is the words of t joined by single spaces; it is idempotent and preserves the word list.",
  "every text", "Infinite input space.", ["src/function.c: func_strip"])
p("sort is a strictly increasing list of the same words",
  "$(sort t) contains exactly the distinct words of t, each once, in strictly increasing byte order; it is idempotent and insensitive to the order and repetition of its input.",
  "every text", "All permutations and duplicate patterns cannot be enumerated.",
  ["src/function.c: func_sort", "src/misc.c: alpha_compare"])
p("filter and filter-out partition the word list",
  "$(filter p,t) keeps, in order, exactly the words of t that match some pattern word of p, $(filter-out p,t) keeps exactly the others; the result does not depend on whether the hashed or the linear matching strategy is chosen.",
  "every pattern list and every text",
  "The strategy switch depends on the product of list sizes; equivalence must hold for all sizes.",
  ["src/function.c: func_filter_filterout, a_word, a_pattern"])
p("subst replaces the leftmost non-overlapping occurrences",
  "$(subst from,to,text) scans left to right and replaces each non-overlapping occurrence of a non-empty from; text without occurrences is unchanged, and an empty from appends to.",
  "all from, to, text", "Infinite input space, self-overlapping patterns.",
  ["src/function.c: subst_expand, func_subst"])
p("patsubst rewrites exactly the matching words",
  "$(patsubst pat,rep,text) maps each word of text independently: a word matching pat (prefix % suffix) is replaced by rep with the stem substituted for rep's first %, other words are copied unchanged; words are separated by one space.",
  "all patterns, replacements, texts", "Infinite input space.",
  ["src/function.c: patsubst_expand_pat, patsubst_expand, func_patsubst"])
p("% patterns match prefix-stem-suffix",
  "A word matches a pattern P%S iff it is P ++ stem ++ S for some (possibly empty) stem; a pattern without % matches only itself.",
  "all patterns and words", "Infinite input space; overlap of prefix and suffix in short words is a classic boundary bug.",
  ["src/function.c: pattern_matches"])
p("dir/notdir and basename/suffix recombine to the original word",
  "For every file-name word w, dir(w)++notdir(w) is w (with './' as dir when w has no slash) and basename(w)++suffix(w) is w; notdir has no slash and suffix is empty or starts with the last dot after the last slash.",
  "every word list", "Infinite input space with dots and slashes in every position.",
  ["src/function.c: func_notdir_suffix, func_basename_dir"])
p("join, addprefix and addsuffix are word-wise",
  "$(join a,b) concatenates the n-th words pairwise and keeps the tail of the longer list; $(addprefix p,t)/$(addsuffix s,t) attach p/s to every word; the number of words is max resp. unchanged.",
  "all lists", "Infinite input space.", ["src/function.c: func_join, func_addsuffix_addprefix"])
p("abspath yields a normal form",
  "$(abspath name), when it returns a name, returns an absolute path without empty, '.' or '..' components and without trailing slash (except '/'), denoting the component-wise normalisation of cwd/name; it is idempotent.",
  "every name and every absolute current directory", "Arbitrary nesting of .. and repeated slashes.",
  ["src/function.c: abspath, func_abspath"])
p("if / or / and evaluate only what they must",
  "$(if c,t,e) expands c and then exactly one of t, e; $(or ...) expands arguments left to right up to and including the first non-empty one; $(and ...) up to and including the first empty one; the value is as documented.",
  "all argument lists and all expansion side effects", "Side-effect traces for arbitrary argument lists.",
  ["src/function.c: func_if, func_or, func_and"])
p("shell output folding",
  "The value of $(shell cmd) is cmd's output with the trailing newlines removed and every other newline turned into one space; != keeps the same rule; no other byte is changed.",
  "every output", "Infinite input space.", ["src/function.c: fold_newlines"])
p("Logical lines are split exactly at unescaped newlines",
  "Reading a makefile splits its text into logical lines at each newline preceded by an even number of backslashes, losing no byte of any line regardless of line length or buffer growth, and counts physical lines correctly.",
  "every file content", "Line lengths straddling buffer sizes and backslash runs are unbounded.",
  ["src/read.c: readline, readstring"])
p("Continuation collapsing",
  "Joining continuation lines replaces backslash-newline and surrounding blanks by one space, keeps half of the backslashes before a newline, and leaves text without backslash-newline untouched; idempotent.",
  "every logical line", "Infinite input space.", ["src/misc.c: collapse_continuations"])
p("Comments and quoting of #",
  "An unquoted # (preceded by an even number of backslashes) ends the line; a quoted # stays as a literal # with half the backslashes removed.",
  "every line", "All backslash parities at all positions.", ["src/read.c: remove_comments, find_map_unquote, find_char_unquote, unescape_char"])
p("Quoting of %",
  "find_percent returns the first % preceded by an even number of backslashes; k backslashes before an inspected % become k/2; backslashes elsewhere are untouched; the text after the returned % is unchanged.",
  "every pattern string", "All backslash runs.", ["src/read.c: find_percent, find_percent_cached"])
p("Conditionals interpret exactly one branch",
  "For every properly nested ifeq/ifneq/ifdef/ifndef ... else-if ... else ... endif structure exactly the lines of the first branch whose condition holds are interpreted; nothing inside ignored text is evaluated; the nesting depth returns to its initial value.",
  "every nesting structure and every truth assignment", "Unbounded nesting and branch count.",
  ["src/read.c: conditional_line, install_conditionals, restore_conditionals"])
p("define/endef nesting",
  "The body of a define is exactly the text up to the matching endef, counting nested define/endef pairs.",
  "every nesting depth and body", "Unbounded nesting.", ["src/read.c: do_define"])
p("Origin precedence of variable definitions",
  "After any sequence of definitions of a variable in one scope, its value and origin are those of the last definition whose origin was not weaker than the origin then in force (default < environment < file < environment override (-e) < command line < override < automatic < debugger); weaker definitions never change it.",
  "every sequence of definitions from every origin", "History dependent.",
  ["src/variable.c: define_variable_in_set, undefine_variable_in_set, do_variable_definition"])
p("Scoped lookup and private variables",
  "A variable reference in a target sees the innermost enclosing definition (target, then parents, then global); definitions marked private are visible only in the scope that made them.",
  "every scope chain and every set of definitions", "Unbounded chains.",
  ["src/variable.c: lookup_variable, lookup_variable_in_set, initialize_file_variables"])
p("Variable scopes nest",
  "push_new_variable_scope / pop_variable_scope around any balanced activity leaves every outer variable exactly as it was, and definitions made inside are discarded; popping the global scope's temporary set moves nothing out.",
  "every balanced sequence of pushes, definitions and pops", "Unbounded nesting, in-place set swapping.",
  ["src/variable.c: push_new_variable_scope, pop_variable_scope, create_new_variable_set"])
p("Pattern-specific variables apply from least to most specific",
  "Pattern variable lookups visit matching patterns ordered by increasing target pattern length and, for equal length, in definition order; every matching pattern is visited once and no non-matching one.",
  "every sequence of pattern variable definitions and every target", "Insertion position depends on cached tail pointers and history.",
  ["src/variable.c: create_pattern_var, lookup_pattern_var"])
p("Assignment operators",
  "?= changes nothing when the variable is defined; += on an undefined variable acts like =; += on a defined variable yields old ++ ' ' ++ new (new alone when old is empty) and keeps the flavour; := stores the expanded and = the unexpanded right-hand side.",
  "all histories and values", "History dependent.", ["src/variable.c: do_variable_definition"])
p("Variable definitions are recognised by their operator",
  "A line is a variable assignment iff it has the shape NAME op VALUE with op one of = := ::= ?= += != where the operator is the first one outside variable references and no unreferenced blank-separated second word, colon rule or comment precedes it; the name and value are split accordingly.",
  "every line", "Infinite input space with nested references.", ["src/variable.c: parse_variable_definition"])
p("Expansion is literal outside references",
  "Expanding text without '$' yields the text itself; '$$' yields '$'; expansion of a concatenation at a reference boundary is the concatenation of the expansions; output buffer growth never changes the result.",
  "every text and every variable environment", "Unbounded nesting and buffer sizes.",
  ["src/expand.c: variable_expand_string, variable_buffer_output, reference_variable"])
p("Recursive variable expansion always terminates",
  "Expanding any text in any environment terminates: a recursive variable that (directly or indirectly) references itself is reported as a fatal error rather than looping; $(call) may recurse only the admitted number of times.",
  "every environment including cyclic definitions", "Cyclic environments of every shape.",
  ["src/expand.c: recursively_expand_for_file", "src/function.c: func_call"])
p("call binds exactly its arguments",
  "In $(call f,a1,...,an), $(0) is f, $(i) is ai for i<=n and $(i) is empty for higher i that an outer call had bound; after the call the outer bindings are back.",
  "all nesting depths and argument counts", "Outer-argument hiding depends on the calling history.",
  ["src/function.c: func_call"])
p("Exported environment",
  "The environment passed to a recipe contains, for each exported name, one entry NAME=value with the innermost definition, and no entry for unexported or private-elsewhere names; no name occurs twice.",
  "every variable environment", "All combinations of origin, export state and scopes.",
  ["src/variable.c: target_environment"])
p("Options survive the trip through MAKEFLAGS",
  "Quoting each option argument, joining with blanks, expanding as a make variable and splitting/unquoting in the child make reproduces the option words exactly.",
  "every list of non-empty option words", "Arbitrary blanks, backslashes and dollars.",
  ["src/main.c: quote_for_env, define_makeflags, decode_env_switches"])
p("Prerequisite lists split at |",
  "Prerequisites before the first | are normal and those after are order-only; order is preserved.",
  "every prerequisite list", "Infinite input space.", ["src/file.c: split_prereqs, enter_prereqs"])
p("Several rules for one target merge deterministically",
  "With single-colon rules the prerequisites of a target are those of the rule with the recipe first, then the others in reading order; at most one recipe is kept (the last, with a warning); mixing : and :: is fatal.",
  "every sequence of rules", "History dependent.", ["src/read.c: record_files"])
p("Default goal",
  "The default goal is the first target, in reading order, that is not a special dot-target and not a suffix/pattern rule, unless .DEFAULT_GOAL says otherwise.",
  "every sequence of rules", "History dependent.", ["src/read.c: eval (default goal)"])
p("Suffix rules become the right pattern rules",
  "For every known pair of suffixes .a .b a target named .a.b without prerequisites becomes %.b: %.a, a target .a becomes %: %.a, and no other suffix-like target becomes a pattern rule.",
  "every suffix list and target set", "All suffix pairs.", ["src/rule.c: convert_to_pattern, convert_suffix_rule"])
p("Implicit rule selection",
  "The implicit rule chosen for a target is a rule whose target pattern matches and whose prerequisites exist or ought to exist; among applicable ones of the same pass the shortest stem wins and ties go to the earlier definition; match-anything rules are tried only when nothing specific matches, terminal ones only with existing prerequisites.",
  "every rule data base, target and file system", "Infinite input space.", ["src/implicit.c: pattern_search, stemlen_compare"])
p("VPATH search order",
  "A file found by vpath is found in the first directory, taking matching vpath directives in definition order and then VPATH, in which it exists; nothing is returned when it exists in none.",
  "every list of directives, directories and file systems", "Infinite input space.",
  ["src/vpath.c: vpath_search, selective_vpath_search, build_vpath_lists, construct_vpath_list"])
p("Automatic variables",
  "$^ lists each normal prerequisite once in first-occurrence order, $+ all normal occurrences in order, $? the once-listed changed ones, $| the order-only prerequisites not also normal, $< the first.",
  "every prerequisite list", "Duplicates and order-only mixes of every shape.", ["src/commands.c: set_file_variables"])
p("Recipe splitting",
  "Splitting a recipe into command lines breaks exactly at unescaped newlines; rejoining the lines with newlines gives back the recipe; per-line flags are determined by the line's own prefix characters.",
  "every recipe text", "Unbounded text; escape parity; counter width.", ["src/commands.c: chop_commands"])
p("Recipes reach the shell verbatim",
  "When a recipe line is run through the shell, the shell receives the line, byte for byte, as one argument after the shell's own flags.",
  "every recipe line", "Every combination of quotes, backslashes, specials.", ["src/job.c: construct_command_argv_internal"])
p("Direct execution agrees with the shell",
  "When a line is executed without a shell, the argument vector is the one a POSIX shell would build for a simple command, and lines containing shell metacharacters, assignments or builtins always go through the shell.",
  "every recipe line", "Every combination of quotes and blanks.", ["src/job.c: construct_command_argv_internal"])
p("A recipe runs at most once per make run",
  "However many paths lead to a (single-colon) target, its recipe is started at most once in one update run.",
  "every dependency graph and goal list, every schedule of job completions", "Unbounded graphs and schedules.",
  ["src/remake.c: update_goal_chain, update_file, update_file_1, remake_file, notice_finished_file"])
p("Prerequisites are finished before the target's recipe starts",
  "When a recipe starts, every prerequisite of its target (outside dropped cycles) has finished successfully.",
  "every dependency graph and schedule", "Unbounded graphs and schedules.", ["src/remake.c: update_file_1, check_dep"])
p("Remake decision",
  "A target is remade iff it is phony-like/nonexistent, forced by always-make, or some non-order-only prerequisite is newer or was remade; an up-to-date target is never remade and order-only prerequisites alone never cause a remake.",
  "every graph and file-time assignment", "Unbounded graphs and times.", ["src/remake.c: update_file_1, check_dep"])
p("Failure propagation",
  "If a prerequisite fails, the dependent target's recipe does not run and the target fails too; the overall status is failure iff some needed recipe failed; without -k no further target is started after a failure.",
  "every graph, failure pattern and schedule", "Unbounded graphs, all failure patterns.", ["src/remake.c: update_goal_chain, update_file_1"])
p("Circular dependencies are dropped and updating terminates",
  "Updating any goal in any (possibly cyclic) dependency graph terminates; an edge is dropped only if it closes a cycle.",
  "every finite graph", "Unbounded cyclic graphs.", ["src/remake.c: update_file_1, check_dep"])
p("Timestamps keep their order",
  "For times within the representable range, the internal timestamp comparison agrees with comparison of (seconds, nanoseconds); special values order below every real time and never collide with one; out-of-range times are clamped.",
  "every pair of times", "64-bit arithmetic space.", ["src/file.c: file_timestamp_cons", "src/filedef.h: FILE_TIMESTAMP_S, FILE_TIMESTAMP_NS"])
p("Jobserver tokens are conserved",
  "At every moment the tokens in the pipe plus the tokens held by all participating makes equal the initial number; no make ever returns a token it does not hold; when all jobs are done all tokens are back.",
  "every interleaving of any number of makes", "Unbounded interleavings.", ["src/job.c: new_job, free_child, start_waiting_job, reap_children", "src/posixos.c: jobserver_setup, jobserver_acquire, jobserver_release, jobserver_acquire_all", "src/main.c: clean_jobserver"])
p("Parallelism never exceeds -j",
  "The number of simultaneously running jobs of the whole make tree never exceeds the number of job slots (without jobserver: per make).",
  "every schedule", "Unbounded schedules.", ["src/job.c: new_job, start_waiting_job, reap_children"])
p("Targets of failed or interrupted recipes",
  "On interruption or on failure with .DELETE_ON_ERROR a target is deleted iff it is a changed regular file and not precious or phony.",
  "every target state", "All combinations of attributes, times.", ["src/commands.c: delete_target, delete_child_targets"])
p("Intermediate file removal",
  "Only files that make itself created as intermediate in this run, that are not precious, secondary, mentioned on the command line or marked don't-care, are removed at exit.",
  "every file set", "All attribute combinations.", ["src/file.c: remove_intermediates"])
p("Breakpoint list",
  "Breakpoint numbers are unique and increasing; deleting a number removes exactly that breakpoint from the list and keeps the order of the others; unknown numbers change nothing.",
  "every sequence of break and delete commands", "History dependent.", ["libdebugger/break.c: add_breakpoint, remove_breakpoint, list_breakpoints"])
p("Debugger frame navigation",
  "up/down/frame move to an existing frame or report an error and leave the frame number unchanged; up n then down n is the identity when it succeeds.",
  "every stack depth and sequence of moves", "History dependent.", ["libdebugger/stack.c: dbg_adjust_frame, dbg_stack_size"])
p("Debugger word splitting",
  "Splitting a debugger command line into words yields its blank-separated words.",
  "every command line", "Infinite input space.", ["libdebugger/fns.c: get_word, stripwhite, is_abbrev_of"])
p("writebuf and readbuf transfer everything",
  "writebuf/readbuf transfer exactly the requested bytes in order, under any pattern of partial transfers and EINTR, unless a hard error or EOF stops them, in which case a prefix was transferred.",
  "every pattern of partial results", "Unbounded system-call outcome sequences.", ["src/misc.c: writebuf, readbuf"])
p("File names are normalised consistently",
  "Leading './' sequences (with repeated slashes) are stripped identically when names are entered from makefiles, from the command line and on lookup; normalisation is idempotent.",
  "every name", "Infinite input space.", ["src/file_basic.c: lookup_file", "src/main.c: expand_command_line_file", "src/read.c: parse_file_seq"])
p("Directory cache answers like the directory",
  "For a directory that does not change, file_exists_p answers the same for every query order and for every degree of incremental reading, and equals membership in the directory.",
  "every directory content and query sequence", "History dependent incremental cache.", ["src/dir.c: find_directory, dir_contents_file_exists_p, file_exists_p, file_impossible"])
p("Archive member names",
  "name is treated as archive member reference iff it has the form lib(member) with non-empty lib and member; parsing then splits it into exactly those parts and recombining gives the name.",
  "every name", "Infinite input space.", ["src/ar.c: ar_name, ar_parse_name"])
p("Profile JSON strings are well formed",
  "Every string emitted through the escaping printer is a valid JSON string body and decodes to the original with control whitespace replaced by blanks.",
  "every string", "Infinite input space.", ["src/json_format.c: escape_print"])
p("State never moves backwards for co-made targets",
  "Setting the command state of a target raises the state of all targets made by the same recipe to at least that state and never lowers one.",
  "every sequence of state changes", "History dependent.", ["src/file.c: set_command_state"])
p("Output synchronisation keeps each job's output together",
  "With --output-sync every job's captured output appears contiguously in the terminal output, complete, once, in the order written.",
  "every interleaving of job writes and dumps", "Unbounded interleavings.", ["src/output.c: output_dump, pump_from_tmp, _outputs"])

p("Appending target-specific variables",
  "The value of a variable appended to with += for a target is made of the values visible from that target, from the outermost to the innermost, starting with the innermost definition that does not append; definitions private to other scopes contribute nothing.",
  "every chain of scopes and every combination of appending, replacing and private definitions", "Unbounded chains of targets.",
  ["src/expand.c: variable_append", "src/variable.c: do_variable_definition"])

p("foreach evaluates its body once per word",
  "$(foreach name,list,text) yields the expansions of text joined by single blanks, one for every word of the expanded list, in order; during each of them name stands for exactly that word and every other variable for what it stands for outside; afterwards name means what it meant before.",
  "every list, body and environment, with any nesting", "Unbounded lists and nested scopes.", ["src/function.c: func_foreach"])
p("value yields the unexpanded text",
  "$(value name) yields the value of the variable name exactly as it was written, without any expansion, and the empty text if there is no such variable.",
  "every variable name and value", "Infinite input space.", ["src/function.c: func_value"])

p("Choice of the debugger command",
  "Every command name and every alias listed selects its command, a single letter the command with that letter, and no other word selects one; no word selects two.",
  "every word", "Infinite input space; the search relies on the order of two tables.", ["libdebugger/cmd.c: find_command, execute_line", "libdebugger/cmd_initialize.h: dbg_commands, aliases, cmd_initialize"])

p("Continuation lines in recipe references",
  "Before a recipe line is expanded, each backslash-newline inside a variable or function reference, with the blanks before it and the white space after it, becomes one space; everything else, in particular the text outside of references, stays as it is.",
  "every recipe line",
  "The line is rewritten in place; every combination of references, blanks and backslash runs.",
  ["src/commands.c: expand_command_lines"])

p("Static pattern rules put the stem into every prerequisite",
  "In a static pattern rule each target that matches the target pattern gets the prerequisites of the rule, in order and of the same kind, with the part of its name matched by % in the place of the first unquoted % of each; targets that do not match are reported and get none of them.",
  "every list of targets, target pattern and list of prerequisites", "Infinite input space.",
  ["src/read.c: record_files", "src/file.c: enter_prereqs"])
p("Grouped targets",
  "After reading any rules, a target is made together with exactly the targets of the last grouped rule (&:) naming it, and with no others if there is none; a grouped rule without a recipe is rejected.",
  "every sequence of rules", "History dependent.", ["src/read.c: record_files"])
p("Splitting a command line ends and stays in its buffers",
  "Preparing a command line for execution ends for every line, shell, shell flags and field separators, after calling itself at most twice, and neither the text written for the shell nor the arguments exceed the memory set aside for them.",
  "every command line, SHELL, .SHELLFLAGS and IFS", "The function calls itself on the text it has built; the sizes are computed in advance.",
  ["src/job.c: construct_command_argv_internal"])
p("The commands of a recipe run in order up to the first failure",
  "The commands of a recipe are shown and executed in order, each once and only after the one before it has ended. The recipe stops at the first command that fails unless its failure is ignored (-, -i, .IGNORE), and succeeds exactly after all of its commands. Its targets are removed only if it did not succeed and a command had been started: after a signal, with .DELETE_ON_ERROR, or when make is dying or only asks.",
  "every recipe, every expansion, every way commands end and every option", "Histories of exits, signals and options.",
  ["src/job.c: start_job_command, reap_children, job_next_command"])
p("-n, -t and -q execute only commands marked as recursive",
  "Under -n, -t and -q no command is executed except those on lines marked with + or containing $(MAKE). -n shows every command, even silent ones; without it and without tracing, commands marked with @ are not shown.",
  "every recipe of every target, every combination of options", "Combinations of marks before and after expansion, on lines of several commands.",
  ["src/job.c: start_job_command", "src/commands.c: chop_commands"])

p("The search for an implicit rule ends",
  "Looking for an implicit rule for a target ends for every set of pattern rules, however they feed each other; no chain of rules uses a rule twice, so its length is at most the number of rules.",
  "every rule data base, target, file system and history of earlier searches", "Unbounded recursion through mutually dependent rules.",
  ["src/implicit.c: try_implicit_rule, pattern_search"])
p("A pattern rule with several targets makes all of them",
  "When a pattern rule with several target patterns is chosen for a target, the other files said to be made with it are those with the same stem in the same directory, one for each other pattern.",
  "every rule data base and target", "Infinite input space.",
  ["src/implicit.c: pattern_search"])
p("Redefining a pattern rule",
  "A pattern rule in a makefile replaces every earlier one with the same targets and prerequisites, and only those; built-in rules never replace rules from makefiles; otherwise rules stay in the order of their definition, those from makefiles first.",
  "every sequence of pattern rules", "History dependent.",
  ["src/rule.c: new_pattern_rule, install_pattern_rule, create_pattern_rule"])

p("Building names along a search path stays in memory",
  "Splitting a search path and building the names to look for in its directories neither writes nor reads outside the memory set aside for them, for every text of a search path and every file name.",
  "every search path and file name", "Sizes are computed in advance from the text; trailing and double slashes move the place of writing.",
  ["src/vpath.c: construct_vpath_list, selective_vpath_search"])
p("A -lNAME prerequisite is the first library on the search path",
  "A prerequisite -lNAME that does not exist stands for the file in the earliest of the current directory, the search directories in order, and the standard directories that has one of the names obtained from .LIBPATTERNS; if that place has several, the one whose pattern comes first.",
  "every .LIBPATTERNS, search path, file system", "Two nested orders; infinite input space.",
  ["src/remake.c: library_search"])
p("GPATH decides whether a found file keeps its new name",
  "A missing file or library found in a directory of the search path is known by the name found at once exactly if the directory is listed in GPATH; a file found nowhere stays missing.",
  "every GPATH, search path, file system and file name", "Infinite input space.",
  ["src/remake.c: f_mtime", "src/vpath.c: gpath_search"])

p("Options reach sub-makes unchanged",
  "The options given to make arrive unchanged in a make started by a recipe through MAKEFLAGS: each flag, number of jobs, load limit, string and list that is to be passed down has in the child the value, and the order, it has in the parent, and no other option is set.",
  "every combination of options, values and command-line definitions", "Option values are arbitrary texts that pass through quoting, two expansions and splitting.",
  ["src/main.c: define_makeflags, quote_for_env, decode_env_switches, decode_switches"])
p("The text of MAKEFLAGS fits its buffers",
  "Building MAKEFLAGS, the flags for --eval and the list of command-line variables, and splitting MAKEFLAGS, write only inside the buffers set aside for them, for all options and values.",
  "every set of options, definitions and environment", "The sizes are estimated before the text is built; quoting can double lengths.",
  ["src/main.c: define_makeflags, decode_env_switches, main"])
p("Command-line variables reach sub-makes",
  "A variable defined on the command line is defined on the command line of every sub-make too, with the same name, flavour and value.",
  "every variable name and value", "Values are arbitrary texts that pass through quoting, expansion, splitting and the recognition of definitions.",
  ["src/main.c: main, handle_non_switch_argument, decode_switches"])
p("Long options may be abbreviated, short ones grouped",
  "A long option may be given by its name or by any abbreviation that fits no other option; ambiguous, unknown and misused options are refused; single letters may be grouped in one word with the same meaning as given one by one.",
  "every word list", "Infinite input space.",
  ["src/getopt.c: _getopt_internal", "src/main.c: init_switches, decode_switches"])

p("Files found impossible stay impossible",
  "A file that the search for implicit rules has found impossible to make is reported as impossible from then on, under every name of its directory, and no other file is.",
  "every sequence of marks and queries, every directory", "History dependent; the marks share a table with the entries read from the directory.",
  ["src/dir.c: file_impossible, file_impossible_p, dir_contents_file_exists_p"])
p("Few directories are open at a time",
  "Between calls at most nine directories are open for reading, for every sequence of queries, however the file system changes meanwhile; the counter of open directories is exact.",
  "every history of calls and of the file system", "Needs many directories and interleaved partial reads.",
  ["src/dir.c: find_directory, dir_contents_file_exists_p"])
p("Answers of the directory cache never change",
  "Whether a file (named without a trailing slash) exists is answered the same way during the whole run, however the file system changes, unless a file of that name is marked impossible.",
  "every history of calls and of the file system", "Depends on what was read before and on later changes.",
  ["src/dir.c: dir_contents_file_exists_p, file_exists_p"])

p("Buffers for messages are large enough",
  "A message, warning, error, fatal error or message on the directory, with its prefix, its arguments and its final NUL, fits in the buffer that was made for it.",
  "every program name, directory, level, translation, place in a makefile, format and argument, after any number of earlier messages",
  "Lengths are unbounded; an overrun of a few bytes is silent.",
  ["src/output.c: message, error, fatal, log_working_directory, get_buffer", "src/makeint.h: O, OS, ON, INTSTR_LENGTH"])

p("A recipe is made of the recipe lines after its rule",
  "Reading a makefile has the effect of its stanzas one after the other. The recipe of a rule is the command after its semicolon followed by the lines after it that start with the recipe prefix, up to the next line with text; empty lines, comments and the untaken branches of conditionals between them do not matter, and nothing is lost or attached to another rule.",
  "every makefile, every state of variables", "Makefiles are arbitrary; the rule under construction, ignored recipes and conditionals interact over any number of lines.",
  ["src/read.c: eval, record_waiting_files"])
p("A rule line is read as its expansion",
  "A rule line has the targets, colon sign, pattern, prerequisites and first command that the text has to which it expands: wherever in a variable or in the line the colon, the second colon or the semicolon come from. A line without a colon is refused unless it expands to nothing.",
  "every line, every value of the variables", "Words are expanded one by one while the colon is looked for; the space of lines and values is infinite.",
  ["src/read.c: eval, get_next_mword, find_char_unquote"])
p("Target-specific variables belong to their targets",
  "A line with targets, a colon and an assignment defines the variable, with the text as written including what follows a semicolon, for exactly the targets and patterns named. Definitions of other targets and global ones do not change; command-line definitions win over it unless override is given.",
  "every line, target list, flavour, modifier and earlier state", "The state space of definitions is infinite; the effect on other targets is invisible in a test of one.",
  ["src/read.c: eval, record_target_var", "src/variable.c: initialize_file_variables, do_variable_definition"])
p("Which lines are assignments",
  "A line is an assignment exactly if it is, after any number of the words export, override and private, an assignment, a definition or an undefinition; the modifiers that take effect are those words, and a variable may itself be named like one of them.",
  "every line", "Infinite input space; the words are ambiguous.",
  ["src/read.c: parse_var_assignment"])

p("MAKEFLAGS cannot give command-line options",
  "Whatever the variables MAKEFLAGS and GNUMAKEFLAGS of the environment contain, they set none of the options that only the command line decides: the directory to change to, the makefiles, the files taken for old or new, and the requests for help and for lists of tasks or targets.",
  "every value of the variables", "Infinite input space; options may be grouped, abbreviated or swallow the next word.",
  ["src/main.c: decode_env_switches, decode_switches, switches"])
p("Groups of archive members",
  "In every list of names lib(a b c) stands for lib(a) lib(b) lib(c), whatever blanks stand inside the parentheses and whatever names stand before and after.",
  "every list of names, any number of groups and members", "Infinite input space; the group spans words of the list.",
  ["src/read.c: parse_file_seq", "src/ar.c: ar_name"])

p("Goals and variables of the command line",
  "Every word of the command line that is neither an option nor an assignment is a goal, in the order given, and goals named are what make builds; a word is taken for exactly one of the two. The variable MAKECMDGOALS has the goals as they were named; words of the environment variables are never goals.",
  "every list of words, every assignment and goal name", "Infinite input space; words are classified one after the other with effects on variables.",
  ["src/main.c: handle_non_switch_argument, decode_switches, decode_env_switches"])
p("Variables of the environment",
  "Every variable of the environment is a variable of make with the same value, origin environment, and is passed on again, except SHELL and MAKE_RESTARTS, which are not passed on unless the makefile asks for it; of several entries for a name the last counts, and nothing else is defined.",
  "every environment", "Environments are arbitrary lists of texts.",
  ["src/main.c: main", "src/variable.c: target_environment"])
p("Levels of recursion",
  "MAKELEVEL counts the makes above: a make without a level in the environment is at level 0, one at level n passes n+1 to its children, and the level read is the one passed.",
  "every level below 2^32 - 1", "The claim is about a chain of processes of any length.",
  ["src/main.c: main", "src/variable.c: target_environment"])
p("How many jobs run at once",
  "The limit of jobs is the one of the command line if it gives one, also in a sub-make that has a jobserver, else the one a makefile puts into MAKEFLAGS, else the jobserver of the parent, else the one of the environment; -j without a number is no limit, -j1 starts no jobserver, a jobserver that cannot be used means one job at a time, and so does no -j at all.",
  "every combination of -j and --jobserver-auth in environment, command line and makefiles", "The combinations of sources and orders are too many to test, and their effect is invisible at small loads.",
  ["src/main.c: main, decode_switches"])
p("A restart repeats the command line",
  "When make starts again after remaking its makefiles, the new make sees the same options, variables and goals, reads the same makefiles (a makefile read from standard input through its copy), has the same environment and level, and counts one restart more.",
  "every command line, every environment, any number of restarts", "Infinite input space; words of the command line are changed in place.",
  ["src/main.c: main"])
p("When make starts again",
  "Make starts again exactly when makefiles were remade: if the update as a whole succeeded, or if some makefile has changed although others failed. It gives up exactly when nothing changed and a makefile it must have is missing, and else goes on, with an exit status that tells of a failed update of a makefile it cares about. Makefiles that would be remade each time (double-colon rules without prerequisites, -B) do not lead to an endless loop.",
  "every list of makefiles and results", "Any number of makefiles in any combination of results.",
  ["src/main.c: main"])

p("Which makefiles are read",
  "First the words of MAKEFILES are read, which may be missing and give no default goal; then the makefiles of -f in order, or else the first of GNUmakefile, makefile, Makefile in the working directory, or with -c in the nearest directory above that has one. Included makefiles are read at their place, and looked for along the search path if their name is relative. MAKEFILE_LIST has those read, in order. If there is none of the default makefiles, make tries to make one, and stays in its directory. Endless inclusion ends with an error.",
  "every set of files, every nesting of includes, every search path", "Any number of makefiles and directories in any nesting.",
  ["src/read.c: read_all_makefiles, eval_makefile, construct_include_path, eval"])
p("Exit status",
  "Make exits with 2 if the goals or a makefile that it cares about could not be made, else with 1 if -q finds something to do, else with 0.",
  "every combination of results of makefiles and goals", "Any number of makefiles in any combination of results.",
  ["src/main.c: main"])

p("Members of archives are found by name",
  "For every archive in the System V or BSD format the member lib(name) exists exactly if the archive has a member of that name, whether the name stands in the header, in the table of long names or before the contents; its time is the date of the first such member. A missing archive, or a file that is none, has no members.",
  "every archive, of any size, with any members; every name", "Infinite input space; names are stored in three ways and cut to the width of a field.",
  ["src/arscan.c: ar_scan, ar_name_equal", "src/ar.c: ar_member_date, ar_member_date_1"])
p("Touching an archive member",
  "make -t on lib(name) gives the first member of that name the current time as its date and changes nothing else in the archive: all other bytes stay as they are, and so do the other members. A member that does not exist is not made.",
  "every archive, every member, every time", "A wrong offset damages other members, in archives that no test has.",
  ["src/arscan.c: ar_member_touch, ar_member_pos", "src/ar.c: ar_touch"])
p("Looking into a damaged archive is safe",
  "Whatever bytes a file has that is named as an archive, looking for a member ends, and reads and writes only inside the buffers that were made for it.",
  "every sequence of bytes", "The inputs that matter are the ones nobody thought of.",
  ["src/arscan.c: ar_scan"])
p("Wildcards for archive members",
  "lib(pattern) stands for the members of the archive that match the pattern, each with the name of the archive, in alphabetical order; a name without wildcards, or with quoted ones only, stands for itself.",
  "every archive, pattern and way to match", "Infinite input space.",
  ["src/ar.c: ar_glob, ar_glob_pattern_p, ar_glob_match"])
p("The arguments of the debugger command run",
  "The command run with arguments starts make again, under the name it was started with, with the words of these arguments: separated by blanks, with quotes and backslashes removed as in a shell. Any number of words of any length is stored inside the memory made for them; without arguments the command line is repeated.",
  "every text, every name of make", "Infinite input space; the vector of words grows as it is filled.",
  ["src/buildargv.c: buildargv", "libdebugger/command/run.c: dbg_cmd_run"])

p("Pattern-specific variables of a target",
  "A target has, besides its own variables, those that lines for patterns define that match its name, as if these lines were assignments made one after the other from the shortest pattern to the longest: of several definitions the one with the longest pattern counts, a value given with := is the one expanded when the line was read, += appends, and the modifiers are those of the last line. Variables of other targets and global ones do not change.",
  "every set of pattern lines, every target, flavour and modifier", "The number of patterns that match and the combination of operators are unbounded.",
  ["src/variable.c: initialize_file_variables, lookup_pattern_var, do_variable_definition"])

p("Second expansion of prerequisites",
  "After .SECONDEXPANSION the prerequisites of a rule that have a dollar sign are expanded again when all makefiles are read, for each target with its own automatic and target-specific variables; the names that result take the place of the text, in order, after | as order-only ones; in a static pattern rule the percent signs stand for the stem, as they do without second expansion. Prerequisites without a dollar sign, and those of other rules, stay as they are. It does not depend on the order in which the targets are gone through, and nothing is expanded twice.",
  "every set of rules, every expansion, every order of the table of files", "Infinite input space; the order of a hash table is not under a test's control.",
  ["src/file.c: expand_deps, enter_prereqs, split_prereqs, snap_deps", "src/read.c: record_files"])
p("Special targets",
  "A file is precious, phony, intermediate, secondary, has low-resolution times, has its errors ignored or its recipe not printed exactly if it is a prerequisite of the special target for that. .SECONDARY, .IGNORE and .SILENT as targets without prerequisites apply to everything; .EXPORT_ALL_VARIABLES and .NOTPARALLEL apply if they are targets. A special target that is merely mentioned has no effect, and files keep their prerequisites.",
  "every set of rules and special targets", "Any combination of special targets, with any number of rules for each.",
  ["src/file.c: snap_deps"])
p("Extra prerequisites",
  "The files in .EXTRA_PREREQS are prerequisites of every target (except of themselves), after all others and not in automatic variables; a target-specific value applies to that target instead.",
  "every set of rules, every value of the variable, global or of a target", "Infinite input space.",
  ["src/file.c: expand_extra_prereqs, snap_file, snap_deps"])

p("Touching targets",
  "With -t a target with a recipe that is not made of recursive lines only, and that is not phony, is touched instead of being made: it has the present time, so that it is newer than all files from before, its contents stay as they are, and if it was missing it is created empty. Whatever system call fails and wherever make is killed, the contents of no file change. With -n nothing is touched.",
  "every file, every contents, every failing system call and every moment at which make is killed", "Failures of system calls and crash points are not under a test's control.",
  ["src/remake.c: touch_file, notice_finished_file"])
p("Times of symbolic links",
  "With -L the time of a name is the latest among the times of the file and of all symbolic links that lead to it; a name whose links lead to nothing has the latest time of the links. Without -L it is the time of the file. Links that lead to each other count as no file. Finding the time always ends, and names of any length are kept inside the memory made for them.",
  "every file system, every chain of links of any length, every length of names", "Unbounded chains of links.",
  ["src/remake.c: name_mtime"])
p("Warnings about times in the future",
  "In a run there is one warning about a file whose time is later than the clock if there is such a file among those that are looked at and were not made in the run, and none if there is no such file; the warning at the end is given exactly if this one was.",
  "every sequence of lookups of files and every course of the clock", "Histories are unbounded, and the clock is not under a test's control.",
  ["src/remake.c: f_mtime", "src/main.c: main"])
p("Intermediate files that exist already",
  "A file that is declared intermediate but exists before anything was done to make it is treated as an ordinary file and is not removed at the end; looking up times never makes a file intermediate. The time that is found is that of all rules for the file that are in the same state as the first.",
  "every file with any number of double-colon rules, every time, every sequence of events afterwards", "Unbounded histories.",
  ["src/remake.c: f_mtime", "src/file.c: remove_intermediates"])

p("The printed data base can be read again",
  "The definitions of global variables that make -p prints can be put into a makefile: read there, they give each variable the value and the flavour it had, and no other variable changes; what is printed for the variables of targets and patterns are comments.",
  "every set of variables with any names, values, flavours and origins", "Infinite input space; printing and reading are two pieces of code that must agree on every character.",
  ["src/variable.c: print_variable, print_variable_set, print_variable_data_base, assign_variable_definition, try_variable_definition", "src/read.c: eval, do_define"])

p("What assignments in a makefile do",
  "The assignments of a makefile are carried out in order, and each changes no other variable than the one it names: = and define store the text, := its expansion, != the output of a command, ?= assigns only if there is no value, += adds to it. Values from the command line (and with -e from the environment) stay unless the line says override; export and private add these marks and other lines keep them; undefine removes a variable under the same conditions. An empty name is an error.",
  "every makefile of assignments, with any modifiers, operators, names and values, and every state of the variables before it", "Unbounded sequences of statements over an infinite input space.",
  ["src/read.c: eval, parse_var_assignment, do_define, do_undefine", "src/variable.c: do_variable_definition, assign_variable_definition, undefine_variable_in_set"])

p("Lines export, unexport and vpath",
  "export and unexport lines mark the variables named after expansion of the line and change no values; the last line about a variable decides whether recipes see it. Without names they decide whether all variables are exported, and the last such line counts; a line whose names expand to nothing does nothing. vpath lines decide where files are looked for, in the order of the lines, together with VPATH.",
  "every makefile of assignments, export, unexport and vpath lines, every state before it, every directory contents", "Unbounded sequences of statements over an infinite input space.",
  ["src/read.c: eval", "src/variable.c: target_environment, define_variable_in_set", "src/vpath.c: construct_vpath_list, build_vpath_lists, vpath_search"])

p("Only what the goals need",
  "A run starts no recipe, finishes no target and reports no circular dependency but for the goals and for what following prerequisites from them leads to, the other entries of double-colon rules and the targets made together with these included. Without goals nothing happens.",
  "every graph of targets with cycles, double-colon rules, grouped targets and intermediate files, every outcome and order of recipes, all options, every run whether it ends or not", "Unbounded graphs and schedules.",
  ["src/remake.c: update_goal_chain, update_file, update_file_1, check_dep"])

p("Where the debugger stops",
  "Without options for the debugger a run never stops, unless a makefile calls it. After continue the run stops next at the first place with a breakpoint of the right kind, after step N at the N-th place that steps count, after next N at the N-th missing target with a recipe, after finish at the end of the target of the frame, after continue TARGET at the first place of that target and only once; a temporary breakpoint is removed by its stop and no other is; when stops on errors are asked for, the first error stops. None of the commands changes what the run does otherwise, and no command makes the debugger crash.",
  "every sequence of places a run comes to, all breakpoints, all sequences of commands at each stop", "Unbounded interleavings of a run with commands.",
  ["libdebugger/cmd.c: enter_debugger", "libdebugger/command/step.c", "libdebugger/command/next.c", "libdebugger/command/continue.c", "libdebugger/command/finish.c", "src/remake.c: update_file_1", "src/job.c", "src/print.c"])

p("Targets by line number",
  "break and list with the number of a line are about the target that the rule on that line of the current makefile defines; on a line without a rule, or after the end, they say so. The table of lines is built and read within its memory for all makefiles.",
  "all makefiles, with any number of targets and pattern rules per line, $(eval) included, and all line numbers", "Unbounded makefiles and numbers; memory errors need not show.",
  ["libdebugger/file2line.c: target_for_file_and_line, enter_target_lineno, enter_rule_lineno, file2lines_init", "libdebugger/command/break.c: dbg_cmd_break", "libdebugger/command/list.c: dbg_cmd_list", "src/rule.c: create_pattern_rule"])

p("Included makefiles",
  "A line that includes makefiles reads the files it names, in order, at that place: the makefile is read as if the lines of the files stood there, where the rule before the line and the last rule of each file end, conditionals close in the file that opens them, and a file that does not exist is only noted. A name is looked for as it is written and then, if it is not absolute, in the directories of the search path in order. A file that cannot be read to its end stops make, and so does a file that includes itself.",
  "all makefiles with any nesting of included files, whatever they contain, all names, search paths and directory contents", "Unbounded nesting and an infinite input space.",
  ["src/read.c: eval, eval_makefile, install_conditionals, record_waiting_files, parse_file_seq"])

p("Two names of one file",
  "When a file is found by a search under the name of another file that make knows, the two are one file from then on: everything that referred to either refers to it, it has the prerequisites of both in order, the recipe written for the name it is found under or else the other one, the marks and variables of both and the later time. All its rules are looked at. If both names have recipes a message says which is ignored. A single-colon target does not become one with a double-colon target. Names stay unique and no reference is lost however often files are found under other names, and make does not abort over it.",
  "every history of entering, changing and finding files under other names, any number of files", "Unbounded histories of pointer changes.",
  ["src/file.c: rehash_file, rename_file", "src/file_basic.c: enter_file", "src/variable.c: merge_variable_sets, merge_variable_set_lists", "src/remake.c: update_file, f_mtime", "src/filedef.h: check_renamed"])

p("The stack of targets",
  "At every stop the debugger shows the targets that are being looked at, each one needed by the one below it, down to the goal, with the target that the stop is for on top. Memory of the stack is never used after it was freed, nor freed twice.",
  "every run: any nesting of targets, targets considered again and after failures, stops of all kinds and calls of the function debugger at any point, commands of parallel jobs", "Unbounded nesting and interleavings; use of freed memory need not show.",
  ["src/trace.c: trace_push_target, trace_pop_target", "src/remake.c: update_file_1", "src/job.c: start_job_command", "src/function.c: func_debugger", "libdebugger/cmd.c: enter_debugger", "src/print.c: print_target_stack"])

p("Wildcards",
  "A name matches a pattern with wildcards exactly when it can be cut into pieces, one for each part of the pattern: ? stands for any one character, * for any text, a bracket for one character of its set (single characters, ranges and named classes, a closing bracket as first character or escaped, all negated after ! or ^), a backslash makes the next character ordinary, and everything else stands for itself. A period at the start of the name is matched only by a period. Where slashes are special they are matched only by slashes, and a period after one only by a period. The pattern is never read beyond its end.",
  "all patterns, names and flags", "Infinite input space; reads beyond a string need not show.",
  ["lib/fnmatch.c: fnmatch, internal_fnmatch", "lib/glob.c: glob_in_dir", "src/ar.c: ar_glob_match"])

p("Files with wildcards",
  "A pattern with directories gives, sorted and each one once, exactly the files it stands for: for a part with wildcards the names in the directory that match it, for a part without the name itself if there is such a file, at any depth. A pattern with a slash at the end gives directories only, with a slash. A backslash makes the next character ordinary in all parts. $(wildcard WORDS) is the files of each word in turn, separated by single blanks; a word that no file matches gives nothing, and a pattern for members of an archive gives the members.",
  "all patterns of any depth, all directory trees and contents of the cache of directories, all lists of words", "Unbounded depth, trees and patterns.",
  ["lib/glob.c: glob, glob_in_dir, prefix_array, __glob_pattern_p", "src/dir.c: open_dirstream, read_dirstream", "src/read.c: parse_file_seq", "src/function.c: string_glob, func_wildcard"])

p("Sleeping and waking up",
  "With a job server, make does not sleep while one of its jobs has ended and make has not noticed, nor for a token while there is one: a process that ends between the last look and the sleep wakes make. Every job of a sleeping make is running. The makes that share a job server do not all wait for each other: if all that have not ended sleep, some command is at work that waits for no make. Looking for a slot ends or sleeps and does not go round for ever; a job that waits for the load is looked at again every second. The internal errors about tokens do not happen.",
  "every interleaving of any number of makes with each other, with the ends of processes and with the arrival of signals, both ways of sleeping (pselect and read), any load, any processes that cannot be started, any number of slots", "Lost wake-ups and deadlocks need a signal in a window of a few instructions; all interleavings of any number of makes.",
  ["src/job.c: new_job, start_waiting_job, start_waiting_jobs, reap_children, child_handler, free_child", "src/posixos.c: jobserver_pre_acquire, jobserver_acquire, jobserver_signal, set_child_handler_action_flags", "src/main.c: main, die", "src/remake.c: update_goal_chain"])

p("Fatal signals",
  "When make gets SIGINT, SIGTERM, SIGHUP or SIGQUIT, at any moment, it starts no further command, sends SIGTERM on to every command it has running, deletes the changed targets of every recipe that is being run, waits for all commands it has started, removes the intermediate files, gives back the tokens of the job server, and then ends by that signal. The same for the commands when make gives up by itself: none is left behind.",
  "every moment at which the signal may arrive in every history of starting jobs, further commands of recipes, commands that cannot be started, jobs waiting for the load, commands of the function shell, and ends of processes in any order", "The signal may come between any two instructions of every history.",
  ["src/commands.c: fatal_error_signal, delete_child_targets", "src/job.c: reap_children, start_job_command, start_waiting_job, free_child, block_sigs, unblock_sigs", "src/function.c: func_shell_base", "src/main.c: die"])

p("The function file",
  "$(file >NAME,TEXT) makes the file consist of the text, with a newline added if it does not end in one, $(file >>NAME,TEXT) adds it at the end, and without a text the file is made empty or left as it is; any number of calls leaves the texts as lines in their order. $(file <NAME) gives the content without its last end of line, nothing if there is no such file. No other file changes, nothing else of the expansion changes, and what is written is read back. A missing name, an unknown operation, a text for reading, and files that cannot be opened, read or written are reported.",
  "all names, texts and contents of any length, all sequences of calls, any text expanded before, any placement of memory", "Infinite input space; the failures depend on where the allocator puts a block.",
  ["src/function.c: func_file", "src/expand.c: variable_buffer_output, variable_expand_string"])

p("Second expansion in pattern rules",
  "With second expansion the prerequisites of a pattern rule for a target are those its text stands for: the text is cut into words, white space inside references not counting, the first percent sign of a word becomes the stem, the word is expanded, and the names in the result are prerequisites, order-only after a bar, with the directory of the target in front where the word had a percent sign and the pattern no slash. The stem goes in as it is: no dollar sign, blank or bar in it means anything. Prerequisites without references are the same with and without second expansion. Only the text is read, and the buffer for the names is large enough for every target and rule.",
  "all texts of prerequisites, stems, directories, values of variables, sets of pattern rules, and contents of memory after the text", "Infinite input space; reads and writes beyond a block need not show.",
  ["src/implicit.c: pattern_search, get_next_word", "src/rule.c: snap_implicit_rules", "src/read.c: record_files, parse_file_seq"])

p("Profiles",
  "With --profile=json make writes a JSON text that says what it did: one object for every target it considered, with its place in the makefile, the times when it was first considered, when it first waited for prerequisites, when its recipe was started and when it was finished, in seconds with nine decimals and in this order, and the names of the targets that were considered for it, each once. The elapsed times are the differences of these times. A callgrind profile says the same: every call of a target leads to the record of that target. If the file cannot be written make says so and goes on without a profile.",
  "all histories of considering targets and of states of recipes with all times, all names of targets, makefiles and directories, all arguments, all orders of the table", "Infinite input space; histories of a parallel build.",
  ["src/profile.c: profile_init, add_timestamp, profile_add_dependency, profile_update_target, profile_close", "src/json_format.c: json_init, json_close, dump_target, escape_print, format_timestamp", "src/callgrind_format.c: callgrind_profile_entry", "src/trace.c: trace_push_target, trace_pop_target", "src/main.c: decode_profile_options"])

p("The make that started a make",
  "A make that is started by a command of a recipe finds in MAKEPARENT_PID the process number of the make that runs the recipe and in MAKEPARENT_TARGET the name of the target the recipe is for, and knows them under these names itself.",
  "all names of targets of any length, all process numbers", "Infinite input space; writes beyond a buffer need not show.",
  ["src/variable.c: target_environment, define_automatic_variables", "src/main.c: main"])

p("Loading objects",
  "A name on a `load` line stands for one object and one setup function (`object(symbol)`, or the symbol made from the last part of the name). The setup function of an object that is not listed in `.LOADED` is called, that of a listed object is not called again. After any history `.LOADED` names exactly the objects whose setup function returned a positive result, in order. `load` stops make when the object cannot be opened, has no licence mark or no setup function, or its function returns 0; `-load` goes on. Objects are put on the list of makefiles to remake unless the function returned -1. A function an object added can be called from then on.",
  "every name, every behaviour of the dynamic linker and of the setup functions, every history of load lines, loads inside loads, and remakes of objects",
  "whether an object is recognised depends on all names loaded before it; whether a function can still be called depends on the whole history",
  ["src/load.c:load_object", "src/load.c:load_file", "src/load.c:unload_file", "src/read.c:eval", "src/function.c:define_new_function", "src/function.c:lookup_function", "src/commands.c:execute_file_commands"])
p("The limit on the load average",
  "With `-l N`, while a job runs no other is started unless the load average is below N, estimated from the load that is read, the jobs started in this second and in the second before; with no job running a job is always started. No job is lost or started twice. Without a limit no job waits. Only a bounded number of jobs can be started within one second. A failure to read the load counts as no load and is reported once.",
  "every history of jobs that become ready, wait, go on or end, every sequence of clock values and loads",
  "the state of the estimate depends on the times of all jobs before",
  ["src/job.c:load_too_high", "src/job.c:start_waiting_job", "src/job.c:start_waiting_jobs", "src/job.c:reap_children"])
p("Starting programs",
  "A command that make runs without a shell is the program the shell would run: a name with a slash is that file, another name is the first file of that name that may be executed in the directories of the PATH that the command gets in its environment, whatever else has that name. It gets the words of the command as arguments and the environment made for it. A file the system cannot run by itself is given to the shell with the same arguments. If the command cannot be started make says its name and the reason, says nothing about other commands, and the command counts as ended with 127.",
  "every file system, search path, environment, command and recipe",
  "the search depends on every file of that name on the path, and the message on the commands before",
  ["src/job.c:child_execute_job", "src/job.c:reap_children", "lib/findprog-in.c:find_in_given_path", "lib/concat-filename.c:concatenated_filename"])
p("The standard streams of commands",
  "At every moment at most one of the processes that make started reads the standard input of make; the others have one from which nothing can be read. A command gets the standard input of make if no other process has it, and keeps it until it ends. Its outputs are those of make or, with --output-sync, the files that collect them.",
  "every history of commands that are started and end, every table of descriptors",
  "depends on the order in which parallel jobs start and end, and on which descriptors were open when make was started",
  ["src/job.c:start_job_command", "src/job.c:child_execute_job", "src/job.c:reap_children", "src/posixos.c:get_bad_stdin"])
p("The function shell",
  "The value of $(shell COMMAND) is made from what the command writes, whatever its exit status, and .SHELLSTATUS is the exit status of the last command, 127 if it could not be started, or 128 and the number of the signal that ended it. Nothing of it remains: however many commands are run, no descriptor stays open, so that a use never fails because of earlier ones.",
  "every sequence of uses with every output, exit status and signal, every limit on descriptors",
  "descriptors run out only after many uses",
  ["src/function.c:func_shell_base", "src/function.c:shell_completed"])
p("What make says about variables",
  "$(origin V) names where the definition of V that a reference sees was made, $(flavor V) whether it is expanded at every use, $(value V) its text; they say `undefined`, or nothing, exactly if V is not defined. $(.VARIABLES) lists the names of all global variables defined at that moment, each once. SHELL is never taken from the environment: it is what the command line or a makefile says, else the default shell.",
  "every history of definitions and undefinitions from the environment, command line, makefiles and debugger, of references in between, every set of scopes, every order of the table",
  "the list is kept between references and must be made anew after every change, whatever the history",
  ["src/function.c:func_origin", "src/function.c:func_flavor", "src/function.c:func_value", "src/variable.c:lookup_special_var", "src/variable.c:define_automatic_variables"])
p("Variables in the debugger",
  "`setq NAME VALUE` gives the variable this value, for good, and changes no other variable. `print NAME` shows the definition that a reference in the recipe of the current target sees, and without a name the one shown last. Looking at variables changes nothing.",
  "every name and value, every set of definitions and scopes, every history of definitions afterwards",
  "whether looking changes the build shows only in what is defined later",
  ["libdebugger/cmd.c:dbg_cmd_set_var", "libdebugger/fns.c:try_without_dollar", "libdebugger/fns.c:dbg_cmd_show_exp", "libdebugger/command/print.c:dbg_cmd_print", "libdebugger/command/setq.c:dbg_cmd_setq"])
p("Settings in the debugger",
  "`set NAME on|off|toggle` changes the flag that the name, or a long enough beginning of it, stands for, and no other; `set debug N` sets the mask. A name that stands for no setting, or another value, changes nothing and is reported.",
  "every line, every state of the flags",
  "infinitely many lines",
  ["libdebugger/command/set.c:dbg_cmd_set", "libdebugger/command/set.c:dbg_cmd_set_bool", "libdebugger/fns.c:on_off_toggle", "libdebugger/fns.c:is_abbrev_of"])
p("Debugger command files",
  "`source FILE` does what typing the lines of the file at the prompt does.",
  "every file, every effect and result of the commands",
  "depends on the lengths of the lines, on the end of the file and on what every command returns",
  ["libdebugger/command/source.c:dbg_cmd_source", "libdebugger/cmd.c:enter_debugger", "libdebugger/fns.c:chomp"])
p("Recipes written as scripts",
  "`write TARGET` makes a script that runs the commands of the target's recipe, expanded as for the target, without the characters that only make understands; before them are only comments that tell the target and its prerequisites. The script goes to the file given, to the terminal, or to a file named after the target. The target is the one named, or the current one, and is not changed.",
  "every target, recipe, list of prerequisites and name",
  "infinite input space",
  ["libdebugger/command/write.c:dbg_cmd_write", "libdebugger/fns.c:get_target"])
p("Messages about the directory",
  "With -w, everything that make and its commands write stands between a line `Entering directory` and a line `Leaving directory` which name the directory make works in; the lines come in pairs that nest, also when make starts itself again, ends with an error, or when options change in a makefile. Without -w there is none. -w is in force if it is given, and without -s in sub-makes and with -C; --no-print-directory is stronger.",
  "every sequence of messages, commands, their output, dumps of collected output, option changes, restarts and ends",
  "depends on what is written first and on the order of all later events",
  ["src/output.c:log_working_directory", "src/output.c:output_start", "src/output.c:output_close", "src/output.c:output_dump", "src/main.c:die", "src/job.c:start_job_command"])
p("Messages about failed commands",
  "Make says nothing about a command that succeeds. About one that fails it writes a line with the place of the target's rule, the name of the target and how the command ended; three stars tell a failure that counts from one that is ignored, which is marked as such and not mentioned with -s. The line tells targets and statuses apart.",
  "every target, status and signal, every combination of the options and prefixes, every target that is being made when the end is noticed",
  "infinitely many targets and statuses; with -j the place depends on the moment",
  ["src/job.c:child_error", "src/job.c:reap_children", "src/print.c:err_with_stack"])
p("Home directories in file names",
  "A file name that begins with ~ stands for a file below a home directory: ~ alone or before a slash for one's own (the variable HOME, else the environment's, else that of the user logged in), ~NAME for that of the user NAME; the rest of the name stays. If there is no such directory the name is taken as it is, and so is a name with ./ before the ~. Naming a file so changes nothing else: the command line that make sees when it starts again is the one given, and the members of an archive group are members of the archive named.",
  "every name, every value of HOME, every data base of users, every command line and list of members",
  "depends on the users of the system; the damage shows only at a restart or at the second member",
  ["src/read.c:remake_tilde_expand", "src/main.c:expand_command_line_file", "src/read.c:parse_file_seq", "src/read.c:construct_include_path"])
p("The kinds of messages asked for",
  "--debug=LIST switches on the kinds of messages that the manual gives for the first letters of the items, which commas or blanks separate; `n` switches off what was on before, and options behind it take effect. --trace and its types add tracing, --debugger-stop may be repeated and the debugger is entered at every point named; -X is the same as --debugger-stop=full. Anything else stops make. The choice holds while makefiles are read and while targets are made.",
  "every list of options, in the environment and on the command line, every text of their arguments",
  "infinitely many texts; options are decoded several times and the results add up",
  ["src/main.c:decode_debug_flags", "src/main.c:decode_trace_flags", "src/main.c:decode_verbosity_flags", "src/main.c:decode_switches", "src/main.c:main"])
p("The rules in the printed data base",
  "What -p prints of files and pattern rules can be read as a makefile and gives the same rules in the same order: the same targets, prerequisites and order-only prerequisites, the same number of colons, and the same recipe, character by character. Nothing else becomes a target.",
  "every list of files and pattern rules: every name, list of prerequisites, recipe and recipe prefix",
  "infinite input space",
  ["src/file.c:print_file", "src/file.c:print_prereqs", "src/commands.c:print_commands", "src/rule.c:print_rule", "src/read.c:eval"])
p("Messages name the place where the text stands",
  "A message that a makefile asks for with the functions info, warning and error, or that is about one of its lines, is written to the right stream (info: standard output, the text alone; warning and error: standard error), only error ends make, with status 2, and the file and line that warning and error name are those at which the text stands: for a line of a makefile the number at which it begins, for a line of a recipe the number of that line, for a text given to eval the line of the eval.",
  "every makefile text, every line of it, every recipe with any mixture of continued lines, comments and empty lines, every text given to eval, every program name and level",
  "The number depends on how many newlines precede in all lines before it, in any mixture of continued lines, comments and recipes; a test sees single files.",
  ["src/function.c: func_error", "src/output.c: error, fatal", "src/read.c: eval, eval_makefile, eval_buffer, readstring, record_files", "src/job.c: new_job", "src/expand.c: variable_expand_for_file, recursively_expand_for_file"])

p("Options that switch off built-in rules and variables",
  "With -r, given on the command line, in the environment or in MAKEFLAGS of a makefile, the implicit rules are those there would be if make had no built-in rules; with -R the same holds, and the variables are those there would be if make had no built-in variables. Without them the makefile comes first: its pattern rules precede the built-in ones and its recipe for a suffix rule replaces the built-in one.",
  "every table of built-in suffixes, rules and variables, every sequence of lines that define suffixes, targets, pattern rules and variables, every way of giving the options",
  "It must hold for all combinations of what the makefile defines with the built-in tables; a test looks at a few rules.",
  ["src/default.c: set_default_suffixes, install_default_suffix_rules, install_default_implicit_rules, define_default_variables, undefine_default_variables", "src/main.c: main", "src/rule.c: convert_to_pattern, install_pattern_rule", "src/file_basic.c: enter_file"])

p("A makefile from standard input",
  "With -f - standard input is read to its end, once, and what was read is the text of that makefile, in its place among the others, however often make starts itself again. If standard input cannot be read or the copy cannot be written, make says so and stops; asking for it twice is an error. The copy is kept in a new file below TMPDIR (or the default directory), no other file is touched, and when make has ended, in whatever way except by being killed, the copy is gone.",
  "every text and every way in which reads and writes split it or fail, every list of makefiles, every sequence of restarts and every way of ending",
  "Failures of reads, writes and restarts come at every point of the history; what is left behind is seen only afterwards.",
  ["src/main.c: main, die", "src/misc.c: get_tmpfile"])

p("Descriptions of targets and the lists of tasks",
  "A comment that begins with #: before a rule, after the rule before it, or on the line of the rule, is the description of the targets of that rule (of several such comments the last one); a rule without one leaves its targets without a description from other rules, but does not take away one that an earlier rule gave them. This holds in makefiles, included makefiles and text given to eval alike; comments in branches of conditionals that are not taken do not count. --tasks prints each target that has a description, once, in the order of the names, with its description, and --targets prints each target.",
  "every sequence of comments, rules and other lines, over any number of files and texts, every set of files",
  "Which comment goes to which rule depends on all lines between the rules and on line numbers of different files; tests try single arrangements.",
  ["src/read.c: eval, record_waiting_files, remove_comments, record_files", "libdebugger/command/info.c: dbg_cmd_info_targets, dbg_cmd_info_tasks", "src/main.c: main"])

p("The directory make works in",
  "The options -C lead, one after the other, from the directory make was started in to the one it works in, and with -c make goes up from there to the directory with the makefile; if one of them cannot be entered make stops. The variable CURDIR names the directory make works in, the function abspath gives to a relative name the meaning it has there, and the variable MAKE leads to the program that is running, from every directory, if it was called by a name with a slash. A make that starts itself again is in the same directory, with the same CURDIR.",
  "every file system, every list of -C options, every name of the program, every number of directories that -c goes up, every restart",
  "It is a statement about all file systems and combinations of -C, -c and restarts.",
  ["src/main.c: main", "src/read.c: read_all_makefiles", "src/function.c: abspath"])

p("Lost output is noticed",
  "Everything that make means to write on its standard output (messages, echoed recipe lines, the printed data base, the output it collected with -O) arrives there in order, or make says 'write error: stdout' and exits with a non-zero status; if all of it arrives the exit status is that of the build; and a message has arrived before make goes on, so that it comes before the output of commands started later and is not lost if make is killed.",
  "all histories of messages, captured output, dumps and restarts; all answers of the kernel to each write, read and close; all exit statuses; all moments at which make may be killed",
  "A test sees a full disk at one write; the claim is about a failure at any of the writes of any history, on the stream, on the temporary files and across restarts.",
  ["src/output.c: _outputs, pump_from_tmp, output_dump, close_stdout, output_init", "src/misc.c: writebuf", "src/main.c: main (restart), die"])

p("realpath names existing files",
  "$(realpath names) has one word for each word of the argument that leads to a file, in order, and none for the others; each word is absolute, leads to the same file as the word it stands for, and is its own real path, so that applying the function again changes nothing.",
  "all arguments; all file systems in which the names are resolved",
  "A test has one directory tree; the claim is about all lists of names and all trees, with links, missing files and unusual names.",
  ["src/function.c: func_realpath"])

p("The debugger does not change the build",
  "With the debugger enabled (-X, --debugger, --post-mortem), and as long as the user does not give it commands that do so, the same jobs succeed and fail, the same errors are ignored, the same targets are deleted, and make ends in the same way as without it; and the record of a job is never used after it was freed.",
  "all histories in which jobs are started and their commands end, in any order, with any exit status or signal; all settings of -k, -i, .DELETE_ON_ERROR and the prefix -",
  "A test ends a few commands with a few statuses in one order; the claim is about all statuses, all orders and any number of jobs at once.",
  ["src/job.c: reap_children, free_child", "src/main.c: die"])

p("The stem is put into prerequisites of any length",
  "The prerequisites that a static pattern rule gives to a target are the prerequisite patterns with the stem in the place of the percent sign, whatever the length of the names; no memory that was given back is read to build them.",
  "all stems, all lists of prerequisite patterns, all lengths of the text buffer and all places where the allocator puts it when it grows",
  "A test has names of a few lengths and one allocator, which often grows a block in place; the claim is about all lengths and all allocators.",
  ["src/file.c: enter_prereqs", "src/expand.c: variable_buffer_output", "src/function.c: patsubst_expand_pat"])

p("Times of archive members",
  "The time of a target lib(member) is the one of the member's entry in the archive, wherever the archive was found by searching, and there is none if the archive or the entry does not exist; the warning about entries without a date names the archive and the member; memory that was given back is not read.",
  "all names of archives and members, all contents of archives, all results of searching for the archive",
  "A test has a few archives, and memory that was given back often still has its old contents; the claim is about all archives and all names.",
  ["src/remake.c: f_mtime", "src/ar.c: ar_parse_name, ar_member_date"])

p("Texts that are put together are whole",
  "Each text that make puts together from pieces (entries of the environment of commands, names below a directory, expanded home directories, members of archives, words of a restarted command line) is the pieces one after the other, whatever was put together before; no memory outside of the one for the text is written or read.",
  "all histories of such texts, any number of pieces, pieces of any length, also empty and missing ones",
  "A test puts together a few texts in one order; the memory is used again and grows, so the claim is about all orders and lengths.",
  ["src/misc.c: concat"])

p("The prompt tells the level of recursion",
  "In a make that was started by other makes, the debugger's prompt has one pair of brackets more than there are makes above; at every level, however deep, the prompt is built without writing or reading outside of its arrays.",
  "all levels of recursion and all numbers of commands in the history",
  "A test starts make at a few levels; MAKELEVEL may have any value, and an array that is written too far often shows no effect.",
  ["libdebugger/cmd.c: enter_debugger"])

with open(os.path.join(os.path.dirname(__file__), "..", "properties.jsonl"), "w") as f:
    for x in P: f.write(json.dumps(x) + "\n")
print(len(P))
