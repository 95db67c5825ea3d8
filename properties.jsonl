{"id": "C01", "title": "Hash table behaves as a finite map", "statement": "After any sequence of insert / insert-at-found-slot / delete / lookup calls on a table created by hash_init, a lookup of key k returns exactly the item most recently inserted under a key equal to k and not deleted since, and reports absence otherwise; rehashing never loses, duplicates or resurrects an item, and every probe sequence terminates.", "quantifier": "every history of table operations, every key type, every pair of hash functions (including colliding ones) and every initial size request", "why_tests_cant": "The behaviour depends on the whole insertion/deletion history, on collisions and on tombstones; a test sees a handful of histories.", "anchors": ["src/hash.c: hash_init, hash_find_slot, hash_find_item, hash_insert, hash_insert_at, hash_delete, hash_delete_at, hash_rehash, round_up_2", "src/hash.h"]}
{"id": "C02", "title": "Enumerating a hash table yields every live item exactly once", "statement": "hash_map / hash_dump visit each live item of the table once and no deleted item, so 'print all variables', exporting and snapshotting never skip or repeat an entry.", "quantifier": "every history of table operations", "why_tests_cant": "Tombstones and rehash layout are history dependent.", "anchors": ["src/hash.c: hash_map, hash_map_arg, hash_dump, hash_free_items"]}
{"id": "C03", "title": "String interning is canonical and stable", "statement": "For strings up to 65534 bytes, adding the same bytes twice returns the same pointer, adding different bytes returns different pointers, and the bytes behind a returned pointer never change whatever is added later. (Longer strings are stored but not uniqued.)", "quantifier": "every sequence of added strings of any lengths", "why_tests_cant": "Aliasing depends on how earlier strings filled the buffers; overlap bugs appear only for particular length sequences.", "anchors": ["src/strcache.c: add_string, add_hugestring, add_hash, new_cache, copy_string, strcache_add, strcache_add_len, strcache_iscached"]}
{"id": "C04", "title": "words / word / wordlist / firstword / lastword agree on one notion of word", "statement": "$(words t) is the number of maximal non-whitespace runs of t; $(word n,t) is the n-th such run or empty; $(wordlist a,b,t) is runs a..b exactly as they are spaced in t; $(firstword t) and $(lastword t) are the first and last run.", "quantifier": "every text and every pair of indices", "why_tests_cant": "Infinite input space with arbitrary runs of blanks, tabs and newlines.", "anchors": ["src/function.c: func_words, func_word, func_wordlist, func_firstword, func_lastword", "src/misc.c: find_next_token, end_of_token, next_token"]}
{"id": "C05", "title": "strip canonicalises whitespace", "statement": "$(strip t) is the words of t joined by single spaces; it is idempotent and preserves the word list.", "quantifier": "every text", "why_tests_cant": "Infinite input space.", "anchors": ["src/function.c: func_strip"]}
{"id": "C06", "title": "sort is a strictly increasing list of the same words", "statement": "$(sort t) contains exactly the distinct words of t, each once, in strictly increasing byte order; it is idempotent and insensitive to the order and repetition of its input.", "quantifier": "every text", "why_tests_cant": "All permutations and duplicate patterns cannot be enumerated.", "anchors": ["src/function.c: func_sort", "src/misc.c: alpha_compare"]}
{"id": "C07", "title": "filter and filter-out partition the word list", "statement": "$(filter p,t) keeps, in order, exactly the words of t that match some pattern word of p, $(filter-out p,t) keeps exactly the others; the result does not depend on whether the hashed or the linear matching strategy is chosen.", "quantifier": "every pattern list and every text", "why_tests_cant": "The strategy switch depends on the product of list sizes; equivalence must hold for all sizes.", "anchors": ["src/function.c: func_filter_filterout, a_word, a_pattern"]}
{"id": "C08", "title": "subst replaces the leftmost non-overlapping occurrences", "statement": "$(subst from,to,text) scans left to right and replaces each non-overlapping occurrence of a non-empty from; text without occurrences is unchanged, and an empty from appends to.", "quantifier": "all from, to, text", "why_tests_cant": "Infinite input space, self-overlapping patterns.", "anchors": ["src/function.c: subst_expand, func_subst"]}
{"id": "C09", "title": "patsubst rewrites exactly the matching words", "statement": "$(patsubst pat,rep,text) maps each word of text independently: a word matching pat (prefix % suffix) is replaced by rep with the stem substituted for rep's first %, other words are copied unchanged; words are separated by one space.", "quantifier": "all patterns, replacements, texts", "why_tests_cant": "Infinite input space.", "anchors": ["src/function.c: patsubst_expand_pat, patsubst_expand, func_patsubst"]}
{"id": "C10", "title": "% patterns match prefix-stem-suffix", "statement": "A word matches a pattern P%S iff it is P ++ stem ++ S for some (possibly empty) stem; a pattern without % matches only itself.", "quantifier": "all patterns and words", "why_tests_cant": "Infinite input space; overlap of prefix and suffix in short words is a classic boundary bug.", "anchors": ["src/function.c: pattern_matches"]}
{"id": "C11", "title": "dir/notdir and basename/suffix recombine to the original word", "statement": "For every file-name word w, dir(w)++notdir(w) is w (with './' as dir when w has no slash) and basename(w)++suffix(w) is w; notdir has no slash and suffix is empty or starts with the last dot after the last slash.", "quantifier": "every word list", "why_tests_cant": "Infinite input space with dots and slashes in every position.", "anchors": ["src/function.c: func_notdir_suffix, func_basename_dir"]}
{"id": "C12", "title": "join, addprefix and addsuffix are word-wise", "statement": "$(join a,b) concatenates the n-th words pairwise and keeps the tail of the longer list; $(addprefix p,t)/$(addsuffix s,t) attach p/s to every word; the number of words is max resp. unchanged.", "quantifier": "all lists", "why_tests_cant": "Infinite input space.", "anchors": ["src/function.c: func_join, func_addsuffix_addprefix"]}
{"id": "C13", "title": "abspath yields a normal form", "statement": "$(abspath name), when it returns a name, returns an absolute path without empty, '.' or '..' components and without trailing slash (except '/'), denoting the component-wise normalisation of cwd/name; it is idempotent.", "quantifier": "every name and every absolute current directory", "why_tests_cant": "Arbitrary nesting of .. and repeated slashes.", "anchors": ["src/function.c: abspath, func_abspath"]}
{"id": "C14", "title": "if / or / and evaluate only what they must", "statement": "$(if c,t,e) expands c and then exactly one of t, e; $(or ...) expands arguments left to right up to and including the first non-empty one; $(and ...) up to and including the first empty one; the value is as documented.", "quantifier": "all argument lists and all expansion side effects", "why_tests_cant": "Side-effect traces for arbitrary argument lists.", "anchors": ["src/function.c: func_if, func_or, func_and"]}
{"id": "C15", "title": "shell output folding", "statement": "The value of $(shell cmd) is cmd's output with the trailing newlines removed and every other newline turned into one space; != keeps the same rule; no other byte is changed.", "quantifier": "every output", "why_tests_cant": "Infinite input space.", "anchors": ["src/function.c: fold_newlines"]}
{"id": "C16", "title": "Logical lines are split exactly at unescaped newlines", "statement": "Reading a makefile splits its text into logical lines at each newline preceded by an even number of backslashes, losing no byte of any line regardless of line length or buffer growth, and counts physical lines correctly.", "quantifier": "every file content", "why_tests_cant": "Line lengths straddling buffer sizes and backslash runs are unbounded.", "anchors": ["src/read.c: readline, readstring"]}
{"id": "C17", "title": "Continuation collapsing", "statement": "Joining continuation lines replaces backslash-newline and surrounding blanks by one space, keeps half of the backslashes before a newline, and leaves text without backslash-newline untouched; idempotent.", "quantifier": "every logical line", "why_tests_cant": "Infinite input space.", "anchors": ["src/misc.c: collapse_continuations"]}
{"id": "C18", "title": "Comments and quoting of #", "statement": "An unquoted # (preceded by an even number of backslashes) ends the line; a quoted # stays as a literal # with half the backslashes removed.", "quantifier": "every line", "why_tests_cant": "All backslash parities at all positions.", "anchors": ["src/read.c: remove_comments, find_map_unquote, find_char_unquote, unescape_char"]}
{"id": "C19", "title": "Quoting of %", "statement": "find_percent returns the first % preceded by an even number of backslashes; k backslashes before an inspected % become k/2; backslashes elsewhere are untouched; the text after the returned % is unchanged.", "quantifier": "every pattern string", "why_tests_cant": "All backslash runs.", "anchors": ["src/read.c: find_percent, find_percent_cached"]}
{"id": "C20", "title": "Conditionals interpret exactly one branch", "statement": "For every properly nested ifeq/ifneq/ifdef/ifndef ... else-if ... else ... endif structure exactly the lines of the first branch whose condition holds are interpreted; nothing inside ignored text is evaluated; the nesting depth returns to its initial value.", "quantifier": "every nesting structure and every truth assignment", "why_tests_cant": "Unbounded nesting and branch count.", "anchors": ["src/read.c: conditional_line, install_conditionals, restore_conditionals"]}
{"id": "C21", "title": "define/endef nesting", "statement": "The body of a define is exactly the text up to the matching endef, counting nested define/endef pairs.", "quantifier": "every nesting depth and body", "why_tests_cant": "Unbounded nesting.", "anchors": ["src/read.c: do_define"]}
{"id": "C22", "title": "Origin precedence of variable definitions", "statement": "After any sequence of definitions of a variable in one scope, its value and origin are those of the last definition whose origin was not weaker than the origin then in force (default < environment < file < environment override (-e) < command line < override < automatic < debugger); weaker definitions never change it.", "quantifier": "every sequence of definitions from every origin", "why_tests_cant": "History dependent.", "anchors": ["src/variable.c: define_variable_in_set, undefine_variable_in_set, do_variable_definition"]}
{"id": "C23", "title": "Scoped lookup and private variables", "statement": "A variable reference in a target sees the innermost enclosing definition (target, then parents, then global); definitions marked private are visible only in the scope that made them.", "quantifier": "every scope chain and every set of definitions", "why_tests_cant": "Unbounded chains.", "anchors": ["src/variable.c: lookup_variable, lookup_variable_in_set, initialize_file_variables"]}
{"id": "C24", "title": "Variable scopes nest", "statement": "push_new_variable_scope / pop_variable_scope around any balanced activity leaves every outer variable exactly as it was, and definitions made inside are discarded; popping the global scope's temporary set moves nothing out.", "quantifier": "every balanced sequence of pushes, definitions and pops", "why_tests_cant": "Unbounded nesting, in-place set swapping.", "anchors": ["src/variable.c: push_new_variable_scope, pop_variable_scope, create_new_variable_set"]}
{"id": "C25", "title": "Pattern-specific variables apply from least to most specific", "statement": "Pattern variable lookups visit matching patterns ordered by increasing target pattern length and, for equal length, in definition order; every matching pattern is visited once and no non-matching one.", "quantifier": "every sequence of pattern variable definitions and every target", "why_tests_cant": "Insertion position depends on cached tail pointers and history.", "anchors": ["src/variable.c: create_pattern_var, lookup_pattern_var"]}
{"id": "C26", "title": "Assignment operators", "statement": "?= changes nothing when the variable is defined; += on an undefined variable acts like =; += on a defined variable yields old ++ ' ' ++ new (new alone when old is empty) and keeps the flavour; := stores the expanded and = the unexpanded right-hand side.", "quantifier": "all histories and values", "why_tests_cant": "History dependent.", "anchors": ["src/variable.c: do_variable_definition"]}
{"id": "C27", "title": "Variable definitions are recognised by their operator", "statement": "A line is a variable assignment iff it has the shape NAME op VALUE with op one of = := ::= ?= += != where the operator is the first one outside variable references and no unreferenced blank-separated second word, colon rule or comment precedes it; the name and value are split accordingly.", "quantifier": "every line", "why_tests_cant": "Infinite input space with nested references.", "anchors": ["src/variable.c: parse_variable_definition"]}
{"id": "C28", "title": "Expansion is literal outside references", "statement": "Expanding text without '$' yields the text itself; '$$' yields '$'; expansion of a concatenation at a reference boundary is the concatenation of the expansions; output buffer growth never changes the result.", "quantifier": "every text and every variable environment", "why_tests_cant": "Unbounded nesting and buffer sizes.", "anchors": ["src/expand.c: variable_expand_string, variable_buffer_output, reference_variable"]}
{"id": "C29", "title": "Recursive variable expansion always terminates", "statement": "Expanding any text in any environment terminates: a recursive variable that (directly or indirectly) references itself is reported as a fatal error rather than looping; $(call) may recurse only the admitted number of times.", "quantifier": "every environment including cyclic definitions", "why_tests_cant": "Cyclic environments of every shape.", "anchors": ["src/expand.c: recursively_expand_for_file", "src/function.c: func_call"]}
{"id": "C30", "title": "call binds exactly its arguments", "statement": "In $(call f,a1,...,an), $(0) is f, $(i) is ai for i<=n and $(i) is empty for higher i that an outer call had bound; after the call the outer bindings are back.", "quantifier": "all nesting depths and argument counts", "why_tests_cant": "Outer-argument hiding depends on the calling history.", "anchors": ["src/function.c: func_call"]}
{"id": "C31", "title": "Exported environment", "statement": "The environment passed to a recipe contains, for each exported name, one entry NAME=value with the innermost definition, and no entry for unexported or private-elsewhere names; no name occurs twice.", "quantifier": "every variable environment", "why_tests_cant": "All combinations of origin, export state and scopes.", "anchors": ["src/variable.c: target_environment"]}
{"id": "C32", "title": "Options survive the trip through MAKEFLAGS", "statement": "Quoting each option argument, joining with blanks, expanding as a make variable and splitting/unquoting in the child make reproduces the option words exactly.", "quantifier": "every list of non-empty option words", "why_tests_cant": "Arbitrary blanks, backslashes and dollars.", "anchors": ["src/main.c: quote_for_env, define_makeflags, decode_env_switches"]}
{"id": "C33", "title": "Prerequisite lists split at |", "statement": "Prerequisites before the first | are normal and those after are order-only; order is preserved.", "quantifier": "every prerequisite list", "why_tests_cant": "Infinite input space.", "anchors": ["src/file.c: split_prereqs, enter_prereqs"]}
{"id": "C34", "title": "Several rules for one target merge deterministically", "statement": "With single-colon rules the prerequisites of a target are those of the rule with the recipe first, then the others in reading order; at most one recipe is kept (the last, with a warning); mixing : and :: is fatal.", "quantifier": "every sequence of rules", "why_tests_cant": "History dependent.", "anchors": ["src/read.c: record_files"]}
{"id": "C35", "title": "Default goal", "statement": "The default goal is the first target, in reading order, that is not a special dot-target and not a suffix/pattern rule, unless .DEFAULT_GOAL says otherwise.", "quantifier": "every sequence of rules", "why_tests_cant": "History dependent.", "anchors": ["src/read.c: eval (default goal)"]}
{"id": "C36", "title": "Suffix rules become the right pattern rules", "statement": "For every known pair of suffixes .a .b a target named .a.b without prerequisites becomes %.b: %.a, a target .a becomes %: %.a, and no other suffix-like target becomes a pattern rule.", "quantifier": "every suffix list and target set", "why_tests_cant": "All suffix pairs.", "anchors": ["src/rule.c: convert_to_pattern, convert_suffix_rule"]}
{"id": "C37", "title": "Implicit rule selection", "statement": "The implicit rule chosen for a target is a rule whose target pattern matches and whose prerequisites exist or ought to exist; among applicable ones of the same pass the shortest stem wins and ties go to the earlier definition; match-anything rules are tried only when nothing specific matches, terminal ones only with existing prerequisites.", "quantifier": "every rule data base, target and file system", "why_tests_cant": "Infinite input space.", "anchors": ["src/implicit.c: pattern_search, stemlen_compare"]}
{"id": "C38", "title": "VPATH search order", "statement": "A file found by vpath is found in the first directory, taking matching vpath directives in definition order and then VPATH, in which it exists; nothing is returned when it exists in none.", "quantifier": "every list of directives, directories and file systems", "why_tests_cant": "Infinite input space.", "anchors": ["src/vpath.c: vpath_search, selective_vpath_search, build_vpath_lists, construct_vpath_list"]}
{"id": "C39", "title": "Automatic variables", "statement": "$^ lists each normal prerequisite once in first-occurrence order, $+ all normal occurrences in order, $? the once-listed changed ones, $| the order-only prerequisites not also normal, $< the first.", "quantifier": "every prerequisite list", "why_tests_cant": "Duplicates and order-only mixes of every shape.", "anchors": ["src/commands.c: set_file_variables"]}
{"id": "C40", "title": "Recipe splitting", "statement": "Splitting a recipe into command lines breaks exactly at unescaped newlines; rejoining the lines with newlines gives back the recipe; per-line flags are determined by the line's own prefix characters.", "quantifier": "every recipe text", "why_tests_cant": "Unbounded text; escape parity; counter width.", "anchors": ["src/commands.c: chop_commands"]}
{"id": "C41", "title": "Recipes reach the shell verbatim", "statement": "When a recipe line is run through the shell, the shell receives the line, byte for byte, as one argument after the shell's own flags.", "quantifier": "every recipe line", "why_tests_cant": "Every combination of quotes, backslashes, specials.", "anchors": ["src/job.c: construct_command_argv_internal"]}
{"id": "C42", "title": "Direct execution agrees with the shell", "statement": "When a line is executed without a shell, the argument vector is the one a POSIX shell would build for a simple command, and lines containing shell metacharacters, assignments or builtins always go through the shell.", "quantifier": "every recipe line", "why_tests_cant": "Every combination of quotes and blanks.", "anchors": ["src/job.c: construct_command_argv_internal"]}
{"id": "C43", "title": "A recipe runs at most once per make run", "statement": "However many paths lead to a (single-colon) target, its recipe is started at most once in one update run.", "quantifier": "every dependency graph and goal list, every schedule of job completions", "why_tests_cant": "Unbounded graphs and schedules.", "anchors": ["src/remake.c: update_goal_chain, update_file, update_file_1, remake_file, notice_finished_file"]}
{"id": "C44", "title": "Prerequisites are finished before the target's recipe starts", "statement": "When a recipe starts, every prerequisite of its target (outside dropped cycles) has finished successfully.", "quantifier": "every dependency graph and schedule", "why_tests_cant": "Unbounded graphs and schedules.", "anchors": ["src/remake.c: update_file_1, check_dep"]}
{"id": "C45", "title": "Remake decision", "statement": "A target is remade iff it is phony-like/nonexistent, forced by always-make, or some non-order-only prerequisite is newer or was remade; an up-to-date target is never remade and order-only prerequisites alone never cause a remake.", "quantifier": "every graph and file-time assignment", "why_tests_cant": "Unbounded graphs and times.", "anchors": ["src/remake.c: update_file_1, check_dep"]}
{"id": "C46", "title": "Failure propagation", "statement": "If a prerequisite fails, the dependent target's recipe does not run and the target fails too; the overall status is failure iff some needed recipe failed; without -k no further target is started after a failure.", "quantifier": "every graph, failure pattern and schedule", "why_tests_cant": "Unbounded graphs, all failure patterns.", "anchors": ["src/remake.c: update_goal_chain, update_file_1"]}
{"id": "C47", "title": "Circular dependencies are dropped and updating terminates", "statement": "Updating any goal in any (possibly cyclic) dependency graph terminates; an edge is dropped only if it closes a cycle.", "quantifier": "every finite graph", "why_tests_cant": "Unbounded cyclic graphs.", "anchors": ["src/remake.c: update_file_1, check_dep"]}
{"id": "C48", "title": "Timestamps keep their order", "statement": "For times within the representable range, the internal timestamp comparison agrees with comparison of (seconds, nanoseconds); special values order below every real time and never collide with one; out-of-range times are clamped.", "quantifier": "every pair of times", "why_tests_cant": "64-bit arithmetic space.", "anchors": ["src/file.c: file_timestamp_cons", "src/filedef.h: FILE_TIMESTAMP_S, FILE_TIMESTAMP_NS"]}
{"id": "C49", "title": "Jobserver tokens are conserved", "statement": "At every moment the tokens in the pipe plus the tokens held by all participating makes equal the initial number; no make ever returns a token it does not hold; when all jobs are done all tokens are back.", "quantifier": "every interleaving of any number of makes", "why_tests_cant": "Unbounded interleavings.", "anchors": ["src/job.c: new_job, free_child, start_waiting_job, reap_children", "src/posixos.c: jobserver_setup, jobserver_acquire, jobserver_release, jobserver_acquire_all", "src/main.c: clean_jobserver"]}
{"id": "C50", "title": "Parallelism never exceeds -j", "statement": "The number of simultaneously running jobs of the whole make tree never exceeds the number of job slots (without jobserver: per make).", "quantifier": "every schedule", "why_tests_cant": "Unbounded schedules.", "anchors": ["src/job.c: new_job, start_waiting_job, reap_children"]}
{"id": "C51", "title": "Targets of failed or interrupted recipes", "statement": "On interruption or on failure with .DELETE_ON_ERROR a target is deleted iff it is a changed regular file and not precious or phony.", "quantifier": "every target state", "why_tests_cant": "All combinations of attributes, times.", "anchors": ["src/commands.c: delete_target, delete_child_targets"]}
{"id": "C52", "title": "Intermediate file removal", "statement": "Only files that make itself created as intermediate in this run, that are not precious, secondary, mentioned on the command line or marked don't-care, are removed at exit.", "quantifier": "every file set", "why_tests_cant": "All attribute combinations.", "anchors": ["src/file.c: remove_intermediates"]}
{"id": "C53", "title": "Breakpoint list", "statement": "Breakpoint numbers are unique and increasing; deleting a number removes exactly that breakpoint from the list and keeps the order of the others; unknown numbers change nothing.", "quantifier": "every sequence of break and delete commands", "why_tests_cant": "History dependent.", "anchors": ["libdebugger/break.c: add_breakpoint, remove_breakpoint, list_breakpoints"]}
{"id": "C54", "title": "Debugger frame navigation", "statement": "up/down/frame move to an existing frame or report an error and leave the frame number unchanged; up n then down n is the identity when it succeeds.", "quantifier": "every stack depth and sequence of moves", "why_tests_cant": "History dependent.", "anchors": ["libdebugger/stack.c: dbg_adjust_frame, dbg_stack_size"]}
{"id": "C55", "title": "Debugger word splitting", "statement": "Splitting a debugger command line into words yields its blank-separated words.", "quantifier": "every command line", "why_tests_cant": "Infinite input space.", "anchors": ["libdebugger/fns.c: get_word, stripwhite, is_abbrev_of"]}
{"id": "C56", "title": "writebuf and readbuf transfer everything", "statement": "writebuf/readbuf transfer exactly the requested bytes in order, under any pattern of partial transfers and EINTR, unless a hard error or EOF stops them, in which case a prefix was transferred.", "quantifier": "every pattern of partial results", "why_tests_cant": "Unbounded system-call outcome sequences.", "anchors": ["src/misc.c: writebuf, readbuf"]}
{"id": "C57", "title": "File names are normalised consistently", "statement": "Leading './' sequences (with repeated slashes) are stripped identically when names are entered from makefiles, from the command line and on lookup; normalisation is idempotent.", "quantifier": "every name", "why_tests_cant": "Infinite input space.", "anchors": ["src/file_basic.c: lookup_file", "src/main.c: expand_command_line_file", "src/read.c: parse_file_seq"]}
{"id": "C58", "title": "Directory cache answers like the directory", "statement": "For a directory that does not change, file_exists_p answers the same for every query order and for every degree of incremental reading, and equals membership in the directory.", "quantifier": "every directory content and query sequence", "why_tests_cant": "History dependent incremental cache.", "anchors": ["src/dir.c: find_directory, dir_contents_file_exists_p, file_exists_p, file_impossible"]}
{"id": "C59", "title": "Archive member names", "statement": "name is treated as archive member reference iff it has the form lib(member) with non-empty lib and member; parsing then splits it into exactly those parts and recombining gives the name.", "quantifier": "every name", "why_tests_cant": "Infinite input space.", "anchors": ["src/ar.c: ar_name, ar_parse_name"]}
{"id": "C60", "title": "Profile JSON strings are well formed", "statement": "Every string emitted through the escaping printer is a valid JSON string body and decodes to the original with control whitespace replaced by blanks.", "quantifier": "every string", "why_tests_cant": "Infinite input space.", "anchors": ["src/json_format.c: escape_print"]}
{"id": "C61", "title": "State never moves backwards for co-made targets", "statement": "Setting the command state of a target raises the state of all targets made by the same recipe to at least that state and never lowers one.", "quantifier": "every sequence of state changes", "why_tests_cant": "History dependent.", "anchors": ["src/file.c: set_command_state"]}
{"id": "C62", "title": "Output synchronisation keeps each job's output together", "statement": "With --output-sync every job's captured output appears contiguously in the terminal output, complete, once, in the order written.", "quantifier": "every interleaving of job writes and dumps", "why_tests_cant": "Unbounded interleavings.", "anchors": ["src/output.c: output_dump, pump_from_tmp, _outputs"]}
{"id": "C63", "title": "Appending target-specific variables", "statement": "The value of a variable appended to with += for a target is made of the values visible from that target, from the outermost to the innermost, starting with the innermost definition that does not append; definitions private to other scopes contribute nothing.", "quantifier": "every chain of scopes and every combination of appending, replacing and private definitions", "why_tests_cant": "Unbounded chains of targets.", "anchors": ["src/expand.c: variable_append", "src/variable.c: do_variable_definition"]}
{"id": "C64", "title": "foreach evaluates its body once per word", "statement": "$(foreach name,list,text) yields the expansions of text joined by single blanks, one for every word of the expanded list, in order; during each of them name stands for exactly that word and every other variable for what it stands for outside; afterwards name means what it meant before.", "quantifier": "every list, body and environment, with any nesting", "why_tests_cant": "Unbounded lists and nested scopes.", "anchors": ["src/function.c: func_foreach"]}
{"id": "C65", "title": "value yields the unexpanded text", "statement": "$(value name) yields the value of the variable name exactly as it was written, without any expansion, and the empty text if there is no such variable.", "quantifier": "every variable name and value", "why_tests_cant": "Infinite input space.", "anchors": ["src/function.c: func_value"]}
{"id": "C66", "title": "Choice of the debugger command", "statement": "Every command name and every alias listed selects its command, a single letter the command with that letter, and no other word selects one; no word selects two.", "quantifier": "every word", "why_tests_cant": "Infinite input space; the search relies on the order of two tables.", "anchors": ["libdebugger/cmd.c: find_command, execute_line", "libdebugger/cmd_initialize.h: dbg_commands, aliases, cmd_initialize"]}
{"id": "C67", "title": "Continuation lines in recipe references", "statement": "Before a recipe line is expanded, each backslash-newline inside a variable or function reference, with the blanks before it and the white space after it, becomes one space; everything else, in particular the text outside of references, stays as it is.", "quantifier": "every recipe line", "why_tests_cant": "The line is rewritten in place; every combination of references, blanks and backslash runs.", "anchors": ["src/commands.c: expand_command_lines"]}
{"id": "C68", "title": "Static pattern rules put the stem into every prerequisite", "statement": "In a static pattern rule each target that matches the target pattern gets the prerequisites of the rule, in order and of the same kind, with the part of its name matched by % in the place of the first unquoted % of each; targets that do not match are reported and get none of them.", "quantifier": "every list of targets, target pattern and list of prerequisites", "why_tests_cant": "Infinite input space.", "anchors": ["src/read.c: record_files", "src/file.c: enter_prereqs"]}
{"id": "C69", "title": "Grouped targets", "statement": "After reading any rules, a target is made together with exactly the targets of the last grouped rule (&:) naming it, and with no others if there is none; a grouped rule without a recipe is rejected.", "quantifier": "every sequence of rules", "why_tests_cant": "History dependent.", "anchors": ["src/read.c: record_files"]}
{"id": "C70", "title": "Splitting a command line ends and stays in its buffers", "statement": "Preparing a command line for execution ends for every line, shell, shell flags and field separators, after calling itself at most twice, and neither the text written for the shell nor the arguments exceed the memory set aside for them.", "quantifier": "every command line, SHELL, .SHELLFLAGS and IFS", "why_tests_cant": "The function calls itself on the text it has built; the sizes are computed in advance.", "anchors": ["src/job.c: construct_command_argv_internal"]}
{"id": "C71", "title": "The commands of a recipe run in order up to the first failure", "statement": "The commands of a recipe are shown and executed in order, each once and only after the one before it has ended. The recipe stops at the first command that fails unless its failure is ignored (-, -i, .IGNORE), and succeeds exactly after all of its commands. Its targets are removed only if it did not succeed and a command had been started: after a signal, with .DELETE_ON_ERROR, or when make is dying or only asks.", "quantifier": "every recipe, every expansion, every way commands end and every option", "why_tests_cant": "Histories of exits, signals and options.", "anchors": ["src/job.c: start_job_command, reap_children, job_next_command"]}
{"id": "C72", "title": "-n, -t and -q execute only commands marked as recursive", "statement": "Under -n, -t and -q no command is executed except those on lines marked with + or containing $(MAKE). -n shows every command, even silent ones; without it and without tracing, commands marked with @ are not shown.", "quantifier": "every recipe of every target, every combination of options", "why_tests_cant": "Combinations of marks before and after expansion, on lines of several commands.", "anchors": ["src/job.c: start_job_command", "src/commands.c: chop_commands"]}
{"id": "C73", "title": "The search for an implicit rule ends", "statement": "Looking for an implicit rule for a target ends for every set of pattern rules, however they feed each other; no chain of rules uses a rule twice, so its length is at most the number of rules.", "quantifier": "every rule data base, target, file system and history of earlier searches", "why_tests_cant": "Unbounded recursion through mutually dependent rules.", "anchors": ["src/implicit.c: try_implicit_rule, pattern_search"]}
{"id": "C74", "title": "A pattern rule with several targets makes all of them", "statement": "When a pattern rule with several target patterns is chosen for a target, the other files said to be made with it are those with the same stem in the same directory, one for each other pattern.", "quantifier": "every rule data base and target", "why_tests_cant": "Infinite input space.", "anchors": ["src/implicit.c: pattern_search"]}
{"id": "C75", "title": "Redefining a pattern rule", "statement": "A pattern rule in a makefile replaces every earlier one with the same targets and prerequisites, and only those; built-in rules never replace rules from makefiles; otherwise rules stay in the order of their definition, those from makefiles first.", "quantifier": "every sequence of pattern rules", "why_tests_cant": "History dependent.", "anchors": ["src/rule.c: new_pattern_rule, install_pattern_rule, create_pattern_rule"]}
{"id": "C76", "title": "Building names along a search path stays in memory", "statement": "Splitting a search path and building the names to look for in its directories neither writes nor reads outside the memory set aside for them, for every text of a search path and every file name.", "quantifier": "every search path and file name", "why_tests_cant": "Sizes are computed in advance from the text; trailing and double slashes move the place of writing.", "anchors": ["src/vpath.c: construct_vpath_list, selective_vpath_search"]}
{"id": "C77", "title": "A -lNAME prerequisite is the first library on the search path", "statement": "A prerequisite -lNAME that does not exist stands for the file in the earliest of the current directory, the search directories in order, and the standard directories that has one of the names obtained from .LIBPATTERNS; if that place has several, the one whose pattern comes first.", "quantifier": "every .LIBPATTERNS, search path, file system", "why_tests_cant": "Two nested orders; infinite input space.", "anchors": ["src/remake.c: library_search"]}
{"id": "C78", "title": "GPATH decides whether a found file keeps its new name", "statement": "A missing file or library found in a directory of the search path is known by the name found at once exactly if the directory is listed in GPATH; a file found nowhere stays missing.", "quantifier": "every GPATH, search path, file system and file name", "why_tests_cant": "Infinite input space.", "anchors": ["src/remake.c: f_mtime", "src/vpath.c: gpath_search"]}
{"id": "C79", "title": "Options reach sub-makes unchanged", "statement": "The options given to make arrive unchanged in a make started by a recipe through MAKEFLAGS: each flag, number of jobs, load limit, string and list that is to be passed down has in the child the value, and the order, it has in the parent, and no other option is set.", "quantifier": "every combination of options, values and command-line definitions", "why_tests_cant": "Option values are arbitrary texts that pass through quoting, two expansions and splitting.", "anchors": ["src/main.c: define_makeflags, quote_for_env, decode_env_switches, decode_switches"]}
{"id": "C80", "title": "The text of MAKEFLAGS fits its buffers", "statement": "Building MAKEFLAGS, the flags for --eval and the list of command-line variables, and splitting MAKEFLAGS, write only inside the buffers set aside for them, for all options and values.", "quantifier": "every set of options, definitions and environment", "why_tests_cant": "The sizes are estimated before the text is built; quoting can double lengths.", "anchors": ["src/main.c: define_makeflags, decode_env_switches, main"]}
{"id": "C81", "title": "Command-line variables reach sub-makes", "statement": "A variable defined on the command line is defined on the command line of every sub-make too, with the same name, flavour and value.", "quantifier": "every variable name and value", "why_tests_cant": "Values are arbitrary texts that pass through quoting, expansion, splitting and the recognition of definitions.", "anchors": ["src/main.c: main, handle_non_switch_argument, decode_switches"]}
{"id": "C82", "title": "Long options may be abbreviated, short ones grouped", "statement": "A long option may be given by its name or by any abbreviation that fits no other option; ambiguous, unknown and misused options are refused; single letters may be grouped in one word with the same meaning as given one by one.", "quantifier": "every word list", "why_tests_cant": "Infinite input space.", "anchors": ["src/getopt.c: _getopt_internal", "src/main.c: init_switches, decode_switches"]}
{"id": "C83", "title": "Files found impossible stay impossible", "statement": "A file that the search for implicit rules has found impossible to make is reported as impossible from then on, under every name of its directory, and no other file is.", "quantifier": "every sequence of marks and queries, every directory", "why_tests_cant": "History dependent; the marks share a table with the entries read from the directory.", "anchors": ["src/dir.c: file_impossible, file_impossible_p, dir_contents_file_exists_p"]}
{"id": "C84", "title": "Few directories are open at a time", "statement": "Between calls at most nine directories are open for reading, for every sequence of queries, however the file system changes meanwhile; the counter of open directories is exact.", "quantifier": "every history of calls and of the file system", "why_tests_cant": "Needs many directories and interleaved partial reads.", "anchors": ["src/dir.c: find_directory, dir_contents_file_exists_p"]}
{"id": "C85", "title": "Answers of the directory cache never change", "statement": "Whether a file (named without a trailing slash) exists is answered the same way during the whole run, however the file system changes, unless a file of that name is marked impossible.", "quantifier": "every history of calls and of the file system", "why_tests_cant": "Depends on what was read before and on later changes.", "anchors": ["src/dir.c: dir_contents_file_exists_p, file_exists_p"]}
{"id": "C86", "title": "Buffers for messages are large enough", "statement": "A message, warning, error, fatal error or message on the directory, with its prefix, its arguments and its final NUL, fits in the buffer that was made for it.", "quantifier": "every program name, directory, level, translation, place in a makefile, format and argument, after any number of earlier messages", "why_tests_cant": "Lengths are unbounded; an overrun of a few bytes is silent.", "anchors": ["src/output.c: message, error, fatal, log_working_directory, get_buffer", "src/makeint.h: O, OS, ON, INTSTR_LENGTH"]}
{"id": "C87", "title": "A recipe is made of the recipe lines after its rule", "statement": "Reading a makefile has the effect of its stanzas one after the other. The recipe of a rule is the command after its semicolon followed by the lines after it that start with the recipe prefix, up to the next line with text; empty lines, comments and the untaken branches of conditionals between them do not matter, and nothing is lost or attached to another rule.", "quantifier": "every makefile, every state of variables", "why_tests_cant": "Makefiles are arbitrary; the rule under construction, ignored recipes and conditionals interact over any number of lines.", "anchors": ["src/read.c: eval, record_waiting_files"]}
{"id": "C88", "title": "A rule line is read as its expansion", "statement": "A rule line has the targets, colon sign, pattern, prerequisites and first command that the text has to which it expands: wherever in a variable or in the line the colon, the second colon or the semicolon come from. A line without a colon is refused unless it expands to nothing.", "quantifier": "every line, every value of the variables", "why_tests_cant": "Words are expanded one by one while the colon is looked for; the space of lines and values is infinite.", "anchors": ["src/read.c: eval, get_next_mword, find_char_unquote"]}
{"id": "C89", "title": "Target-specific variables belong to their targets", "statement": "A line with targets, a colon and an assignment defines the variable, with the text as written including what follows a semicolon, for exactly the targets and patterns named. Definitions of other targets and global ones do not change; command-line definitions win over it unless override is given.", "quantifier": "every line, target list, flavour, modifier and earlier state", "why_tests_cant": "The state space of definitions is infinite; the effect on other targets is invisible in a test of one.", "anchors": ["src/read.c: eval, record_target_var", "src/variable.c: initialize_file_variables, do_variable_definition"]}
{"id": "C90", "title": "Which lines are assignments", "statement": "A line is an assignment exactly if it is, after any number of the words export, override and private, an assignment, a definition or an undefinition; the modifiers that take effect are those words, and a variable may itself be named like one of them.", "quantifier": "every line", "why_tests_cant": "Infinite input space; the words are ambiguous.", "anchors": ["src/read.c: parse_var_assignment"]}
{"id": "C91", "title": "MAKEFLAGS cannot give command-line options", "statement": "Whatever the variables MAKEFLAGS and GNUMAKEFLAGS of the environment contain, they set none of the options that only the command line decides: the directory to change to, the makefiles, the files taken for old or new, and the requests for help and for lists of tasks or targets.", "quantifier": "every value of the variables", "why_tests_cant": "Infinite input space; options may be grouped, abbreviated or swallow the next word.", "anchors": ["src/main.c: decode_env_switches, decode_switches, switches"]}
{"id": "C92", "title": "Groups of archive members", "statement": "In every list of names lib(a b c) stands for lib(a) lib(b) lib(c), whatever blanks stand inside the parentheses and whatever names stand before and after.", "quantifier": "every list of names, any number of groups and members", "why_tests_cant": "Infinite input space; the group spans words of the list.", "anchors": ["src/read.c: parse_file_seq", "src/ar.c: ar_name"]}
{"id": "C93", "title": "Goals and variables of the command line", "statement": "Every word of the command line that is neither an option nor an assignment is a goal, in the order given, and goals named are what make builds; a word is taken for exactly one of the two. The variable MAKECMDGOALS has the goals as they were named; words of the environment variables are never goals.", "quantifier": "every list of words, every assignment and goal name", "why_tests_cant": "Infinite input space; words are classified one after the other with effects on variables.", "anchors": ["src/main.c: handle_non_switch_argument, decode_switches, decode_env_switches"]}
{"id": "C94", "title": "Variables of the environment", "statement": "Every variable of the environment is a variable of make with the same value, origin environment, and is passed on again, except SHELL and MAKE_RESTARTS, which are not passed on unless the makefile asks for it; of several entries for a name the last counts, and nothing else is defined.", "quantifier": "every environment", "why_tests_cant": "Environments are arbitrary lists of texts.", "anchors": ["src/main.c: main", "src/variable.c: target_environment"]}
{"id": "C95", "title": "Levels of recursion", "statement": "MAKELEVEL counts the makes above: a make without a level in the environment is at level 0, one at level n passes n+1 to its children, and the level read is the one passed.", "quantifier": "every level below 2^32 - 1", "why_tests_cant": "The claim is about a chain of processes of any length.", "anchors": ["src/main.c: main", "src/variable.c: target_environment"]}
{"id": "C96", "title": "How many jobs run at once", "statement": "The limit of jobs is the one of the command line if it gives one, also in a sub-make that has a jobserver, else the one a makefile puts into MAKEFLAGS, else the jobserver of the parent, else the one of the environment; -j without a number is no limit, -j1 starts no jobserver, a jobserver that cannot be used means one job at a time, and so does no -j at all.", "quantifier": "every combination of -j and --jobserver-auth in environment, command line and makefiles", "why_tests_cant": "The combinations of sources and orders are too many to test, and their effect is invisible at small loads.", "anchors": ["src/main.c: main, decode_switches"]}
{"id": "C97", "title": "A restart repeats the command line", "statement": "When make starts again after remaking its makefiles, the new make sees the same options, variables and goals, reads the same makefiles (a makefile read from standard input through its copy), has the same environment and level, and counts one restart more.", "quantifier": "every command line, every environment, any number of restarts", "why_tests_cant": "Infinite input space; words of the command line are changed in place.", "anchors": ["src/main.c: main"]}
{"id": "C98", "title": "When make starts again", "statement": "Make starts again exactly when makefiles were remade: if the update as a whole succeeded, or if some makefile has changed although others failed. It gives up exactly when nothing changed and a makefile it must have is missing, and else goes on, with an exit status that tells of a failed update of a makefile it cares about. Makefiles that would be remade each time (double-colon rules without prerequisites, -B) do not lead to an endless loop.", "quantifier": "every list of makefiles and results", "why_tests_cant": "Any number of makefiles in any combination of results.", "anchors": ["src/main.c: main"]}
{"id": "C99", "title": "Which makefiles are read", "statement": "First the words of MAKEFILES are read, which may be missing and give no default goal; then the makefiles of -f in order, or else the first of GNUmakefile, makefile, Makefile in the working directory, or with -c in the nearest directory above that has one. Included makefiles are read at their place, and looked for along the search path if their name is relative. MAKEFILE_LIST has those read, in order. If there is none of the default makefiles, make tries to make one, and stays in its directory. Endless inclusion ends with an error.", "quantifier": "every set of files, every nesting of includes, every search path", "why_tests_cant": "Any number of makefiles and directories in any nesting.", "anchors": ["src/read.c: read_all_makefiles, eval_makefile, construct_include_path, eval"]}
{"id": "C100", "title": "Exit status", "statement": "Make exits with 2 if the goals or a makefile that it cares about could not be made, else with 1 if -q finds something to do, else with 0.", "quantifier": "every combination of results of makefiles and goals", "why_tests_cant": "Any number of makefiles in any combination of results.", "anchors": ["src/main.c: main"]}
{"id": "C101", "title": "Members of archives are found by name", "statement": "For every archive in the System V or BSD format the member lib(name) exists exactly if the archive has a member of that name, whether the name stands in the header, in the table of long names or before the contents; its time is the date of the first such member. A missing archive, or a file that is none, has no members.", "quantifier": "every archive, of any size, with any members; every name", "why_tests_cant": "Infinite input space; names are stored in three ways and cut to the width of a field.", "anchors": ["src/arscan.c: ar_scan, ar_name_equal", "src/ar.c: ar_member_date, ar_member_date_1"]}
{"id": "C102", "title": "Touching an archive member", "statement": "make -t on lib(name) gives the first member of that name the current time as its date and changes nothing else in the archive: all other bytes stay as they are, and so do the other members. A member that does not exist is not made.", "quantifier": "every archive, every member, every time", "why_tests_cant": "A wrong offset damages other members, in archives that no test has.", "anchors": ["src/arscan.c: ar_member_touch, ar_member_pos", "src/ar.c: ar_touch"]}
{"id": "C103", "title": "Looking into a damaged archive is safe", "statement": "Whatever bytes a file has that is named as an archive, looking for a member ends, and reads and writes only inside the buffers that were made for it.", "quantifier": "every sequence of bytes", "why_tests_cant": "The inputs that matter are the ones nobody thought of.", "anchors": ["src/arscan.c: ar_scan"]}
{"id": "C104", "title": "Wildcards for archive members", "statement": "lib(pattern) stands for the members of the archive that match the pattern, each with the name of the archive, in alphabetical order; a name without wildcards, or with quoted ones only, stands for itself.", "quantifier": "every archive, pattern and way to match", "why_tests_cant": "Infinite input space.", "anchors": ["src/ar.c: ar_glob, ar_glob_pattern_p, ar_glob_match"]}
{"id": "C105", "title": "The arguments of the debugger command run", "statement": "The command run with arguments starts make again, under the name it was started with, with the words of these arguments: separated by blanks, with quotes and backslashes removed as in a shell. Any number of words of any length is stored inside the memory made for them; without arguments the command line is repeated.", "quantifier": "every text, every name of make", "why_tests_cant": "Infinite input space; the vector of words grows as it is filled.", "anchors": ["src/buildargv.c: buildargv", "libdebugger/command/run.c: dbg_cmd_run"]}
{"id": "C106", "title": "Pattern-specific variables of a target", "statement": "A target has, besides its own variables, those that lines for patterns define that match its name, as if these lines were assignments made one after the other from the shortest pattern to the longest: of several definitions the one with the longest pattern counts, a value given with := is the one expanded when the line was read, += appends, and the modifiers are those of the last line. Variables of other targets and global ones do not change.", "quantifier": "every set of pattern lines, every target, flavour and modifier", "why_tests_cant": "The number of patterns that match and the combination of operators are unbounded.", "anchors": ["src/variable.c: initialize_file_variables, lookup_pattern_var, do_variable_definition"]}
{"id": "C107", "title": "Second expansion of prerequisites", "statement": "After .SECONDEXPANSION the prerequisites of a rule that have a dollar sign are expanded again when all makefiles are read, for each target with its own automatic and target-specific variables; the names that result take the place of the text, in order, after | as order-only ones; in a static pattern rule the percent signs stand for the stem, as they do without second expansion. Prerequisites without a dollar sign, and those of other rules, stay as they are. It does not depend on the order in which the targets are gone through, and nothing is expanded twice.", "quantifier": "every set of rules, every expansion, every order of the table of files", "why_tests_cant": "Infinite input space; the order of a hash table is not under a test's control.", "anchors": ["src/file.c: expand_deps, enter_prereqs, split_prereqs, snap_deps", "src/read.c: record_files"]}
{"id": "C108", "title": "Special targets", "statement": "A file is precious, phony, intermediate, secondary, has low-resolution times, has its errors ignored or its recipe not printed exactly if it is a prerequisite of the special target for that. .SECONDARY, .IGNORE and .SILENT as targets without prerequisites apply to everything; .EXPORT_ALL_VARIABLES and .NOTPARALLEL apply if they are targets. A special target that is merely mentioned has no effect, and files keep their prerequisites.", "quantifier": "every set of rules and special targets", "why_tests_cant": "Any combination of special targets, with any number of rules for each.", "anchors": ["src/file.c: snap_deps"]}
{"id": "C109", "title": "Extra prerequisites", "statement": "The files in .EXTRA_PREREQS are prerequisites of every target (except of themselves), after all others and not in automatic variables; a target-specific value applies to that target instead.", "quantifier": "every set of rules, every value of the variable, global or of a target", "why_tests_cant": "Infinite input space.", "anchors": ["src/file.c: expand_extra_prereqs, snap_file, snap_deps"]}
{"id": "C110", "title": "Touching targets", "statement": "With -t a target with a recipe that is not made of recursive lines only, and that is not phony, is touched instead of being made: it has the present time, so that it is newer than all files from before, its contents stay as they are, and if it was missing it is created empty. Whatever system call fails and wherever make is killed, the contents of no file change. With -n nothing is touched.", "quantifier": "every file, every contents, every failing system call and every moment at which make is killed", "why_tests_cant": "Failures of system calls and crash points are not under a test's control.", "anchors": ["src/remake.c: touch_file, notice_finished_file"]}
{"id": "C111", "title": "Times of symbolic links", "statement": "With -L the time of a name is the latest among the times of the file and of all symbolic links that lead to it; a name whose links lead to nothing has the latest time of the links. Without -L it is the time of the file. Links that lead to each other count as no file. Finding the time always ends, and names of any length are kept inside the memory made for them.", "quantifier": "every file system, every chain of links of any length, every length of names", "why_tests_cant": "Unbounded chains of links.", "anchors": ["src/remake.c: name_mtime"]}
{"id": "C112", "title": "Warnings about times in the future", "statement": "In a run there is one warning about a file whose time is later than the clock if there is such a file among those that are looked at and were not made in the run, and none if there is no such file; the warning at the end is given exactly if this one was.", "quantifier": "every sequence of lookups of files and every course of the clock", "why_tests_cant": "Histories are unbounded, and the clock is not under a test's control.", "anchors": ["src/remake.c: f_mtime", "src/main.c: main"]}
{"id": "C113", "title": "Intermediate files that exist already", "statement": "A file that is declared intermediate but exists before anything was done to make it is treated as an ordinary file and is not removed at the end; looking up times never makes a file intermediate. The time that is found is that of all rules for the file that are in the same state as the first.", "quantifier": "every file with any number of double-colon rules, every time, every sequence of events afterwards", "why_tests_cant": "Unbounded histories.", "anchors": ["src/remake.c: f_mtime", "src/file.c: remove_intermediates"]}
{"id": "C114", "title": "The printed data base can be read again", "statement": "The definitions of global variables that make -p prints can be put into a makefile: read there, they give each variable the value and the flavour it had, and no other variable changes; what is printed for the variables of targets and patterns are comments.", "quantifier": "every set of variables with any names, values, flavours and origins", "why_tests_cant": "Infinite input space; printing and reading are two pieces of code that must agree on every character.", "anchors": ["src/variable.c: print_variable, print_variable_set, print_variable_data_base, assign_variable_definition, try_variable_definition", "src/read.c: eval, do_define"]}
{"id": "C115", "title": "What assignments in a makefile do", "statement": "The assignments of a makefile are carried out in order, and each changes no other variable than the one it names: = and define store the text, := its expansion, != the output of a command, ?= assigns only if there is no value, += adds to it. Values from the command line (and with -e from the environment) stay unless the line says override; export and private add these marks and other lines keep them; undefine removes a variable under the same conditions. An empty name is an error.", "quantifier": "every makefile of assignments, with any modifiers, operators, names and values, and every state of the variables before it", "why_tests_cant": "Unbounded sequences of statements over an infinite input space.", "anchors": ["src/read.c: eval, parse_var_assignment, do_define, do_undefine", "src/variable.c: do_variable_definition, assign_variable_definition, undefine_variable_in_set"]}
{"id": "C116", "title": "Lines export, unexport and vpath", "statement": "export and unexport lines mark the variables named after expansion of the line and change no values; the last line about a variable decides whether recipes see it. Without names they decide whether all variables are exported, and the last such line counts; a line whose names expand to nothing does nothing. vpath lines decide where files are looked for, in the order of the lines, together with VPATH.", "quantifier": "every makefile of assignments, export, unexport and vpath lines, every state before it, every directory contents", "why_tests_cant": "Unbounded sequences of statements over an infinite input space.", "anchors": ["src/read.c: eval", "src/variable.c: target_environment, define_variable_in_set", "src/vpath.c: construct_vpath_list, build_vpath_lists, vpath_search"]}
{"id": "C117", "title": "Only what the goals need", "statement": "A run starts no recipe, finishes no target and reports no circular dependency but for the goals and for what following prerequisites from them leads to, the other entries of double-colon rules and the targets made together with these included. Without goals nothing happens.", "quantifier": "every graph of targets with cycles, double-colon rules, grouped targets and intermediate files, every outcome and order of recipes, all options, every run whether it ends or not", "why_tests_cant": "Unbounded graphs and schedules.", "anchors": ["src/remake.c: update_goal_chain, update_file, update_file_1, check_dep"]}
{"id": "C118", "title": "Where the debugger stops", "statement": "Without options for the debugger a run never stops, unless a makefile calls it. After continue the run stops next at the first place with a breakpoint of the right kind, after step N at the N-th place that steps count, after next N at the N-th missing target with a recipe, after finish at the end of the target of the frame, after continue TARGET at the first place of that target and only once; a temporary breakpoint is removed by its stop and no other is; when stops on errors are asked for, the first error stops. None of the commands changes what the run does otherwise, and no command makes the debugger crash.", "quantifier": "every sequence of places a run comes to, all breakpoints, all sequences of commands at each stop", "why_tests_cant": "Unbounded interleavings of a run with commands.", "anchors": ["libdebugger/cmd.c: enter_debugger", "libdebugger/command/step.c", "libdebugger/command/next.c", "libdebugger/command/continue.c", "libdebugger/command/finish.c", "src/remake.c: update_file_1", "src/job.c", "src/print.c"]}
{"id": "C119", "title": "Targets by line number", "statement": "break and list with the number of a line are about the target that the rule on that line of the current makefile defines; on a line without a rule, or after the end, they say so. The table of lines is built and read within its memory for all makefiles.", "quantifier": "all makefiles, with any number of targets and pattern rules per line, $(eval) included, and all line numbers", "why_tests_cant": "Unbounded makefiles and numbers; memory errors need not show.", "anchors": ["libdebugger/file2line.c: target_for_file_and_line, enter_target_lineno, enter_rule_lineno, file2lines_init", "libdebugger/command/break.c: dbg_cmd_break", "libdebugger/command/list.c: dbg_cmd_list", "src/rule.c: create_pattern_rule"]}
{"id": "C120", "title": "Included makefiles", "statement": "A line that includes makefiles reads the files it names, in order, at that place: the makefile is read as if the lines of the files stood there, where the rule before the line and the last rule of each file end, conditionals close in the file that opens them, and a file that does not exist is only noted. A name is looked for as it is written and then, if it is not absolute, in the directories of the search path in order. A file that cannot be read to its end stops make, and so does a file that includes itself.", "quantifier": "all makefiles with any nesting of included files, whatever they contain, all names, search paths and directory contents", "why_tests_cant": "Unbounded nesting and an infinite input space.", "anchors": ["src/read.c: eval, eval_makefile, install_conditionals, record_waiting_files, parse_file_seq"]}
{"id": "C121", "title": "Two names of one file", "statement": "When a file is found by a search under the name of another file that make knows, the two are one file from then on: everything that referred to either refers to it, it has the prerequisites of both in order, the recipe written for the name it is found under or else the other one, the marks and variables of both and the later time. All its rules are looked at. If both names have recipes a message says which is ignored. A single-colon target does not become one with a double-colon target. Names stay unique and no reference is lost however often files are found under other names, and make does not abort over it.", "quantifier": "every history of entering, changing and finding files under other names, any number of files", "why_tests_cant": "Unbounded histories of pointer changes.", "anchors": ["src/file.c: rehash_file, rename_file", "src/file_basic.c: enter_file", "src/variable.c: merge_variable_sets, merge_variable_set_lists", "src/remake.c: update_file, f_mtime", "src/filedef.h: check_renamed"]}
{"id": "C122", "title": "The stack of targets", "statement": "At every stop the debugger shows the targets that are being looked at, each one needed by the one below it, down to the goal, with the target that the stop is for on top. Memory of the stack is never used after it was freed, nor freed twice.", "quantifier": "every run: any nesting of targets, targets considered again and after failures, stops of all kinds and calls of the function debugger at any point, commands of parallel jobs", "why_tests_cant": "Unbounded nesting and interleavings; use of freed memory need not show.", "anchors": ["src/trace.c: trace_push_target, trace_pop_target", "src/remake.c: update_file_1", "src/job.c: start_job_command", "src/function.c: func_debugger", "libdebugger/cmd.c: enter_debugger", "src/print.c: print_target_stack"]}
{"id": "C123", "title": "Wildcards", "statement": "A name matches a pattern with wildcards exactly when it can be cut into pieces, one for each part of the pattern: ? stands for any one character, * for any text, a bracket for one character of its set (single characters, ranges and named classes, a closing bracket as first character or escaped, all negated after ! or ^), a backslash makes the next character ordinary, and everything else stands for itself. A period at the start of the name is matched only by a period. Where slashes are special they are matched only by slashes, and a period after one only by a period. The pattern is never read beyond its end.", "quantifier": "all patterns, names and flags", "why_tests_cant": "Infinite input space; reads beyond a string need not show.", "anchors": ["lib/fnmatch.c: fnmatch, internal_fnmatch", "lib/glob.c: glob_in_dir", "src/ar.c: ar_glob_match"]}
{"id": "C124", "title": "Files with wildcards", "statement": "A pattern with directories gives, sorted and each one once, exactly the files it stands for: for a part with wildcards the names in the directory that match it, for a part without the name itself if there is such a file, at any depth. A pattern with a slash at the end gives directories only, with a slash. A backslash makes the next character ordinary in all parts. $(wildcard WORDS) is the files of each word in turn, separated by single blanks; a word that no file matches gives nothing, and a pattern for members of an archive gives the members.", "quantifier": "all patterns of any depth, all directory trees and contents of the cache of directories, all lists of words", "why_tests_cant": "Unbounded depth, trees and patterns.", "anchors": ["lib/glob.c: glob, glob_in_dir, prefix_array, __glob_pattern_p", "src/dir.c: open_dirstream, read_dirstream", "src/read.c: parse_file_seq", "src/function.c: string_glob, func_wildcard"]}
{"id": "C125", "title": "Sleeping and waking up", "statement": "With a job server, make does not sleep while one of its jobs has ended and make has not noticed, nor for a token while there is one: a process that ends between the last look and the sleep wakes make. Every job of a sleeping make is running. The makes that share a job server do not all wait for each other: if all that have not ended sleep, some command is at work that waits for no make. Looking for a slot ends or sleeps and does not go round for ever; a job that waits for the load is looked at again every second. The internal errors about tokens do not happen.", "quantifier": "every interleaving of any number of makes with each other, with the ends of processes and with the arrival of signals, both ways of sleeping (pselect and read), any load, any processes that cannot be started, any number of slots", "why_tests_cant": "Lost wake-ups and deadlocks need a signal in a window of a few instructions; all interleavings of any number of makes.", "anchors": ["src/job.c: new_job, start_waiting_job, start_waiting_jobs, reap_children, child_handler, free_child", "src/posixos.c: jobserver_pre_acquire, jobserver_acquire, jobserver_signal, set_child_handler_action_flags", "src/main.c: main, die", "src/remake.c: update_goal_chain"]}
{"id": "C126", "title": "Fatal signals", "statement": "When make gets SIGINT, SIGTERM, SIGHUP or SIGQUIT, at any moment, it starts no further command, sends SIGTERM on to every command it has running, deletes the changed targets of every recipe that is being run, waits for all commands it has started, removes the intermediate files, gives back the tokens of the job server, and then ends by that signal. The same for the commands when make gives up by itself: none is left behind.", "quantifier": "every moment at which the signal may arrive in every history of starting jobs, further commands of recipes, commands that cannot be started, jobs waiting for the load, commands of the function shell, and ends of processes in any order", "why_tests_cant": "The signal may come between any two instructions of every history.", "anchors": ["src/commands.c: fatal_error_signal, delete_child_targets", "src/job.c: reap_children, start_job_command, start_waiting_job, free_child, block_sigs, unblock_sigs", "src/function.c: func_shell_base", "src/main.c: die"]}
{"id": "C127", "title": "The function file", "statement": "$(file >NAME,TEXT) makes the file consist of the text, with a newline added if it does not end in one, $(file >>NAME,TEXT) adds it at the end, and without a text the file is made empty or left as it is; any number of calls leaves the texts as lines in their order. $(file <NAME) gives the content without its last end of line, nothing if there is no such file. No other file changes, nothing else of the expansion changes, and what is written is read back. A missing name, an unknown operation, a text for reading, and files that cannot be opened, read or written are reported.", "quantifier": "all names, texts and contents of any length, all sequences of calls, any text expanded before, any placement of memory", "why_tests_cant": "Infinite input space; the failures depend on where the allocator puts a block.", "anchors": ["src/function.c: func_file", "src/expand.c: variable_buffer_output, variable_expand_string"]}
{"id": "C128", "title": "Second expansion in pattern rules", "statement": "With second expansion the prerequisites of a pattern rule for a target are those its text stands for: the text is cut into words, white space inside references not counting, the first percent sign of a word becomes the stem, the word is expanded, and the names in the result are prerequisites, order-only after a bar, with the directory of the target in front where the word had a percent sign and the pattern no slash. The stem goes in as it is: no dollar sign, blank or bar in it means anything. Prerequisites without references are the same with and without second expansion. Only the text is read, and the buffer for the names is large enough for every target and rule.", "quantifier": "all texts of prerequisites, stems, directories, values of variables, sets of pattern rules, and contents of memory after the text", "why_tests_cant": "Infinite input space; reads and writes beyond a block need not show.", "anchors": ["src/implicit.c: pattern_search, get_next_word", "src/rule.c: snap_implicit_rules", "src/read.c: record_files, parse_file_seq"]}
{"id": "C129", "title": "Profiles", "statement": "With --profile=json make writes a JSON text that says what it did: one object for every target it considered, with its place in the makefile, the times when it was first considered, when it first waited for prerequisites, when its recipe was started and when it was finished, in seconds with nine decimals and in this order, and the names of the targets that were considered for it, each once. The elapsed times are the differences of these times. A callgrind profile says the same: every call of a target leads to the record of that target. If the file cannot be written make says so and goes on without a profile.", "quantifier": "all histories of considering targets and of states of recipes with all times, all names of targets, makefiles and directories, all arguments, all orders of the table", "why_tests_cant": "Infinite input space; histories of a parallel build.", "anchors": ["src/profile.c: profile_init, add_timestamp, profile_add_dependency, profile_update_target, profile_close", "src/json_format.c: json_init, json_close, dump_target, escape_print, format_timestamp", "src/callgrind_format.c: callgrind_profile_entry", "src/trace.c: trace_push_target, trace_pop_target", "src/main.c: decode_profile_options"]}
{"id": "C130", "title": "The make that started a make", "statement": "A make that is started by a command of a recipe finds in MAKEPARENT_PID the process number of the make that runs the recipe and in MAKEPARENT_TARGET the name of the target the recipe is for, and knows them under these names itself.", "quantifier": "all names of targets of any length, all process numbers", "why_tests_cant": "Infinite input space; writes beyond a buffer need not show.", "anchors": ["src/variable.c: target_environment, define_automatic_variables", "src/main.c: main"]}
{"id": "C131", "title": "Loading objects", "statement": "A name on a `load` line stands for one object and one setup function (`object(symbol)`, or the symbol made from the last part of the name). The setup function of an object that is not listed in `.LOADED` is called, that of a listed object is not called again. After any history `.LOADED` names exactly the objects whose setup function returned a positive result, in order. `load` stops make when the object cannot be opened, has no licence mark or no setup function, or its function returns 0; `-load` goes on. Objects are put on the list of makefiles to remake unless the function returned -1. A function an object added can be called from then on.", "quantifier": "every name, every behaviour of the dynamic linker and of the setup functions, every history of load lines, loads inside loads, and remakes of objects", "why_tests_cant": "whether an object is recognised depends on all names loaded before it; whether a function can still be called depends on the whole history", "anchors": ["src/load.c:load_object", "src/load.c:load_file", "src/load.c:unload_file", "src/read.c:eval", "src/function.c:define_new_function", "src/function.c:lookup_function", "src/commands.c:execute_file_commands"]}
{"id": "C132", "title": "The limit on the load average", "statement": "With `-l N`, while a job runs no other is started unless the load average is below N, estimated from the load that is read, the jobs started in this second and in the second before; with no job running a job is always started. No job is lost or started twice. Without a limit no job waits. Only a bounded number of jobs can be started within one second. A failure to read the load counts as no load and is reported once.", "quantifier": "every history of jobs that become ready, wait, go on or end, every sequence of clock values and loads", "why_tests_cant": "the state of the estimate depends on the times of all jobs before", "anchors": ["src/job.c:load_too_high", "src/job.c:start_waiting_job", "src/job.c:start_waiting_jobs", "src/job.c:reap_children"]}
{"id": "C133", "title": "Starting programs", "statement": "A command that make runs without a shell is the program the shell would run: a name with a slash is that file, another name is the first file of that name that may be executed in the directories of the PATH that the command gets in its environment, whatever else has that name. It gets the words of the command as arguments and the environment made for it. A file the system cannot run by itself is given to the shell with the same arguments. If the command cannot be started make says its name and the reason, says nothing about other commands, and the command counts as ended with 127.", "quantifier": "every file system, search path, environment, command and recipe", "why_tests_cant": "the search depends on every file of that name on the path, and the message on the commands before", "anchors": ["src/job.c:child_execute_job", "src/job.c:reap_children", "lib/findprog-in.c:find_in_given_path", "lib/concat-filename.c:concatenated_filename"]}
{"id": "C134", "title": "The standard streams of commands", "statement": "At every moment at most one of the processes that make started reads the standard input of make; the others have one from which nothing can be read. A command gets the standard input of make if no other process has it, and keeps it until it ends. Its outputs are those of make or, with --output-sync, the files that collect them.", "quantifier": "every history of commands that are started and end, every table of descriptors", "why_tests_cant": "depends on the order in which parallel jobs start and end, and on which descriptors were open when make was started", "anchors": ["src/job.c:start_job_command", "src/job.c:child_execute_job", "src/job.c:reap_children", "src/posixos.c:get_bad_stdin"]}
{"id": "C135", "title": "The function shell", "statement": "The value of $(shell COMMAND) is made from what the command writes, whatever its exit status, and .SHELLSTATUS is the exit status of the last command, 127 if it could not be started, or 128 and the number of the signal that ended it. Nothing of it remains: however many commands are run, no descriptor stays open, so that a use never fails because of earlier ones.", "quantifier": "every sequence of uses with every output, exit status and signal, every limit on descriptors", "why_tests_cant": "descriptors run out only after many uses", "anchors": ["src/function.c:func_shell_base", "src/function.c:shell_completed"]}
{"id": "C136", "title": "What make says about variables", "statement": "$(origin V) names where the definition of V that a reference sees was made, $(flavor V) whether it is expanded at every use, $(value V) its text; they say `undefined`, or nothing, exactly if V is not defined. $(.VARIABLES) lists the names of all global variables defined at that moment, each once. SHELL is never taken from the environment: it is what the command line or a makefile says, else the default shell.", "quantifier": "every history of definitions and undefinitions from the environment, command line, makefiles and debugger, of references in between, every set of scopes, every order of the table", "why_tests_cant": "the list is kept between references and must be made anew after every change, whatever the history", "anchors": ["src/function.c:func_origin", "src/function.c:func_flavor", "src/function.c:func_value", "src/variable.c:lookup_special_var", "src/variable.c:define_automatic_variables"]}
{"id": "C137", "title": "Variables in the debugger", "statement": "`setq NAME VALUE` gives the variable this value, for good, and changes no other variable. `print NAME` shows the definition that a reference in the recipe of the current target sees, and without a name the one shown last. Looking at variables changes nothing.", "quantifier": "every name and value, every set of definitions and scopes, every history of definitions afterwards", "why_tests_cant": "whether looking changes the build shows only in what is defined later", "anchors": ["libdebugger/cmd.c:dbg_cmd_set_var", "libdebugger/fns.c:try_without_dollar", "libdebugger/fns.c:dbg_cmd_show_exp", "libdebugger/command/print.c:dbg_cmd_print", "libdebugger/command/setq.c:dbg_cmd_setq"]}
{"id": "C138", "title": "Settings in the debugger", "statement": "`set NAME on|off|toggle` changes the flag that the name, or a long enough beginning of it, stands for, and no other; `set debug N` sets the mask. A name that stands for no setting, or another value, changes nothing and is reported.", "quantifier": "every line, every state of the flags", "why_tests_cant": "infinitely many lines", "anchors": ["libdebugger/command/set.c:dbg_cmd_set", "libdebugger/command/set.c:dbg_cmd_set_bool", "libdebugger/fns.c:on_off_toggle", "libdebugger/fns.c:is_abbrev_of"]}
{"id": "C139", "title": "Debugger command files", "statement": "`source FILE` does what typing the lines of the file at the prompt does.", "quantifier": "every file, every effect and result of the commands", "why_tests_cant": "depends on the lengths of the lines, on the end of the file and on what every command returns", "anchors": ["libdebugger/command/source.c:dbg_cmd_source", "libdebugger/cmd.c:enter_debugger", "libdebugger/fns.c:chomp"]}
{"id": "C140", "title": "Recipes written as scripts", "statement": "`write TARGET` makes a script that runs the commands of the target's recipe, expanded as for the target, without the characters that only make understands; before them are only comments that tell the target and its prerequisites. The script goes to the file given, to the terminal, or to a file named after the target. The target is the one named, or the current one, and is not changed.", "quantifier": "every target, recipe, list of prerequisites and name", "why_tests_cant": "infinite input space", "anchors": ["libdebugger/command/write.c:dbg_cmd_write", "libdebugger/fns.c:get_target"]}
{"id": "C141", "title": "Messages about the directory", "statement": "With -w, everything that make and its commands write stands between a line `Entering directory` and a line `Leaving directory` which name the directory make works in; the lines come in pairs that nest, also when make starts itself again, ends with an error, or when options change in a makefile. Without -w there is none. -w is in force if it is given, and without -s in sub-makes and with -C; --no-print-directory is stronger.", "quantifier": "every sequence of messages, commands, their output, dumps of collected output, option changes, restarts and ends", "why_tests_cant": "depends on what is written first and on the order of all later events", "anchors": ["src/output.c:log_working_directory", "src/output.c:output_start", "src/output.c:output_close", "src/output.c:output_dump", "src/main.c:die", "src/job.c:start_job_command"]}
{"id": "C142", "title": "Messages about failed commands", "statement": "Make says nothing about a command that succeeds. About one that fails it writes a line with the place of the target's rule, the name of the target and how the command ended; three stars tell a failure that counts from one that is ignored, which is marked as such and not mentioned with -s. The line tells targets and statuses apart.", "quantifier": "every target, status and signal, every combination of the options and prefixes, every target that is being made when the end is noticed", "why_tests_cant": "infinitely many targets and statuses; with -j the place depends on the moment", "anchors": ["src/job.c:child_error", "src/job.c:reap_children", "src/print.c:err_with_stack"]}
{"id": "C143", "title": "Home directories in file names", "statement": "A file name that begins with ~ stands for a file below a home directory: ~ alone or before a slash for one's own (the variable HOME, else the environment's, else that of the user logged in), ~NAME for that of the user NAME; the rest of the name stays. If there is no such directory the name is taken as it is, and so is a name with ./ before the ~. Naming a file so changes nothing else: the command line that make sees when it starts again is the one given, and the members of an archive group are members of the archive named.", "quantifier": "every name, every value of HOME, every data base of users, every command line and list of members", "why_tests_cant": "depends on the users of the system; the damage shows only at a restart or at the second member", "anchors": ["src/read.c:remake_tilde_expand", "src/main.c:expand_command_line_file", "src/read.c:parse_file_seq", "src/read.c:construct_include_path"]}
{"id": "C144", "title": "The kinds of messages asked for", "statement": "--debug=LIST switches on the kinds of messages that the manual gives for the first letters of the items, which commas or blanks separate; `n` switches off what was on before, and options behind it take effect. --trace and its types add tracing, --debugger-stop may be repeated and the debugger is entered at every point named; -X is the same as --debugger-stop=full. Anything else stops make. The choice holds while makefiles are read and while targets are made.", "quantifier": "every list of options, in the environment and on the command line, every text of their arguments", "why_tests_cant": "infinitely many texts; options are decoded several times and the results add up", "anchors": ["src/main.c:decode_debug_flags", "src/main.c:decode_trace_flags", "src/main.c:decode_verbosity_flags", "src/main.c:decode_switches", "src/main.c:main"]}
{"id": "C145", "title": "The rules in the printed data base", "statement": "What -p prints of files and pattern rules can be read as a makefile and gives the same rules in the same order: the same targets, prerequisites and order-only prerequisites, the same number of colons, and the same recipe, character by character. Nothing else becomes a target.", "quantifier": "every list of files and pattern rules: every name, list of prerequisites, recipe and recipe prefix", "why_tests_cant": "infinite input space", "anchors": ["src/file.c:print_file", "src/file.c:print_prereqs", "src/commands.c:print_commands", "src/rule.c:print_rule", "src/read.c:eval"]}
{"id": "C146", "title": "Messages name the place where the text stands", "statement": "A message that a makefile asks for with the functions info, warning and error, or that is about one of its lines, is written to the right stream (info: standard output, the text alone; warning and error: standard error), only error ends make, with status 2, and the file and line that warning and error name are those at which the text stands: for a line of a makefile the number at which it begins, for a line of a recipe the number of that line, for a text given to eval the line of the eval.", "quantifier": "every makefile text, every line of it, every recipe with any mixture of continued lines, comments and empty lines, every text given to eval, every program name and level", "why_tests_cant": "The number depends on how many newlines precede in all lines before it, in any mixture of continued lines, comments and recipes; a test sees single files.", "anchors": ["src/function.c: func_error", "src/output.c: error, fatal", "src/read.c: eval, eval_makefile, eval_buffer, readstring, record_files", "src/job.c: new_job", "src/expand.c: variable_expand_for_file, recursively_expand_for_file"]}
{"id": "C147", "title": "Options that switch off built-in rules and variables", "statement": "With -r, given on the command line, in the environment or in MAKEFLAGS of a makefile, the implicit rules are those there would be if make had no built-in rules; with -R the same holds, and the variables are those there would be if make had no built-in variables. Without them the makefile comes first: its pattern rules precede the built-in ones and its recipe for a suffix rule replaces the built-in one.", "quantifier": "every table of built-in suffixes, rules and variables, every sequence of lines that define suffixes, targets, pattern rules and variables, every way of giving the options", "why_tests_cant": "It must hold for all combinations of what the makefile defines with the built-in tables; a test looks at a few rules.", "anchors": ["src/default.c: set_default_suffixes, install_default_suffix_rules, install_default_implicit_rules, define_default_variables, undefine_default_variables", "src/main.c: main", "src/rule.c: convert_to_pattern, install_pattern_rule", "src/file_basic.c: enter_file"]}
{"id": "C148", "title": "A makefile from standard input", "statement": "With -f - standard input is read to its end, once, and what was read is the text of that makefile, in its place among the others, however often make starts itself again. If standard input cannot be read or the copy cannot be written, make says so and stops; asking for it twice is an error. The copy is kept in a new file below TMPDIR (or the default directory), no other file is touched, and when make has ended, in whatever way except by being killed, the copy is gone.", "quantifier": "every text and every way in which reads and writes split it or fail, every list of makefiles, every sequence of restarts and every way of ending", "why_tests_cant": "Failures of reads, writes and restarts come at every point of the history; what is left behind is seen only afterwards.", "anchors": ["src/main.c: main, die", "src/misc.c: get_tmpfile"]}
{"id": "C149", "title": "Descriptions of targets and the lists of tasks", "statement": "A comment that begins with #: before a rule, after the rule before it, or on the line of the rule, is the description of the targets of that rule (of several such comments the last one); a rule without one leaves its targets without a description from other rules, but does not take away one that an earlier rule gave them. This holds in makefiles, included makefiles and text given to eval alike; comments in branches of conditionals that are not taken do not count. --tasks prints each target that has a description, once, in the order of the names, with its description, and --targets prints each target.", "quantifier": "every sequence of comments, rules and other lines, over any number of files and texts, every set of files", "why_tests_cant": "Which comment goes to which rule depends on all lines between the rules and on line numbers of different files; tests try single arrangements.", "anchors": ["src/read.c: eval, record_waiting_files, remove_comments, record_files", "libdebugger/command/info.c: dbg_cmd_info_targets, dbg_cmd_info_tasks", "src/main.c: main"]}
{"id": "C150", "title": "The directory make works in", "statement": "The options -C lead, one after the other, from the directory make was started in to the one it works in, and with -c make goes up from there to the directory with the makefile; if one of them cannot be entered make stops. The variable CURDIR names the directory make works in, the function abspath gives to a relative name the meaning it has there, and the variable MAKE leads to the program that is running, from every directory, if it was called by a name with a slash. A make that starts itself again is in the same directory, with the same CURDIR.", "quantifier": "every file system, every list of -C options, every name of the program, every number of directories that -c goes up, every restart", "why_tests_cant": "It is a statement about all file systems and combinations of -C, -c and restarts.", "anchors": ["src/main.c: main", "src/read.c: read_all_makefiles", "src/function.c: abspath"]}
{"id": "C151", "title": "Lost output is noticed", "statement": "Everything that make means to write on its standard output (messages, echoed recipe lines, the printed data base, the output it collected with -O) arrives there in order, or make says 'write error: stdout' and exits with a non-zero status; if all of it arrives the exit status is that of the build; and a message has arrived before make goes on, so that it comes before the output of commands started later and is not lost if make is killed.", "quantifier": "all histories of messages, captured output, dumps and restarts; all answers of the kernel to each write, read and close; all exit statuses; all moments at which make may be killed", "why_tests_cant": "A test sees a full disk at one write; the claim is about a failure at any of the writes of any history, on the stream, on the temporary files and across restarts.", "anchors": ["src/output.c: _outputs, pump_from_tmp, output_dump, close_stdout, output_init", "src/misc.c: writebuf", "src/main.c: main (restart), die"]}
{"id": "C152", "title": "realpath names existing files", "statement": "$(realpath names) has one word for each word of the argument that leads to a file, in order, and none for the others; each word is absolute, leads to the same file as the word it stands for, and is its own real path, so that applying the function again changes nothing.", "quantifier": "all arguments; all file systems in which the names are resolved", "why_tests_cant": "A test has one directory tree; the claim is about all lists of names and all trees, with links, missing files and unusual names.", "anchors": ["src/function.c: func_realpath"]}
{"id": "C153", "title": "The debugger does not change the build", "statement": "With the debugger enabled (-X, --debugger, --post-mortem), and as long as the user does not give it commands that do so, the same jobs succeed and fail, the same errors are ignored, the same targets are deleted, and make ends in the same way as without it; and the record of a job is never used after it was freed.", "quantifier": "all histories in which jobs are started and their commands end, in any order, with any exit status or signal; all settings of -k, -i, .DELETE_ON_ERROR and the prefix -", "why_tests_cant": "A test ends a few commands with a few statuses in one order; the claim is about all statuses, all orders and any number of jobs at once.", "anchors": ["src/job.c: reap_children, free_child", "src/main.c: die"]}
{"id": "C154", "title": "The stem is put into prerequisites of any length", "statement": "The prerequisites that a static pattern rule gives to a target are the prerequisite patterns with the stem in the place of the percent sign, whatever the length of the names; no memory that was given back is read to build them.", "quantifier": "all stems, all lists of prerequisite patterns, all lengths of the text buffer and all places where the allocator puts it when it grows", "why_tests_cant": "A test has names of a few lengths and one allocator, which often grows a block in place; the claim is about all lengths and all allocators.", "anchors": ["src/file.c: enter_prereqs", "src/expand.c: variable_buffer_output", "src/function.c: patsubst_expand_pat"]}
{"id": "C155", "title": "Times of archive members", "statement": "The time of a target lib(member) is the one of the member's entry in the archive, wherever the archive was found by searching, and there is none if the archive or the entry does not exist; the warning about entries without a date names the archive and the member; memory that was given back is not read.", "quantifier": "all names of archives and members, all contents of archives, all results of searching for the archive", "why_tests_cant": "A test has a few archives, and memory that was given back often still has its old contents; the claim is about all archives and all names.", "anchors": ["src/remake.c: f_mtime", "src/ar.c: ar_parse_name, ar_member_date"]}
{"id": "C156", "title": "Texts that are put together are whole", "statement": "Each text that make puts together from pieces (entries of the environment of commands, names below a directory, expanded home directories, members of archives, words of a restarted command line) is the pieces one after the other, whatever was put together before; no memory outside of the one for the text is written or read.", "quantifier": "all histories of such texts, any number of pieces, pieces of any length, also empty and missing ones", "why_tests_cant": "A test puts together a few texts in one order; the memory is used again and grows, so the claim is about all orders and lengths.", "anchors": ["src/misc.c: concat"]}
{"id": "C157", "title": "The prompt tells the level of recursion", "statement": "In a make that was started by other makes, the debugger's prompt has one pair of brackets more than there are makes above; at every level, however deep, the prompt is built without writing or reading outside of its arrays.", "quantifier": "all levels of recursion and all numbers of commands in the history", "why_tests_cant": "A test starts make at a few levels; MAKELEVEL may have any value, and an array that is written too far often shows no effect.", "anchors": ["libdebugger/cmd.c: enter_debugger"]}
