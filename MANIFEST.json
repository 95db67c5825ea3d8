{
 "claims": [
  {
   "property": "C01",
   "status": "partial",
   "theorems": [
    "Remake.C01_map_partial",
    "Remake.C01_map_small_partial",
    "Remake.C01_diverges",
    "Remake.C01_small_diverges"
   ],
   "note": "Missing: histories of more than 2^30 calls (hash values are kept in 32 bits), and requested sizes below 8 unless no more calls are made than the size requested. For such small tables the claim is false: C01_small_diverges shows a lookup that never returns."
  },
  {
   "property": "C02",
   "status": "partial",
   "theorems": [
    "Remake.C02_enumeration_partial",
    "Remake.C02_load_partial"
   ],
   "note": "Same bounds on history and requested size as C01."
  },
  {
   "property": "C03",
   "status": "partial",
   "theorems": [
    "Remake.C03_strings_partial",
    "Remake.C03_huge",
    "Remake.C03_stable_partial"
   ],
   "note": "Missing: histories of more than 2^30 additions. Strings have no NUL bytes. C03_huge: strings over 65534 bytes get a new address at every addition."
  },
  {
   "property": "C04",
   "status": "partial",
   "theorems": [
    "Remake.C04_words",
    "Remake.C04_word_partial",
    "Remake.C04_word_zero",
    "Remake.C04_word_nonnumeric",
    "Remake.C04_word_empty",
    "Remake.C04_wordlist_partial",
    "Remake.C04_firstword",
    "Remake.C04_lastword",
    "Remake.C04_word_overflow",
    "Remake.C04_wordlist_overflow",
    "Remake.C04_wordlist_blank_index"
   ],
   "note": "Missing: indices of 2^31 and more, where the claim is false (C04_word_overflow, C04_wordlist_overflow). C04_wordlist_blank_index: a blank end index is accepted."
  },
  {
   "property": "C05",
   "status": "proved",
   "theorems": [
    "Remake.C05_strip",
    "Remake.C05_strip_words",
    "Remake.C05_strip_idem"
   ],
   "note": ""
  },
  {
   "property": "C06",
   "status": "partial",
   "theorems": [
    "Remake.C06_sort_partial",
    "Remake.C06_sort_order_independent",
    "Remake.C06_order_ascii",
    "Remake.C06_order_high_byte",
    "Remake.C06_sort_overread"
   ],
   "note": "qsort is any permutation ordered by alpha_compare. Missing: byte order for words starting with a byte >= 128, where it is false (C06_order_high_byte; C06_order_ascii is the true part), and arguments ending in a lone $, where the scan reads past the end (C06_sort_overread)."
  },
  {
   "property": "C07",
   "status": "proved",
   "theorems": [
    "Remake.C07_filter",
    "Remake.C07_partition"
   ],
   "note": ""
  },
  {
   "property": "C08",
   "status": "proved",
   "theorems": [
    "Remake.C08_subst",
    "Remake.C08_subst_empty",
    "Remake.C08_subst_absent",
    "Remake.C08_findstring"
   ],
   "note": ""
  },
  {
   "property": "C09",
   "status": "partial",
   "theorems": [
    "Remake.C09_patsubst_partial",
    "Remake.C09_patsubst_literal_partial"
   ],
   "note": "With % (C09_patsubst_partial) and without (C09_patsubst_literal_partial). The claim is false as stated in two ways: a pattern without % keeps the original spacing, and words replaced by an empty replacement without % disappear. Missing: literal patterns that are empty or contain white space."
  },
  {
   "property": "C10",
   "status": "proved",
   "theorems": [
    "Remake.C10_pattern_matches",
    "Remake.C10_stem_unique"
   ],
   "note": ""
  },
  {
   "property": "C11",
   "status": "proved",
   "theorems": [
    "Remake.C11_dir_notdir",
    "Remake.C11_basename_suffix",
    "Remake.C11_unique"
   ],
   "note": ""
  },
  {
   "property": "C12",
   "status": "proved",
   "theorems": [
    "Remake.C12_join",
    "Remake.C12_addprefix",
    "Remake.C12_addsuffix",
    "Remake.C12_zipLong"
   ],
   "note": ""
  },
  {
   "property": "C13",
   "status": "proved",
   "theorems": [
    "Remake.C13_abspath",
    "Remake.C13_abspath_total",
    "Remake.C13_abspath_idem",
    "Remake.C13_func"
   ],
   "note": "The starting directory is what getcwd returns: absolute, without empty, . or .. components."
  },
  {
   "property": "C14",
   "status": "proved",
   "theorems": [
    "Remake.C14_if",
    "Remake.C14_or",
    "Remake.C14_and",
    "Remake.C14_trim_unique"
   ],
   "note": ""
  },
  {
   "property": "C15",
   "status": "partial",
   "theorems": [
    "Remake.C15_fold_trim_partial",
    "Remake.C15_fold_notrim_partial"
   ],
   "note": "Missing: outputs with NUL bytes. The claim that no other byte changes is false: the CR of a CR-LF is dropped (dropCr in the theorems)."
  },
  {
   "property": "C16",
   "status": "partial",
   "theorems": [
    "Remake.C16_file_partial",
    "Remake.C16_buffer_partial",
    "Remake.C16_string",
    "Remake.C16_same_partial",
    "Remake.C16_nul_joins_lines"
   ],
   "note": "Missing: files with NUL bytes, where the claim is false (C16_nul_joins_lines). The CR of a CR-LF is dropped."
  },
  {
   "property": "C17",
   "status": "proved",
   "theorems": [
    "Remake.C17_collapse",
    "Remake.C17_no_newline",
    "Remake.C17_words",
    "Remake.C17_single_line",
    "Remake.C17_idempotent"
   ],
   "note": ""
  },
  {
   "property": "C18",
   "status": "proved",
   "theorems": [
    "Remake.C18_comments",
    "Remake.C18_reading_exists",
    "Remake.C18_reading_unique",
    "Remake.C18_expressible",
    "Remake.C18_unescape",
    "Remake.C18_unescape_exists"
   ],
   "note": ""
  },
  {
   "property": "C19",
   "status": "proved",
   "theorems": [
    "Remake.C19_find_percent",
    "Remake.C19_expressible",
    "Remake.C19_cached",
    "Remake.C19_cached_copy"
   ],
   "note": ""
  },
  {
   "property": "C20",
   "status": "partial",
   "theorems": [
    "Remake.C20_conditionals_partial",
    "Remake.C20_compositional_partial",
    "Remake.C20_extra_endif",
    "Remake.C20_extra_else",
    "Remake.C20_two_elses",
    "Remake.C20_missing_endif",
    "Remake.C20_ifdef",
    "Remake.C20_ifdef_words",
    "Remake.C20_ifeq_paren",
    "Remake.C20_ifeq_quotes"
   ],
   "note": "Missing: lines starting with the recipe prefix whose text is a conditional directive, and defines inside defines, for which the claim is false in skipped text (C21_ignored_nested). A malformed test after 'else' is an explicit undefined outcome (a level that was never set is read)."
  },
  {
   "property": "C21",
   "status": "partial",
   "theorems": [
    "Remake.C21_define_partial",
    "Remake.C21_text",
    "Remake.C21_endef_comment",
    "Remake.C21_unterminated",
    "Remake.C21_ignored_nested"
   ],
   "note": "The extent of the body is exact (an equivalence). The kept text is exact except for nested endef lines, whose comments are dropped (C21_endef_comment). In skipped text nested pairs are not counted (C21_ignored_nested)."
  },
  {
   "property": "C22",
   "status": "partial",
   "theorems": [
    "Remake.C22_last_strongest_partial",
    "Remake.C22_winner_exists",
    "Remake.C22_others_unchanged",
    "Remake.C22_flag_switch",
    "Remake.C22_undefine",
    "Remake.C22_weaker_clears_append"
   ],
   "note": "Value, origin and flavour are settled for every history with the -e flag constant or set once. Missing: the append flag, for which the claim is false: C22_weaker_clears_append shows a weaker target-specific definition that changes what the variable expands to."
  },
  {
   "property": "C23",
   "status": "proved",
   "theorems": [
    "Remake.C23_lookup",
    "Remake.C23_private_hidden"
   ],
   "note": "Parents of targets are taken to form no cycle."
  },
  {
   "property": "C24",
   "status": "proved",
   "theorems": [
    "Remake.C24_scope_restores",
    "Remake.C24_references_restored",
    "Remake.C24_push_adds",
    "Remake.C24_push_global_seen"
   ],
   "note": ""
  },
  {
   "property": "C25",
   "status": "proved",
   "theorems": [
    "Remake.C25_order"
   ],
   "note": ""
  },
  {
   "property": "C26",
   "status": "partial",
   "theorems": [
    "Remake.C26_recursive",
    "Remake.C26_simple",
    "Remake.C26_shell",
    "Remake.C26_conditional",
    "Remake.C26_append_undefined",
    "Remake.C26_append_partial",
    "Remake.C26_append_target_partial",
    "Remake.C26_append_empty",
    "Remake.C26_append_use_after_free",
    "Remake.C26_append_scope_mix"
   ],
   "note": "Missing: += whose right-hand side changes variables while it is expanded; C26_append_use_after_free shows that the claim fails there. += reads the current scope but defines in the global set (C26_append_scope_mix); with an empty right-hand side nothing changes, not even the origin (C26_append_empty)."
  },
  {
   "property": "C27",
   "status": "proved",
   "theorems": [
    "Remake.C27_recognised",
    "Remake.C27_unique"
   ],
   "note": ""
  },
  {
   "property": "C28",
   "status": "proved",
   "theorems": [
    "Remake.C28_literal",
    "Remake.C28_dollar",
    "Remake.C28_concat",
    "Remake.C28_unmatched_swallows",
    "Remake.C28_buffer",
    "Remake.C28_buffer_zone"
   ],
   "note": ""
  },
  {
   "property": "C29",
   "status": "partial",
   "theorems": [
    "Remake.C29_terminates_partial",
    "Remake.C29_cycle_no_value",
    "Remake.C29_cycle_fatal_partial",
    "Remake.C29_call_endless",
    "Remake.C29_depth_irrelevant"
   ],
   "note": "Missing: texts and recursive values that mention call. With call the claim is false: C29_call_endless. The number of variables is finite; effects of eval on variables during the expansion are not modelled."
  },
  {
   "property": "C30",
   "status": "partial",
   "theorems": [
    "Remake.C30_call_partial",
    "Remake.C30_numeral_name",
    "Remake.C30_restored",
    "Remake.C30_hidden"
   ],
   "note": "Missing: function names with $ : ( ) or blanks, of 256 characters and more, or equal to a numeral that the call binds (there the claim is false: C30_numeral_name), and variables with appended values. $(0) keeps blanks before the name."
  },
  {
   "property": "C31",
   "status": "partial",
   "theorems": [
    "Remake.C31_names_distinct",
    "Remake.C31_entry_partial",
    "Remake.C31_shell",
    "Remake.C31_private_leaks",
    "Remake.C31_hidden_leaks"
   ],
   "note": "Names are distinct and each entry is that of the innermost exported definition. The claim as stated is false: C31_private_leaks, C31_hidden_leaks. SHELL only for a single set (C31_shell)."
  },
  {
   "property": "C32",
   "status": "partial",
   "theorems": [
    "Remake.C32_words_partial",
    "Remake.C32_dollar_lost",
    "Remake.C32_last_blank"
   ],
   "note": "Proved for words without $; a $ is expanded once too often (C32_dollar_lost), and a MAKEFLAGS of the environment that ends in a blank has an empty word more (C32_last_blank)."
  },
  {
   "property": "C33",
   "status": "partial",
   "theorems": [
    "Remake.C33_split_partial",
    "Remake.C33_normal_partial",
    "Remake.C33_every",
    "Remake.C33_sorted"
   ],
   "note": "Every text is covered (C33_every); for names with wildcards, ~ or archive members only that normal prerequisites come before order-only ones (C33_sorted)."
  },
  {
   "property": "C34",
   "status": "partial",
   "theorems": [
    "Remake.C34_uniform",
    "Remake.C34_mixed",
    "Remake.C34_merge",
    "Remake.C34_one_recipe_partial",
    "Remake.C34_order",
    "Remake.C34_warns",
    "Remake.C34_double",
    "Remake.C34_suffixes"
   ],
   "note": "The exact outcome is proved (C34_merge); with several recipes the rules that lost theirs are not in reading order (C34_order)."
  },
  {
   "property": "C35",
   "status": "partial",
   "theorems": [
    "Remake.C35_first_partial",
    "Remake.C35_assigned",
    "Remake.C35_reset",
    "Remake.C35_percent",
    "Remake.C35_slash",
    "Remake.C35_used"
   ],
   "note": "For target names without quoted % and suffixes without slash; otherwise false (C35_percent, C35_slash)."
  },
  {
   "property": "C36",
   "status": "partial",
   "theorems": [
    "Remake.C36_only_partial",
    "Remake.C36_all",
    "Remake.C36_posix",
    "Remake.C36_demo",
    "Remake.C36_with_prerequisites"
   ],
   "note": "The exact list is proved; outside POSIX mode targets with prerequisites are converted too (C36_with_prerequisites)."
  },
  {
   "property": "C37",
   "status": "partial",
   "theorems": [
    "Remake.C37_prerequisites_partial",
    "Remake.C37_choice_partial",
    "Remake.C37_none",
    "Remake.C37_intermediate",
    "Remake.C37_anything",
    "Remake.C37_terminal",
    "Remake.C37_demo_chain",
    "Remake.C37_demo_terminal",
    "Remake.C37_demo_stem",
    "Remake.C37_leftover",
    "Remake.C37_history",
    "Remake.C37_empty_stem"
   ],
   "note": "Proved up to three deviations: leftover prerequisites of a rejected rule (C37_leftover), marks of impossible files that outlive the search (C37_history), and an empty % after a directory (C37_empty_stem)."
  },
  {
   "property": "C38",
   "status": "partial",
   "theorems": [
    "Remake.C38_search_partial",
    "Remake.C38_absolute",
    "Remake.C38_lines",
    "Remake.C38_demo",
    "Remake.C38_root_directory",
    "Remake.C38_double_slash"
   ],
   "note": "Proved for names without a double slash before the last part and search directories that do not end in a slash; false otherwise (C38_root_directory, C38_double_slash)."
  },
  {
   "property": "C39",
   "status": "partial",
   "theorems": [
    "Remake.C39_lists_partial",
    "Remake.C39_qmark_overflow",
    "Remake.C39_plus_changes",
    "Remake.C39_first",
    "Remake.C39_at",
    "Remake.C39_stem"
   ],
   "note": "For prerequisite lists in which repeated names agree on whether they changed; otherwise the buffer for $? may overflow (C39_qmark_overflow), and $+ changes on a second computation (C39_plus_changes)."
  },
  {
   "property": "C40",
   "status": "partial",
   "theorems": [
    "Remake.C40_split_partial",
    "Remake.C40_rejoin_partial",
    "Remake.C40_too_many",
    "Remake.C40_oneshell",
    "Remake.C40_flags"
   ],
   "note": "For recipes of less than 65536 lines; with 65536 lines nothing remains (C40_too_many)."
  },
  {
   "property": "C41",
   "status": "partial",
   "theorems": [
    "Remake.C41_shell_partial",
    "Remake.C41_default_partial",
    "Remake.C41_oneshell_partial",
    "Remake.C41_oneshell_cut",
    "Remake.C41_function_newline",
    "Remake.C41_shell_words"
   ],
   "note": "For shells given by a plain name and flags without special characters, without leading blanks; false for some scripts under .ONESHELL (C41_oneshell_cut), newlines in the shell function (C41_function_newline) and other values of SHELL (C41_shell_words)."
  },
  {
   "property": "C42",
   "status": "partial",
   "theorems": [
    "Remake.C42_words_partial",
    "Remake.C42_simple",
    "Remake.C42_builtin",
    "Remake.C42_dispatch_partial",
    "Remake.C42_empty_word",
    "Remake.C42_last_backslash",
    "Remake.C42_other_builtins"
   ],
   "note": "The words agree for lines without a quote just before a backslash-newline (C42_empty_word) and up to a backslash at the end (C42_last_backslash); special built-ins go through the shell, but some other built-ins do not (C42_other_builtins)."
  },
  {
   "property": "C43",
   "status": "partial",
   "theorems": [
    "Remake.C43_once_partial",
    "Remake.C43_group_twice"
   ],
   "note": "Every (also cyclic) graph, with one recipe per entry; C43_group_twice: for the recipe of grouped targets the claim is false when a cycle leads through them."
  },
  {
   "property": "C44",
   "status": "partial",
   "theorems": [
    "Remake.C44_order_partial",
    "Remake.C44_double_colon",
    "Remake.C44_double_colon_early",
    "Remake.C44_group_intermediate"
   ],
   "note": "Graphs without intermediate, grouped and double-colon targets. False with double-colon targets (C44_double_colon, C44_double_colon_early) and for intermediate prerequisites of grouped targets (C44_group_intermediate)."
  },
  {
   "property": "C45",
   "status": "partial",
   "theorems": [
    "Remake.C45_only_stale_partial",
    "Remake.C45_remade_partial",
    "Remake.C45_reason_partial",
    "Remake.C45_exact_partial",
    "Remake.C45_unchanged"
   ],
   "note": "For graphs without intermediate, grouped and double-colon targets: if and only if, provided that recipes that succeed renew their targets (C45_remade_partial, C45_reason_partial; C45_exact_partial for whole runs); only if, in the weaker form, whatever they do (C45_only_stale_partial). Missing: other graphs. A prerequisite that was remade with its time unchanged does not count (C45_unchanged)."
  },
  {
   "property": "C46",
   "status": "partial",
   "theorems": [
    "Remake.C46_stop",
    "Remake.C46_gives_up",
    "Remake.C46_fails_partial"
   ],
   "note": "Nothing is started after a failure without -k, for every graph (C46_stop, C46_gives_up); the propagation of failures for graphs without intermediate, grouped and double-colon targets, as it is false otherwise (C44_double_colon)."
  },
  {
   "property": "C47",
   "status": "partial",
   "theorems": [
    "Remake.C47_drop_partial",
    "Remake.C47_pass_partial",
    "Remake.C47_terminates_partial",
    "Remake.C47_question_hangs"
   ],
   "note": "Graphs without intermediate targets; the number of looks at the goals is bounded only without double-colon targets under -q, where the claim is false (C47_question_hangs)."
  },
  {
   "property": "C48",
   "status": "partial",
   "theorems": [
    "Remake.C48_order_partial",
    "Remake.C48_round_trip",
    "Remake.C48_special",
    "Remake.C48_clamped",
    "Remake.C48_negative_newest"
   ],
   "note": "Missing: times before 1970. C48_negative_newest: they are clamped to the newest end, so the order is false there."
  },
  {
   "property": "C49",
   "status": "partial",
   "theorems": [
    "Remake.C49_conserved_partial",
    "Remake.C49_release",
    "Remake.C49_never_short",
    "Remake.C49_done_partial",
    "Remake.C49_exit",
    "Remake.C49_lost"
   ],
   "note": "Tokens are conserved and returned for runs in which every job ends in the ordinary way; tokens of jobs killed with the process are lost (C49_lost)."
  },
  {
   "property": "C50",
   "status": "partial",
   "theorems": [
    "Remake.C50_tree_partial",
    "Remake.C50_two_makes",
    "Remake.C50_notparallel",
    "Remake.C50_single",
    "Remake.C50_slots_partial",
    "Remake.C50_load",
    "Remake.C50_uncounted"
   ],
   "note": "For trees of makes that all use the jobserver; makes with their own slots and uncounted jobs exceed the limit (C50_two_makes, C50_uncounted, C50_load)."
  },
  {
   "property": "C51",
   "status": "proved",
   "theorems": [
    "Remake.C51_interrupted",
    "Remake.C51_failed",
    "Remake.C51_once"
   ],
   "note": "The decision and the sets of files; the disk is not changed by others meanwhile."
  },
  {
   "property": "C52",
   "status": "partial",
   "theorems": [
    "Remake.C52_removed_partial",
    "Remake.C52_dontcare"
   ],
   "note": "The exact condition is proved; files marked don't-care are removed even if precious (C52_dontcare), and 'created in this run' is only the test that the file has been considered."
  },
  {
   "property": "C53",
   "status": "partial",
   "theorems": [
    "Remake.C53_refines_partial",
    "Remake.C53_numbers_partial",
    "Remake.C53_untraced",
    "Remake.C53_shared_tracing",
    "Remake.C53_wraps"
   ],
   "note": "Missing: 2^32 - 1 commands and more, where numbers wrap to 0 and cannot be deleted (C53_wraps). The list itself is exact. C53_shared_tracing: with two breakpoints on a target, deleting one disarms the other."
  },
  {
   "property": "C54",
   "status": "partial",
   "theorems": [
    "Remake.C54_moved",
    "Remake.C54_refused",
    "Remake.C54_relative_partial",
    "Remake.C54_absolute_partial",
    "Remake.C54_up_down",
    "Remake.C54_overflow",
    "Remake.C54_refused_forgets"
   ],
   "note": "Missing: moves whose target does not fit in an int, where the code has undefined behaviour (C54_overflow). C54_refused_forgets: a refused move keeps the number but forgets the current target."
  },
  {
   "property": "C55",
   "status": "partial",
   "theorems": [
    "Remake.C55_line",
    "Remake.C55_words_partial",
    "Remake.C55_two_blanks",
    "Remake.C55_abbrev"
   ],
   "note": "The command word and the whole argument are exact for every line (C55_line). Words inside an argument are exact only for single blanks; the claim is false for more (C55_two_blanks)."
  },
  {
   "property": "C56",
   "status": "proved",
   "theorems": [
    "Remake.C56_write",
    "Remake.C56_write_completes",
    "Remake.C56_read"
   ],
   "note": ""
  },
  {
   "property": "C57",
   "status": "partial",
   "theorems": [
    "Remake.C57_same_partial",
    "Remake.C57_idempotent",
    "Remake.C57_found",
    "Remake.C57_tilde",
    "Remake.C57_stem"
   ],
   "note": "The three loops agree on every name; names made by tilde expansion or from a stem are entered without stripping (C57_tilde, C57_stem)."
  },
  {
   "property": "C58",
   "status": "partial",
   "theorems": [
    "Remake.C58_exists",
    "Remake.C58_marked_partial",
    "Remake.C58_slash",
    "Remake.C58_marked_exists",
    "Remake.C58_glob"
   ],
   "note": "Proved for every sequence of queries (C58_exists, C58_glob) and, for names without a trailing slash, with marks on files that do not exist; false for a trailing slash after a mark (C58_slash) and for marks on existing files (C58_marked_exists)."
  },
  {
   "property": "C59",
   "status": "partial",
   "theorems": [
    "Remake.C59_recognised_partial",
    "Remake.C59_parse"
   ],
   "note": "Names of the form lib((entry)) are a fatal error, so the claim is about the others."
  },
  {
   "property": "C60",
   "status": "partial",
   "theorems": [
    "Remake.C60_decodes_partial",
    "Remake.C60_invalid"
   ],
   "note": "Missing: other control characters, which are printed as they are, so that the result is not JSON (C60_invalid)."
  },
  {
   "property": "C61",
   "status": "proved",
   "theorems": [
    "Remake.C61_set",
    "Remake.C61_history"
   ],
   "note": ""
  },
  {
   "property": "C62",
   "status": "partial",
   "theorems": [
    "Remake.C62_blocks_partial",
    "Remake.C62_complete_partial",
    "Remake.C62_progress",
    "Remake.C62_direct",
    "Remake.C62_background",
    "Remake.C62_no_lock"
   ],
   "note": "C62_blocks_partial and C62_complete_partial: for every mix of writes, dumps and deaths of makes, if the lock works and jobs stop writing before their output is written out. Not kept by the code: uncaptured output inside a block (C62_direct), lost output of background processes (C62_background), mixed blocks without a lock (C62_no_lock)."
  },
  {
   "property": "C63",
   "status": "proved",
   "theorems": [
    "Remake.C63_text",
    "Remake.C63_append"
   ],
   "note": ""
  },
  {
   "property": "C64",
   "status": "proved",
   "theorems": [
    "Remake.C64_foreach"
   ],
   "note": ""
  },
  {
   "property": "C65",
   "status": "proved",
   "theorems": [
    "Remake.C65_value"
   ],
   "note": ""
  },
  {
   "property": "C66",
   "status": "partial",
   "theorems": [
    "Remake.C66_command_partial",
    "Remake.C66_unambiguous",
    "Remake.C66_dead_aliases"
   ],
   "note": "Words have no NUL. The claim is false for the aliases ? and L (C66_dead_aliases)."
  },
  {
   "property": "C67",
   "status": "partial",
   "theorems": [
    "Remake.C67_rest",
    "Remake.C67_tame_partial",
    "Remake.C67_one_partial",
    "Remake.C67_blanks",
    "Remake.C67_backslashes"
   ],
   "note": "Exact for lines where no backslash-newline follows white space or a backslash, and for lines where no reference starts after a continuation; otherwise false (C67_blanks, C67_backslashes)."
  },
  {
   "property": "C68",
   "status": "partial",
   "theorems": [
    "Remake.C68_matching_partial",
    "Remake.C68_other",
    "Remake.C68_blank",
    "Remake.C68_quoted"
   ],
   "note": "For target names without white space and prerequisites without quoted %; otherwise false (C68_blank, C68_quoted)."
  },
  {
   "property": "C69",
   "status": "partial",
   "theorems": [
    "Remake.C69_group_partial",
    "Remake.C69_recipe"
   ],
   "note": "For single-colon targets; the groups of the separate records of double-colon targets are not described."
  },
  {
   "property": "C70",
   "status": "proved",
   "theorems": [
    "Remake.C70_depth",
    "Remake.C70_depth_tight",
    "Remake.C70_buffer",
    "Remake.C70_direct",
    "Remake.C70_oneshell"
   ],
   "note": ""
  },
  {
   "property": "C71",
   "status": "proved",
   "theorems": [
    "Remake.C71_trace",
    "Remake.C71_order",
    "Remake.C71_success",
    "Remake.C71_stop",
    "Remake.C71_success_if",
    "Remake.C71_deleted",
    "Remake.C71_demo",
    "Remake.C71_question_deletes"
   ],
   "note": "For one target; the splitting of a line into commands is a parameter (shellSplitter is the one of the code). Under -q targets may be deleted though nothing failed (C71_question_deletes)."
  },
  {
   "property": "C72",
   "status": "partial",
   "theorems": [
    "Remake.C72_marked_partial",
    "Remake.C72_unmarked",
    "Remake.C72_show",
    "Remake.C72_silent"
   ],
   "note": "For one target. Targets that share a recipe share the marks of its lines (job.c 1060), which is not modelled and makes the claim false for sequences of targets."
  },
  {
   "property": "C73",
   "status": "proved",
   "theorems": [
    "Remake.C73_terminates",
    "Remake.C73_depth",
    "Remake.C73_demo"
   ],
   "note": ""
  },
  {
   "property": "C74",
   "status": "partial",
   "theorems": [
    "Remake.C74_siblings_partial",
    "Remake.C74_demo",
    "Remake.C74_directory"
   ],
   "note": "For targets without directory or patterns without text before % or with a directory; otherwise false (C74_directory)."
  },
  {
   "property": "C75",
   "status": "partial",
   "theorems": [
    "Remake.C75_redefine_partial",
    "Remake.C75_several_targets",
    "Remake.C75_swallowed"
   ],
   "note": "For rules with one target; false for rules with several (C75_several_targets, C75_swallowed)."
  },
  {
   "property": "C76",
   "status": "partial",
   "theorems": [
    "Remake.C76_list",
    "Remake.C76_name",
    "Remake.C76_reads_partial",
    "Remake.C76_overrun"
   ],
   "note": "Writes are proved in bounds for all inputs (C76_list, C76_name); reads for regular names; false for a// (C76_overrun)."
  },
  {
   "property": "C77",
   "status": "partial",
   "theorems": [
    "Remake.C77_library_partial",
    "Remake.C77_names",
    "Remake.C77_demo"
   ],
   "note": "For regular names and directories, as for C38, and fewer than 2^32 directives and standard directories."
  },
  {
   "property": "C78",
   "status": "partial",
   "theorems": [
    "Remake.C78_gpath_partial",
    "Remake.C78_missing_partial",
    "Remake.C78_demo",
    "Remake.C78_library",
    "Remake.C78_outside"
   ],
   "note": "Proved for files that are not libraries; false for libraries (C78_library, C78_outside)."
  },
  {
   "property": "C79",
   "status": "partial",
   "theorems": [
    "Remake.C79_options_partial",
    "Remake.C79_values",
    "Remake.C79_makefiles",
    "Remake.C79_tilde"
   ],
   "note": "For values without $, file names that do not change in tilde expansion and a load limit that survives printing with %g; false for a makefile or directory ./~/x (C79_tilde). The printing and reading of the load limit are parameters."
  },
  {
   "property": "C80",
   "status": "proved",
   "theorems": [
    "Remake.C80_makeflags",
    "Remake.C80_eval",
    "Remake.C80_variables",
    "Remake.C80_words"
   ],
   "note": ""
  },
  {
   "property": "C81",
   "status": "partial",
   "theorems": [
    "Remake.C81_recognised_partial",
    "Remake.C81_arrive_partial",
    "Remake.C81_simple_partial",
    "Remake.C81_simple_dollar",
    "Remake.C81_leading_blank",
    "Remake.C81_command_partial",
    "Remake.C81_recorded"
   ],
   "note": "For plain names and values without leading white space; simple values must not have a $ (C81_simple_dollar, C81_leading_blank)."
  },
  {
   "property": "C82",
   "status": "partial",
   "theorems": [
    "Remake.C82_abbreviation",
    "Remake.C82_long",
    "Remake.C82_group_partial",
    "Remake.C82_silent_argument",
    "Remake.C82_dash_letter"
   ],
   "note": "Abbreviations are proved for all names and tables; grouping for the flags passed in the environment. In MAKEFLAGS misused options pass (C82_silent_argument), and the letter - is accepted (C82_dash_letter)."
  },
  {
   "property": "C83",
   "status": "partial",
   "theorems": [
    "Remake.C83_impossible_partial",
    "Remake.C83_forgotten"
   ],
   "note": "For marks on files that do not exist; the mark of an existing file is lost when its entry is read (C83_forgotten)."
  },
  {
   "property": "C84",
   "status": "proved",
   "theorems": [
    "Remake.C84_open"
   ],
   "note": ""
  },
  {
   "property": "C85",
   "status": "proved",
   "theorems": [
    "Remake.C85_constant"
   ],
   "note": ""
  },
  {
   "property": "C86",
   "status": "proved",
   "theorems": [
    "Remake.C86_message",
    "Remake.C86_error",
    "Remake.C86_fatal",
    "Remake.C86_macros",
    "Remake.C86_buffer",
    "Remake.C86_directory",
    "Remake.C86_callers"
   ],
   "note": ""
  },
  {
   "property": "C87",
   "status": "partial",
   "theorems": [
    "Remake.C87_makefile_partial",
    "Remake.C87_every_partial"
   ],
   "note": "C87_makefile_partial covers conditionals inside recipes; C87_every_partial, that every makefile is such a sequence or fatal, is for makefiles without conditional lines. Recording a rule must not change the recipe prefix, and .POSIX takes effect from the start or not at all. Conditionals around stanzas are covered by C20."
  },
  {
   "property": "C88",
   "status": "partial",
   "theorems": [
    "Remake.C88_rule_partial",
    "Remake.C88_semicolon_partial",
    "Remake.C88_no_targets",
    "Remake.C88_missing_separator",
    "Remake.C88_static_partial",
    "Remake.C88_patterns_partial",
    "Remake.C88_lone_semicolon",
    "Remake.C88_colon_partial",
    "Remake.C88_command_partial",
    "Remake.C88_not_expansion",
    "Remake.C88_not_static",
    "Remake.C88_not_equals",
    "Remake.C88_not_end"
   ],
   "note": "For plain file names; the colon in the line itself or in the expansion of its first word, with the text after it not beginning with white space. False otherwise: C88_not_expansion, C88_not_static, C88_not_equals, C88_not_end."
  },
  {
   "property": "C89",
   "status": "partial",
   "theorems": [
    "Remake.C89_line_partial",
    "Remake.C89_others_partial",
    "Remake.C89_targets_partial",
    "Remake.C89_patterns_partial",
    "Remake.C89_not_conditional",
    "Remake.C89_not_pattern_append",
    "Remake.C89_not_define"
   ],
   "note": "C89_line_partial reads the line (see the note of C88); C89_others_partial, C89_targets_partial and C89_patterns_partial say what is then defined, for expansions without side effects and no `?=` on a global variable. False otherwise: C89_not_conditional, C89_not_pattern_append, C89_not_define."
  },
  {
   "property": "C90",
   "status": "proved",
   "theorems": [
    "Remake.C90_modifiers"
   ],
   "note": ""
  },
  {
   "property": "C91",
   "status": "proved",
   "theorems": [
    "Remake.C91_environment"
   ],
   "note": ""
  },
  {
   "property": "C92",
   "status": "partial",
   "theorems": [
    "Remake.C92_members_partial"
   ],
   "note": "For plain words, archives and members: no quoting or wildcards inside the parentheses, no members with parentheses."
  },
  {
   "property": "C93",
   "status": "partial",
   "theorems": [
    "Remake.C93_goals",
    "Remake.C93_environment",
    "Remake.C93_variable_partial",
    "Remake.C93_overridden"
   ],
   "note": "The goals are proved for every list of words (C93_goals, C93_environment); MAKECMDGOALS only if neither environment nor command line define it: it keeps such a definition (C93_overridden)."
  },
  {
   "property": "C94",
   "status": "partial",
   "theorems": [
    "Remake.C94_import_partial",
    "Remake.C94_no_equals"
   ],
   "note": "For environments in which every entry has an equals sign; without one the scan runs on into the memory behind the entry (C94_no_equals)."
  },
  {
   "property": "C95",
   "status": "proved",
   "theorems": [
    "Remake.C95_level",
    "Remake.C95_top"
   ],
   "note": ""
  },
  {
   "property": "C96",
   "status": "proved",
   "theorems": [
    "Remake.C96_limit"
   ],
   "note": ""
  },
  {
   "property": "C97",
   "status": "partial",
   "theorems": [
    "Remake.C97_words_partial",
    "Remake.C97_options_partial",
    "Remake.C97_temporary_partial",
    "Remake.C97_long_option",
    "Remake.C97_group",
    "Remake.C97_goal_lost",
    "Remake.C97_temporary_goal",
    "Remake.C97_environment_partial",
    "Remake.C97_two_restarts"
   ],
   "note": "For command lines without the long forms of -f and without groups of options that contain f, and goals that are not -f or its value; false otherwise (C97_long_option, C97_group, C97_goal_lost, C97_temporary_goal). The environment for at most one MAKE_RESTARTS entry (C97_two_restarts) and fewer than 2^32 - 1 restarts."
  },
  {
   "property": "C98",
   "status": "proved",
   "theorems": [
    "Remake.C98_restart",
    "Remake.C98_die",
    "Remake.C98_goals",
    "Remake.C98_colon",
    "Remake.C98_always"
   ],
   "note": ""
  },
  {
   "property": "C99",
   "status": "partial",
   "theorems": [
    "Remake.C99_search",
    "Remake.C99_list",
    "Remake.C99_given",
    "Remake.C99_default",
    "Remake.C99_not_remade",
    "Remake.C99_endless",
    "Remake.C99_path",
    "Remake.C99_left_in_root"
   ],
   "note": "Proved for every nesting of files (C99_given, C99_default, C99_search, C99_list, C99_path, C99_endless); but make never tries to make a default makefile when there is none (C99_not_remade), and make -c that finds none goes on in the root directory (C99_left_in_root)."
  },
  {
   "property": "C100",
   "status": "partial",
   "theorems": [
    "Remake.C100_exit_partial",
    "Remake.C100_hidden"
   ],
   "note": "Except for -q after a failed makefile (C100_hidden)."
  },
  {
   "property": "C101",
   "status": "partial",
   "theorems": [
    "Remake.C101_members",
    "Remake.C101_date_partial",
    "Remake.C101_none",
    "Remake.C101_truncated"
   ],
   "note": "For names such that no member with its name in the header agrees in the first 15 characters only; false otherwise (C101_truncated)."
  },
  {
   "property": "C102",
   "status": "partial",
   "theorems": [
    "Remake.C102_touch_partial",
    "Remake.C102_date_partial",
    "Remake.C102_no_effect",
    "Remake.C102_missing",
    "Remake.C102_only_date",
    "Remake.C102_read_only",
    "Remake.C102_no_archive",
    "Remake.C102_far"
   ],
   "note": "The place and extent of the change are proved for all archives; the date written is not the current time but the time of the last change that the archive had before (C102_no_effect). For unambiguous names (see C101) and dates of at most 11 digits."
  },
  {
   "property": "C103",
   "status": "partial",
   "theorems": [
    "Remake.C103_ends_partial",
    "Remake.C103_endless",
    "Remake.C103_defined_partial",
    "Remake.C103_outside"
   ],
   "note": "For files without a minus sign in a place for a size and without a table that starts with an empty line; false otherwise (C103_endless, C103_outside)."
  },
  {
   "property": "C104",
   "status": "partial",
   "theorems": [
    "Remake.C104_wild",
    "Remake.C104_glob_partial",
    "Remake.C104_plain",
    "Remake.C104_index"
   ],
   "note": "For patterns that match neither the empty name nor a slash; false otherwise: the index of the archive is taken for a member (C104_index)."
  },
  {
   "property": "C105",
   "status": "partial",
   "theorems": [
    "Remake.C105_words",
    "Remake.C105_room",
    "Remake.C105_run_partial",
    "Remake.C105_again",
    "Remake.C105_name_split"
   ],
   "note": "For names of make without blanks, quotes and backslashes; others are split (C105_name_split)."
  },
  {
   "property": "C106",
   "status": "partial",
   "theorems": [
    "Remake.C106_applied_partial",
    "Remake.C106_longest_partial",
    "Remake.C106_no_other_partial",
    "Remake.C106_not_simple"
   ],
   "note": "For expansions without side effects and no ?= on a variable that is defined outside (see C89_not_conditional). A := after a += for the same variable does not undo the appending (C106_not_simple)."
  },
  {
   "property": "C107",
   "status": "partial",
   "theorems": [
    "Remake.C107_records",
    "Remake.C107_second_partial",
    "Remake.C107_order_partial",
    "Remake.C107_none_waits",
    "Remake.C107_kept",
    "Remake.C107_unaffected",
    "Remake.C107_percent",
    "Remake.C107_bar"
   ],
   "note": "For expanded texts without wildcards, home directories and archive members, and percent signs in them in static pattern rules only if they come from the stem; one record of .SUFFIXES; expansions without side effects. False for a second percent sign in a word and for stems with a bar (C107_percent, C107_bar)."
  },
  {
   "property": "C108",
   "status": "partial",
   "theorems": [
    "Remake.C108_marks_partial",
    "Remake.C108_flags_partial",
    "Remake.C108_order",
    "Remake.C108_mention",
    "Remake.C108_double"
   ],
   "note": "Proved except that .SECONDARY has its effect without being a target (C108_mention) and that only the first double-colon rule for .IGNORE or .SILENT counts (C108_double)."
  },
  {
   "property": "C109",
   "status": "partial",
   "theorems": [
    "Remake.C109_extra_partial",
    "Remake.C109_after_second",
    "Remake.C109_lost"
   ],
   "note": "Only for the first rule of a target, and not for targets with variables of their own, nor for a target that is itself among the files (C109_lost). Files that enter the table while it is gone through are not modelled exactly."
  },
  {
   "property": "C110",
   "status": "partial",
   "theorems": [
    "Remake.C110_which",
    "Remake.C110_print_only",
    "Remake.C110_others",
    "Remake.C110_success",
    "Remake.C110_newer",
    "Remake.C110_contents_partial",
    "Remake.C110_empty",
    "Remake.C110_letter",
    "Remake.C110_leak"
   ],
   "note": "Proved for every failure and crash point for files that are not empty, and for all files if touching succeeds; an empty or missing file is left with one letter if make is killed between two calls or cannot open it again (C110_letter). Regular files; no other process uses the file."
  },
  {
   "property": "C111",
   "status": "partial",
   "theorems": [
    "Remake.C111_latest_partial",
    "Remake.C111_ends",
    "Remake.C111_circular",
    "Remake.C111_without",
    "Remake.C111_not_older",
    "Remake.C111_kernel_exists",
    "Remake.C111_long"
   ],
   "note": "If the names, written out along the links, stay shorter than PATH_MAX; otherwise the links further on are not looked at (C111_long). Termination and bounds are proved for all."
  },
  {
   "property": "C112",
   "status": "partial",
   "theorems": [
    "Remake.C112_once",
    "Remake.C112_only",
    "Remake.C112_warned",
    "Remake.C112_set_back"
   ],
   "note": "There is a warning for a file in the future if the clock is not set back during the run (C112_set_back); the rest is proved for all histories."
  },
  {
   "property": "C113",
   "status": "partial",
   "theorems": [
    "Remake.C113_found_partial",
    "Remake.C113_not_removed_partial",
    "Remake.C113_else",
    "Remake.C113_times",
    "Remake.C113_stays",
    "Remake.C113_terminal"
   ],
   "note": "For files for which no implicit rule was searched before; a file found by a terminal rule, or on which an intermediate file depends, stays intermediate and is removed (C113_terminal)."
  },
  {
   "property": "C114",
   "status": "partial",
   "theorems": [
    "Remake.C114_read_back_partial",
    "Remake.C114_blank",
    "Remake.C114_hash",
    "Remake.C114_leading_blanks",
    "Remake.C114_newline",
    "Remake.C114_commented",
    "Remake.C114_commented_define"
   ],
   "note": "For plain names and values that can stand on a line, or in a define; false for a recursive value with a number sign (C114_hash), a simple value with blanks at its start (C114_leading_blanks) or with a newline (C114_newline), and the lines of a define of a target or pattern are not commented (C114_commented_define)."
  },
  {
   "property": "C115",
   "status": "partial",
   "theorems": [
    "Remake.C115_makefile_partial",
    "Remake.C115_kept",
    "Remake.C115_others"
   ],
   "note": "For expansions without side effects on variables, lines outside of conditionals and rules, and bodies of define without a nested endef (see C20, C21, C87 for those)."
  },
  {
   "property": "C116",
   "status": "partial",
   "theorems": [
    "Remake.C116_makefile_partial",
    "Remake.C116_search_partial",
    "Remake.C116_last",
    "Remake.C116_all",
    "Remake.C116_others",
    "Remake.C116_environment",
    "Remake.C116_void"
   ],
   "note": "For expansions without side effects on variables, lines outside of conditionals and rules, and global variables. A variable that is not defined becomes defined and empty, so that values do change in this one case (C116_void)."
  },
  {
   "property": "C117",
   "status": "proved",
   "theorems": [
    "Remake.C117_started",
    "Remake.C117_finished",
    "Remake.C117_dropped",
    "Remake.C117_nothing"
   ],
   "note": ""
  },
  {
   "property": "C118",
   "status": "partial",
   "theorems": [
    "Remake.C118_free",
    "Remake.C118_breakpoint",
    "Remake.C118_continue",
    "Remake.C118_continue_end",
    "Remake.C118_step_partial",
    "Remake.C118_next_partial",
    "Remake.C118_once_partial",
    "Remake.C118_finish",
    "Remake.C118_post_mortem",
    "Remake.C118_quit",
    "Remake.C118_frame",
    "Remake.C118_delete_all",
    "Remake.C118_break_default",
    "Remake.C118_null",
    "Remake.C118_next_early",
    "Remake.C118_step_early",
    "Remake.C118_makeflags",
    "Remake.C118_continue_modifiers",
    "Remake.C118_break_temp"
   ],
   "note": "For the places of the ordinary course of a run (and errors, for stops on errors). step N and next N stop earlier at a target with a breakpoint of another kind (C118_step_early); next N after step counts other places too (C118_next_early); a call of the function debugger while steps are counted follows a null pointer (C118_null); the flags for sub-makes are lost (C118_makeflags); modifiers are ignored (C118_continue_modifiers, C118_break_temp)."
  },
  {
   "property": "C119",
   "status": "partial",
   "theorems": [
    "Remake.C119_build",
    "Remake.C119_lookup_partial",
    "Remake.C119_sound",
    "Remake.C119_unique_partial",
    "Remake.C119_empty_partial",
    "Remake.C119_past_end",
    "Remake.C119_list_refused",
    "Remake.C119_eval",
    "Remake.C119_hidden",
    "Remake.C119_no_place"
   ],
   "note": "For lines of makefiles that have a rule and within the makefile; a number after the end (C119_past_end), rules from $(eval) (C119_eval) and targets without a place (C119_no_place) read or write wrong memory, and a pattern rule hides the target on the line before (C119_hidden)."
  },
  {
   "property": "C120",
   "status": "partial",
   "theorems": [
    "Remake.C120_search",
    "Remake.C120_split",
    "Remake.C120_include",
    "Remake.C120_stop",
    "Remake.C120_textual",
    "Remake.C120_slots",
    "Remake.C120_self",
    "Remake.C120_names_partial",
    "Remake.C120_recipe",
    "Remake.C120_dot"
   ],
   "note": "C120_search, C120_include, C120_stop, C120_textual, C120_split, C120_recipe, C120_slots and C120_self are for all makefiles; which names a line lists is proved for names without wildcards and ~ (C120_names_partial). Assumes that recording a rule does not change the recipe prefix, and errors inside actions are parameters. C120_dot: a file found in ./dir is entered under a name that rules do not find."
  },
  {
   "property": "C121",
   "status": "partial",
   "theorems": [
    "Remake.C121_history_partial",
    "Remake.C121_kept_partial",
    "Remake.C121_new_name_partial",
    "Remake.C121_one_file_partial",
    "Remake.C121_permanent",
    "Remake.C121_variables",
    "Remake.C121_variables_kept",
    "Remake.C121_message_wrong",
    "Remake.C121_message",
    "Remake.C121_kinds",
    "Remake.C121_double_all",
    "Remake.C121_double_lost"
   ],
   "note": "C121_history_partial, C121_kept_partial, C121_new_name_partial and C121_one_file_partial are for all histories without double-colon rules; C121_double_all and C121_kinds are about double-colon files. The message about two recipes names the wrong one (C121_message_wrong), and rules of a double-colon file are lost when it is found under the name of another file (C121_double_lost)."
  },
  {
   "property": "C122",
   "status": "partial",
   "theorems": [
    "Remake.C122_stack_partial",
    "Remake.C122_called_partial",
    "Remake.C122_dangling",
    "Remake.C122_other_job",
    "Remake.C122_failed_stays"
   ],
   "note": "C122_stack_partial is for all runs in which the function debugger is not called, and tells nothing about which target a stop is for; the full claim is false: C122_dangling (the function debugger in a recipe reads freed memory once a prerequisite was looked at), C122_failed_stays, C122_other_job (with parallel jobs the stack of another target is shown). C122_called_partial: where the function debugger shows the stack."
  },
  {
   "property": "C123",
   "status": "partial",
   "theorems": [
    "Remake.C123_match_partial",
    "Remake.C123_safe_partial",
    "Remake.C123_star",
    "Remake.C123_escaped",
    "Remake.C123_class",
    "Remake.C123_bracket",
    "Remake.C123_slash",
    "Remake.C123_beyond",
    "Remake.C123_class_one_partial",
    "Remake.C123_caret",
    "Remake.C123_set_escaped_partial",
    "Remake.C123_range_escaped",
    "Remake.C123_slash_only"
   ],
   "note": "For the matcher that comes with the sources. C123_match_partial is for all patterns whose brackets have plain characters and upward ranges, and, where slashes are special, for names without slashes; C123_safe_partial for all patterns that do not end with a colon; C123_class_one_partial for a single named class, C123_set_escaped_partial for escaped characters in a bracket, C123_range_escaped and C123_caret for ends of ranges and ^. The rest is false: C123_class (named classes), C123_bracket (a closing bracket in a set), C123_slash (** before a slash, periods after slashes), C123_beyond (*[a[:b: is read beyond its end)."
  },
  {
   "property": "C124",
   "status": "partial",
   "theorems": [
    "Remake.C124_glob_partial",
    "Remake.C124_answers_partial",
    "Remake.C124_trailing_partial",
    "Remake.C124_wildcard_partial",
    "Remake.C124_slash_file",
    "Remake.C124_escape",
    "Remake.C124_stale",
    "Remake.C124_members"
   ],
   "note": "For the glob that comes with the sources, which make uses with its cache of directories. C124_glob_partial is for patterns of any depth without empty parts, with brackets as in C123 and backslashes only in parts with wildcards; C124_wildcard_partial for words without parentheses and ~. The rest is false: C124_slash_file (a slash at the end gives files too), C124_escape, C124_stale (the last directory is looked at as first read), C124_members."
  },
  {
   "property": "C125",
   "status": "partial",
   "theorems": [
    "Remake.C125_awake",
    "Remake.C125_running_partial",
    "Remake.C125_no_internal",
    "Remake.C125_tokens",
    "Remake.C125_settles",
    "Remake.C125_no_deadlock_partial",
    "Remake.C125_slots",
    "Remake.C125_tick",
    "Remake.C125_deadlock",
    "Remake.C125_late",
    "Remake.C125_alarm"
   ],
   "note": "C125_awake, C125_settles, C125_no_internal, C125_tokens and C125_tick are for all interleavings. C125_no_deadlock_partial and C125_running_partial are where every process can be started; otherwise there is a deadlock (C125_deadlock), because a waiting job that could not be started goes unnoticed (C125_late). In a build without pselect the alarm for jobs that wait for the load is lost (C125_alarm)."
  },
  {
   "property": "C126",
   "status": "partial",
   "theorems": [
    "Remake.C126_consistent",
    "Remake.C126_sent",
    "Remake.C126_deleted",
    "Remake.C126_no_start",
    "Remake.C126_none_left_partial",
    "Remake.C126_clean_partial",
    "Remake.C126_ends",
    "Remake.C126_tokens_partial",
    "Remake.C126_uncounted",
    "Remake.C126_shell",
    "Remake.C126_no_child",
    "Remake.C126_token_lost"
   ],
   "note": "C126_sent, C126_deleted, C126_no_start, C126_consistent and C126_ends are for all moments and histories (local jobs, one signal). C126_none_left_partial leaves out recipes whose first command could not be started, for which make does not wait (C126_uncounted), and the command of the function shell (C126_shell). C126_clean_partial leaves out the moment after wait has returned a process, when make ends with `wait: No child processes` and keeps the intermediate files (C126_no_child). C126_tokens_partial says which tokens are not given back (C126_token_lost)."
  },
  {
   "property": "C127",
   "status": "partial",
   "theorems": [
    "Remake.C127_write",
    "Remake.C127_append",
    "Remake.C127_no_text",
    "Remake.C127_history",
    "Remake.C127_missing",
    "Remake.C127_read_fits_partial",
    "Remake.C127_read_grown_partial",
    "Remake.C127_newline_kept",
    "Remake.C127_cr_eaten",
    "Remake.C127_round_trip_partial",
    "Remake.C127_round_trip_lost",
    "Remake.C127_blank_in_name",
    "Remake.C127_fatal"
   ],
   "note": "Writing, histories of appends, missing files and errors (C127_write, C127_append, C127_no_text, C127_history, C127_missing, C127_fatal) are for all calls. Reading is proved where the text fits into the buffer (C127_read_fits_partial) and, where it grows, if the allocator does not move it down and no lone newline follows a carriage return (C127_read_grown_partial); the rest is false (C127_newline_kept, C127_cr_eaten), because a pointer into the old block is compared. The round trip holds for texts that end neither in a newline nor in a carriage return (C127_round_trip_partial) and for no others (C127_round_trip_lost). C127_blank_in_name: blanks after the name belong to it. A NUL in a file that is read, which ends the C string, is not modelled."
  },
  {
   "property": "C128",
   "status": "partial",
   "theorems": [
    "Remake.C128_words_partial",
    "Remake.C128_fits",
    "Remake.C128_stem_verbatim",
    "Remake.C128_same_partial",
    "Remake.C128_stem_blank",
    "Remake.C128_stem_bar",
    "Remake.C128_overread",
    "Remake.C128_overflow",
    "Remake.C128_runs_out"
   ],
   "note": "C128_words_partial: every dollar sign belongs to a pair or to a reference that is closed, names without wildcards and archive members, expansion without effects (a parameter). C128_stem_verbatim is with the modelled expansion, for $*. C128_fits is for all rules and targets. C128_same_partial is for stems without blanks, bars and backslashes and targets without a directory to add; with a blank or bar in the stem it is false (C128_stem_blank, C128_stem_bar). A text that ends with a dollar sign is read beyond its end: C128_overread, C128_overflow, C128_runs_out."
  },
  {
   "property": "C129",
   "status": "partial",
   "theorems": [
    "Remake.C129_json_partial",
    "Remake.C129_stamp",
    "Remake.C129_each_once",
    "Remake.C129_depends_partial",
    "Remake.C129_depends_repeated",
    "Remake.C129_place",
    "Remake.C129_times",
    "Remake.C129_order_partial",
    "Remake.C129_elapsed_partial",
    "Remake.C129_elapsed_wrong",
    "Remake.C129_quote",
    "Remake.C129_unopened",
    "Remake.C129_parent_null",
    "Remake.C129_callgrind_unlinked",
    "Remake.C129_name_partial",
    "Remake.C129_name_overflow"
   ],
   "note": "C129_json_partial: that the file is JSON and says what it should is for texts without the characters that break it; a quote in the name of the directory does (C129_quote). C129_stamp, C129_each_once, C129_place and C129_times are for all histories in which only finished targets are marked as updated. C129_order_partial needs a clock that does not go back and states in order (a double-colon target has several records under one name). C129_depends_partial: in reverse order and repeated (C129_depends_repeated). C129_elapsed_partial is within one second, otherwise the elapsed time is wrong (C129_elapsed_wrong). In callgrind files no call leads to a record (C129_callgrind_unlinked). Without the file make crashes (C129_unopened), also if the name of the target it was started for begins with a minus sign (C129_parent_null). Names of files: C129_name_partial, C129_name_overflow."
  },
  {
   "property": "C130",
   "status": "partial",
   "theorems": [
    "Remake.C130_parent_partial",
    "Remake.C130_dash",
    "Remake.C130_long"
   ],
   "note": "C130_parent_partial is for names with fewer than 200 characters that do not begin with a minus sign; others are lost (C130_dash) or overrun a buffer (C130_long)."
  },
  {
   "property": "C131",
   "status": "partial",
   "theorems": [
    "Remake.C131_names",
    "Remake.C131_room",
    "Remake.C131_called_partial",
    "Remake.C131_listed_partial",
    "Remake.C131_once_partial",
    "Remake.C131_again",
    "Remake.C131_other",
    "Remake.C131_missing",
    "Remake.C131_refused",
    "Remake.C131_nested",
    "Remake.C131_pinned",
    "Remake.C131_handles",
    "Remake.C131_function_names",
    "Remake.C131_function_not",
    "Remake.C131_function_called",
    "Remake.C131_functions_partial",
    "Remake.C131_function_gone"
   ],
   "note": "C131_called_partial and C131_once_partial assume that no object open, nor make itself, defines the symbol (else the object on the line is not opened and the other's function is called, C131_other) and that no name listed before contains the name (else a listed object is loaded again, C131_again). C131_listed_partial: setup functions do not load objects themselves; if they do, `.LOADED` loses them (C131_nested); if the user set `.LOADED` it never changes (C131_pinned). C131_functions_partial: before the recipe of a loaded object starts; then its functions stay in the table and calls go to an object that is not there (C131_function_gone). A missing licence mark or symbol is fatal with -load too (C131_refused)."
  },
  {
   "property": "C132",
   "status": "proved",
   "theorems": [
    "Remake.C132_no_limit",
    "Remake.C132_jobs",
    "Remake.C132_below",
    "Remake.C132_estimate",
    "Remake.C132_progress",
    "Remake.C132_serial",
    "Remake.C132_burst",
    "Remake.C132_complaints"
   ],
   "note": ""
  },
  {
   "property": "C133",
   "status": "partial",
   "theorems": [
    "Remake.C133_path",
    "Remake.C133_found_partial",
    "Remake.C133_started_partial",
    "Remake.C133_slash",
    "Remake.C133_given",
    "Remake.C133_reason",
    "Remake.C133_directory",
    "Remake.C133_hidden",
    "Remake.C133_no_path",
    "Remake.C133_message",
    "Remake.C133_recipe_partial",
    "Remake.C133_stale"
   ],
   "note": "C133_found_partial and C133_started_partial assume that no directory that may be searched has the name of the command in one of the directories of PATH; such a directory hides the program behind it (C133_directory, C133_hidden). Without PATH only the working directory is searched (C133_no_path). C133_recipe_partial: the message about a command that cannot be started is the only one if the program of the command before it is still there; else there is another one about that program (C133_stale). C133_path, C133_slash, C133_given, C133_reason and C133_message are for all cases. The variant of the code without posix_spawn is not modelled."
  },
  {
   "property": "C134",
   "status": "partial",
   "theorems": [
    "Remake.C134_one",
    "Remake.C134_free",
    "Remake.C134_kept",
    "Remake.C134_streams_partial",
    "Remake.C134_shell_shares",
    "Remake.C134_no_pipe",
    "Remake.C134_closed"
   ],
   "note": "C134_one, C134_free and C134_kept are for all histories of the commands of recipes; the command of the function shell always has the standard input of make, too (C134_shell_shares), and so has every command if no pipe could be made (C134_no_pipe). C134_streams_partial: make itself has its three standard descriptors; if it was started without the first two, the command of the function shell has no output (C134_closed)."
  },
  {
   "property": "C135",
   "status": "partial",
   "theorems": [
    "Remake.C135_value_partial",
    "Remake.C135_lost",
    "Remake.C135_descriptors_partial",
    "Remake.C135_leak",
    "Remake.C135_used_up",
    "Remake.C135_exhausted",
    "Remake.C135_empty"
   ],
   "note": "C135_value_partial: the command does not end with 127 and descriptors are left; with 127 the output goes to the standard error and the value is empty (C135_lost). C135_descriptors_partial: every command could be started; each one that could not leaves two descriptors open (C135_leak), until every use gives the empty text and leaves .SHELLSTATUS as it was (C135_used_up, C135_exhausted). An empty command leaves .SHELLSTATUS of the one before (C135_empty)."
  },
  {
   "property": "C136",
   "status": "partial",
   "theorems": [
    "Remake.C136_origin_partial",
    "Remake.C136_undefined",
    "Remake.C136_scope",
    "Remake.C136_debugger",
    "Remake.C136_variables_partial",
    "Remake.C136_variables_others",
    "Remake.C136_variables_assigned",
    "Remake.C136_room",
    "Remake.C136_shell_default",
    "Remake.C136_shell_given",
    "Remake.C136_shell_empty"
   ],
   "note": "C136_origin_partial is for a constant -e flag and for origins that have a word: of a variable set in the debugger, $(origin) aborts make (C136_debugger). C136_variables_partial: .VARIABLES itself is not assigned (C136_variables_assigned). C136_shell_empty: an empty SHELL on the command line counts as a definition of a makefile."
  },
  {
   "property": "C137",
   "status": "partial",
   "theorems": [
    "Remake.C137_setq_partial",
    "Remake.C137_stays",
    "Remake.C137_look",
    "Remake.C137_print_partial",
    "Remake.C137_print_inherited",
    "Remake.C137_print_private",
    "Remake.C137_print_defines",
    "Remake.C137_blanks",
    "Remake.C137_dollar",
    "Remake.C137_again",
    "Remake.C137_setqx_partial"
   ],
   "note": "C137_setq_partial: one blank before the value, which otherwise gets an exclamation mark (C137_blanks), and no dollar sign before the name (C137_dollar). C137_print_partial: the variable is the target's own or only global; inherited definitions are not shown and private ones are (C137_print_inherited, C137_print_private). `print` of an undefined variable defines it for good (C137_print_defines); `print` without name uses freed memory (C137_again)."
  },
  {
   "property": "C138",
   "status": "partial",
   "theorems": [
    "Remake.C138_flag_partial",
    "Remake.C138_debug",
    "Remake.C138_refused",
    "Remake.C138_null",
    "Remake.C138_blanks"
   ],
   "note": "C138_flag_partial: one blank between name and value (C138_blanks). `set v on` writes through a null pointer (C138_null)."
  },
  {
   "property": "C139",
   "status": "partial",
   "theorems": [
    "Remake.C139_source_partial",
    "Remake.C139_unended",
    "Remake.C139_long",
    "Remake.C139_resume",
    "Remake.C139_error",
    "Remake.C139_blank"
   ],
   "note": "C139_source_partial: every line is ended, shorter than 2047 characters and not blank, and no command fails or leaves the prompt; see C139_unended, C139_long, C139_blank, C139_error and C139_resume."
  },
  {
   "property": "C140",
   "status": "partial",
   "theorems": [
    "Remake.C140_script_partial",
    "Remake.C140_prefix_kept",
    "Remake.C140_header",
    "Remake.C140_names",
    "Remake.C140_room",
    "Remake.C140_place",
    "Remake.C140_same_file",
    "Remake.C140_name_cut",
    "Remake.C140_target"
   ],
   "note": "C140_script_partial: only the first line of the recipe has characters to remove (C140_prefix_kept). C140_name_cut: the name of a current target with a blank is cut in memory. C140_same_file: targets with the same last part share the default file."
  },
  {
   "property": "C141",
   "status": "partial",
   "theorems": [
    "Remake.C141_balanced_partial",
    "Remake.C141_one_partial",
    "Remake.C141_groups_partial",
    "Remake.C141_quiet",
    "Remake.C141_when",
    "Remake.C141_killed",
    "Remake.C141_moved",
    "Remake.C141_raw",
    "Remake.C141_direct"
   ],
   "note": "C141_one_partial, C141_groups_partial: the options stay, the directory is known before the first message, messages are written by outputs(), and with -O line or target all output is collected; C141_balanced_partial does not compare the names. False if make is killed (C141_killed), if a message comes before -C is obeyed (C141_moved), for text printed directly (C141_raw) and for output that is not collected (C141_direct)."
  },
  {
   "property": "C142",
   "status": "partial",
   "theorems": [
    "Remake.C142_tells",
    "Remake.C142_line_partial",
    "Remake.C142_place",
    "Remake.C142_program",
    "Remake.C142_other_place",
    "Remake.C142_builtin"
   ],
   "note": "C142_line_partial says nothing about the place; with -j it may be that of another target (C142_other_place), and for a target without place nothing separates it from the line (C142_builtin)."
  },
  {
   "property": "C143",
   "status": "partial",
   "theorems": [
    "Remake.C143_expands",
    "Remake.C143_one",
    "Remake.C143_command_partial",
    "Remake.C143_unknown",
    "Remake.C143_words_partial",
    "Remake.C143_cut",
    "Remake.C143_restart_elsewhere",
    "Remake.C143_group_partial",
    "Remake.C143_group_lost",
    "Remake.C143_dot_slash",
    "Remake.C143_search_path"
   ],
   "note": "C143_command_partial: the home directory is absolute. C143_words_partial, C143_group_partial: no name lies below the home directory of another user; such words lose everything behind the user (C143_cut, C143_restart_elsewhere), and so do all but the first member of a group (C143_group_lost). C143_dot_slash: ./ before ~ does not help."
  },
  {
   "property": "C144",
   "status": "partial",
   "theorems": [
    "Remake.C144_debug",
    "Remake.C144_items",
    "Remake.C144_unknown",
    "Remake.C144_two_separators",
    "Remake.C144_options",
    "Remake.C144_off_then_all",
    "Remake.C144_again",
    "Remake.C144_trace",
    "Remake.C144_trace_unknown",
    "Remake.C144_stable_partial",
    "Remake.C144_trace_lost",
    "Remake.C144_shell_back",
    "Remake.C144_stops",
    "Remake.C144_debugger_not_full",
    "Remake.C144_debugger_starts",
    "Remake.C144_not_again"
   ],
   "note": "C144_stable_partial: nothing is switched off by --debug=n, --trace=noshell or --verbosity=terse, see C144_trace_lost and C144_shell_back. Two separators in a row stop make (C144_two_separators), -d behind --debug=n does nothing (C144_off_then_all), -X is not --debugger-stop=full (C144_debugger_not_full)."
  },
  {
   "property": "C145",
   "status": "partial",
   "theorems": [
    "Remake.C145_prefix",
    "Remake.C145_prefix_in_force",
    "Remake.C145_blank_prefix",
    "Remake.C145_files_partial",
    "Remake.C145_patterns_partial",
    "Remake.C145_not_target",
    "Remake.C145_names",
    "Remake.C145_grouped",
    "Remake.C145_pattern_prefix"
   ],
   "note": "C145_files_partial, C145_patterns_partial: names have no characters that mean something in a makefile, all recipes have the prefix in force, targets have no variables, and no equals sign is in memory after a line. False for other names (C145_names), for files only mentioned (C145_not_target), for grouped rules (C145_grouped), for pattern rules with another prefix (C145_pattern_prefix)."
  },
  {
   "property": "C146",
   "status": "partial",
   "theorems": [
    "Remake.C146_line_partial",
    "Remake.C146_says",
    "Remake.C146_recipe_partial",
    "Remake.C146_semicolon_partial",
    "Remake.C146_wrong_line",
    "Remake.C146_eval",
    "Remake.C146_eval_recipe",
    "Remake.C146_variable"
   ],
   "note": "False for recipes: C146_recipe_partial and C146_semicolon_partial say when the number named is right (no continued lines, comments or empty lines before it in the recipe) and that it is otherwise too small, C146_wrong_line is a witness; recipes from eval name unrelated lines (C146_eval_recipe). C146_line_partial: makefiles without NUL bytes. Conditionals inside recipes are not followed."
  },
  {
   "property": "C147",
   "status": "partial",
   "theorems": [
    "Remake.C147_rules",
    "Remake.C147_variables",
    "Remake.C147_makefile_partial",
    "Remake.C147_suffixes_kept",
    "Remake.C147_makefile_variables",
    "Remake.C147_rules_stay",
    "Remake.C147_makefile_first",
    "Remake.C147_builtin_value",
    "Remake.C147_makefile_value",
    "Remake.C147_recipe_stays",
    "Remake.C147_pattern_rules"
   ],
   "note": "Holds for options given before the makefiles are read (C147_rules, C147_variables). In MAKEFLAGS of a makefile, -r is proved only if .SUFFIXES is not mentioned (C147_makefile_partial) and fails otherwise (C147_suffixes_kept); -R does not imply -r there (C147_rules_stay), and only the variables still built in are removed (C147_makefile_variables)."
  },
  {
   "property": "C148",
   "status": "partial",
   "theorems": [
    "Remake.C148_copied",
    "Remake.C148_none",
    "Remake.C148_removed_partial",
    "Remake.C148_left",
    "Remake.C148_again",
    "Remake.C148_twice",
    "Remake.C148_read_error",
    "Remake.C148_write_error",
    "Remake.C148_write_fatal",
    "Remake.C148_no_file",
    "Remake.C148_directory"
   ],
   "note": "The copy is exact when nothing fails (C148_copied) and stays for restarts (C148_again), but it is removed only if make gets to its goals without a restart (C148_removed_partial); otherwise it stays (C148_left, C148_twice, C148_write_fatal). A failing read or a failing close is silent (C148_read_error, C148_write_error)."
  },
  {
   "property": "C149",
   "status": "partial",
   "theorems": [
    "Remake.C149_included_partial",
    "Remake.C149_description_partial",
    "Remake.C149_comment",
    "Remake.C149_two_lines",
    "Remake.C149_ignored",
    "Remake.C149_eval",
    "Remake.C149_rule_eval",
    "Remake.C149_include",
    "Remake.C149_again",
    "Remake.C149_tasks",
    "Remake.C149_targets"
   ],
   "note": "C149_description_partial: one makefile in which at most one description stands between a rule and the line that ends it; C149_included_partial: any nesting of makefiles in which every description is followed by its rule. False otherwise (C149_two_lines), for branches not taken (C149_ignored), text given to eval (C149_eval), rules that use eval (C149_rule_eval), included makefiles (C149_include), and targets with a later rule (C149_again). A blank after #: is needed (C149_comment). --targets prints all files (C149_targets); --tasks is as stated (C149_tasks)."
  },
  {
   "property": "C150",
   "status": "partial",
   "theorems": [
    "Remake.C150_directories",
    "Remake.C150_curdir_partial",
    "Remake.C150_search",
    "Remake.C150_program",
    "Remake.C150_program_path",
    "Remake.C150_restart_partial",
    "Remake.C150_restart_search",
    "Remake.C150_restart_lost",
    "Remake.C150_restart_back"
   ],
   "note": "C150_curdir_partial and C150_restart_partial are for runs without -c, the latter where make can tell where it started. With -c CURDIR and abspath keep to the directory make was started in (C150_search) and change at a restart (C150_restart_search); a make that could not tell where it was cannot start again under -C (C150_restart_lost)."
  },
  {
   "property": "C151",
   "status": "partial",
   "theorems": [
    "Remake.C151_noticed_partial",
    "Remake.C151_killed_partial",
    "Remake.C151_at_once_partial",
    "Remake.C151_sticky",
    "Remake.C151_closed",
    "Remake.C151_quiet",
    "Remake.C151_no_false_alarm",
    "Remake.C151_restart_forgets",
    "Remake.C151_temporary_lost",
    "Remake.C151_error_lost"
   ],
   "note": "C151_noticed_partial, C151_killed_partial and C151_at_once_partial are about one run of the program (no restart) with temporary files that take and give all text. A restart forgets a failure (C151_restart_forgets); text that a temporary file of -O does not take, or that cannot be read back, is lost with status 0 (C151_temporary_lost); losses on standard error are not noticed, and a failed build is then told as 1 instead of 2 (C151_error_lost); a standard output closed at the start is no failure (C151_closed). C151_sticky and C151_no_false_alarm are general."
  },
  {
   "property": "C152",
   "status": "partial",
   "theorems": [
    "Remake.C152_realpath",
    "Remake.C152_files_partial",
    "Remake.C152_again_partial",
    "Remake.C152_blank"
   ],
   "note": "C152_realpath is general (over kernels that keep the laws of realpath and stat). C152_files_partial and C152_again_partial are for resolved names without blanks and words below the limit for names; a directory with a blank in its name gives two words that lead to no file (C152_blank)."
  },
  {
   "property": "C153",
   "status": "partial",
   "theorems": [
    "Remake.C153_same_partial",
    "Remake.C153_memory_partial",
    "Remake.C153_quits",
    "Remake.C153_use_after_free",
    "Remake.C153_keep_partial",
    "Remake.C153_stop",
    "Remake.C153_skipped"
   ],
   "note": "C153_same_partial and C153_memory_partial are for histories in which no command ends with status 77 (the latter for all histories without the debugger). A command that ends with 77 ends a debugged make at once, whatever -k, -i and the prefix - say (C153_quits); C153_keep_partial and C153_stop say how make ends otherwise; if another job runs, make uses the freed record of the job (C153_use_after_free, C153_skipped)."
  },
  {
   "property": "C154",
   "status": "partial",
   "theorems": [
    "Remake.C154_room_partial",
    "Remake.C154_line_partial",
    "Remake.C154_inplace",
    "Remake.C154_stale",
    "Remake.C154_home"
   ],
   "note": "C154_room_partial needs room in the buffer for each name, which C154_line_partial derives when the names stand in the line that the buffer held; C154_inplace needs no room but an allocator that grows in place; all are for stems without blanks and names without quoted percent signs (see C68). A name that does not fit is built from freed memory when the buffer moves (C154_stale, for all such rules; C154_home, a rule with a long home directory)."
  },
  {
   "property": "C155",
   "status": "partial",
   "theorems": [
    "Remake.C155_name",
    "Remake.C155_time_partial",
    "Remake.C155_no_archive",
    "Remake.C155_freed"
   ],
   "note": "C155_time_partial leaves out entries with date 0: for all of them, which is what ar writes in its deterministic mode, the warning reads the member's name from memory that was freed (C155_freed). C155_name and C155_no_archive are general."
  },
  {
   "property": "C156",
   "status": "proved",
   "theorems": [
    "Remake.C156_call",
    "Remake.C156_history"
   ],
   "note": "For lengths below the limit of size_t, and as long as memory can be had."
  },
  {
   "property": "C157",
   "status": "partial",
   "theorems": [
    "Remake.C157_memory",
    "Remake.C157_level_partial",
    "Remake.C157_deep"
   ],
   "note": "C157_memory is for all levels. C157_level_partial is for levels below 4; from there on all prompts are the same, also at level 4, whose five brackets are all shown (C157_deep)."
  }
 ]
}