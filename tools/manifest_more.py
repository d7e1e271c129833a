M = "Verif.Prelude"
c("C10", "partial", "c10_get_after_set_partial c10_fails_after_delete", "proved for all histories whose deletions are safe; the full claim is false of the code: c10_fails_after_delete", M)
c("C11", "proved", "c11_set_other", "for every map value, well-formed or not, and every lawful context", M)
c("C12", "partial", "c12_delete_partial c12_delete_loses_keys", "false of the code (normalizeHamt lifts subtrees without re-hashing; deleting an absent key can lose present keys): c12_delete_loses_keys; proved when the deletion is safe", M)
c("C13", "partial", "c13_size_partial c13_c14_fail_after_delete", "proved for histories with safe deletions; false otherwise", M)
c("C14", "partial", "c14_iterate_partial c13_c14_fail_after_delete", "proved for histories with safe deletions; false otherwise", M)
c("C15", "partial", "c15_merge_partial c15_fails_after_delete", "proved for histories with safe deletions; false otherwise", M)
c("C16", "partial", "c16_equal_partial c16_same_order c16_fails_after_delete", "proved for histories with safe deletions and reflexive key equality; false otherwise", M)
c("C17", "partial", "c17_set_terminates_iff_partial c17_depth_bound c17_set_diverges Values.c17_nan_diverges", "exact condition proved: set returns iff no different stored key has the same hash; the full claim is false (colliding hashes, NaN keys)", M)
c("C18", "proved", "c18_constructors c18_concatenation_lazy c18_prepend_lazy c18_size c18_size_lazy c18_equal c18_maybe_equal seq_exists_unique", "finite lists; thunks are event logs plus values, memoisation not modelled", M + ".Lists")
c("C19", "partial", "Values.c19_equal_hash_partial Values.c19_generated_lawful Values.c19_lookup c19_map_hash Lists.c19_list_hash_unreachable", "proved for all comparable types without lists; for lists it is false: hashing a non-empty list reaches an unreachable branch (c19_list_hash_unreachable)", M)
R = "Verif.Runtime"
c("C30", "proved", "Arc.c30_freed_exactly_once Arc.c30_static", "fewer than 2^63 handles", R)
c("C31", "proved", "Arc.c31_no_early_or_double_free Arc.c31_no_leak Arc.c31_last_drop_frees", "accesses to the counter are interleaved atomically; handles are only sent to other threads after synchronization", R)
c("C32", "proved", "Arc.c32_unique_iff Arc.c32_unique_exclusive", "", R)
c("C33", "proved", "Stack.c33_stack_lifo Stack.c33_zero_capacity_diverges", "positive initial capacity (with capacity 0 a push never ends); types aligned to at most 8 bytes", R)
c("C34", "proved", "AsyncStack.c34_never_fails AsyncStack.c34_result_iff", "compiled code is modelled by its stack discipline", R)
c("C35", "proved", "Race.c35_prefix Race.c35_complete Race.c35_complete_finite Race.c35_progress Race.c35_terminates Race.c35_sync", "channel and task scheduling by contract; fairness between lists is not claimed", R)

I = "Verif.Mir"
c("C20", "proved", "c20_free_variables c20_closed", "big-step semantics with an arbitrary oracle for foreign calls; both capture disciplines", I)
c("C21", "proved", "c21_concatenation c21_flat", "runs without type errors", I)
c("C22", "partial", "c22_alpha_conversion c22_unique_partial c22_argument_bound_again", "results are preserved for all programs with source names; uniqueness proved for all binders in bodies, false for arguments of global functions bound again: c22_argument_bound_again", I)
c("C23", "proved", "c23_anf c23_normalization c23_normal_form c23_pipeline", "hygienic programs, and all well-named programs after alpha conversion", I)
c("C24", "partial", "c24_alias_removal_partial c24_argument_bound_again", "false of the code when an argument of a global function is bound again (c24_argument_bound_again: the compiled function returns another result); proved otherwise", I)
c("C25", "proved", "c25_environments c25_exact", "the order in which a closure stores its free variables is not modelled (the code collects them from an unordered set)", I)
c("C26", "proved", "c26_lambda_lifting c26_after_inference c26_pipeline", "thunks are re-evaluated in the semantics, so moving a thunk without free variables to the top level (memoised once per program instead of once per closure) is not distinguished", I)
c("C27", "partial", "c27_validate_partial c29_leak_with_shadowing", "proved for programs in the form the earlier passes produce in which no local variable is bound in the scope of one of the same name; with such shadowing the validator accepts a program that leaks (c29_leak_with_shadowing)", I)
c("C28", "partial", "c28_no_use_after_free_partial c28_heap_refines_partial", "no use after free and the same outcome as the program without a heap, for all inputs, oracles and fuels; missing: programs in which a local variable is bound in the scope of one of the same name; that the passes before give such programs is proved in C50", I)
c("C29", "partial", "c29_no_leak_partial c29_returns_partial c29_leak_with_shadowing", "no leaks on any path including early returns; false with shadowing: c29_leak_with_shadowing", I)

P_ = "Verif.Parse"
c("C36", "proved", "c36_precedence c36_reduce_tree grouped_unique", "operator chains of any length", P_)
c("C37", "partial", "c37_string_literal_partial c37_accepted_partial c37_escaped_backslash c37_escaped_backslash_hex parseLiteral_sound parseLiteral_complete", "proved for literals in which no escaped backslash is followed by a character that forms another escape; false otherwise: the escapes are replaced one after another (c37_escaped_backslash)", P_)
c("C38", "partial", "c38_format_then_parse c38_roundtrip_partial c38_regroups c38_not_before_try c38_binary_before_field c38_format_idempotent c38_string_roundtrip", "false of the code: `5 - (3 - 1)` is formatted as `5 - 3 - 1` (c38_regroups); the exact set of trees that survive is proved; tokens given, atoms opaque", P_)
A_ = "Verif.App"
c("C39", "partial", "c39_all_dependencies c39_no_panic c39_order c39_acyclic_finishes c39_acyclic_sorted c39_cycle_not_reported c39_cycle_diverges toposort_exists", "order proved for acyclic graphs; cycles are not reported: reading package configurations recurses forever (c39_cycle_diverges); petgraph toposort by contract", A_)
c("C40", "partial", "c40_relative_join c40_relative_sound_partial c40_longer_base c40_extension_stem c40_has_extension c40_extension_unique c40_module_path c40_module_files_distinct", "relative_to of a base longer than the path is wrongly accepted (c40_longer_base)", A_)
c("C45", "partial", "c45_no_separator c45_distinct_partial c45_collision", "proved for locations that differ in more than separators; false in general (c45_collision)", A_)
K_ = "Verif.Pkg"
c("C41", "partial", "Json.c41_roundtrip_partial Json.c41_string_iff Json.c41_decode_iff Json.c41_unambiguous Json.c41_last_entry Json.decode_not_deep Json.c41_backslash Json.c41_last_backslash Json.c41_not_utf8 Json.c41_nan", "the decoder is proved to read exactly a grammar, and decode(encode(v)) = v is proved for all values whose strings survive, with the exact set of these strings (c41_string_iff); the full claim is false of the code: the decoder does not undo escaped backslashes (c41_backslash, c41_last_backslash), quotes of strings that are not UTF-8 are not escaped (c41_not_utf8), NaN is rejected (c41_nan); f64 conversions by contract", K_)
c("C42", "proved", "Flag.c42_parse_iff Flag.c42_error_iff Flag.c42_no_panic Flag.c42_unique", "arguments shorter than 2^64-1 bytes; the map of named flags is a partial function", K_)
c("C43", "partial", "c43_slice c43_slice_infinite c43_slice_panics_iff c43_slice_start_zero c43_view_new c43_view_length c43_view_to_string c43_view_starts_with c43_view_slice c43_view_seek c43_view_slice_escapes c43_view_slice_panics c43_starts_with", "proved for start indexes of at least one, with the exact condition for panics; false otherwise: Byte'Slice(\"hi\", 0, 1) panics, and slices of views with start indexes below one show bytes before the view", K_)
c("C44", "proved", "Html.c44_error_iff Html.c44_no_injection Html.c44_injective Html.c44_not_utf8_dropped Html.c44_heading_rejected", "a separate HTML reader recovers exactly the tags, attributes and texts of the tree; html-escape by its documented replacements", K_)
c("C46", "partial", "Thunk.c46_evaluated_once_partial Thunk.c46_same_result_partial Thunk.c46_no_fault_partial Thunk.c46_no_leak_partial Thunk.c46_progress_partial Thunk.c46_wait_free_partial Thunk.c46_early_return_hangs", "proved for bodies that do not leave through the error operator; false otherwise: a global function without arguments is a static thunk, and an early return leaves its entry function locked, so every later call waits for ever (c46_early_return_hangs)", R)
c("C47", "partial", "c47_accepted_programs_do_not_go_wrong_partial c47_closed_programs_partial c47_list_elements_partial c47_go_with_try_goes_wrong c47_keys_with_try_goes_wrong c47_try_in_error_function_goes_wrong c47_iteratee_scope_counterexample Verif.Names.c47_source_modules_partial Verif.Names.analyze_hir Verif.Names.interface_closed", "false of the code for the error operator in arguments of `go`, `keys`, `values` and `race` and in functions whose result type is exactly `error` (counterexamples); proved otherwise, except for list comprehensions where a name of a branch occurs in a later iteratee of it, whose iteratees the checker reads in another scope than the other passes do (counterexample to accepting programs up to bound names)", "Verif.Hir")
c("C48", "partial", "c48_literal c48_last_wins_partial c48_spread_does_not_override", "false of the code: what precedes a spread map overrides its entries (c48_spread_does_not_override); what literals mean is proved exactly (c48_literal), and the claim for spread maps that share no key with what precedes them", "Verif.Prelude")
c("C49", "proved", "c49_literal c49_comprehension c49_elements c49_lazy_first", "lists are finite; expressions are functions of the bindings with a log of events", "Verif.Prelude.Lists")
c("C50", "partial", "c50_accepts_partial c50_behaviour_partial c50_memory_partial c29_leak_with_shadowing", "all passes together (without the type checks of MIR), for every module in which no argument of a global function is bound again in its body; false otherwise (c29_leak_with_shadowing)", I)
c("C51", "partial", "c51_values_partial c51_divergence_partial c51_accepted_programs_partial c51_whole_compiler_partial c51_accepted_programs_run_partial compile_frontEnd", "missing: lists, maps, comparison of values other than numbers and strings (expressed before lowering by calls of generated functions and of the prelude), built-in functions other than `error` and `source`, and memoisation of functions without arguments; type ids of the types in variants are assumed not to collide", "Verif.Lower")
c("C52", "partial", "c52_comparison_is_structural_partial c52_lowering_preserves_comparisons_partial c52_element_comparison_partial c52_incomparable_operands_are_rejected c52_operands_of_none_are_not_evaluated c52_lists_of_anything_are_accepted", "proved for values without lists, maps, functions and errors; false of the code for operands of the type `none`, which are not evaluated (c52_operands_of_none_are_not_evaluated); lists and maps of incomparable types are not rejected by this transformation (c52_lists_of_anything_are_accepted)", "Verif.Hir")
c("C53", "proved", "c53_functions c53_types c53_unknown_names c53_full_names_distinct c53_interfaces_compiled c53_import c53_private_functions c53_private_types c53_declarations c53_imported_types_public c53_import_hides_foreign c53_mentioned_types", "from the HIR that the syntax tree is converted to (for the conversion see C68); an imported function hides a foreign declaration of the same name (c53_import_hides_foreign)", "Verif.Names")
c("C54", "partial", "c54_record_operations_partial c54_private_fields_partial c54_accesses_have_types c54_interfaces_agree c54_accepts c54_condition_reads_private_field", "false of the code in conditions of list comprehensions, which the visitor leaves out: a module can read private fields there (c54_condition_reads_private_field); proved everywhere else", "Verif.Names")
c("C55", "partial", "c55_unused_errors_partial c55_errors_rejected c55_accepts c55_condition_ignores_error", "false of the code in conditions of list comprehensions, which the visitor leaves out (c55_condition_ignores_error); proved everywhere else", "Verif.Names")
c("C56", "partial", "c56_same_values_have_the_same_hash_partial c56_degenerate_field_goes_wrong", "proved for values without lists, maps, functions and errors; false of the code for records with a field whose type is written as a union but denotes one type, as `number | number` (c56_degenerate_field_goes_wrong)", "Verif.Hir")
c("C57", "partial", "c57_formatted_module_is_parsed_back_partial c57_format_then_parse_partial c57_formatting_is_idempotent_partial c57_layout_does_not_matter_partial c57_imports_are_sorted_partial c57_parsed_modules_are_well_formed c57_right_operand_counterexample c57_called_operation_counterexample c57_field_of_operation_counterexample c57_called_negation_counterexample c57_field_of_number_counterexample c57_union_with_function_counterexample c57_union_counterexample c57_condition_counterexample c57_signed_number_counterexample c57_record_counterexample", "the whole syntax of modules on characters; false of the code for six shapes that the formatter writes without the parentheses they need (one counterexample each), and proved for all modules without them; which white space and comments the formatter chooses is left open (any)", "Verif.Grammar")
c("C58", "proved", "c58_parsed_texts_are_in_the_grammar c58_other_texts_are_rejected c58_formatted_texts_are_in_the_grammar_partial", "the grammar is a separate relation between modules and texts (Language.lean); that every text of the grammar is parsed is not claimed (the grammar is ambiguous where statements follow each other), only for formatted texts", "Verif.Grammar")
c("C59", "proved", "c59_parsing_ends c59_bound_does_not_matter", "nom's combinators are modelled by their documented behaviour, including the error for repetitions that consume nothing", "Verif.Grammar")
c("C60", "partial", "c60_no_use_after_free_partial c60_no_data_race_partial c60_reachable_live_partial c60_counts_partial c60_collected_partial c60_no_leak_partial c60_shared_synchronized_partial c60_deep_partial c60_update_exclusive_partial c60_progress_partial c60_update_race c60_thunk_race", "false of the code in two ways, each with an execution that ends in a use after free: a record that is synchronized and unique is updated in place with a value that is not synchronized (c60_update_race), and results of thunks are not synchronized (c60_thunk_race); proved for all executions without these two. Counts do not overflow, addresses are not reused, and relaxed loads may be stale", "Verif.Runtime.Graph")
c("C61", "partial", "c61_characters c61_characters_invalid c61_length c61_length_invalid c61_starts_with c61_ends_with c61_contains c61_find_partial c61_find_none c61_find_empty c61_slice c61_slice_finite c61_slice_total c61_slice_invalid c61_split c61_split_empty c61_split_invalid c61_split_join c61_join c61_concatenate c61_replace c61_replace_invalid c61_trim_start c61_trim_end c61_trim c61_trim_empty c61_trim_invalid c61_code_point c61_to_code_point c61_to_code_point_none c61_from_code_point_none c61_from_code_point_bad", "false of the code in two cases: `Find` does not find the empty string in the empty string, although it is contained (c61_find_empty), and `FromCodePoint` of negative numbers and of NaN is the character 0 (c61_from_code_point_bad). Functions of Rust's str by their documentation; changing case and trimming white space are not modelled", "Verif.Pkg.Utf8")
c("C62", "partial", "c62_builds_agree_partial c62_built_files_are_current_partial c62_clean_build_ends_partial c62_objects_agree_partial c62_archives_have_objects c62_archives_have_all_modules c62_configurations_are_missed c62_removed_modules_stay", "proved for histories in which source files are written and added; false of the code in two ways: changes of package configurations do not lead to dependencies being resolved again (c62_configurations_are_missed), and objects of removed modules stay in archives (c62_removed_modules_stay); with removed modules everything but archives and linked files is right (c62_objects_agree_partial), and archives have the right objects of all modules that are left (c62_archives_have_objects). The build tool (turtle, not in the repository) is modelled by its documentation; packages with foreign code are not modelled", "Verif.App.Build")
c("C63", "partial", "c63_checker c63_sound c63_total c63_middle_end_partial c63_environment_counterexample c63_fallback_counterexample c63_ids_counterexample c63_missing_alternative", "the checker is proved to accept exactly the typing rules; soundness needs what the checker does not check, each with a counterexample: environments of closures are trusted (c63_environment_counterexample; there are none at the first check), a variable may hide the fallback of type information (c63_fallback_counterexample), types may have the same id (c63_ids_counterexample; see C64), and a variant that no alternative matches stops the program (c63_missing_alternative). The middle end as in C50", "Verif.Mir.Typed")
c("C64", "partial", "c64_found_partial c64_globals_partial c64_ids_partial c64_default_counterexample c64_names_counterexample Verif.Lower.c64_lowered_partial Verif.Lower.c64_condition_counterexample", "false of the code: conditions of list comprehensions are not visited, so that a module that makes a variant of a function only there has no type information for it (c64_condition_counterexample); default alternatives without others are not collected from (c64_default_counterexample, which the front end does not generate), and names of records are not quoted in what ids are hashed from (c64_names_counterexample). Proved otherwise; hashes are assumed not to collide; lowering as in C51", "Verif.Mir.Typed")
c("C65", "partial", "c65_typed_partial c65_total_partial c65_erased c65_fields_counterexample", "false of the code: names of fields of a record are not checked to differ, and a module with a record with two fields of one name is accepted and then fails in the type check of what it is lowered to (c65_fields_counterexample). Proved otherwise for the fragment of C51 (no lists, maps and built-in functions other than those of errors; equality of numbers and strings), with all functions for type information; hashes of types of a module are assumed not to collide, and names of functions not to be ones the compiler makes up", "Verif.Lower")
c("C66", "partial", "c66_equal_partial c66_debug_partial c66_print_partial Data.equal_symm Data.equal_plain Data.equal_refl c66_evaluates_twice c66_goes_wrong c66_debug_ambiguous", "false of the code: the argument of `debug`, the argument of the debug function and the first one of the equality function are evaluated twice (c66_evaluates_twice), and where the two evaluations give values of different types the program goes wrong (c66_goes_wrong); strings are printed without escapes, so that different values have the same text (c66_debug_ambiguous). Proved for arguments that are variables, with values of types of the module without lists and maps", "Verif.Lower")
c("C67", "partial", "c67_sources_that_are_formatted c67_output_is_a_rendering c67_output_ends_with_a_line_break c67_program_is_kept_partial c67_comments_are_found c67_comments_of_a_text_are_unique c67_every_comment_is_written_once c67_no_comment_is_lost c67_no_comment_is_made_up c67_comments_stay_in_order_partial c67_comments_on_their_own_lines_are_kept_partial c67_written_comments_are_trimmed c67_can_be_formatted_again_partial c67_comments_are_kept_again_partial c67_comments_can_be_merged c67_comments_can_be_swapped c67_comments_can_leave_their_imports c67_white_space_is_not_formatted", "false of the code: comments at ends of lines can be written on one line, where they are a single comment (c67_comments_can_be_merged), comments between arguments can change places (c67_comments_can_be_swapped), comments of imports do not move with them when they are sorted (c67_comments_can_leave_their_imports), a source of nothing but white space is rejected (c67_white_space_is_not_formatted), and the shapes of C57 change the program. Proved for all sources and layouts: no comment is lost, made up or written twice and none hides a part of the program; order where first arguments are on lines of their own; comments as they are where they are on lines of their own. The crate mfmt is modelled by its use and the tests of the formatter", "Verif.Grammar")
c("C68", "partial", "c68_conversion_succeeds c68_literal_values c68_conversion_keeps_what_is_written c68_programs_do_not_go_wrong_partial c68_names c68_private_fields_partial c68_formatting_keeps_meaning_partial c68_compiled_programs_run_partial c68_formatting_changes_meaning", "false of the code: formatting sorts imports, and of two imports that offer the same name the last one counts, so that formatting can change which function a name stands for (c68_formatting_changes_meaning); conditions of list comprehensions read private fields (C54). Type soundness is that of C47 (TameModule); interfaces of the prelude are assumed to be those of compiled modules, and rounding of numbers is left open. Running the compiled code on a heap (c68_compiled_programs_run_partial) is for modules in the fragment of C51", "Verif.Front")
c("C69", "partial", "c69_accepted_tests c69_reports_partial c69_empty_error_passes", "false of the code: success and the message of a failed test are handed over as the same string, and a test that results in `error(\"\")` is reported to pass, with exit code 0 (c69_empty_error_passes). Proved otherwise for whole programs and test modules compiled from their texts; type soundness is that of C47 (TameModule); symbols of tests, which contain hashes of their names, are assumed to differ; lines of the report are not formatted", "Verif.Tests")
c("C70", "proved", "c70_analysis_ends c70_one_outcome c70_type_analysis_ends c70_compilation_ends c70_programs_end c70_cycles_have_no_canonical_types", "for the functions as they are modelled, with a bound on the depth of recursion; that there is a bound that suffices, and that it does not matter which, is what is proved. Parsing is C59. Sizes of stacks are not modelled", "Verif.Front")
c("C71", "partial", "c71_documented_modules c71_documented_definitions c71_text c71_definition_comments c71_module_comment c71_private_parts_do_not_matter c71_shown_types_are_read_back_partial c71_shown_signatures_are_read_back_partial c71_trailing_comment_counterexample c71_import_comment_counterexample", "false of the code for comments at ends of lines: one at the end of the line of a private definition is shown as the comment of a public definition on the next line (c71_trailing_comment_counterexample), and one at the end of the first line as that of the module (c71_import_comment_counterexample); types that the formatter does not write faithfully (C57) are shown so too. Lines of nodes are a parameter, as in C67; finding and reading files is not modelled", "Verif.Doc")
c("C72", "partial", "c72_found c72_found_once c72_imports_are_found c72_modules_have_paths c72_format c72_check c72_check_then_format c72_format_then_check_partial c72_packages_that_are_formatted c72_programs_are_kept_partial c72_format_is_not_atomic c72_format_is_not_stable", "false of the code in that a package can be found not to be formatted right after it has been formatted, since what the formatter writes is not always what it is formatted to (c72_format_is_not_stable); where formatting fails because of a module, other modules have been written already (c72_format_is_not_atomic). Programs are kept but for the shapes of C57. Lines of nodes are a parameter, as in C67; symbolic links, and errors of reading and writing, are not modelled", "Verif.App")
c("C73", "partial", "c73_to_integer c73_to_integer_nan c73_from_integer c73_integers_round_trip c73_small_round_trip c73_bitwise c73_bits c73_left_shift_64 c73_right_shift_64 c73_shifts c73_maximum_minimum c73_integer_range c73_sequence c73_range_ends c73_sum c73_sum_of_sequence c73_range_to_nan_is_endless c73_large_range_is_endless c73_shift_by_64 c73_equality_of_64_bit_integers c73_complement_is_rounded c73_maximum_of_zeros c73_range_of_one_number_is_endless c73_sum_order", "false of the code in these cases: shifts take counts modulo 64, so that a shift by 64 bits does nothing (c73_shift_by_64); ranges that have 2^53 in them never end, even the one from 2^53 to itself, nor do ranges to what is not a number (c73_large_range_is_endless, c73_range_to_nan_is_endless, c73_range_of_one_number_is_endless); `==` does not compare 64-bit integers as integers (c73_equality_of_64_bit_integers). Proved otherwise, over a model of IEEE 754 numbers as bit patterns, with rounding; other functions of the modules, which call those of the math library, are not modelled", "Verif.Core.Numbers")
c("C74", "proved", "c74_any_true c74_any_false c74_all_false c74_all_true c74_any_all c74_first c74_last c74_values_of_a_type c74_values_of_a_type_are_lazy c74_values_of_a_type_once c74_sum c74_sum_of_integers", "for lists with finite spines, over the lists of C18; events are those of first evaluations (C46)", "Verif.Core.Lists")
c("C75", "partial", "c75_assert_equal c75_assertions c75_states_of_one_thread c75_states_of_threads c75_nan_is_not_equal_to_itself c75_different_integers_are_equal c75_set_is_lost c75_get_misses_value c75_frozen_states_change", "false of the code for states that several threads use: getting a value is two exchanges of the contents, between which other threads get `none` (c75_get_misses_value) and values they set are lost (c75_set_is_lost); freezing has no effect (c75_frozen_states_change). Proved for one thread, and for any threads that no value is made up. Assertions are proved for values without lists and maps (C66)", "Verif.Tests.Assert")
c("C76", "partial", "c76_native_lists c76_streams_of_lists c76_streams_end c76_lists_there_and_back c76_received_headers c76_sent_headers c76_headers_there_and_back c76_headers_are_sent c76_repeated_headers_are_lost c76_capital_letters_are_lost", "false of the code for headers that occur on several lines, such as those that set cookies: all but the last line of a name are lost (c76_repeated_headers_are_lost); names with capital letters are not found by the receiver because the HTTP library writes them in lower case (c76_capital_letters_are_lost). Proved for maps of headers whose names and values the library leaves as they are, for any order in which the lines arrive; maps are those built by operations (C14), with a sufficient budget of the recursion where an operation has a result", "Verif.Pkg.Boundary")
c("C77", "partial", "c77_names c77_files_are_inside c77_there_and_back c77_different_files c77_given_from_the_root c77_given_from_the_package c77_directories c77_nearest_package c77_packages_are_found c77_created_from_the_root c77_created_from_the_current_directory c77_nested_packages_are_misplaced c77_parent_is_not_created c77_parents_are_dropped c77_parents_escape c77_separators_collide c77_backslashes_are_lost", "false of the code for packages created in a directory below the current one: `pen create foo/bar` creates foo/foo/bar (c77_created_from_the_current_directory, c77_nested_packages_are_misplaced), `pen create ..` the current directory (c77_parent_is_not_created); parent directories in relative paths are dropped (c77_parents_are_dropped), names with separators or backslashes are those of other files (c77_separators_collide, c77_backslashes_are_lost). Proved for paths of plain names in absolute directories; without symbolic links and names that are not UTF-8", "Verif.App.OsPath")
c("C78", "proved", "c78_dropped_once c78_no_leaks c78_clones c78_wrapped c78_unwrapped c78_references", "for native types whose `Clone` makes an independent copy, and type information that is at different addresses for different types; synchronization of native values, which does nothing, and conversions into Pen's own types are not modelled", "Verif.Pkg.NativeAny")
c("C79", "partial", "c79_read c79_read_ends c79_read_limit c79_readings c79_write c79_write_all c79_open c79_options c79_partial_writes c79_failed_reads_lose c79_append_and_truncate", "false of the code if a call fails while a file is read: what was read of it before is lost (c79_failed_reads_lose); Write may write only some of the data, as its result says (c79_partial_writes). Proved for the synchronous package and any outcomes of system calls that do not fail; the asynchronous package buffers files and is not modelled", "Verif.Pkg.FileIo")
c("C80", "proved", "c80_contexts_of_packages c80_all_packages c80_start c80_context_type c80_no_main", "the expression that the pass makes is evaluated from left to right for any behaviour of functions; its compilation to MIR is that of C51", "Verif.Hir.MainFunction")
c("C81", "partial", "c81_conditionals_partial c81_lazy_elements c81_variables_are_captured", "false of the code for the last branch of a conditional on a map that uses a variable outside with the name that the conditional binds: the transformation binds it there too, to the value of the prelude for no value (c81_variables_are_captured; the variable has another type then, so that later passes may reject what was accepted). Proved for all other programs of the modelled expressions; the functions of the prelude are those of C11 and C14", "Verif.Lower.Collections")
