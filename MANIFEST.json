{
 "claims": [
  {
   "property": "C01",
   "status": "proved",
   "theorems": [
    "Verif.Hir.c01_idempotent",
    "Verif.Hir.c01_no_alias",
    "Verif.Hir.c01_unions",
    "Verif.Hir.c01_same_type",
    "Verif.Hir.c01_alias"
   ],
   "note": "canonicaliser with fuel; original_name and positions dropped"
  },
  {
   "property": "C02",
   "status": "proved",
   "theorems": [
    "Verif.Hir.c02_equality",
    "Verif.Hir.c02_terminates",
    "Verif.Hir.c02_rearranged"
   ],
   "note": "equality check = ACI congruence of alias-expanded types"
  },
  {
   "property": "C03",
   "status": "proved",
   "theorems": [
    "Verif.Hir.c03_assignable",
    "Verif.Hir.c03_terminates",
    "Verif.Hir.c03_refl",
    "Verif.Hir.c03_trans",
    "Verif.Hir.c03_antisymm",
    "Verif.Hir.c03_top",
    "Verif.Hir.c03_members"
   ],
   "note": "subsumption check = least preorder with any as top and union as join"
  },
  {
   "property": "C04",
   "status": "proved",
   "theorems": [
    "Verif.Hir.c04_left",
    "Verif.Hir.c04_right",
    "Verif.Hir.c04_least"
   ],
   "note": ""
  },
  {
   "property": "C05",
   "status": "proved",
   "theorems": [
    "Verif.Hir.c05_none",
    "Verif.Hir.c05_members"
   ],
   "note": ""
  },
  {
   "property": "C06",
   "status": "proved",
   "theorems": [
    "Verif.Hir.c06_injective",
    "Verif.Hir.c06_functional"
   ],
   "note": "identity strings before the 64-bit DefaultHasher; record names without ')'"
  },
  {
   "property": "C07",
   "status": "proved",
   "theorems": [
    "Verif.Hir.c07_resolves",
    "Verif.Hir.c07_rejected_cyclic"
   ],
   "note": "petgraph toposort modelled by an algorithm with the same proved contract"
  },
  {
   "property": "C08",
   "status": "proved",
   "theorems": [
    "Verif.Hir.c08_comparable",
    "Verif.Hir.c08_terminates"
   ],
   "note": ""
  },
  {
   "property": "C09",
   "status": "partial",
   "theorems": [
    "Verif.Hir.c09_sound",
    "Verif.Hir.c09_incomplete",
    "Verif.Hir.c09_complete_partial"
   ],
   "note": "soundness proved; completeness is false of the code (c09_incomplete: two mutually recursive records behind unions are accepted); completeness proved when no field is a union of records only"
  },
  {
   "property": "C10",
   "status": "partial",
   "theorems": [
    "Verif.Prelude.c10_get_after_set_partial",
    "Verif.Prelude.c10_fails_after_delete"
   ],
   "note": "proved for all histories whose deletions are safe; the full claim is false of the code: c10_fails_after_delete"
  },
  {
   "property": "C11",
   "status": "proved",
   "theorems": [
    "Verif.Prelude.c11_set_other"
   ],
   "note": "for every map value, well-formed or not, and every lawful context"
  },
  {
   "property": "C12",
   "status": "partial",
   "theorems": [
    "Verif.Prelude.c12_delete_partial",
    "Verif.Prelude.c12_delete_loses_keys"
   ],
   "note": "false of the code (normalizeHamt lifts subtrees without re-hashing; deleting an absent key can lose present keys): c12_delete_loses_keys; proved when the deletion is safe"
  },
  {
   "property": "C13",
   "status": "partial",
   "theorems": [
    "Verif.Prelude.c13_size_partial",
    "Verif.Prelude.c13_c14_fail_after_delete"
   ],
   "note": "proved for histories with safe deletions; false otherwise"
  },
  {
   "property": "C14",
   "status": "partial",
   "theorems": [
    "Verif.Prelude.c14_iterate_partial",
    "Verif.Prelude.c13_c14_fail_after_delete"
   ],
   "note": "proved for histories with safe deletions; false otherwise"
  },
  {
   "property": "C15",
   "status": "partial",
   "theorems": [
    "Verif.Prelude.c15_merge_partial",
    "Verif.Prelude.c15_fails_after_delete"
   ],
   "note": "proved for histories with safe deletions; false otherwise"
  },
  {
   "property": "C16",
   "status": "partial",
   "theorems": [
    "Verif.Prelude.c16_equal_partial",
    "Verif.Prelude.c16_same_order",
    "Verif.Prelude.c16_fails_after_delete"
   ],
   "note": "proved for histories with safe deletions and reflexive key equality; false otherwise"
  },
  {
   "property": "C17",
   "status": "partial",
   "theorems": [
    "Verif.Prelude.c17_set_terminates_iff_partial",
    "Verif.Prelude.c17_depth_bound",
    "Verif.Prelude.c17_set_diverges",
    "Verif.Prelude.Values.c17_nan_diverges"
   ],
   "note": "exact condition proved: set returns iff no different stored key has the same hash; the full claim is false (colliding hashes, NaN keys)"
  },
  {
   "property": "C18",
   "status": "proved",
   "theorems": [
    "Verif.Prelude.Lists.c18_constructors",
    "Verif.Prelude.Lists.c18_concatenation_lazy",
    "Verif.Prelude.Lists.c18_prepend_lazy",
    "Verif.Prelude.Lists.c18_size",
    "Verif.Prelude.Lists.c18_size_lazy",
    "Verif.Prelude.Lists.c18_equal",
    "Verif.Prelude.Lists.c18_maybe_equal",
    "Verif.Prelude.Lists.seq_exists_unique"
   ],
   "note": "finite lists; thunks are event logs plus values, memoisation not modelled"
  },
  {
   "property": "C19",
   "status": "partial",
   "theorems": [
    "Verif.Prelude.Values.c19_equal_hash_partial",
    "Verif.Prelude.Values.c19_generated_lawful",
    "Verif.Prelude.Values.c19_lookup",
    "Verif.Prelude.c19_map_hash",
    "Verif.Prelude.Lists.c19_list_hash_unreachable"
   ],
   "note": "proved for all comparable types without lists; for lists it is false: hashing a non-empty list reaches an unreachable branch (c19_list_hash_unreachable)"
  },
  {
   "property": "C30",
   "status": "proved",
   "theorems": [
    "Verif.Runtime.Arc.c30_freed_exactly_once",
    "Verif.Runtime.Arc.c30_static"
   ],
   "note": "fewer than 2^63 handles"
  },
  {
   "property": "C31",
   "status": "proved",
   "theorems": [
    "Verif.Runtime.Arc.c31_no_early_or_double_free",
    "Verif.Runtime.Arc.c31_no_leak",
    "Verif.Runtime.Arc.c31_last_drop_frees"
   ],
   "note": "accesses to the counter are interleaved atomically; handles are only sent to other threads after synchronization"
  },
  {
   "property": "C32",
   "status": "proved",
   "theorems": [
    "Verif.Runtime.Arc.c32_unique_iff",
    "Verif.Runtime.Arc.c32_unique_exclusive"
   ],
   "note": ""
  },
  {
   "property": "C33",
   "status": "proved",
   "theorems": [
    "Verif.Runtime.Stack.c33_stack_lifo",
    "Verif.Runtime.Stack.c33_zero_capacity_diverges"
   ],
   "note": "positive initial capacity (with capacity 0 a push never ends); types aligned to at most 8 bytes"
  },
  {
   "property": "C34",
   "status": "proved",
   "theorems": [
    "Verif.Runtime.AsyncStack.c34_never_fails",
    "Verif.Runtime.AsyncStack.c34_result_iff"
   ],
   "note": "compiled code is modelled by its stack discipline"
  },
  {
   "property": "C35",
   "status": "proved",
   "theorems": [
    "Verif.Runtime.Race.c35_prefix",
    "Verif.Runtime.Race.c35_complete",
    "Verif.Runtime.Race.c35_complete_finite",
    "Verif.Runtime.Race.c35_progress",
    "Verif.Runtime.Race.c35_terminates",
    "Verif.Runtime.Race.c35_sync"
   ],
   "note": "channel and task scheduling by contract; fairness between lists is not claimed"
  },
  {
   "property": "C20",
   "status": "proved",
   "theorems": [
    "Verif.Mir.c20_free_variables",
    "Verif.Mir.c20_closed"
   ],
   "note": "big-step semantics with an arbitrary oracle for foreign calls; both capture disciplines"
  },
  {
   "property": "C21",
   "status": "proved",
   "theorems": [
    "Verif.Mir.c21_concatenation",
    "Verif.Mir.c21_flat"
   ],
   "note": "runs without type errors"
  },
  {
   "property": "C22",
   "status": "partial",
   "theorems": [
    "Verif.Mir.c22_alpha_conversion",
    "Verif.Mir.c22_unique_partial",
    "Verif.Mir.c22_argument_bound_again"
   ],
   "note": "results are preserved for all programs with source names; uniqueness proved for all binders in bodies, false for arguments of global functions bound again: c22_argument_bound_again"
  },
  {
   "property": "C23",
   "status": "proved",
   "theorems": [
    "Verif.Mir.c23_anf",
    "Verif.Mir.c23_normalization",
    "Verif.Mir.c23_normal_form",
    "Verif.Mir.c23_pipeline"
   ],
   "note": "hygienic programs, and all well-named programs after alpha conversion"
  },
  {
   "property": "C24",
   "status": "partial",
   "theorems": [
    "Verif.Mir.c24_alias_removal_partial",
    "Verif.Mir.c24_argument_bound_again"
   ],
   "note": "false of the code when an argument of a global function is bound again (c24_argument_bound_again: the compiled function returns another result); proved otherwise"
  },
  {
   "property": "C25",
   "status": "proved",
   "theorems": [
    "Verif.Mir.c25_environments",
    "Verif.Mir.c25_exact"
   ],
   "note": "the order in which a closure stores its free variables is not modelled (the code collects them from an unordered set)"
  },
  {
   "property": "C26",
   "status": "proved",
   "theorems": [
    "Verif.Mir.c26_lambda_lifting",
    "Verif.Mir.c26_after_inference",
    "Verif.Mir.c26_pipeline"
   ],
   "note": "thunks are re-evaluated in the semantics, so moving a thunk without free variables to the top level (memoised once per program instead of once per closure) is not distinguished"
  },
  {
   "property": "C27",
   "status": "partial",
   "theorems": [
    "Verif.Mir.c27_validate_partial",
    "Verif.Mir.c29_leak_with_shadowing"
   ],
   "note": "proved for programs in the form the earlier passes produce in which no local variable is bound in the scope of one of the same name; with such shadowing the validator accepts a program that leaks (c29_leak_with_shadowing)"
  },
  {
   "property": "C28",
   "status": "partial",
   "theorems": [
    "Verif.Mir.c28_no_use_after_free_partial",
    "Verif.Mir.c28_heap_refines_partial"
   ],
   "note": "no use after free and the same outcome as the program without a heap, for all inputs, oracles and fuels; missing: programs in which a local variable is bound in the scope of one of the same name; that the passes before give such programs is proved in C50"
  },
  {
   "property": "C29",
   "status": "partial",
   "theorems": [
    "Verif.Mir.c29_no_leak_partial",
    "Verif.Mir.c29_returns_partial",
    "Verif.Mir.c29_leak_with_shadowing"
   ],
   "note": "no leaks on any path including early returns; false with shadowing: c29_leak_with_shadowing"
  },
  {
   "property": "C36",
   "status": "proved",
   "theorems": [
    "Verif.Parse.c36_precedence",
    "Verif.Parse.c36_reduce_tree",
    "Verif.Parse.grouped_unique"
   ],
   "note": "operator chains of any length"
  },
  {
   "property": "C37",
   "status": "partial",
   "theorems": [
    "Verif.Parse.c37_string_literal_partial",
    "Verif.Parse.c37_accepted_partial",
    "Verif.Parse.c37_escaped_backslash",
    "Verif.Parse.c37_escaped_backslash_hex",
    "Verif.Parse.parseLiteral_sound",
    "Verif.Parse.parseLiteral_complete"
   ],
   "note": "proved for literals in which no escaped backslash is followed by a character that forms another escape; false otherwise: the escapes are replaced one after another (c37_escaped_backslash)"
  },
  {
   "property": "C38",
   "status": "partial",
   "theorems": [
    "Verif.Parse.c38_format_then_parse",
    "Verif.Parse.c38_roundtrip_partial",
    "Verif.Parse.c38_regroups",
    "Verif.Parse.c38_not_before_try",
    "Verif.Parse.c38_binary_before_field",
    "Verif.Parse.c38_format_idempotent",
    "Verif.Parse.c38_string_roundtrip"
   ],
   "note": "false of the code: `5 - (3 - 1)` is formatted as `5 - 3 - 1` (c38_regroups); the exact set of trees that survive is proved; tokens given, atoms opaque"
  },
  {
   "property": "C39",
   "status": "partial",
   "theorems": [
    "Verif.App.c39_all_dependencies",
    "Verif.App.c39_no_panic",
    "Verif.App.c39_order",
    "Verif.App.c39_acyclic_finishes",
    "Verif.App.c39_acyclic_sorted",
    "Verif.App.c39_cycle_not_reported",
    "Verif.App.c39_cycle_diverges",
    "Verif.App.toposort_exists"
   ],
   "note": "order proved for acyclic graphs; cycles are not reported: reading package configurations recurses forever (c39_cycle_diverges); petgraph toposort by contract"
  },
  {
   "property": "C40",
   "status": "partial",
   "theorems": [
    "Verif.App.c40_relative_join",
    "Verif.App.c40_relative_sound_partial",
    "Verif.App.c40_longer_base",
    "Verif.App.c40_extension_stem",
    "Verif.App.c40_has_extension",
    "Verif.App.c40_extension_unique",
    "Verif.App.c40_module_path",
    "Verif.App.c40_module_files_distinct"
   ],
   "note": "relative_to of a base longer than the path is wrongly accepted (c40_longer_base)"
  },
  {
   "property": "C45",
   "status": "partial",
   "theorems": [
    "Verif.App.c45_no_separator",
    "Verif.App.c45_distinct_partial",
    "Verif.App.c45_collision"
   ],
   "note": "proved for locations that differ in more than separators; false in general (c45_collision)"
  },
  {
   "property": "C41",
   "status": "partial",
   "theorems": [
    "Verif.Pkg.Json.c41_roundtrip_partial",
    "Verif.Pkg.Json.c41_string_iff",
    "Verif.Pkg.Json.c41_decode_iff",
    "Verif.Pkg.Json.c41_unambiguous",
    "Verif.Pkg.Json.c41_last_entry",
    "Verif.Pkg.Json.decode_not_deep",
    "Verif.Pkg.Json.c41_backslash",
    "Verif.Pkg.Json.c41_last_backslash",
    "Verif.Pkg.Json.c41_not_utf8",
    "Verif.Pkg.Json.c41_nan"
   ],
   "note": "the decoder is proved to read exactly a grammar, and decode(encode(v)) = v is proved for all values whose strings survive, with the exact set of these strings (c41_string_iff); the full claim is false of the code: the decoder does not undo escaped backslashes (c41_backslash, c41_last_backslash), quotes of strings that are not UTF-8 are not escaped (c41_not_utf8), NaN is rejected (c41_nan); f64 conversions by contract"
  },
  {
   "property": "C42",
   "status": "proved",
   "theorems": [
    "Verif.Pkg.Flag.c42_parse_iff",
    "Verif.Pkg.Flag.c42_error_iff",
    "Verif.Pkg.Flag.c42_no_panic",
    "Verif.Pkg.Flag.c42_unique"
   ],
   "note": "arguments shorter than 2^64-1 bytes; the map of named flags is a partial function"
  },
  {
   "property": "C43",
   "status": "partial",
   "theorems": [
    "Verif.Pkg.c43_slice",
    "Verif.Pkg.c43_slice_infinite",
    "Verif.Pkg.c43_slice_panics_iff",
    "Verif.Pkg.c43_slice_start_zero",
    "Verif.Pkg.c43_view_new",
    "Verif.Pkg.c43_view_length",
    "Verif.Pkg.c43_view_to_string",
    "Verif.Pkg.c43_view_starts_with",
    "Verif.Pkg.c43_view_slice",
    "Verif.Pkg.c43_view_seek",
    "Verif.Pkg.c43_view_slice_escapes",
    "Verif.Pkg.c43_view_slice_panics",
    "Verif.Pkg.c43_starts_with"
   ],
   "note": "proved for start indexes of at least one, with the exact condition for panics; false otherwise: Byte'Slice(\"hi\", 0, 1) panics, and slices of views with start indexes below one show bytes before the view"
  },
  {
   "property": "C44",
   "status": "proved",
   "theorems": [
    "Verif.Pkg.Html.c44_error_iff",
    "Verif.Pkg.Html.c44_no_injection",
    "Verif.Pkg.Html.c44_injective",
    "Verif.Pkg.Html.c44_not_utf8_dropped",
    "Verif.Pkg.Html.c44_heading_rejected"
   ],
   "note": "a separate HTML reader recovers exactly the tags, attributes and texts of the tree; html-escape by its documented replacements"
  },
  {
   "property": "C46",
   "status": "partial",
   "theorems": [
    "Verif.Runtime.Thunk.c46_evaluated_once_partial",
    "Verif.Runtime.Thunk.c46_same_result_partial",
    "Verif.Runtime.Thunk.c46_no_fault_partial",
    "Verif.Runtime.Thunk.c46_no_leak_partial",
    "Verif.Runtime.Thunk.c46_progress_partial",
    "Verif.Runtime.Thunk.c46_wait_free_partial",
    "Verif.Runtime.Thunk.c46_early_return_hangs"
   ],
   "note": "proved for bodies that do not leave through the error operator; false otherwise: a global function without arguments is a static thunk, and an early return leaves its entry function locked, so every later call waits for ever (c46_early_return_hangs)"
  },
  {
   "property": "C47",
   "status": "partial",
   "theorems": [
    "Verif.Hir.c47_accepted_programs_do_not_go_wrong_partial",
    "Verif.Hir.c47_closed_programs_partial",
    "Verif.Hir.c47_list_elements_partial",
    "Verif.Hir.c47_go_with_try_goes_wrong",
    "Verif.Hir.c47_keys_with_try_goes_wrong",
    "Verif.Hir.c47_try_in_error_function_goes_wrong",
    "Verif.Hir.c47_iteratee_scope_counterexample",
    "Verif.Names.c47_source_modules_partial",
    "Verif.Names.analyze_hir",
    "Verif.Names.interface_closed"
   ],
   "note": "false of the code for the error operator in arguments of `go`, `keys`, `values` and `race` and in functions whose result type is exactly `error` (counterexamples); proved otherwise, except for list comprehensions where a name of a branch occurs in a later iteratee of it, whose iteratees the checker reads in another scope than the other passes do (counterexample to accepting programs up to bound names)"
  },
  {
   "property": "C48",
   "status": "partial",
   "theorems": [
    "Verif.Prelude.c48_literal",
    "Verif.Prelude.c48_last_wins_partial",
    "Verif.Prelude.c48_spread_does_not_override"
   ],
   "note": "false of the code: what precedes a spread map overrides its entries (c48_spread_does_not_override); what literals mean is proved exactly (c48_literal), and the claim for spread maps that share no key with what precedes them"
  },
  {
   "property": "C49",
   "status": "proved",
   "theorems": [
    "Verif.Prelude.Lists.c49_literal",
    "Verif.Prelude.Lists.c49_comprehension",
    "Verif.Prelude.Lists.c49_elements",
    "Verif.Prelude.Lists.c49_lazy_first"
   ],
   "note": "lists are finite; expressions are functions of the bindings with a log of events"
  },
  {
   "property": "C50",
   "status": "partial",
   "theorems": [
    "Verif.Mir.c50_accepts_partial",
    "Verif.Mir.c50_behaviour_partial",
    "Verif.Mir.c50_memory_partial",
    "Verif.Mir.c29_leak_with_shadowing"
   ],
   "note": "all passes together (without the type checks of MIR), for every module in which no argument of a global function is bound again in its body; false otherwise (c29_leak_with_shadowing)"
  },
  {
   "property": "C51",
   "status": "partial",
   "theorems": [
    "Verif.Lower.c51_values_partial",
    "Verif.Lower.c51_divergence_partial",
    "Verif.Lower.c51_accepted_programs_partial",
    "Verif.Lower.c51_whole_compiler_partial",
    "Verif.Lower.c51_accepted_programs_run_partial",
    "Verif.Lower.compile_frontEnd"
   ],
   "note": "missing: lists, maps, comparison of values other than numbers and strings (expressed before lowering by calls of generated functions and of the prelude), built-in functions other than `error` and `source`, and memoisation of functions without arguments; type ids of the types in variants are assumed not to collide"
  },
  {
   "property": "C52",
   "status": "partial",
   "theorems": [
    "Verif.Hir.c52_comparison_is_structural_partial",
    "Verif.Hir.c52_lowering_preserves_comparisons_partial",
    "Verif.Hir.c52_element_comparison_partial",
    "Verif.Hir.c52_incomparable_operands_are_rejected",
    "Verif.Hir.c52_operands_of_none_are_not_evaluated",
    "Verif.Hir.c52_lists_of_anything_are_accepted"
   ],
   "note": "proved for values without lists, maps, functions and errors; false of the code for operands of the type `none`, which are not evaluated (c52_operands_of_none_are_not_evaluated); lists and maps of incomparable types are not rejected by this transformation (c52_lists_of_anything_are_accepted)"
  },
  {
   "property": "C53",
   "status": "proved",
   "theorems": [
    "Verif.Names.c53_functions",
    "Verif.Names.c53_types",
    "Verif.Names.c53_unknown_names",
    "Verif.Names.c53_full_names_distinct",
    "Verif.Names.c53_interfaces_compiled",
    "Verif.Names.c53_import",
    "Verif.Names.c53_private_functions",
    "Verif.Names.c53_private_types",
    "Verif.Names.c53_declarations",
    "Verif.Names.c53_imported_types_public",
    "Verif.Names.c53_import_hides_foreign",
    "Verif.Names.c53_mentioned_types"
   ],
   "note": "from the HIR that the syntax tree is converted to (for the conversion see C68); an imported function hides a foreign declaration of the same name (c53_import_hides_foreign)"
  },
  {
   "property": "C54",
   "status": "partial",
   "theorems": [
    "Verif.Names.c54_record_operations_partial",
    "Verif.Names.c54_private_fields_partial",
    "Verif.Names.c54_accesses_have_types",
    "Verif.Names.c54_interfaces_agree",
    "Verif.Names.c54_accepts",
    "Verif.Names.c54_condition_reads_private_field"
   ],
   "note": "false of the code in conditions of list comprehensions, which the visitor leaves out: a module can read private fields there (c54_condition_reads_private_field); proved everywhere else"
  },
  {
   "property": "C55",
   "status": "partial",
   "theorems": [
    "Verif.Names.c55_unused_errors_partial",
    "Verif.Names.c55_errors_rejected",
    "Verif.Names.c55_accepts",
    "Verif.Names.c55_condition_ignores_error"
   ],
   "note": "false of the code in conditions of list comprehensions, which the visitor leaves out (c55_condition_ignores_error); proved everywhere else"
  },
  {
   "property": "C56",
   "status": "partial",
   "theorems": [
    "Verif.Hir.c56_same_values_have_the_same_hash_partial",
    "Verif.Hir.c56_degenerate_field_goes_wrong"
   ],
   "note": "proved for values without lists, maps, functions and errors; false of the code for records with a field whose type is written as a union but denotes one type, as `number | number` (c56_degenerate_field_goes_wrong)"
  },
  {
   "property": "C57",
   "status": "partial",
   "theorems": [
    "Verif.Grammar.c57_formatted_module_is_parsed_back_partial",
    "Verif.Grammar.c57_format_then_parse_partial",
    "Verif.Grammar.c57_formatting_is_idempotent_partial",
    "Verif.Grammar.c57_layout_does_not_matter_partial",
    "Verif.Grammar.c57_imports_are_sorted_partial",
    "Verif.Grammar.c57_parsed_modules_are_well_formed",
    "Verif.Grammar.c57_right_operand_counterexample",
    "Verif.Grammar.c57_called_operation_counterexample",
    "Verif.Grammar.c57_field_of_operation_counterexample",
    "Verif.Grammar.c57_called_negation_counterexample",
    "Verif.Grammar.c57_field_of_number_counterexample",
    "Verif.Grammar.c57_union_with_function_counterexample",
    "Verif.Grammar.c57_union_counterexample",
    "Verif.Grammar.c57_condition_counterexample",
    "Verif.Grammar.c57_signed_number_counterexample",
    "Verif.Grammar.c57_record_counterexample"
   ],
   "note": "the whole syntax of modules on characters; false of the code for six shapes that the formatter writes without the parentheses they need (one counterexample each), and proved for all modules without them; which white space and comments the formatter chooses is left open (any)"
  },
  {
   "property": "C58",
   "status": "proved",
   "theorems": [
    "Verif.Grammar.c58_parsed_texts_are_in_the_grammar",
    "Verif.Grammar.c58_other_texts_are_rejected",
    "Verif.Grammar.c58_formatted_texts_are_in_the_grammar_partial"
   ],
   "note": "the grammar is a separate relation between modules and texts (Language.lean); that every text of the grammar is parsed is not claimed (the grammar is ambiguous where statements follow each other), only for formatted texts"
  },
  {
   "property": "C59",
   "status": "proved",
   "theorems": [
    "Verif.Grammar.c59_parsing_ends",
    "Verif.Grammar.c59_bound_does_not_matter"
   ],
   "note": "nom's combinators are modelled by their documented behaviour, including the error for repetitions that consume nothing"
  },
  {
   "property": "C60",
   "status": "partial",
   "theorems": [
    "Verif.Runtime.Graph.c60_no_use_after_free_partial",
    "Verif.Runtime.Graph.c60_no_data_race_partial",
    "Verif.Runtime.Graph.c60_reachable_live_partial",
    "Verif.Runtime.Graph.c60_counts_partial",
    "Verif.Runtime.Graph.c60_collected_partial",
    "Verif.Runtime.Graph.c60_no_leak_partial",
    "Verif.Runtime.Graph.c60_shared_synchronized_partial",
    "Verif.Runtime.Graph.c60_deep_partial",
    "Verif.Runtime.Graph.c60_update_exclusive_partial",
    "Verif.Runtime.Graph.c60_progress_partial",
    "Verif.Runtime.Graph.c60_update_race",
    "Verif.Runtime.Graph.c60_thunk_race"
   ],
   "note": "false of the code in two ways, each with an execution that ends in a use after free: a record that is synchronized and unique is updated in place with a value that is not synchronized (c60_update_race), and results of thunks are not synchronized (c60_thunk_race); proved for all executions without these two. Counts do not overflow, addresses are not reused, and relaxed loads may be stale"
  },
  {
   "property": "C61",
   "status": "partial",
   "theorems": [
    "Verif.Pkg.Utf8.c61_characters",
    "Verif.Pkg.Utf8.c61_characters_invalid",
    "Verif.Pkg.Utf8.c61_length",
    "Verif.Pkg.Utf8.c61_length_invalid",
    "Verif.Pkg.Utf8.c61_starts_with",
    "Verif.Pkg.Utf8.c61_ends_with",
    "Verif.Pkg.Utf8.c61_contains",
    "Verif.Pkg.Utf8.c61_find_partial",
    "Verif.Pkg.Utf8.c61_find_none",
    "Verif.Pkg.Utf8.c61_find_empty",
    "Verif.Pkg.Utf8.c61_slice",
    "Verif.Pkg.Utf8.c61_slice_finite",
    "Verif.Pkg.Utf8.c61_slice_total",
    "Verif.Pkg.Utf8.c61_slice_invalid",
    "Verif.Pkg.Utf8.c61_split",
    "Verif.Pkg.Utf8.c61_split_empty",
    "Verif.Pkg.Utf8.c61_split_invalid",
    "Verif.Pkg.Utf8.c61_split_join",
    "Verif.Pkg.Utf8.c61_join",
    "Verif.Pkg.Utf8.c61_concatenate",
    "Verif.Pkg.Utf8.c61_replace",
    "Verif.Pkg.Utf8.c61_replace_invalid",
    "Verif.Pkg.Utf8.c61_trim_start",
    "Verif.Pkg.Utf8.c61_trim_end",
    "Verif.Pkg.Utf8.c61_trim",
    "Verif.Pkg.Utf8.c61_trim_empty",
    "Verif.Pkg.Utf8.c61_trim_invalid",
    "Verif.Pkg.Utf8.c61_code_point",
    "Verif.Pkg.Utf8.c61_to_code_point",
    "Verif.Pkg.Utf8.c61_to_code_point_none",
    "Verif.Pkg.Utf8.c61_from_code_point_none",
    "Verif.Pkg.Utf8.c61_from_code_point_bad"
   ],
   "note": "false of the code in two cases: `Find` does not find the empty string in the empty string, although it is contained (c61_find_empty), and `FromCodePoint` of negative numbers and of NaN is the character 0 (c61_from_code_point_bad). Functions of Rust's str by their documentation; changing case and trimming white space are not modelled"
  },
  {
   "property": "C62",
   "status": "partial",
   "theorems": [
    "Verif.App.Build.c62_builds_agree_partial",
    "Verif.App.Build.c62_built_files_are_current_partial",
    "Verif.App.Build.c62_clean_build_ends_partial",
    "Verif.App.Build.c62_objects_agree_partial",
    "Verif.App.Build.c62_archives_have_objects",
    "Verif.App.Build.c62_archives_have_all_modules",
    "Verif.App.Build.c62_configurations_are_missed",
    "Verif.App.Build.c62_removed_modules_stay"
   ],
   "note": "proved for histories in which source files are written and added; false of the code in two ways: changes of package configurations do not lead to dependencies being resolved again (c62_configurations_are_missed), and objects of removed modules stay in archives (c62_removed_modules_stay); with removed modules everything but archives and linked files is right (c62_objects_agree_partial), and archives have the right objects of all modules that are left (c62_archives_have_objects). The build tool (turtle, not in the repository) is modelled by its documentation; packages with foreign code are not modelled"
  },
  {
   "property": "C63",
   "status": "partial",
   "theorems": [
    "Verif.Mir.Typed.c63_checker",
    "Verif.Mir.Typed.c63_sound",
    "Verif.Mir.Typed.c63_total",
    "Verif.Mir.Typed.c63_middle_end_partial",
    "Verif.Mir.Typed.c63_environment_counterexample",
    "Verif.Mir.Typed.c63_fallback_counterexample",
    "Verif.Mir.Typed.c63_ids_counterexample",
    "Verif.Mir.Typed.c63_missing_alternative"
   ],
   "note": "the checker is proved to accept exactly the typing rules; soundness needs what the checker does not check, each with a counterexample: environments of closures are trusted (c63_environment_counterexample; there are none at the first check), a variable may hide the fallback of type information (c63_fallback_counterexample), types may have the same id (c63_ids_counterexample; see C64), and a variant that no alternative matches stops the program (c63_missing_alternative). The middle end as in C50"
  },
  {
   "property": "C64",
   "status": "partial",
   "theorems": [
    "Verif.Mir.Typed.c64_found_partial",
    "Verif.Mir.Typed.c64_globals_partial",
    "Verif.Mir.Typed.c64_ids_partial",
    "Verif.Mir.Typed.c64_default_counterexample",
    "Verif.Mir.Typed.c64_names_counterexample",
    "Verif.Lower.c64_lowered_partial",
    "Verif.Lower.c64_condition_counterexample"
   ],
   "note": "false of the code: conditions of list comprehensions are not visited, so that a module that makes a variant of a function only there has no type information for it (c64_condition_counterexample); default alternatives without others are not collected from (c64_default_counterexample, which the front end does not generate), and names of records are not quoted in what ids are hashed from (c64_names_counterexample). Proved otherwise; hashes are assumed not to collide; lowering as in C51"
  },
  {
   "property": "C65",
   "status": "partial",
   "theorems": [
    "Verif.Lower.c65_typed_partial",
    "Verif.Lower.c65_total_partial",
    "Verif.Lower.c65_erased",
    "Verif.Lower.c65_fields_counterexample"
   ],
   "note": "false of the code: names of fields of a record are not checked to differ, and a module with a record with two fields of one name is accepted and then fails in the type check of what it is lowered to (c65_fields_counterexample). Proved otherwise for the fragment of C51 (no lists, maps and built-in functions other than those of errors; equality of numbers and strings), with all functions for type information; hashes of types of a module are assumed not to collide, and names of functions not to be ones the compiler makes up"
  },
  {
   "property": "C66",
   "status": "partial",
   "theorems": [
    "Verif.Lower.c66_equal_partial",
    "Verif.Lower.c66_debug_partial",
    "Verif.Lower.c66_print_partial",
    "Verif.Lower.Data.equal_symm",
    "Verif.Lower.Data.equal_plain",
    "Verif.Lower.Data.equal_refl",
    "Verif.Lower.c66_evaluates_twice",
    "Verif.Lower.c66_goes_wrong",
    "Verif.Lower.c66_debug_ambiguous"
   ],
   "note": "false of the code: the argument of `debug`, the argument of the debug function and the first one of the equality function are evaluated twice (c66_evaluates_twice), and where the two evaluations give values of different types the program goes wrong (c66_goes_wrong); strings are printed without escapes, so that different values have the same text (c66_debug_ambiguous). Proved for arguments that are variables, with values of types of the module without lists and maps"
  },
  {
   "property": "C67",
   "status": "partial",
   "theorems": [
    "Verif.Grammar.c67_sources_that_are_formatted",
    "Verif.Grammar.c67_output_is_a_rendering",
    "Verif.Grammar.c67_output_ends_with_a_line_break",
    "Verif.Grammar.c67_program_is_kept_partial",
    "Verif.Grammar.c67_comments_are_found",
    "Verif.Grammar.c67_comments_of_a_text_are_unique",
    "Verif.Grammar.c67_every_comment_is_written_once",
    "Verif.Grammar.c67_no_comment_is_lost",
    "Verif.Grammar.c67_no_comment_is_made_up",
    "Verif.Grammar.c67_comments_stay_in_order_partial",
    "Verif.Grammar.c67_comments_on_their_own_lines_are_kept_partial",
    "Verif.Grammar.c67_written_comments_are_trimmed",
    "Verif.Grammar.c67_can_be_formatted_again_partial",
    "Verif.Grammar.c67_comments_are_kept_again_partial",
    "Verif.Grammar.c67_comments_can_be_merged",
    "Verif.Grammar.c67_comments_can_be_swapped",
    "Verif.Grammar.c67_comments_can_leave_their_imports",
    "Verif.Grammar.c67_white_space_is_not_formatted"
   ],
   "note": "false of the code: comments at ends of lines can be written on one line, where they are a single comment (c67_comments_can_be_merged), comments between arguments can change places (c67_comments_can_be_swapped), comments of imports do not move with them when they are sorted (c67_comments_can_leave_their_imports), a source of nothing but white space is rejected (c67_white_space_is_not_formatted), and the shapes of C57 change the program. Proved for all sources and layouts: no comment is lost, made up or written twice and none hides a part of the program; order where first arguments are on lines of their own; comments as they are where they are on lines of their own. The crate mfmt is modelled by its use and the tests of the formatter"
  },
  {
   "property": "C68",
   "status": "partial",
   "theorems": [
    "Verif.Front.c68_conversion_succeeds",
    "Verif.Front.c68_literal_values",
    "Verif.Front.c68_conversion_keeps_what_is_written",
    "Verif.Front.c68_programs_do_not_go_wrong_partial",
    "Verif.Front.c68_names",
    "Verif.Front.c68_private_fields_partial",
    "Verif.Front.c68_formatting_keeps_meaning_partial",
    "Verif.Front.c68_compiled_programs_run_partial",
    "Verif.Front.c68_formatting_changes_meaning"
   ],
   "note": "false of the code: formatting sorts imports, and of two imports that offer the same name the last one counts, so that formatting can change which function a name stands for (c68_formatting_changes_meaning); conditions of list comprehensions read private fields (C54). Type soundness is that of C47 (TameModule); interfaces of the prelude are assumed to be those of compiled modules, and rounding of numbers is left open. Running the compiled code on a heap (c68_compiled_programs_run_partial) is for modules in the fragment of C51"
  },
  {
   "property": "C69",
   "status": "partial",
   "theorems": [
    "Verif.Tests.c69_accepted_tests",
    "Verif.Tests.c69_reports_partial",
    "Verif.Tests.c69_empty_error_passes"
   ],
   "note": "false of the code: success and the message of a failed test are handed over as the same string, and a test that results in `error(\"\")` is reported to pass, with exit code 0 (c69_empty_error_passes). Proved otherwise for whole programs and test modules compiled from their texts; type soundness is that of C47 (TameModule); symbols of tests, which contain hashes of their names, are assumed to differ; lines of the report are not formatted"
  },
  {
   "property": "C70",
   "status": "proved",
   "theorems": [
    "Verif.Front.c70_analysis_ends",
    "Verif.Front.c70_one_outcome",
    "Verif.Front.c70_type_analysis_ends",
    "Verif.Front.c70_compilation_ends",
    "Verif.Front.c70_programs_end",
    "Verif.Front.c70_cycles_have_no_canonical_types"
   ],
   "note": "for the functions as they are modelled, with a bound on the depth of recursion; that there is a bound that suffices, and that it does not matter which, is what is proved. Parsing is C59. Sizes of stacks are not modelled"
  },
  {
   "property": "C71",
   "status": "partial",
   "theorems": [
    "Verif.Doc.c71_documented_modules",
    "Verif.Doc.c71_documented_definitions",
    "Verif.Doc.c71_text",
    "Verif.Doc.c71_definition_comments",
    "Verif.Doc.c71_module_comment",
    "Verif.Doc.c71_private_parts_do_not_matter",
    "Verif.Doc.c71_shown_types_are_read_back_partial",
    "Verif.Doc.c71_shown_signatures_are_read_back_partial",
    "Verif.Doc.c71_trailing_comment_counterexample",
    "Verif.Doc.c71_import_comment_counterexample"
   ],
   "note": "false of the code for comments at ends of lines: one at the end of the line of a private definition is shown as the comment of a public definition on the next line (c71_trailing_comment_counterexample), and one at the end of the first line as that of the module (c71_import_comment_counterexample); types that the formatter does not write faithfully (C57) are shown so too. Lines of nodes are a parameter, as in C67; finding and reading files is not modelled"
  },
  {
   "property": "C72",
   "status": "partial",
   "theorems": [
    "Verif.App.c72_found",
    "Verif.App.c72_found_once",
    "Verif.App.c72_imports_are_found",
    "Verif.App.c72_modules_have_paths",
    "Verif.App.c72_format",
    "Verif.App.c72_check",
    "Verif.App.c72_check_then_format",
    "Verif.App.c72_format_then_check_partial",
    "Verif.App.c72_packages_that_are_formatted",
    "Verif.App.c72_programs_are_kept_partial",
    "Verif.App.c72_format_is_not_atomic",
    "Verif.App.c72_format_is_not_stable"
   ],
   "note": "false of the code in that a package can be found not to be formatted right after it has been formatted, since what the formatter writes is not always what it is formatted to (c72_format_is_not_stable); where formatting fails because of a module, other modules have been written already (c72_format_is_not_atomic). Programs are kept but for the shapes of C57. Lines of nodes are a parameter, as in C67; symbolic links, and errors of reading and writing, are not modelled"
  },
  {
   "property": "C73",
   "status": "partial",
   "theorems": [
    "Verif.Core.Numbers.c73_to_integer",
    "Verif.Core.Numbers.c73_to_integer_nan",
    "Verif.Core.Numbers.c73_from_integer",
    "Verif.Core.Numbers.c73_integers_round_trip",
    "Verif.Core.Numbers.c73_small_round_trip",
    "Verif.Core.Numbers.c73_bitwise",
    "Verif.Core.Numbers.c73_bits",
    "Verif.Core.Numbers.c73_left_shift_64",
    "Verif.Core.Numbers.c73_right_shift_64",
    "Verif.Core.Numbers.c73_shifts",
    "Verif.Core.Numbers.c73_maximum_minimum",
    "Verif.Core.Numbers.c73_integer_range",
    "Verif.Core.Numbers.c73_sequence",
    "Verif.Core.Numbers.c73_range_ends",
    "Verif.Core.Numbers.c73_sum",
    "Verif.Core.Numbers.c73_sum_of_sequence",
    "Verif.Core.Numbers.c73_range_to_nan_is_endless",
    "Verif.Core.Numbers.c73_large_range_is_endless",
    "Verif.Core.Numbers.c73_shift_by_64",
    "Verif.Core.Numbers.c73_equality_of_64_bit_integers",
    "Verif.Core.Numbers.c73_complement_is_rounded",
    "Verif.Core.Numbers.c73_maximum_of_zeros",
    "Verif.Core.Numbers.c73_range_of_one_number_is_endless",
    "Verif.Core.Numbers.c73_sum_order"
   ],
   "note": "false of the code in these cases: shifts take counts modulo 64, so that a shift by 64 bits does nothing (c73_shift_by_64); ranges that have 2^53 in them never end, even the one from 2^53 to itself, nor do ranges to what is not a number (c73_large_range_is_endless, c73_range_to_nan_is_endless, c73_range_of_one_number_is_endless); `==` does not compare 64-bit integers as integers (c73_equality_of_64_bit_integers). Proved otherwise, over a model of IEEE 754 numbers as bit patterns, with rounding; other functions of the modules, which call those of the math library, are not modelled"
  },
  {
   "property": "C74",
   "status": "proved",
   "theorems": [
    "Verif.Core.Lists.c74_any_true",
    "Verif.Core.Lists.c74_any_false",
    "Verif.Core.Lists.c74_all_false",
    "Verif.Core.Lists.c74_all_true",
    "Verif.Core.Lists.c74_any_all",
    "Verif.Core.Lists.c74_first",
    "Verif.Core.Lists.c74_last",
    "Verif.Core.Lists.c74_values_of_a_type",
    "Verif.Core.Lists.c74_values_of_a_type_are_lazy",
    "Verif.Core.Lists.c74_values_of_a_type_once",
    "Verif.Core.Lists.c74_sum",
    "Verif.Core.Lists.c74_sum_of_integers"
   ],
   "note": "for lists with finite spines, over the lists of C18; events are those of first evaluations (C46)"
  },
  {
   "property": "C75",
   "status": "partial",
   "theorems": [
    "Verif.Tests.Assert.c75_assert_equal",
    "Verif.Tests.Assert.c75_assertions",
    "Verif.Tests.Assert.c75_states_of_one_thread",
    "Verif.Tests.Assert.c75_states_of_threads",
    "Verif.Tests.Assert.c75_nan_is_not_equal_to_itself",
    "Verif.Tests.Assert.c75_different_integers_are_equal",
    "Verif.Tests.Assert.c75_set_is_lost",
    "Verif.Tests.Assert.c75_get_misses_value",
    "Verif.Tests.Assert.c75_frozen_states_change"
   ],
   "note": "false of the code for states that several threads use: getting a value is two exchanges of the contents, between which other threads get `none` (c75_get_misses_value) and values they set are lost (c75_set_is_lost); freezing has no effect (c75_frozen_states_change). Proved for one thread, and for any threads that no value is made up. Assertions are proved for values without lists and maps (C66)"
  },
  {
   "property": "C76",
   "status": "partial",
   "theorems": [
    "Verif.Pkg.Boundary.c76_native_lists",
    "Verif.Pkg.Boundary.c76_streams_of_lists",
    "Verif.Pkg.Boundary.c76_streams_end",
    "Verif.Pkg.Boundary.c76_lists_there_and_back",
    "Verif.Pkg.Boundary.c76_received_headers",
    "Verif.Pkg.Boundary.c76_sent_headers",
    "Verif.Pkg.Boundary.c76_headers_there_and_back",
    "Verif.Pkg.Boundary.c76_headers_are_sent",
    "Verif.Pkg.Boundary.c76_repeated_headers_are_lost",
    "Verif.Pkg.Boundary.c76_capital_letters_are_lost"
   ],
   "note": "false of the code for headers that occur on several lines, such as those that set cookies: all but the last line of a name are lost (c76_repeated_headers_are_lost); names with capital letters are not found by the receiver because the HTTP library writes them in lower case (c76_capital_letters_are_lost). Proved for maps of headers whose names and values the library leaves as they are, for any order in which the lines arrive; maps are those built by operations (C14), with a sufficient budget of the recursion where an operation has a result"
  },
  {
   "property": "C77",
   "status": "partial",
   "theorems": [
    "Verif.App.OsPath.c77_names",
    "Verif.App.OsPath.c77_files_are_inside",
    "Verif.App.OsPath.c77_there_and_back",
    "Verif.App.OsPath.c77_different_files",
    "Verif.App.OsPath.c77_given_from_the_root",
    "Verif.App.OsPath.c77_given_from_the_package",
    "Verif.App.OsPath.c77_directories",
    "Verif.App.OsPath.c77_nearest_package",
    "Verif.App.OsPath.c77_packages_are_found",
    "Verif.App.OsPath.c77_created_from_the_root",
    "Verif.App.OsPath.c77_created_from_the_current_directory",
    "Verif.App.OsPath.c77_nested_packages_are_misplaced",
    "Verif.App.OsPath.c77_parent_is_not_created",
    "Verif.App.OsPath.c77_parents_are_dropped",
    "Verif.App.OsPath.c77_parents_escape",
    "Verif.App.OsPath.c77_separators_collide",
    "Verif.App.OsPath.c77_backslashes_are_lost"
   ],
   "note": "false of the code for packages created in a directory below the current one: `pen create foo/bar` creates foo/foo/bar (c77_created_from_the_current_directory, c77_nested_packages_are_misplaced), `pen create ..` the current directory (c77_parent_is_not_created); parent directories in relative paths are dropped (c77_parents_are_dropped), names with separators or backslashes are those of other files (c77_separators_collide, c77_backslashes_are_lost). Proved for paths of plain names in absolute directories; without symbolic links and names that are not UTF-8"
  },
  {
   "property": "C78",
   "status": "proved",
   "theorems": [
    "Verif.Pkg.NativeAny.c78_dropped_once",
    "Verif.Pkg.NativeAny.c78_no_leaks",
    "Verif.Pkg.NativeAny.c78_clones",
    "Verif.Pkg.NativeAny.c78_wrapped",
    "Verif.Pkg.NativeAny.c78_unwrapped",
    "Verif.Pkg.NativeAny.c78_references"
   ],
   "note": "for native types whose `Clone` makes an independent copy, and type information that is at different addresses for different types; synchronization of native values, which does nothing, and conversions into Pen's own types are not modelled"
  },
  {
   "property": "C79",
   "status": "partial",
   "theorems": [
    "Verif.Pkg.FileIo.c79_read",
    "Verif.Pkg.FileIo.c79_read_ends",
    "Verif.Pkg.FileIo.c79_read_limit",
    "Verif.Pkg.FileIo.c79_readings",
    "Verif.Pkg.FileIo.c79_write",
    "Verif.Pkg.FileIo.c79_write_all",
    "Verif.Pkg.FileIo.c79_open",
    "Verif.Pkg.FileIo.c79_options",
    "Verif.Pkg.FileIo.c79_partial_writes",
    "Verif.Pkg.FileIo.c79_failed_reads_lose",
    "Verif.Pkg.FileIo.c79_append_and_truncate"
   ],
   "note": "false of the code if a call fails while a file is read: what was read of it before is lost (c79_failed_reads_lose); Write may write only some of the data, as its result says (c79_partial_writes). Proved for the synchronous package and any outcomes of system calls that do not fail; the asynchronous package buffers files and is not modelled"
  },
  {
   "property": "C80",
   "status": "proved",
   "theorems": [
    "Verif.Hir.MainFunction.c80_contexts_of_packages",
    "Verif.Hir.MainFunction.c80_all_packages",
    "Verif.Hir.MainFunction.c80_start",
    "Verif.Hir.MainFunction.c80_context_type",
    "Verif.Hir.MainFunction.c80_no_main"
   ],
   "note": "the expression that the pass makes is evaluated from left to right for any behaviour of functions; its compilation to MIR is that of C51"
  },
  {
   "property": "C81",
   "status": "partial",
   "theorems": [
    "Verif.Lower.Collections.c81_conditionals_partial",
    "Verif.Lower.Collections.c81_lazy_elements",
    "Verif.Lower.Collections.c81_variables_are_captured"
   ],
   "note": "false of the code for the last branch of a conditional on a map that uses a variable outside with the name that the conditional binds: the transformation binds it there too, to the value of the prelude for no value (c81_variables_are_captured; the variable has another type then, so that later passes may reject what was accepted). Proved for all other programs of the modelled expressions; the functions of the prelude are those of C11 and C14"
  }
 ]
}