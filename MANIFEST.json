{
 "claims": [
  {
   "property": "C01",
   "status": "proved",
   "theorems": [
    "Ferlium.Arr.Props.C01_array_refines_list",
    "Ferlium.Arr.Props.C01_array_iteration"
   ],
   "note": ""
  },
  {
   "property": "C02",
   "status": "proved",
   "theorems": [
    "Ferlium.Arr.Props.C02_index_exact"
   ],
   "note": ""
  },
  {
   "property": "C03",
   "status": "partial",
   "theorems": [
    "Ferlium.Arr.Props.C03_slice_partial",
    "Ferlium.Arr.Props.C03_slice_low_bound_violated"
   ],
   "note": ""
  },
  {
   "property": "C04",
   "status": "proved",
   "theorems": [
    "Ferlium.Algo.Props.C04_stable_sort"
   ],
   "note": ""
  },
  {
   "property": "C05",
   "status": "proved",
   "theorems": [
    "Ferlium.Arr.Props.C05_concat",
    "Ferlium.Algo.Props.C05_reverse"
   ],
   "note": ""
  },
  {
   "property": "C06",
   "status": "proved",
   "theorems": [
    "Ferlium.Algo.Props.C06_split_array",
    "Ferlium.Algo.Props.C06_split_element",
    "Ferlium.Algo.Props.C06_split_string"
   ],
   "note": ""
  },
  {
   "property": "C07",
   "status": "proved",
   "theorems": [
    "Ferlium.Algo.Props.C07_contains",
    "Ferlium.Iter.Props.C07_adaptors",
    "Ferlium.Iter.Props.C07_take_prefix",
    "Ferlium.Iter.Props.C07_consumers",
    "Ferlium.Iter.Props.C07_minimum_maximum"
   ],
   "note": ""
  },
  {
   "property": "C08",
   "status": "partial",
   "theorems": [
    "Ferlium.Iter.Props.C08_range_exclusive",
    "Ferlium.Iter.Props.C08_range_inclusive_partial",
    "Ferlium.Iter.Props.C08_inclusive_extreme_violated",
    "Ferlium.Iter.Props.C08_range_length_partial",
    "Ferlium.Iter.Props.C08_length_violated"
   ],
   "note": ""
  },
  {
   "property": "C09",
   "status": "proved",
   "theorems": [
    "Ferlium.HColl.Props.C09_map_refines_history"
   ],
   "note": ""
  },
  {
   "property": "C10",
   "status": "proved",
   "theorems": [
    "Ferlium.HColl.Props.C10_set_refines_history"
   ],
   "note": ""
  },
  {
   "property": "C11",
   "status": "proved",
   "theorems": [
    "Ferlium.HColl.Props.C11_table_invariant"
   ],
   "note": ""
  },
  {
   "property": "C12",
   "status": "proved",
   "theorems": [
    "Ferlium.HColl.Props.C12_map_eq_hash",
    "Ferlium.HColl.Props.C12_set_eq_hash"
   ],
   "note": ""
  },
  {
   "property": "C13",
   "status": "partial",
   "theorems": [
    "Ferlium.Arr.Props.C13_array_eq_hash",
    "Ferlium.Flt.Props.C13_float_partial",
    "Ferlium.Flt.Props.C13_float_zero_violated",
    "Ferlium.Hash.Props.C13_structural_partial",
    "Ferlium.Hash.Props.C13_function_not_reflexive"
   ],
   "note": ""
  },
  {
   "property": "C14",
   "status": "partial",
   "theorems": [
    "Ferlium.IntOps.Props.C14_single_bit",
    "Ferlium.IntOps.Props.C14_counts",
    "Ferlium.IntOps.Props.C14_rotate_inverse",
    "Ferlium.IntOps.Props.C14_rotate_meaning_partial",
    "Ferlium.IntOps.Props.C14_rotate_large_violated",
    "Ferlium.IntOps.Props.C14_shift_negative",
    "Ferlium.IntOps.Props.C14_shift_meaning_partial",
    "Ferlium.IntOps.Props.C14_shift_large_violated"
   ],
   "note": ""
  },
  {
   "property": "C15",
   "status": "partial",
   "theorems": [
    "Ferlium.IntOps.Props.C15_truncated_partial",
    "Ferlium.IntOps.Props.C15_euclidean_partial",
    "Ferlium.IntOps.Props.C15_host_panic_violated",
    "Ferlium.IntOps.Props.C15_abs_partial"
   ],
   "note": ""
  },
  {
   "property": "C16",
   "status": "partial",
   "theorems": [
    "Ferlium.IntOps.Props.C16_operators",
    "Ferlium.IntOps.Props.C16_min_max_clamp",
    "Ferlium.IntOps.Props.C16_tie_violated"
   ],
   "note": ""
  },
  {
   "property": "C17",
   "status": "proved",
   "theorems": [
    "Ferlium.Flt.Props.C17_rewrite_preserves",
    "Ferlium.Flt.Props.C17_float_omissions_needed"
   ],
   "note": ""
  },
  {
   "property": "C18",
   "status": "partial",
   "theorems": [
    "Ferlium.Text.C18_literals_exact",
    "Ferlium.Text.C18_escapes_read_back",
    "Ferlium.Text.C18_data_escapes_read_back",
    "Ferlium.Text.C18_inspect_round_trip_partial",
    "Ferlium.Text.C18_inspect_violated",
    "Ferlium.Text.C18_data_text_rejected"
   ],
   "note": "Escaping without normalisation reads back for all strings; with normalisation proved for strings in which no escape ending in a letter is followed by a character composing with it, otherwise the code violates the property (C18_inspect_violated, C18_data_text_rejected)."
  },
  {
   "property": "C19",
   "status": "partial",
   "theorems": [
    "Ferlium.Text.C19_open_comment",
    "Ferlium.Text.C19_layout_partial",
    "Ferlium.Text.C19_left_over_rejected",
    "Ferlium.Text.C19_parentheses",
    "Ferlium.Text.C19_exponents",
    "Ferlium.Text.C19_round_trip_partial",
    "Ferlium.Text.C19_distinct_texts_partial",
    "Ferlium.Text.C19_floats_violated",
    "Ferlium.Text.C19_floats",
    "Ferlium.Text.C19_empty_tuple_violated",
    "Ferlium.Text.C19_payloads_violated",
    "Ferlium.Text.C19_record_payload_violated",
    "Ferlium.Text.C19_keywords_violated",
    "Ferlium.Text.C19_variant_names_violated",
    "Ferlium.Text.C19_strings_violated",
    "Ferlium.Text.C19_field_names_violated"
   ],
   "note": "Proved for all Printable values; each excluded kind is shown not to read back (C19_floats_violated, C19_empty_tuple_violated, C19_payloads_violated, C19_record_payload_violated, C19_keywords_violated, C19_strings_violated, C19_field_names_violated, C19_variant_names_violated)."
  },
  {
   "property": "C20",
   "status": "partial",
   "theorems": [
    "Ferlium.Text.C20_json_escapes",
    "Ferlium.Text.C20_json_string_partial",
    "Ferlium.Text.C20_json_violated"
   ],
   "note": "Proved against the grammar of RFC 8259 before normalisation for all strings and after it for strings in which no escape ending in a letter or digit is followed by a composing character; otherwise violated (C20_json_violated)."
  },
  {
   "property": "C21",
   "status": "proved",
   "theorems": [
    "Ferlium.Effects.C21_membership",
    "Ferlium.Effects.C21_canonical",
    "Ferlium.Effects.C21_union_laws",
    "Ferlium.Effects.C21_queries",
    "Ferlium.Effects.C21_subset",
    "Ferlium.Effects.C21_iteration",
    "Ferlium.Effects.C21_total_order"
   ],
   "note": ""
  },
  {
   "property": "C22",
   "status": "proved",
   "theorems": [
    "Ferlium.BitSet.C22_queries",
    "Ferlium.BitSet.C22_equality",
    "Ferlium.BitSet.C22_intersects",
    "Ferlium.BitSet.C22_iteration"
   ],
   "note": ""
  },
  {
   "property": "C23",
   "status": "proved",
   "theorems": [
    "Ferlium.Graph.C23_groups_are_the_mutual_recursion_classes",
    "Ferlium.Graph.C23_callers_first",
    "Ferlium.Graph.C23_callees_first",
    "Ferlium.Graph.C23_recursive_flag"
   ],
   "note": ""
  },
  {
   "property": "C24",
   "status": "proved",
   "theorems": [
    "Ferlium.Graph.C24_cycle_search_exact"
   ],
   "note": ""
  },
  {
   "property": "C25",
   "status": "proved",
   "theorems": [
    "Ferlium.Graph.C25_reverse_postorder",
    "Ferlium.Graph.C25_acyclic_is_topological"
   ],
   "note": ""
  },
  {
   "property": "C26",
   "status": "proved",
   "theorems": [
    "Ferlium.Dominance.C26_dominance_exact",
    "Ferlium.Dominance.C26_reachability_exact",
    "Ferlium.Dominance.C26_children_are_immediately_dominated"
   ],
   "note": ""
  },
  {
   "property": "C27",
   "status": "partial",
   "theorems": [
    "Ferlium.Borrow.C27_places_separate",
    "Ferlium.Borrow.C27_mutable_arguments_exclusive",
    "Ferlium.Borrow.C27_every_call",
    "Ferlium.Borrow.C27_later_arguments_keep",
    "Ferlium.Borrow.C27_let_argument_stable",
    "Ferlium.Borrow.C27_callee_stable",
    "Ferlium.Borrow.C27_driven_arguments_violated",
    "Ferlium.Borrow.C27_driven_let_violated",
    "Ferlium.Borrow.C27_subscript_index_violated",
    "Ferlium.Borrow.C27_late_index_panics"
   ],
   "note": "Proved for all stores and index values when variables own their storage and literal indices pick disjoint places; the code violates the property for arguments through named subscripts (C27_driven_arguments_violated, C27_driven_let_violated) and for subscripts returning one place for several indices (C27_subscript_index_violated)."
  },
  {
   "property": "C28",
   "status": "proved",
   "theorems": [
    "Ferlium.Source.C28_line_column",
    "Ferlium.Source.C28_line_column_at_boundary",
    "Ferlium.Source.C28_line_column_panics_iff",
    "Ferlium.Source.C28_editor_position",
    "Ferlium.Source.C28_editor_position_end",
    "Ferlium.Source.C28_snippet",
    "Ferlium.Source.C28_snippet_exact"
   ],
   "note": ""
  },
  {
   "property": "C29",
   "status": "proved",
   "theorems": [
    "Ferlium.Exec.C29_fuel_bound",
    "Ferlium.Exec.C29_no_limit_no_violation",
    "Ferlium.Exec.C29_nothing_runs_when_poisoned",
    "Ferlium.Exec.C29_refused_afterwards"
   ],
   "note": ""
  },
  {
   "property": "C30",
   "status": "partial",
   "theorems": [
    "Ferlium.Exec.C30_no_failure_swallowed",
    "Ferlium.Exec.C30_last_two_faults_reported",
    "Ferlium.Exec.C30_initial_failure_carried_partial",
    "Ferlium.Exec.C30_initial_failure_lost_violated",
    "Ferlium.Exec.C30_poisoned_iff_poisoning_error"
   ],
   "note": ""
  },
  {
   "property": "C31",
   "status": "proved",
   "theorems": [
    "Ferlium.Session.C31_fresh_is_consistent"
   ],
   "note": ""
  },
  {
   "property": "C32",
   "status": "partial",
   "theorems": [
    "Ferlium.Session.C32_stale_has_cause",
    "Ferlium.Session.C32_imports_kept",
    "Ferlium.Session.C32_last_attempt_saw_current_revisions_partial",
    "Ferlium.Session.C32_first_failure_not_repaired_violated"
   ],
   "note": ""
  },
  {
   "property": "C33",
   "status": "proved",
   "theorems": [
    "Ferlium.DeadStore.C33_same_behaviour",
    "Ferlium.DeadStore.C33_exactly_useless_stores_removed"
   ],
   "note": ""
  },
  {
   "property": "C34",
   "status": "partial",
   "theorems": [
    "Ferlium.BranchForward.C34_flags_forwarded",
    "Ferlium.Negation.C34_negations_removed",
    "Ferlium.Negation.C34_negations_violated",
    "Ferlium.Peephole.C34_diamonds"
   ],
   "note": "Proved for boolean diamonds, forwarded flags and negations; negations under the hypothesis NoLoadedPlaces, without which the code violates the property (C34_negations_violated)."
  },
  {
   "property": "C35",
   "status": "partial",
   "theorems": [
    "Ferlium.TailMerge.C35_empty_blocks_skipped",
    "Ferlium.TailMerge.C35_tails_merged",
    "Ferlium.TailMerge.C35_tails_violated"
   ],
   "note": "Proved for all bodies in which registers defined by blocks doing the same are not used elsewhere; without this restriction the code violates the property (C35_tails_violated)."
  },
  {
   "property": "C36",
   "status": "proved",
   "theorems": [
    "Ferlium.WillReturn.C36_proved_functions_finish",
    "Ferlium.WillReturn.C36_summaries_exact",
    "Ferlium.WillReturn.C36_recursion_not_proved",
    "Ferlium.WillReturn.C36_body_ends"
   ],
   "note": ""
  },
  {
   "property": "C37",
   "status": "proved",
   "theorems": [
    "Ferlium.SpecTable.C37_prune_transparent",
    "Ferlium.SpecTable.C37_prune_keeps_reachable",
    "Ferlium.SpecTable.C37_share_transparent"
   ],
   "note": ""
  },
  {
   "property": "C38",
   "status": "partial",
   "theorems": [
    "Ferlium.Unify.C38_ends",
    "Ferlium.Unify.C38_failure",
    "Ferlium.Unify.C38_success",
    "Ferlium.Unify.C38_same_shape_equal",
    "Ferlium.Unify.C38_most_general",
    "Ferlium.Unify.C38_records_violated"
   ],
   "note": "Termination, failure and most general solution proved in full; same shape proved when no record type extends another one, which the code does not check (C38_records_violated)."
  },
  {
   "property": "C39",
   "status": "proved",
   "theorems": [
    "Ferlium.Uninhabited.C39_no_value",
    "Ferlium.Uninhabited.C39_check_ends_and_is_exact",
    "Ferlium.Uninhabited.C39_omitted_cases_cannot_occur",
    "Ferlium.Uninhabited.C39_impossible_cases_may_be_omitted"
   ],
   "note": ""
  },
  {
   "property": "C40",
   "status": "proved",
   "theorems": [
    "Ferlium.Names.C40_type_name_shape",
    "Ferlium.Names.C40_mutability_name_shape",
    "Ferlium.Names.C40_type_names_distinct",
    "Ferlium.Names.C40_mutability_names_distinct",
    "Ferlium.Names.C40_effect_names_distinct",
    "Ferlium.Names.C40_signature_type_names",
    "Ferlium.Names.C40_signature_effect_names"
   ],
   "note": ""
  },
  {
   "property": "C41",
   "status": "proved",
   "theorems": [
    "Ferlium.LinkedList.C41_refines_sequence",
    "Ferlium.LinkedList.C41_addresses_stable",
    "Ferlium.LinkedList.C41_dead_addresses",
    "Ferlium.LinkedList.C41_remove",
    "Ferlium.LinkedList.C41_storage_is_peak"
   ],
   "note": ""
  },
  {
   "property": "C42",
   "status": "proved",
   "theorems": [
    "Ferlium.Arr.Props.C42_ownership"
   ],
   "note": ""
  },
  {
   "property": "C43",
   "status": "proved",
   "theorems": [
    "Ferlium.Session.C43_affected_exact"
   ],
   "note": ""
  },
  {
   "property": "C44",
   "status": "partial",
   "theorems": [
    "Ferlium.Text.C44_strings_normalised_partial",
    "Ferlium.Text.C44_pieces_partial",
    "Ferlium.Text.C44_push_is_concat_partial",
    "Ferlium.Text.C44_hangul_violated"
   ],
   "note": "Proved for all operation sequences when appended text starts with a mark or a character which composes with nothing before it; Hangul vowels violate the property (C44_hangul_violated)."
  },
  {
   "property": "C45",
   "status": "proved",
   "theorems": [
    "Ferlium.Session.C45_versions",
    "Ferlium.Session.C45_update_is_recompile"
   ],
   "note": ""
  },
  {
   "property": "C46",
   "status": "proved",
   "theorems": [
    "Ferlium.Flt.Props.C46_arithmetic",
    "Ferlium.Flt.Props.C46_overflow",
    "Ferlium.Flt.Props.C46_exact",
    "Ferlium.Flt.Props.C46_from_int",
    "Ferlium.Flt.Props.C46_to_int"
   ],
   "note": ""
  },
  {
   "property": "C47",
   "status": "proved",
   "theorems": [
    "Ferlium.Hash.Props.C47_mix_bijective",
    "Ferlium.Hash.Props.C47_one_word_difference",
    "Ferlium.Hash.Props.C47_string_framing",
    "Ferlium.Hash.Props.C47_value_framing"
   ],
   "note": ""
  },
  {
   "property": "C48",
   "status": "partial",
   "theorems": [
    "Ferlium.Budget.Props.C48_limits",
    "Ferlium.Budget.Props.C48_specializations",
    "Ferlium.Budget.Props.C48_specialization_stable",
    "Ferlium.Budget.Props.C48_owned_variants_partial",
    "Ferlium.Budget.Props.C48_owned_variants_violated"
   ],
   "note": ""
  },
  {
   "property": "C49",
   "status": "proved",
   "theorems": [
    "Ferlium.Session.C49_dependencies_acyclic"
   ],
   "note": ""
  },
  {
   "property": "C50",
   "status": "proved",
   "theorems": [
    "Ferlium.Session.C50_recompilation_terminates"
   ],
   "note": ""
  },
  {
   "property": "C51",
   "status": "proved",
   "theorems": [
    "Ferlium.Exec.C51_sandboxed_execution_ends"
   ],
   "note": ""
  },
  {
   "property": "C52",
   "status": "proved",
   "theorems": [
    "Ferlium.Source.C52_fuse_smallest",
    "Ferlium.Source.C52_fuse_empty",
    "Ferlium.Source.C52_fuse_different_sources"
   ],
   "note": ""
  },
  {
   "property": "C53",
   "status": "partial",
   "theorems": [
    "Ferlium.TypeCycle.C53_check_exact",
    "Ferlium.TypeCycle.C53_accepted_without_values_violated",
    "Ferlium.TypeCycle.C53_accepted_group_without_any_value_violated",
    "Ferlium.TypeCycle.C53_accepted_sum_has_value_partial",
    "Ferlium.TypeCycle.C53_product_cycle_has_no_value"
   ],
   "note": ""
  },
  {
   "property": "C54",
   "status": "proved",
   "theorems": [
    "Ferlium.Edit.C54_unreachable_removed",
    "Ferlium.Edit.C54_blocks_merged",
    "Ferlium.Edit.C54_cleanup",
    "Ferlium.Edit.C54_reordered"
   ],
   "note": ""
  },
  {
   "property": "C55",
   "status": "proved",
   "theorems": [
    "Ferlium.Text.C55_split_join",
    "Ferlium.Text.C55_split_parts",
    "Ferlium.Text.C55_split_nonempty"
   ],
   "note": ""
  },
  {
   "property": "C56",
   "status": "partial",
   "theorems": [
    "Ferlium.Relations.C56_removed_check_would_pass_partial",
    "Ferlium.Relations.C56_removed_check_would_pass_fresh_partial",
    "Ferlium.Relations.C56_wrapped_comparison_violated",
    "Ferlium.Relations.C56_least_index_violated",
    "Ferlium.Relations.C56_reassigned_array_violated",
    "Ferlium.Relations.C56_passed_on_parameter_violated"
   ],
   "note": "Proved for bodies which read only whole slots and parts of slots they never rewrite, pass no parameter on to an unknown callee by mutable reference, and executions whose comparisons do not wrap around; without these the code violates the property (four C56_..._violated theorems). Range loops are not modelled."
  },
  {
   "property": "C57",
   "status": "partial",
   "theorems": [
    "Ferlium.Destructure.C57_destructuring_binds_components_partial",
    "Ferlium.Destructure.C57_each_name_has_its_component_partial",
    "Ferlium.Destructure.C57_loop_patterns_bind_components",
    "Ferlium.Destructure.C57_shadowed_source_violated",
    "Ferlium.Destructure.C57_projection_runs_twice_violated"
   ],
   "note": "Proved for patterns which do not rebind the local their source is read from, and field accesses without effects; without these the code violates the property (two C57_..._violated theorems)."
  },
  {
   "property": "C58",
   "status": "proved",
   "theorems": [
    "Ferlium.Closure.C58_names_mean_their_innermost_binding",
    "Ferlium.Closure.C58_captures_are_distinct_outer_locals"
   ],
   "note": "Simulation of a semantics with environments by the resolved code, both ways, for every bound on the depth of calls."
  },
  {
   "property": "C59",
   "status": "partial",
   "theorems": [
    "Ferlium.Closure.C59_literals_mean_numbers_partial",
    "Ferlium.Closure.C59_local_changes_literals_violated",
    "Ferlium.Closure.C59_function_changes_literals_violated"
   ],
   "note": "Proved for programs which declare nothing called from_int; otherwise violated (two C59_..._violated theorems)."
  },
  {
   "property": "C60",
   "status": "partial",
   "theorems": [
    "Ferlium.Closure.C60_matches_evaluate_their_value_partial",
    "Ferlium.Closure.C60_default_only_match_violated"
   ],
   "note": "Proved for programs without matches that have only a default; for these violated (C60_default_only_match_violated)."
  },
  {
   "property": "C61",
   "status": "partial",
   "theorems": [
    "Ferlium.Closure.C61_definitions_in_any_order_partial",
    "Ferlium.Closure.C61_literals_violated"
   ],
   "note": "Proved for all names except from_int, which literals use without being counted (C61_literals_violated)."
  },
  {
   "property": "C62",
   "status": "partial",
   "theorems": [
    "Ferlium.Format.C62_placeholders_exact",
    "Ferlium.Format.C62_names_in_scope_partial",
    "Ferlium.Format.C62_captured_name_rejected_violated",
    "Ferlium.Format.C62_host_local_rejected_violated",
    "Ferlium.Format.C62_value"
   ],
   "note": "Placeholders and value proved for all texts; names bound outside the innermost lambda and locals of the host are rejected by the code (two C62_..._violated theorems)."
  },
  {
   "property": "C63",
   "status": "proved",
   "theorems": [
    "Ferlium.Text.C63_slice_exact",
    "Ferlium.Text.C63_cut"
   ],
   "note": "For every segmentation into clusters."
  },
  {
   "property": "C64",
   "status": "partial",
   "theorems": [
    "Ferlium.Coherence.C64_at_most_one_partial",
    "Ferlium.Coherence.C64_unconstrained",
    "Ferlium.Coherence.C64_exact",
    "Ferlium.Coherence.C64_outputs_violated",
    "Ferlium.Coherence.C64_order_violated"
   ],
   "note": "Proved for equal outputs relative to the implementations known at the check, and exactness without constraints; two C64_..._violated theorems for outputs and for constraints which become true later."
  },
  {
   "property": "C65",
   "status": "partial",
   "theorems": [
    "Ferlium.Coherence.C65_panic_violated",
    "Ferlium.Coherence.C65_endless_violated",
    "Ferlium.Coherence.C65_ends_partial"
   ],
   "note": "Proved when visible implementations have no constraints; panic and endless recursion otherwise (C65_panic_violated, C65_endless_violated)."
  },
  {
   "property": "C66",
   "status": "partial",
   "theorems": [
    "Ferlium.Match.C66_enumerates",
    "Ferlium.Match.C66_compiled_agrees",
    "Ferlium.Match.C66_chosen_partial",
    "Ferlium.Match.C66_enumerable",
    "Ferlium.Match.C66_accepts",
    "Ferlium.Match.C66_fields_violated",
    "Ferlium.Match.C66_twice_violated"
   ],
   "note": "Proved unless a record type has the fields of another one followed by more; acceptance, enumeration and the compiled choice are proved; C66_fields_violated (run-time panic) and C66_twice_violated (compiler panic)."
  },
  {
   "property": "C67",
   "status": "partial",
   "theorems": [
    "Ferlium.Match.C67_chosen_partial",
    "Ferlium.Match.C67_accepts",
    "Ferlium.Match.C67_once",
    "Ferlium.Match.C67_rest_only_violated",
    "Ferlium.Match.C67_fields_violated"
   ],
   "note": "Proved unless a record type has the fields of another one followed by more and without `never` in payloads; acceptance proved; C67_fields_violated and C67_rest_only_violated."
  },
  {
   "property": "C68",
   "status": "partial",
   "theorems": [
    "Ferlium.Serde.C68_round_trip_partial",
    "Ferlium.Serde.C68_exact_partial",
    "Ferlium.Serde.C68_distinct_partial",
    "Ferlium.Serde.C68_names_violated",
    "Ferlium.Serde.C68_names_exist"
   ],
   "note": "Proved when names stay different after normalisation (C68_names_violated otherwise); user written implementations are left out."
  },
  {
   "property": "C69",
   "status": "partial",
   "theorems": [
    "Ferlium.Serde.C69_json_partial",
    "Ferlium.Serde.C69_round_trip_partial",
    "Ferlium.Serde.C69_data_partial",
    "Ferlium.Serde.C69_data_violated",
    "Ferlium.Serde.C69_strings_violated"
   ],
   "note": "Proved for values without serialized data whose strings survive the normalisation of their escaped text; a reader of RFC 8259 stands for the external tokenizer; C69_data_violated, C69_strings_violated."
  },
  {
   "property": "C70",
   "status": "partial",
   "theorems": [
    "Ferlium.Serde.C70_round_trip_partial",
    "Ferlium.Serde.C70_data_round_trip_partial",
    "Ferlium.Serde.C70_record_payload_violated",
    "Ferlium.Serde.C70_large_floats_violated"
   ],
   "note": "Proved when the data is printable in the sense of C19, integral floats being taken for integers; C70_record_payload_violated, C70_large_floats_violated."
  },
  {
   "property": "C71",
   "status": "partial",
   "theorems": [
    "Ferlium.EffInfer.C71_run_within_inferred_effects_partial",
    "Ferlium.EffInfer.C71_pure_functions_do_nothing_partial",
    "Ferlium.EffInfer.C71_nested_closures_violated",
    "Ferlium.EffInfer.C71_closure_over_callbacks_violated",
    "Ferlium.EffInfer.C71_merged_callback_violated"
   ],
   "note": "Proved for programs whose closures call natives and functions without callbacks, and whose callbacks are called or forwarded by non-recursive functions without annotations; fails with nested closures and closures over several callbacks (C71_..._violated)."
  },
  {
   "property": "C72",
   "status": "proved",
   "theorems": [
    "Ferlium.EffInfer.C72_first_order_effects_exact",
    "Ferlium.EffInfer.C72_returning_run_does_all"
   ],
   "note": ""
  },
  {
   "property": "C73",
   "status": "partial",
   "theorems": [
    "Ferlium.EffInfer.C73_annotated_parameter_bound_partial",
    "Ferlium.EffInfer.C73_forwarded_callback_violated",
    "Ferlium.EffInfer.C73_pure_callback_violated",
    "Ferlium.EffInfer.C73_mixed_closure_violated"
   ],
   "note": "Proved for arguments with known effects at the call; fails when the callback is forwarded (C73_..._violated)."
  },
  {
   "property": "C74",
   "status": "partial",
   "theorems": [
    "Ferlium.TypeInfer.C74_accepted_programs_do_not_go_wrong_partial",
    "Ferlium.TypeInfer.C74_entry_points_do_not_go_wrong_partial",
    "Ferlium.TypeInfer.C74_refusals_change_no_types",
    "Ferlium.TypeInfer.C74_diverging_function_values_violated",
    "Ferlium.TypeInfer.C74_surplus_parameters_violated"
   ],
   "note": "Proved for a core language (no records, variants, traits or references), for programs still accepted when never-returning functions as values and closures with surplus parameters are refused; fails for those two (C74_..._violated)."
  },
  {
   "property": "C75",
   "status": "partial",
   "theorems": [
    "Ferlium.TypeInfer.C75_accepts_exactly_typable_groups_partial",
    "Ferlium.TypeInfer.C75_typable_groups_are_accepted_partial",
    "Ferlium.TypeInfer.C75_inferred_types_are_most_general_partial",
    "Ferlium.TypeInfer.C75_no_use_is_lost_partial"
   ],
   "note": "Proved for the core language of C74; exactness for inference with the two additional refusals, acceptance of typable groups also without them."
  },
  {
   "property": "C76",
   "status": "partial",
   "theorems": [
    "Ferlium.Cse.C76_merging_places_changes_nothing_partial",
    "Ferlium.Cse.C76_no_place_is_computed_again",
    "Ferlium.Cse.C76_entries_kept_across_regions_partial",
    "Ferlium.Cse.C76_entries_across_regions_violated"
   ],
   "note": "Same behaviour proved where address computations are pure; no repeated field address is left (given that dominating blocks come first); entries are not reused past a release of storage which lies on every path in between, but are past one which differs from path to path (C76_entries_across_regions_violated)."
  },
  {
   "property": "C77",
   "status": "partial",
   "theorems": [
    "Ferlium.StackRegion.C77_removing_markers_changes_nothing_partial",
    "Ferlium.StackRegion.C77_removed_exactly_superfluous_partial",
    "Ferlium.StackRegion.C77_unchanged_only_without_superfluous_partial",
    "Ferlium.StackRegion.C77_unordered_blocks_violated",
    "Ferlium.StackRegion.C77_cells_of_the_caller_violated"
   ],
   "note": "Termination, exactness (removed iff known on every path) and same behaviour proved for bodies whose dominating blocks come first, given that the stack is as high after a yield as before; both conditions are needed (C77_unordered_blocks_violated, C77_cells_of_the_caller_violated)."
  },
  {
   "property": "C78",
   "status": "partial",
   "theorems": [
    "Ferlium.Resolve.C78_answers",
    "Ferlium.Resolve.C78_sound_partial",
    "Ferlium.Resolve.C78_complete_partial",
    "Ferlium.Resolve.C78_exact_partial",
    "Ferlium.Resolve.C78_answers_agree",
    "Ferlium.Resolve.C78_private_violated",
    "Ferlium.Resolve.C78_scope_violated",
    "Ferlium.Resolve.C78_history_violated"
   ],
   "note": "Answers always, soundness, uniqueness, agreement and completeness (for visible chains up to the limit, from every reachable state) proved; exactness if other modules have no private implementations. Privacy fails in general (C78_private_violated, C78_scope_violated) and the limit depends on earlier requests (C78_history_violated). Effects, Value/Repr, derived implementations and improvement are not modelled."
  },
  {
   "property": "C79",
   "status": "partial",
   "theorems": [
    "Ferlium.Default.C79_boundary_exact",
    "Ferlium.Default.C79_numbers_partial",
    "Ferlium.Default.C79_order_partial",
    "Ferlium.Default.C79_order_violated",
    "Ferlium.Default.C79_defaults_hold",
    "Ferlium.Default.C79_history_violated",
    "Ferlium.Default.C79_expression_exact",
    "Ferlium.Default.C79_unit_exact",
    "Ferlium.Default.C79_defaults_shown_partial",
    "Ferlium.Default.C79_pair_violated",
    "Ferlium.Default.C79_output_violated",
    "Ferlium.Default.C79_variants_exact"
   ],
   "note": "Boundary, variants, expression and unit defaults characterised exactly; numbers exactly when int or float fits, independent of order then. Violated when neither fits (C79_order_violated), for generic implementations, which count only once instantiated (C79_history_violated), for constraints with several variables (C79_pair_violated) and with outputs (C79_output_violated). The unification of the defaults and the outer repetition are not modelled."
  },
  {
   "property": "C80",
   "status": "partial",
   "theorems": [
    "Ferlium.Import.C80_imports_exact",
    "Ferlium.Import.C80_panic_partial",
    "Ferlium.Import.C80_panic_violated",
    "Ferlium.Import.C80_lookup_exact",
    "Ferlium.Import.C80_order",
    "Ferlium.Import.C80_scene",
    "Ferlium.Import.C80_import_wins",
    "Ferlium.Import.C80_public",
    "Ferlium.Import.C80_growth",
    "Ferlium.Import.C80_same_violated",
    "Ferlium.Import.C80_ambiguous_partial",
    "Ferlium.Import.C80_unqualified",
    "Ferlium.Import.C80_qualified",
    "Ferlium.Import.C80_methods_exact",
    "Ferlium.Import.C80_methods_order"
   ],
   "note": "Acceptance, added imports, lookup of members, qualified names and methods characterised exactly; order, privacy, explicit imports and growth proved. Violated for a module imported twice by wildcards, in particular std (C80_same_violated), and for wildcards without a path, which panic (C80_panic_violated). Unsafe items of std and construction of enum variants are not modelled."
  },
  {
   "property": "C81",
   "status": "partial",
   "theorems": [
    "Ferlium.Cleanup.C81_compiled_partial",
    "Ferlium.Cleanup.C81_unique",
    "Ferlium.Cleanup.C81_accepted",
    "Ferlium.Cleanup.C81_resumed_partial",
    "Ferlium.Cleanup.C81_dropped_partial",
    "Ferlium.Cleanup.C81_evaluated_partial",
    "Ferlium.Cleanup.C81_agree_partial",
    "Ferlium.Cleanup.C81_leak_violated",
    "Ferlium.Cleanup.C81_refused_violated",
    "Ferlium.Cleanup.C81_panic_violated"
   ],
   "note": "Well-formed bodies are compiled without panic (C81_accepted). Compiled code ends exactly as the reference says, resumed and dropped proved, evaluator equal to the reference, both equal to each other, for bodies whose accessor arguments complete and, in the evaluator, whose accessors with temporaries do not fail. Violated otherwise: temporaries of accessor arguments leak (C81_leak_violated), in the evaluator when the accessor fails (C81_refused_violated); return inside return panics the compiler (C81_panic_violated). Fuel, limits and yields of the function itself are not modelled."
  },
  {
   "property": "C82",
   "status": "partial",
   "theorems": [
    "Ferlium.Verify.C82_owned_partial",
    "Ferlium.Verify.C82_all_partial",
    "Ferlium.Verify.C82_realloc_violated",
    "Ferlium.Verify.C82_opaque_violated",
    "Ferlium.Verify.C82_inside_violated"
   ],
   "note": "Proved for executions that keep to what the check takes on trust: storage is allocated once at a time, markers are restored in the order of a stack, insides of opaque values are written only while there is storage, no value moves into itself. Violated otherwise: storage allocated again in a loop leaks (C82_realloc_violated), a write inside a reclaimed variant is accepted (C82_inside_violated); at the end, local storage with an opaque part may be left full (C82_opaque_violated). Indices known only at run time, and register values, are not modelled."
  },
  {
   "property": "C83",
   "status": "proved",
   "theorems": [
    "Ferlium.Verify.C83_failures"
   ],
   "note": "Sound, complete and terminating, over nodes instead of blocks."
  },
  {
   "property": "C84",
   "status": "partial",
   "theorems": [
    "Ferlium.TypeText.C84_readback_partial",
    "Ferlium.TypeText.C84_distinct_partial",
    "Ferlium.TypeText.C84_unambiguous",
    "Ferlium.TypeText.C84_proper",
    "Ferlium.TypeText.C84_nested_violated",
    "Ferlium.TypeText.C84_argument_violated",
    "Ferlium.TypeText.C84_never_violated",
    "Ferlium.TypeText.C84_payload_violated",
    "Ferlium.TypeText.C84_empty_violated",
    "Ferlium.TypeText.C84_keyword_violated",
    "Ferlium.TypeText.C84_definition_violated",
    "Ferlium.TypeText.C84_alias_violated",
    "Ferlium.TypeText.C84_effects_violated",
    "Ferlium.TypeText.C84_module_violated"
   ],
   "note": "Proved for the types of an explicit class; every type that is read is in normal form (C84_proper); unambiguity of the grammar of types is proved without condition. Violated outside the class: effects of nested functions are displayed ambiguously (C84_nested_violated), functions with effects as type arguments (C84_argument_violated), never (C84_never_violated), record payloads inside other types and empty ones (C84_payload_violated, C84_empty_violated), four keywords (C84_keyword_violated), names of definitions that are keywords (C84_definition_violated), payloads with an alias (C84_alias_violated), effect arguments that are not single effects (C84_effects_violated), definitions of equal name (C84_module_violated). Generic aliases in displayed types, subscript types and recursive types are not modelled; the parser generator is trusted."
  },
  {
   "property": "C85",
   "status": "partial",
   "theorems": [
    "Ferlium.ValueSem.C85_values_partial",
    "Ferlium.ValueSem.C85_immutable",
    "Ferlium.ValueSem.C85_assign_element_violated",
    "Ferlium.ValueSem.C85_pass_element_violated",
    "Ferlium.ValueSem.C85_index_element_violated"
   ],
   "note": "Simulation between the compiled execution (names are addresses) and a by-value semantics, for all accepted programs in which an array whose element is being assigned, passed as mutable or indexed further is not written by the value, the later arguments or the inner index. Without this condition violated: C85_assign_element_violated, C85_pass_element_violated, C85_index_element_violated (use of a freed buffer). Immutability is proved without the condition. Left out: closures, user-defined subscripts, pattern matching, loops, moves, reuse of storage."
  },
  {
   "property": "C86",
   "status": "partial",
   "theorems": [
    "Ferlium.Mutability.C86_sound",
    "Ferlium.Mutability.C86_least_partial",
    "Ferlium.Mutability.C86_exact",
    "Ferlium.Mutability.C86_order_partial",
    "Ferlium.Mutability.C86_later",
    "Ferlium.Mutability.C86_errors",
    "Ferlium.Mutability.C86_recorded",
    "Ferlium.Mutability.C86_complete_violated",
    "Ferlium.Mutability.C86_order_violated",
    "Ferlium.Mutability.C86_needless_violated",
    "Ferlium.Mutability.C86_late_violated"
   ],
   "note": "Soundness, the meaning of errors and the later comparisons are proved for all constraints. Completeness, leastness and independence of the order are proved when no variable is used where another variable is expected, and are violated otherwise (C86_complete_violated, C86_order_violated, C86_needless_violated), as is completeness for constraints which arise from function types (C86_late_violated). Where constraints come from (the traversal of the body) is not modelled; the union-find library is trusted."
  },
  {
   "property": "C87",
   "status": "partial",
   "theorems": [
    "Ferlium.Dce.C87_trivial",
    "Ferlium.Dce.C87_calls",
    "Ferlium.Dce.C87_storage_partial",
    "Ferlium.Dce.C87_least",
    "Ferlium.Dce.C87_order",
    "Ferlium.Dce.C87_chains",
    "Ferlium.Dce.C87_places",
    "Ferlium.Dce.C87_clone_violated"
   ],
   "note": "Proved for the three passes with the meaning of operations as a parameter; assumed are that removable operations only compute their result or write the storage they initialise (for clone and drop these are the laws of the Value trait, which the compiler does not check: C87_clone_violated), and that cells do not hold addresses of other cells. Missing: same-block clone/drop pairs in storage with other lifetimes, empty stack regions, the pool of constants."
  },
  {
   "property": "C88",
   "status": "partial",
   "theorems": [
    "Ferlium.Intern.C88_stored_partial",
    "Ferlium.Intern.C88_kept_partial",
    "Ferlium.Intern.C88_canonical_partial",
    "Ferlium.Intern.C88_equal_partial",
    "Ferlium.Intern.C88_fields",
    "Ferlium.Intern.C88_effects_violated",
    "Ferlium.Intern.C88_dangling_violated",
    "Ferlium.Intern.C88_confused_violated",
    "Ferlium.Intern.C88_twice_violated"
   ],
   "note": "Proved, sound and complete, for histories of batches in which no recursive type refers to a second copy of itself and in which the effect arguments of named types depend on the definition. Violated without: two alternatives with the same payload in a recursive type give a handle to nothing (C88_dangling_violated) or to the type of another payload (C88_confused_violated); a recursive type written out twice gets two handles (C88_twice_violated); effect arguments of named types are ignored (C88_effects_violated)."
  },
  {
   "property": "C89",
   "status": "partial",
   "theorems": [
    "Ferlium.Intern.C89_effects",
    "Ferlium.Intern.C89_instantiated_partial",
    "Ferlium.Intern.C89_instance_equal_partial",
    "Ferlium.Intern.C89_equation_partial",
    "Ferlium.Intern.C89_solution_unique_partial",
    "Ferlium.Intern.C89_merged_violated"
   ],
   "note": "Proved when the batch that the walk produces satisfies the conditions of C88; the test for free variables is discharged by C91. Violated without: an instantiation that makes two payloads of a recursive type equal gives a type that refers to nothing (C89_merged_violated)."
  },
  {
   "property": "C90",
   "status": "partial",
   "theorems": [
    "Ferlium.Intern.C90_restored_partial",
    "Ferlium.Intern.C90_same_process_partial",
    "Ferlium.Intern.C90_distinct_partial"
   ],
   "note": "Proved for tables built from batches that satisfy the conditions of C88; the captured batch itself always does. Names of native types are taken to be inverse to native types."
  },
  {
   "property": "C91",
   "status": "partial",
   "theorems": [
    "Ferlium.Intern.C91_found_partial",
    "Ferlium.Intern.C91_exact_partial",
    "Ferlium.Intern.C91_constant_partial",
    "Ferlium.Intern.C91_history_partial",
    "Ferlium.Intern.C91_instantiated_partial",
    "Ferlium.Intern.C91_equation_partial"
   ],
   "note": "Proved for tables built from batches that satisfy the conditions of C88 (with repeated kinds in a group, F76, types and summaries of the group get out of step). Replacing effects is taken not to change effects without replaced variables."
  },
  {
   "property": "C92",
   "status": "partial",
   "theorems": [
    "Ferlium.Licm.C92_hoist_keeps_runs_partial",
    "Ferlium.Licm.C92_roots_exact",
    "Ferlium.Licm.C92_roots_kept",
    "Ferlium.Licm.C92_loops_total",
    "Ferlium.Licm.C92_hoisting_ends",
    "Ferlium.Licm.C92_pass_keeps_runs_partial",
    "Ferlium.Licm.C92_dominance"
   ],
   "note": "Termination, exact roots and roots kept are proved outright. The simulation is proved for functions that satisfy what the verifier checks (for the whole pass: for every function it goes through), on a machine in which storage behind loaded places is part of the world (that such places are exclusive is not modelled), with the assumption that calls without effects depend only on initialised arguments. The converse (no new runs) is not stated."
  },
  {
   "property": "C93",
   "status": "partial",
   "theorems": [
    "Ferlium.Inline.C93_admitted",
    "Ferlium.Inline.C93_cleanup_exact",
    "Ferlium.Inline.C93_cleanup_ends",
    "Ferlium.Inline.C93_inlining_keeps_runs_partial",
    "Ferlium.Inline.C93_growth",
    "Ferlium.Inline.C93_small_callees",
    "Ferlium.Inline.C93_inlining_ends",
    "Ferlium.Inline.C93_scoped_excluded_violated"
   ],
   "note": "The test of bodies, the blocks after an error, the growth and the end of the pass are proved outright. Runs are proved kept for the whole pass on a machine with frames, bindings, a storage stack, errors in flight and the call depth, in which the operations other than calls, markers and the depth test are arbitrary. Not covered: calls that do not end, calls that stop at the depth limit, scoped projections (no rule), the replacement of type variables in a body (assumed to give the body that a call runs), and the merging of blocks afterwards (C54). The converse (no new ends) is not stated."
  },
  {
   "property": "C94",
   "status": "partial",
   "theorems": [
    "Ferlium.DeadEvidence.C94_evidence_removed_partial",
    "Ferlium.DeadEvidence.C94_none_left",
    "Ferlium.DeadEvidence.C94_no_panic",
    "Ferlium.DeadEvidence.C94_once"
   ],
   "note": "The parameters that remain, idempotence and the absence of panics are proved outright. Runs are proved to correspond in both directions on the machine of C93. Assumed: specializations occur only in the place of the callee of a call, within the module (the comment of the pass says so), their dictionary parameters come first, and the operations other than calls never make a reference to a specialization from references to other functions. Runs that do not end are not covered."
  },
  {
   "property": "C95",
   "status": "proved",
   "theorems": [
    "Ferlium.Lint.C95_exact",
    "Ferlium.Lint.C95_removable"
   ],
   "note": "For all expressions, warnings and meanings of the other constructs. Ascriptions, pattern constraints and unsafe markers are taken to have no effect at run time; that the corrected program still type-checks is not part of the property."
  },
  {
   "property": "C96",
   "status": "partial",
   "theorems": [
    "Ferlium.Specialize.C96_specialization_runs_partial",
    "Ferlium.Specialize.C96_program_runs_partial",
    "Ferlium.Specialize.C96_no_dictionary_read",
    "Ferlium.Specialize.C96_no_generic_recursion",
    "Ferlium.Specialize.C96_no_site_left"
   ],
   "note": "Runs that end, in both directions. Assumed: dictionary parameters come first; a self-call without a recorded instantiation passes the dictionary parameters of the function in order; operations with substituted types mean the same and make no names of specializations. Not modelled: the simplification after the substitution, which calls are worth it, the limits, names and digests."
  },
  {
   "property": "C97",
   "status": "partial",
   "theorems": [
    "Ferlium.StdCache.C97_check_exact",
    "Ferlium.StdCache.C97_only_good_libraries",
    "Ferlium.StdCache.C97_files_complete",
    "Ferlium.StdCache.C97_one_builder",
    "Ferlium.StdCache.C97_lock_not_orphaned",
    "Ferlium.StdCache.C97_every_process_ends",
    "Ferlium.StdCache.C97_built_once",
    "Ferlium.StdCache.C97_served_at_once",
    "Ferlium.StdCache.C97_publishing_stocks",
    "Ferlium.StdCache.C97_failed_capture_violated"
   ],
   "note": "Assumed of the system: a rename and the reading of a file are atomic, locks exclude one another and end with their process, and sleeping takes time. That restoring a snapshot gives a good library, and that foreign files with a fitting checksum do not appear, are hypotheses. That the library which a failed capture hands out is good is a hypothesis too; it is false for failures at early pieces of source code (F82, C97_failed_capture_violated, C99)."
  },
  {
   "property": "C98",
   "status": "proved",
   "theorems": [
    "Ferlium.AliasName.C98_match_is_application",
    "Ferlium.AliasName.C98_applications_match",
    "Ferlium.AliasName.C98_match_ends",
    "Ferlium.AliasName.C98_shown_alias_is_the_type",
    "Ferlium.AliasName.C98_order_of_definitions",
    "Ferlium.AliasName.C98_best_alias_is_shown",
    "Ferlium.AliasName.C98_applications_are_shown"
   ],
   "note": "The text of the arguments is not modelled (the arguments are types); equal types are assumed to have equal numbers in the table, which is the subject of C88."
  },
  {
   "property": "C99",
   "status": "partial",
   "theorems": [
    "Ferlium.Checkpoint.C99_restored_is_compiled",
    "Ferlium.Checkpoint.C99_other_snapshots_refused",
    "Ferlium.Checkpoint.C99_snapshots_are_whole",
    "Ferlium.Checkpoint.C99_sizes_agree",
    "Ferlium.Checkpoint.C99_library_after_late_failure_partial",
    "Ferlium.Checkpoint.C99_library_after_failure_violated"
   ],
   "note": "The last sentence is false (F82, C99_library_after_failure_violated) and proved for failures at the last piece of source code only. That single values are materialized as captured is a hypothesis; that source code changes no earlier function, and not the uses, is assumed."
  },
  {
   "property": "C100",
   "status": "partial",
   "theorems": [
    "Ferlium.Collector.C100_attempts_leave_no_trace",
    "Ferlium.Collector.C100_no_dangling_references",
    "Ferlium.Collector.C100_names_keep_their_meaning",
    "Ferlium.Collector.C100_commit_ends",
    "Ferlium.Collector.C100_push_ends",
    "Ferlium.Collector.C100_derivation_has_its_code",
    "Ferlium.Collector.C100_refused_derivation_leaves_no_trace",
    "Ferlium.Collector.C100_failed_derivation_violated"
   ],
   "note": "That a search that fails leaves no trace is false for derivations that end with an error (F83, C100_failed_derivation_violated), and proved for those that refuse and for attempts. That the search names only functions that it was given, fills all slots that it reserved, and within an attempt fills only slots of the attempt, are hypotheses of the model. That names with different suffixes differ is a hypothesis."
  }
 ]
}