{"claims": [
 {"property": "C01", "status": "proved", "theorems": ["Verif.C01_execute_none_iff", "Verif.C01_is_enabled", "Verif.C01_execute_exact", "Verif.C01_execute_positive", "Verif.C01_weak_execute", "Verif.C01_fire_exact", "Verif.C01_enabled_transitions", "Verif.C01_run_positive", "Verif.C01_parallel_arcs_refuted"], "note": "for nets without parallel arcs (as created by add_arc_from_to of a pure DAG of arcs); parallel arcs refuted with a witness"},
 {"property": "C02", "status": "proved", "theorems": ["Verif.C02_eq", "Verif.C02_eq_equivalence", "Verif.C02_hash", "Verif.C02_le", "Verif.C02_add", "Verif.C02_sub", "Verif.C02_add_sub", "Verif.C02_sub_add", "Verif.C02_zero_entry_refuted"], "note": "for markings without zero entries; zero entries refuted with a witness"},
 {"property": "C03", "status": "proved", "theorems": ["Verif.C03_states", "Verif.C03_arcs", "Verif.C03_incoming", "Verif.C03_terminates"], "note": "states and arcs exact, incoming exact, termination for finite state spaces"},
 {"property": "C04", "status": "proved", "theorems": ["Verif.C04_state_equation", "Verif.C04_matrix", "Verif.C04_weights_refuted"], "note": "unit arc weights; weighted nets refuted with a witness"},
 {"property": "C05", "status": "proved", "theorems": ["Verif.C05_product_runs", "Verif.C05_runs_are_alignments", "Verif.C05_labels", "Verif.C05_alignment_exists", "Verif.C05_weights_refuted"], "note": "Runs of the product = alignments (for unit weights); labels; existence. Counterexample for weights."},
 {"property": "C06", "status": "proved", "theorems": ["Verif.C06_optimal", "Verif.C06_none", "Verif.C06_terminates", "Verif.C06_standard_costs", "Verif.C06_trace_alignment", "Verif.C06_alignment_found"], "note": "Valid, cost = sum, optimal, for every heap tie-breaking and set order; none implies no run; terminates on finite state spaces and whenever a run exists with positive model costs."},
 {"property": "C07", "status": "proved", "theorems": ["Verif.C07_fitness"], "note": "All logs incl. empty traces; any set iteration order, any choice of the concurrent-activity candidate, with and without strict sequence cut and fall-throughs. Alphabet size at most sys.maxsize."},
 {"property": "C08", "status": "proved", "theorems": ["Verif.C08_terminates", "Verif.C08_deterministic"], "note": "A tree is returned without exception (loop.py:182 is unreachable) for every sufficiently large recursion bound, and it does not depend on the bound."},
 {"property": "C09", "status": "proved", "theorems": ["Verif.C09_labels"], "note": "Strengthened: each activity labels exactly one leaf."},
 {"property": "C10", "status": "proved", "theorems": ["Verif.C10_reduce_tau_leafs", "Verif.C10_fold", "Verif.C10_tree_sort"], "note": "language, labels, termination and reducedness of fold; trees are values, wf = operator nodes have children"},
 {"property": "C11", "status": "proved", "theorems": ["Verif.C11_structurally_language_equal_sound", "Verif.C11_reflexive"], "note": "soundness, and success on identical trees without interleaving nodes"},
 {"property": "C12", "status": "proved", "theorems": ["Verif.C12_binary_arity", "Verif.C12_binary_language", "Verif.C12_binary_interleaving_refuted"], "note": "language part restricted to trees without interleaving; refuted with a witness for interleaving"},
 {"property": "C13", "status": "proved", "theorems": ["Verif.C13_roundtrip", "Verif.C13_denotes_unique", "Verif.C13_print_injective", "Verif.C13_root_leaf_refuted", "Verif.C13_quote_refuted", "Verif.C13_printed_length"], "note": "labelled root leafs and labels with quotes are excluded and refuted with witnesses"},
 {"property": "C14", "status": "proved", "theorems": ["Verif.C14_language", "Verif.C14_visible", "Verif.C14_single_child_loop_refuted"], "note": "all six operators; single-child loops refuted"},
 {"property": "C15", "status": "proved", "theorems": ["Verif.C15_token_game", "Verif.C15_entry", "Verif.C15_reduction", "Verif.C15_terminates", "Verif.C15_marked_place_refuted", "Verif.C15_parallel_arcs_refuted"], "note": "token game of the textbook for all nets; library semantics under the no-parallel-arcs proviso; both provisos shown necessary"},
 {"property": "C16", "status": "proved", "theorems": ["Verif.C16_equivalence", "Verif.C16_never_together", "Verif.C16_directly_follows", "Verif.C16_activ_freq", "Verif.C16_fits_own_log", "Verif.C16_fits_without_repetitions", "Verif.C16_always_after_refuted", "Verif.C16_always_before_refuted", "Verif.C16_noise_monotone", "Verif.C16_apply_log"], "note": "noise as an exact rational; always-after / always-before refuted with witnesses, and proved for logs without repetitions inside traces"},
 {"property": "C17", "status": "proved", "theorems": ["Verif.C17_native", "Verif.C17_native_once", "Verif.C17_discover", "Verif.C17_conservation", "Verif.C17_order", "Verif.C17_variants", "Verif.C17_vertex_frequencies_refuted"], "note": "the documented reading of get_vertex_frequencies is refuted with a witness"},
 {"property": "C18", "status": "proved", "theorems": ["Verif.C18_stream_eq_batch", "Verif.C18_interleaving", "Verif.C18_ignores"], "note": "str/eval encoding of keys taken as injective; receive/get are serialised by the lock"},
 {"property": "C19", "status": "proved", "theorems": ["Verif.C19_log_footprints", "Verif.C19_trace_footprints", "Verif.C19_self", "Verif.C19_violations", "Verif.C19_trace_fits", "Verif.C19_traces", "Verif.C19_accepted_fits", "Verif.C19_log_fits", "Verif.C19_discovered_fits", "Verif.C19_discovered_refuted", "Verif.C19_empty_log_refuted"], "note": "Log, trace and conformance footprints exact; discovered trees with ternary loops and the empty log refuted."},
 {"property": "C20", "status": "proved", "theorems": ["Verif.C20_exact", "Verif.C20_loop_refuted", "Verif.C20_or_refuted"], "note": "Exact for trees without OR/interleaving and with binary loops; refuted otherwise."},
 {"property": "C21", "status": "proved", "theorems": ["Verif.C21_levenshtein_minimal", "Verif.C21_zero", "Verif.C21_symm", "Verif.C21_triangle", "Verif.C21_length_diff", "Verif.C21_length_sum", "Verif.C21_argmin", "Verif.C21_argmax", "Verif.C21_argmax_refuted"], "note": "argmax on lists of copies of the string refuted (returns None)"},
 {"property": "C22", "status": "proved", "theorems": ["Verif.C22_events_rows", "Verif.C22_objects_rows", "Verif.C22_relations_rows", "Verif.C22_events", "Verif.C22_objects", "Verif.C22_relations", "Verif.C22_idempotent", "Verif.C22_relations_idempotent", "Verif.C22_events_refuted", "Verif.C22_relations_idempotent_refuted"], "note": "exact rows, referential integrity, idempotence; refuted without the hypothesis"},
 {"property": "C23", "status": "proved", "theorems": ["Verif.C23_closure_terminates", "Verif.C23_closure", "Verif.C23_is_strict_partial_order", "Verif.C23_reduction_raises", "Verif.C23_reduction", "Verif.C23_remove_edge", "Verif.C23_start_end_nodes"], "note": "relations on node indices (the node <-> index dictionaries are a bijection for duplicate-free node lists)"},
 {"property": "C24", "status": "proved", "theorems": ["Verif.C24_variants", "Verif.C24_sorted", "Verif.C24_language", "Verif.C24_kept", "Verif.C24_partition", "Verif.C24_result_variants", "Verif.C24_idempotent", "Verif.C24_order_grouped", "Verif.C24_order_refuted", "Verif.C24_top_k", "Verif.C24_coverage", "Verif.C24_percentage", "Verif.C24_auto_threshold", "Verif.C24_df_kept", "Verif.C24_df_idempotent", "Verif.C24_df_coverage", "Verif.C24_df_top_k", "Verif.C24_df_top_k_refuted"], "note": "Event-log and dataframe variant filters, top-k, coverage, percentage, automatic threshold, stochastic language. Log order is refuted for event logs."},
 {"property": "C25", "status": "proved", "theorems": ["Verif.C25_deviations", "Verif.C25_verdict", "Verif.C25_standard", "Verif.C25_response_sound", "Verif.C25_fitness_nonneg", "Verif.C25_values", "Verif.C25_discover", "Verif.C25_discover_auto", "Verif.C25_agreement", "Verif.C25_agreement_full", "Verif.C25_to_model", "Verif.C25_response_complete_refuted", "Verif.C25_precedence_complete_refuted", "Verif.C25_precedence_sound_refuted", "Verif.C25_altresponse_refuted", "Verif.C25_fitness_refuted", "Verif.C25_agreement_refuted", "Verif.C25_selectable", "Verif.C25_considered"], "note": "exact verdicts for every template, with the deviations from the standard meaning refuted by witnesses; values, support, confidence and selection of discovery; agreement for the safe templates and, with full confidence, for all"},
 {"property": "C26", "status": "proved", "theorems": ["Verif.C26_accounting", "Verif.C26_accounting_weighted", "Verif.C26_counters", "Verif.C26_fitness_range", "Verif.C26_fitness_one", "Verif.C26_replays_trace", "Verif.C26_sound", "Verif.C26_problems", "Verif.C26_complete", "Verif.C26_exact", "Verif.C26_is_fit", "Verif.C26_hidden_paths", "Verif.C26_hidden_paths_silent", "Verif.C26_state_machine", "Verif.C26_log", "Verif.C26_log_fitness_range", "Verif.C26_log_fitness_one", "Verif.C26_accounting_refuted", "Verif.C26_fitness_range_stop_refuted", "Verif.C26_fitness_one_refuted", "Verif.C26_is_fit_refuted", "Verif.C26_complete_duplicates_refuted", "Verif.C26_complete_hidden_refuted", "Verif.C26_log_refuted"], "note": "Caches, token-flood cleaning and per-place statistics are off/not modelled; exact decision without duplicate labels and hidden transitions and for state machines with hidden transitions; the general completeness is refuted."},
 {"property": "C27", "status": "proved", "theorems": ["Verif.C27_paths", "Verif.C27_deterministic", "Verif.C27_depth", "Verif.C27_final", "Verif.C27_final_prefix_free", "Verif.C27_prefix_refuted"], "note": "final-flag behaviour characterised exactly; the naive claim refuted with a witness"},
 {"property": "C28", "status": "proved", "theorems": ["Verif.C28_is_enabled", "Verif.C28_execute", "Verif.C28_execute_none", "Verif.C28_reset_and_normal_refuted"], "note": "a place with both a reset and a normal arc refuted with a witness"},
 {"property": "C29", "status": "proved", "theorems": ["Verif.C29_sound", "Verif.C29_exact", "Verif.C29_distinct", "Verif.C29_occurrences", "Verif.C29_terminates", "Verif.C29_terminates_bounded", "Verif.C29_distinct_refuted", "Verif.C29_terminates_refuted"], "note": "sets of enabled transitions in any order; sys.maxsize as unlimited; traces of the log compared by activities"},
 {"property": "C30", "status": "proved", "theorems": ["Verif.C30_counts_distinct", "Verif.C30_counts_intersections", "Verif.C30_duplicates_refuted"], "note": "intervaltree is in the trusted base (a set of intervals); duplicates refuted with a witness"},
 {"property": "C31", "status": "proved", "theorems": ["Verif.C31_sound", "Verif.C31_workflow_net", "Verif.C31_single_child_or_refuted"], "note": "single-child OR refuted"},
 {"property": "C32", "status": "proved", "theorems": ["Verif.C32_discovered_wellFormed", "Verif.C32_fitness", "Verif.C32_sound"], "note": ""},
 {"property": "C33", "status": "proved", "theorems": ["Verif.C33_valid", "Verif.C33_none", "Verif.C33_terminates", "Verif.C33_alignment_found", "Verif.C33_default_costs", "Verif.C33_optimal_refuted", "Verif.C33_fitting_refuted"], "note": "Validity, exact cost, completeness and termination, default costs; optimality is refuted. Nets without parallel arcs and with positive weights (Plain); the time limit is not modelled."},
 {"property": "C34", "status": "proved", "theorems": ["Verif.C34_bottomup", "Verif.C34_values", "Verif.C34_footprints", "Verif.C34_max_length", "Verif.C34_min_length", "Verif.C34_discovered", "Verif.C34_duplicates_refuted"], "note": "Complete, duplicate-free and ordered list; values equal the recursion; discovered trees; refuted for duplicate labels."},
 {"property": "C35", "status": "proved", "theorems": ["Verif.C35_log_fitness", "Verif.C35_trace_fitness", "Verif.C35_precision", "Verif.C35_perc_fit", "Verif.C35_accepted", "Verif.C35_empty_dfg_refuted"], "note": "Exact rationals instead of floats."},
 {"property": "C36", "status": "proved", "theorems": ["Verif.C36_contiguous", "Verif.C36_agree", "Verif.C36_interleaved_refuted"], "note": "Exact for frames whose cases are contiguous; refuted for interleaved frames."},
 {"property": "C37", "status": "proved", "theorems": ["Verif.C37_event_attribute", "Verif.C37_timestamp", "Verif.C37_object_attribute", "Verif.C37_objects_level", "Verif.C37_objects_level_refuted", "Verif.C37_types_level", "Verif.C37_interaction_graph", "Verif.C37_components_exist", "Verif.C37_cc_object", "Verif.C37_cc_length", "Verif.C37_cc_otype", "Verif.C37_cc_activity", "Verif.C37_cc_isolated_refuted", "Verif.C37_cc_otype_negative_refuted", "Verif.C37_per_type_count", "Verif.C37_per_type_count_refuted", "Verif.C37_start_events", "Verif.C37_end_events", "Verif.C37_allowed_activities", "Verif.C37_allowed_activities_refuted"], "note": "networkx connected_components by contract (IsComponents, shown satisfiable)"},
 {"property": "C38", "status": "proved", "theorems": ["Verif.C38_optimal", "Verif.C38_none", "Verif.C38_terminates", "Verif.C38_trace_alignment", "Verif.C38_alignment_found", "Verif.C38_agrees", "Verif.C38_index_error_refuted"], "note": "LP solver is a parameter with the contract LpOk (exact optimum, integral up to the 0.001 tolerance); exact arithmetic; time limit not modelled."},
 {"property": "C39", "status": "proved", "theorems": ["Verif.C39_dijkstra_optimal", "Verif.C39_astar_optimal", "Verif.C39_fitness_range", "Verif.C39_fitness_one_iff", "Verif.C39_fitness_one_sound", "Verif.C39_log", "Verif.C39_evaluate_range", "Verif.C39_evaluate_one", "Verif.C39_silent_refuted", "Verif.C39_empty_trace_refuted", "Verif.C39_less_memory_range_refuted", "Verif.C39_log_fitness_refuted"], "note": "Floats are exact rationals; process pool, time limits not modelled."},
 {"property": "C40", "status": "proved", "theorems": ["Verif.C40_activities", "Verif.C40_paths", "Verif.C40_keep_connected", "Verif.C40_keep_count", "Verif.C40_small_unchanged", "Verif.C40_percentage_one", "Verif.C40_successors", "Verif.C40_predecessors", "Verif.C40_to_activity", "Verif.C40_from_activity", "Verif.C40_contain_activity", "Verif.C40_noise_iff", "Verif.C40_noise_strongest", "Verif.C40_nonempty_refuted"], "note": "DFG filters on activities, paths, dependency, to/from/containing an activity, noise threshold; get_successors/get_predecessors. Exact rationals for percentages and thresholds; networkx reachability by its meaning."},
 {"property": "C41", "status": "proved", "theorems": ["Verif.C41_attribute_cases", "Verif.C41_between", "Verif.C41_between_same", "Verif.C41_case_performance", "Verif.C41_case_size", "Verif.C41_contained", "Verif.C41_different_persons", "Verif.C41_end_activities", "Verif.C41_eventually_follows", "Verif.C41_eventually_follows_timed_refuted", "Verif.C41_eventually_follows_timed_sound_refuted", "Verif.C41_four_eyes", "Verif.C41_four_eyes_partition_refuted", "Verif.C41_intersecting", "Verif.C41_n_cases", "Verif.C41_next_next", "Verif.C41_numeric_cases", "Verif.C41_numeric_partition_refuted", "Verif.C41_partition", "Verif.C41_paths", "Verif.C41_paths_performance", "Verif.C41_prefix_first", "Verif.C41_prefix_last", "Verif.C41_prefix_suffix", "Verif.C41_repetition", "Verif.C41_rework", "Verif.C41_start_activities", "Verif.C41_suffix_first", "Verif.C41_suffix_last", "Verif.C41_timeframe"], "note": "exact keep conditions for all event-log filters; refutations for timed eventually-follows and for the four-eyes/numeric partitions"},
 {"property": "C42", "status": "proved", "theorems": ["Verif.C42_activity_split", "Verif.C42_activity_split_order_refuted", "Verif.C42_attribute_cases", "Verif.C42_between", "Verif.C42_between_same_refuted", "Verif.C42_case_performance", "Verif.C42_case_size", "Verif.C42_contained", "Verif.C42_different_persons", "Verif.C42_end_activities", "Verif.C42_eventually_follows", "Verif.C42_eventually_follows_timed", "Verif.C42_eventually_follows_total_refuted", "Verif.C42_four_eyes", "Verif.C42_four_eyes_bounds", "Verif.C42_four_eyes_refuted", "Verif.C42_intersecting", "Verif.C42_intersecting_bounds_refuted", "Verif.C42_next_next", "Verif.C42_next_next_complete_refuted", "Verif.C42_next_next_sound", "Verif.C42_numeric_cases", "Verif.C42_numeric_negative_refuted", "Verif.C42_paths", "Verif.C42_paths_performance", "Verif.C42_paths_performance_complete", "Verif.C42_paths_performance_sound_refuted", "Verif.C42_paths_separator_refuted", "Verif.C42_prefixes", "Verif.C42_repetition", "Verif.C42_repetition_zero_refuted", "Verif.C42_rework", "Verif.C42_spno_activities_refuted", "Verif.C42_start_activities", "Verif.C42_starts_with_complete", "Verif.C42_starts_with_sound_refuted", "Verif.C42_suffixes", "Verif.C42_timeframe", "Verif.C42_to_log"], "note": "agreement of the dataframe filters with the event-log filters, under the stated conditions, and refutations where they disagree"},
 {"property": "C43", "status": "proved", "theorems": ["Verif.C43_frame_leaves_log_refuted", "Verif.C43_log_stream_log", "Verif.C43_log_stream_log_refuted", "Verif.C43_stream_log_stream", "Verif.C43_stream_to_log", "Verif.C43_stream_values", "Verif.C43_without_attributes"], "note": "Extensions, classifiers, missing cells and column types are not modelled."},
 {"property": "C44", "status": "proved", "theorems": ["Verif.C44_infer", "Verif.C44_invisibles_language", "Verif.C44_invisibles_names_refuted", "Verif.C44_invisibles_raises", "Verif.C44_language", "Verif.C44_language_long", "Verif.C44_language_refuted", "Verif.C44_log_replay", "Verif.C44_one_token", "Verif.C44_option_to_complete", "Verif.C44_playout", "Verif.C44_playout_dead_end_refuted", "Verif.C44_playout_kept", "Verif.C44_playout_mass", "Verif.C44_playout_order_refuted", "Verif.C44_trace_probability"], "note": "DFG to Petri nets (both variants) and DFG playout/trace probability; exact rationals, any heap order"},
 {"property": "C45", "status": "proved", "theorems": ["Verif.C45_arcs", "Verif.C45_connected", "Verif.C45_places", "Verif.C45_replay_refuted", "Verif.C45_sequence", "Verif.C45_transitions"], "note": "Alpha Miner classic equals the textbook definition"},
 {"property": "C46", "status": "proved", "theorems": ["Verif.C46_topbottom", "Verif.C46_parallel_no_error", "Verif.C46_other_operators_refuted"], "note": "OR and loops with more than two children refuted"},
 {"property": "C47", "status": "proved", "theorems": ["Verif.C47_sound", "Verif.C47_terminates", "Verif.C47_exact", "Verif.C47_exhaustive", "Verif.C47_default_loops", "Verif.C47_default_loops_refuted", "Verif.C47_bounds_choice_refuted", "Verif.C47_total_refuted"], "note": "default loop bound, bounds at choice roots and totality refuted"},
 {"property": "C48", "status": "proved", "theorems": ["Verif.C48_empty_order_refuted", "Verif.C48_language", "Verif.C48_language_validated", "Verif.C48_sound", "Verif.C48_visible", "Verif.C48_workflow_net"], "note": "language, soundness, safety, workflow-net shape and visible transitions of the converted net"},
 {"property": "C49", "status": "proved", "theorems": ["Verif.C49_simplify", "Verif.C49_language", "Verif.C49_nets", "Verif.C49_frequent_refuted"], "note": "simplify modelled with positions for nodes; Transition(None) treated like SilentTransition"},
 {"property": "C50", "status": "proved", "theorems": ["Verif.C50_compose", "Verif.C50_deterministic", "Verif.C50_fitness", "Verif.C50_labels", "Verif.C50_net", "Verif.C50_order_cut", "Verif.C50_raises_iff", "Verif.C50_raises_refuted", "Verif.C50_terminates", "Verif.C50_valid"], "note": "TREE, MAXIMAL and BRUTE_FORCE variants without filtering; DYNAMIC_CLUSTERING not modelled"},
 {"property": "C51", "status": "proved", "theorems": ["Verif.C51_df_different", "Verif.C51_df_follows", "Verif.C51_df_follows_within", "Verif.C51_df_four_eyes", "Verif.C51_df_four_eyes_refuted", "Verif.C51_df_next_interleaved_refuted", "Verif.C51_df_next_refuted", "Verif.C51_df_next_sound", "Verif.C51_df_relations", "Verif.C51_df_within_refuted", "Verif.C51_log_different", "Verif.C51_log_follows", "Verif.C51_log_four_eyes", "Verif.C51_log_next", "Verif.C51_log_relations", "Verif.C51_log_within_refuted"], "note": "timestamps rational; missing case ids not modelled"},
 {"property": "C52", "status": "proved", "theorems": ["Verif.C52_custom_costs_refuted", "Verif.C52_end_moves_refuted", "Verif.C52_fitness", "Verif.C52_moves_partial", "Verif.C52_moves_refuted", "Verif.C52_none_iff", "Verif.C52_optimal", "Verif.C52_sound", "Verif.C52_terminates", "Verif.C52_zero_iff"], "note": "termination, none-iff, soundness for all costs, optimality for uniform costs (default), fitness; moves partially; three refutations of the natural stronger statements"},
 {"property": "C53", "status": "proved", "theorems": ["Verif.C53_check", "Verif.C53_terminates", "Verif.C53_language", "Verif.C53_safe", "Verif.C53_dead_refuted", "Verif.C53_weights_refuted", "Verif.C53_check_refuted"], "note": "All four theorems assume at least two transitions where stated, unit weights and distinct names; the three refutations show that the conditions are needed."},
 {"property": "C54", "status": "proved", "theorems": ["Verif.C54_language", "Verif.C54_exact", "Verif.C54_returns", "Verif.C54_discovered", "Verif.C54_duplicates_refuted"], "note": "Reduction of trees by a trace: language over the activities of the trace kept, never raises, replaces exactly the needless nodes; refuted for duplicate labels."},
 {"property": "C55", "status": "proved", "theorems": ["Verif.C55_raises_iff", "Verif.C55_language", "Verif.C55_valid", "Verif.C55_net", "Verif.C55_interleaving_refuted"], "note": "Full statement; interleaving refuted."},
 {"property": "C56", "status": "proved", "theorems": ["Verif.C56_raises_iff", "Verif.C56_dictionary", "Verif.C56_pattern", "Verif.C56_language", "Verif.C56_silent_do_refuted", "Verif.C56_ternary_loop_refuted", "Verif.C56_interleaving_refuted"], "note": "Full statement; wrong cases refuted."},
 {"property": "C57", "status": "proved", "theorems": ["Verif.C57_raises_iff", "Verif.C57_roundtrip", "Verif.C57_ternary_root_refuted", "Verif.C57_ternary_refuted"], "note": "Full statement; ternary loops refuted."},
 {"property": "C58", "status": "proved", "theorems": ["Verif.C58_raises_iff", "Verif.C58_stripped", "Verif.C58_roundtrip", "Verif.C58_roundtrip_file", "Verif.C58_default_raises_iff", "Verif.C58_single_event_refuted", "Verif.C58_whitespace_refuted"], "note": "Character-level model of the .dfg text; the order of the activity set is universally quantified; names with line feeds are outside the round-trip theorems; float counts not modelled."},
 {"property": "C59", "status": "proved", "theorems": ["Verif.C59_roundtrip", "Verif.C59_data", "Verif.C59_empty_final", "Verif.C59_prom5_refuted", "Verif.C59_clash_refuted", "Verif.C59_duplicate_refuted", "Verif.C59_empty_label_refuted"], "note": "XML as element trees (lxml's text serialisation trusted, empty text read as None); layout and stochastic information not modelled; objects identified by position; unique names and no place/transition name clash on transition-to-place arcs are hypotheses, with refutations without them."},
 {"property": "C60", "status": "proved", "theorems": ["Verif.C60_chunks", "Verif.C60_roundtrip", "Verif.C60_roundtrip_flat", "Verif.C60_bytes_ascii", "Verif.C60_bytes_refuted", "Verif.C60_escape_refuted", "Verif.C60_quote_refuted", "Verif.C60_nested_refuted", "Verif.C60_name_refuted", "Verif.C60_classifier_refuted", "Verif.C60_whitespace_refuted", "Verif.C60_quoteattr"], "note": "default exporter and chunk_regex importer; _refuted theorems are the counterexamples"},
 {"property": "C61", "status": "proved", "theorems": ["Verif.C61_values", "Verif.C61_exact", "Verif.C61_flat", "Verif.C61_max_refuted", "Verif.C61_type_refuted", "Verif.C61_nested_refuted"], "note": "default exporter and line_by_line importer"},
 {"property": "C62", "status": "proved", "theorems": ["Verif.C62_import", "Verif.C62_flat", "Verif.C62_nested", "Verif.C62_nested_refuted"], "note": "default exporter and iterparse importer, lxml as an oracle"},
 {"property": "C63", "status": "proved", "theorems": ["Verif.C63_true", "Verif.C63_true_short", "Verif.C63_complete", "Verif.C63_uncovered", "Verif.C63_unbounded", "Verif.C63_not_workflow", "Verif.C63_initial_any", "Verif.C63_initial_refuted", "Verif.C63_scover_refuted", "Verif.C63_silent_refuted"], "note": "WOFLAN as relations over pop orders; numerical invariants as oracle; _refuted theorems are the counterexamples to the converse"},
 {"property": "C64", "status": "proved", "theorems": ["Verif.C64_forward", "Verif.C64_backward", "Verif.C64_language_grows", "Verif.C64_language", "Verif.C64_kept", "Verif.C64_prefix", "Verif.C64_marked_refuted", "Verif.C64_leftover_refuted"], "note": "integer programs as existence of solutions; _refuted theorems are counterexamples"},
 {"property": "C65", "status": "proved", "theorems": ["Verif.C65_token_game", "Verif.C65_language", "Verif.C65_sound", "Verif.C65_inclusive_refuted", "Verif.C65_implicit_split"], "note": "Graph model, token-game specification; inclusive split/join pairs excluded (their behaviour is the refuted claim)"},
 {"property": "C66", "status": "proved", "theorems": ["Verif.C66_formula", "Verif.C66_range", "Verif.C66_dataframe_refuted", "Verif.C66_separator_refuted", "Verif.C66_eventually_sound", "Verif.C66_eventually_complete", "Verif.C66_eventually_terminates", "Verif.C66_eventually_refuted", "Verif.C66_markings", "Verif.C66_activated", "Verif.C66_precision", "Verif.C66_source_transition_refuted"], "note": "Token replay itself (the act parameter of the token variant) is C07; floats are exact fractions."},
 {"property": "C67", "status": "proved", "theorems": ["Verif.C67_transitions_observed", "Verif.C67_events_represented", "Verif.C67_states_observed", "Verif.C67_states_unique", "Verif.C67_replay", "Verif.C67_deterministic", "Verif.C67_prefix_automaton", "Verif.C67_replay_refuted"], "note": "soundness, completeness, unique names, replay, determinism and the prefix-automaton theorem for all logs; replay refuted for repeated views"},
 {"property": "C68", "status": "proved", "theorems": ["Verif.C68_production", "Verif.C68_missing", "Verif.C68_bounds", "Verif.C68_order", "Verif.C68_refuted"], "note": "exact value for all event lists; the documented value is refuted (the last busy period is missing)"},
 {"property": "C69", "status": "proved", "theorems": ["Verif.C69_exact", "Verif.C69_business_seconds", "Verif.C69_duration", "Verif.C69_monotone", "Verif.C69_gap_refuted"], "note": "exact count for all slot lists and intervals; one-second gaps refuted"},
 {"property": "C70", "status": "proved", "theorems": ["Verif.C70_partition", "Verif.C70_separated", "Verif.C70_close_together", "Verif.C70_reported", "Verif.C70_types", "Verif.C70_far_refuted", "Verif.C70_unsorted_refuted"], "note": "partition, separation, close executions together, reported batches and types for all lists and orders; that batches only contain close executions is refuted"},
 {"property": "C71", "status": "proved", "theorems": ["Verif.C71_discovery", "Verif.C71_conformance", "Verif.C71_zeta", "Verif.C71_self", "Verif.C71_self_default", "Verif.C71_self_sharp", "Verif.C71_case"], "note": "floats as exact reals, integer ticks"},
 {"property": "C72", "status": "proved", "theorems": ["Verif.C72_language", "Verif.C72_sound", "Verif.C72_elements", "Verif.C72_petri", "Verif.C72_discover", "Verif.C72_single_child_refuted", "Verif.C72_interleaving_refuted"], "note": "limits: C72_single_child_refuted, C72_interleaving_refuted"},
 {"property": "C73", "status": "proved", "theorems": ["Verif.C73_handover", "Verif.C73_handover_direct", "Verif.C73_handover_sum", "Verif.C73_handover_raises", "Verif.C73_together", "Verif.C73_together_df", "Verif.C73_subcontracting", "Verif.C73_normalize", "Verif.C73_subcontracting_refuted", "Verif.C73_subcontracting_order", "Verif.C73_together_df_refuted"], "note": "limits: C73_subcontracting_refuted, C73_subcontracting_order, C73_together_df_refuted"},
 {"property": "C74", "status": "proved", "theorems": ["Verif.C74_rows", "Verif.C74_cases", "Verif.C74_ocdfg", "Verif.C74_ocdfg_flat", "Verif.C74_qualifiers_refuted"], "note": "flattening and OC-DFG edges for logs without repeated relations; refuted for repeated relations"},
 {"property": "C75", "status": "proved", "theorems": ["Verif.C75_min", "Verif.C75_none", "Verif.C75_df", "Verif.C75_witnesses", "Verif.C75_rework", "Verif.C75_rework_df", "Verif.C75_rework_case", "Verif.C75_witnesses_refuted"], "note": "exact; witnesses only for the default activity key (refuted otherwise)"},
 {"property": "C76", "status": "proved", "theorems": ["Verif.C76_efg", "Verif.C76_efg_all", "Verif.C76_efg_df", "Verif.C76_efg_agree", "Verif.C76_conc", "Verif.C76_conc_keys", "Verif.C76_conc_df", "Verif.C76_efg_ties_refuted", "Verif.C76_conc_df_refuted", "Verif.C76_conc_proper_needed"], "note": "exact counts; data frames of concurrent activities overwrite counts (refuted)"},
 {"property": "C77", "status": "proved", "theorems": ["Verif.C77_dependency", "Verif.C77_input", "Verif.C77_arcs", "Verif.C77_nodes", "Verif.C77_values", "Verif.C77_and", "Verif.C77_discover", "Verif.C77_complete_refuted", "Verif.C77_loop_refuted", "Verif.C77_noise_refuted"], "note": "the heuristics net (event logs); exact arithmetic"},
 {"property": "C78", "status": "proved", "theorems": ["Verif.C78_parts", "Verif.C78_maximal", "Verif.C78_run", "Verif.C78_language", "Verif.C78_merge", "Verif.C78_duplicates_refuted", "Verif.C78_weights_refuted"], "note": "maximal decomposition and merging; unique names"},
 {"property": "C79", "status": "proved", "theorems": ["Verif.C79_exactly_once", "Verif.C79_at_most_once", "Verif.C79_one_worker_in_order", "Verif.C79_accepted", "Verif.C79_stop_terminates", "Verif.C79_discovery", "Verif.C79_order_refuted", "Verif.C79_two_stops_refuted", "Verif.C79_never_started_refuted", "Verif.C79_stop_before_start_refuted"], "note": "critical sections of the stream are the steps of the model; observers fixed; FIFO waiters as in threading.Condition"},
 {"property": "C80", "status": "proved", "theorems": ["Verif.C80_status", "Verif.C80_terminate", "Verif.C80_fits", "Verif.C80_interleaving", "Verif.C80_diagnostics", "Verif.C80_leading_unknown_refuted"], "note": "log messages not modelled; str encoding of identifiers taken as the identity"},
 {"property": "C81", "status": "proved", "theorems": ["Verif.C81_stream_eq_batch", "Verif.C81_interleaving", "Verif.C81_incremental", "Verif.C81_case"], "note": "times are integer ticks, profile values exact reals"},
 {"property": "C82", "status": "proved", "theorems": ["Verif.C82_to_interval", "Verif.C82_durations", "Verif.C82_idempotent", "Verif.C82_roundtrip", "Verif.C82_roundtrip_exact", "Verif.C82_nested_refuted", "Verif.C82_first_trace_refuted"], "note": "full statement; the two refuted clauses are proved as counterexamples"},
 {"property": "C83", "status": "proved", "theorems": ["Verif.C83_log", "Verif.C83_too_few", "Verif.C83_dataframe", "Verif.C83_agree", "Verif.C83_dataframe_complete", "Verif.C83_join_refuted"], "note": "full statement; the unrestricted equality of the two variants is refuted"},
 {"property": "C84", "status": "proved", "theorems": ["Verif.C84_terminates", "Verif.C84_result", "Verif.C84_no_useless", "Verif.C84_confluent", "Verif.C84_paths", "Verif.C84_loop_refuted"], "note": "full statement; termination without the reachability assumption is refuted"},
 {"property": "C85", "status": "proved", "theorems": ["Verif.C85_language", "Verif.C85_safe", "Verif.C85_tasks", "Verif.C85_deadlock_refuted"], "note": "diagram before the gateway reduction; the reduction is C84"},
 {"property": "C86", "status": "proved", "theorems": ["Verif.C86_language", "Verif.C86_convert"], "note": "Language equality for any sequence of removals; with C85 for the diagram returned for a net."},
 {"property": "C87", "status": "proved", "theorems": ["Verif.C87_balance", "Verif.C87_exact", "Verif.C87_wasted", "Verif.C87_touch_refuted"], "note": "Balance without conditions; exact measures when no execution starts at the end of another one; refuted at that boundary."},
 {"property": "C88", "status": "proved", "theorems": ["Verif.C88_generalization", "Verif.C88_range", "Verif.C88_monotone", "Verif.C88_simplicity", "Verif.C88_simplicity_range"], "note": "Real arithmetic instead of floats."},
 {"property": "C89", "status": "proved", "theorems": ["Verif.C89_split", "Verif.C89_split_size", "Verif.C89_split_fraction_refuted", "Verif.C89_split_df", "Verif.C89_prefixes", "Verif.C89_prefixes_df", "Verif.C89_next_activity", "Verif.C89_remaining_time"], "note": "Partition, sizes, prefixes and targets; the size of the training log is one above the requested fraction (refuted)."},
 {"property": "C90", "status": "proved", "theorems": ["Verif.C90_points", "Verif.C90_mem", "Verif.C90_sorted", "Verif.C90_segments_refuted"], "note": "Points are exactly the neighbouring pairs; joining into longer segments is refuted."},
 {"property": "C91", "status": "proved", "theorems": ["Verif.C91_injective", "Verif.C91_roundtrip", "Verif.C91_letters"], "note": "Injective numbering, round trip with the returned dictionary, letters."},
 {"property": "C92", "status": "proved", "theorems": ["Verif.C92_terminates", "Verif.C92_partition", "Verif.C92_similarity", "Verif.C92_sim", "Verif.C92_sim_range"], "note": "Termination, partition, counts, stop condition, similarity measure."},
 {"property": "C93", "status": "proved", "theorems": ["Verif.C93_move", "Verif.C93_empty_refuted"], "note": "Exact candidates, values kept; empty log is an error."},
 {"property": "C94", "status": "proved", "theorems": ["Verif.C94_arrival", "Verif.C94_order", "Verif.C94_dispersion", "Verif.C94_df", "Verif.C94_refuted"], "note": "Closed form, order independence, agreement of log and data frame for two or more cases; two refutations."}
]}
