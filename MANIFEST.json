{
 "claims": [
  {
   "property": "C01",
   "status": "proved",
   "theorems": [
    "Verif.C01_in_range_option_round_trip",
    "Verif.C01_some_and_none"
   ],
   "note": "all instances of the Sentinel trait at once"
  },
  {
   "property": "C02",
   "status": "proved",
   "theorems": [
    "Verif.C02_from_node_order_accepts_exactly_permutations",
    "Verif.C02_rank_node_inverse",
    "Verif.C02_from_ranks_from_node_order_agree",
    "Verif.C02_identity"
   ],
   "note": "debug_assert of the constructors counted as a check, as in debug builds"
  },
  {
   "property": "C03",
   "status": "proved",
   "theorems": [
    "Verif.C03_timestamped_vector_is_a_plain_vector"
   ],
   "note": ""
  },
  {
   "property": "C04",
   "status": "proved",
   "theorems": [
    "Verif.C04_atomic_dists_is_a_plain_vector"
   ],
   "note": "sequential histories of calls; atomics are plain accesses in the model"
  },
  {
   "property": "C05",
   "status": "proved",
   "theorems": [
    "Verif.C05_clearlist_vector_is_a_plain_vector"
   ],
   "note": ""
  },
  {
   "property": "C06",
   "status": "proved",
   "theorems": [
    "Verif.C06_bit_vector_is_a_set",
    "Verif.C06_set_all_counts_padding"
   ],
   "note": "count_ones differs after set_all with a partly used last word: C06_set_all_counts_padding"
  },
  {
   "property": "C07",
   "status": "proved",
   "theorems": [
    "Verif.C07_fast_clear_is_a_set",
    "Verif.C07_clear_removes_everything",
    "Verif.C07_out_of_range"
   ],
   "note": ""
  },
  {
   "property": "C08",
   "status": "proved",
   "theorems": [
    "Verif.C08_rank_counts_smaller_elements"
   ],
   "note": ""
  },
  {
   "property": "C09",
   "status": "proved",
   "theorems": [
    "Verif.C09_rank_maps_invert",
    "Verif.C09_documented_search",
    "Verif.C09_any_match_is_not_enough"
   ],
   "note": "for the binary search of std since Rust 1.82, transcribed; for the documented contract only if no 512-bit block is empty, with a counterexample otherwise"
  },
  {
   "property": "C10",
   "status": "proved",
   "theorems": [
    "Verif.C10_indexed_heap_refines_priority_map",
    "Verif.C10_priority_map_deterministic"
   ],
   "note": ""
  },
  {
   "property": "C11",
   "status": "partial",
   "theorems": [
    "Verif.C11_decrease_key_does_not_ignore_larger",
    "Verif.C11_increase_key_does_not_ignore_smaller",
    "Verif.C11_wrong_direction_breaks_pop",
    "Verif.C11_key_moves_in_direction_partial"
   ],
   "note": "the doc comment is false of the code: negation proved with a witness; the part that holds is C11_key_moves_in_direction_partial"
  },
  {
   "property": "C12",
   "status": "proved",
   "theorems": [
    "Verif.C12_heap_pops_in_order",
    "Verif.C12_history_determines_results"
   ],
   "note": ""
  },
  {
   "property": "C13",
   "status": "proved",
   "theorems": [
    "Verif.C13_from_adjacency_lists",
    "Verif.C13_too_large_rejected",
    "Verif.C13_constructor_checks"
   ],
   "note": ""
  },
  {
   "property": "C14",
   "status": "proved",
   "theorems": [
    "Verif.C14_reversed",
    "Verif.C14_reversed_with_edge_ids",
    "Verif.C14_reversed_distances",
    "Verif.C14_reversing_filtered_graph_panics"
   ],
   "note": ""
  },
  {
   "property": "C15",
   "status": "proved",
   "theorems": [
    "Verif.C15_permutated",
    "Verif.C15_permutated_filtered",
    "Verif.C15_distances"
   ],
   "note": ""
  },
  {
   "property": "C16",
   "status": "proved",
   "theorems": [
    "Verif.C16_ch_split"
   ],
   "note": ""
  },
  {
   "property": "C17",
   "status": "proved",
   "theorems": [
    "Verif.C17_unify_parallel_edges",
    "Verif.C17_distances"
   ],
   "note": ""
  },
  {
   "property": "C18",
   "status": "proved",
   "theorems": [
    "Verif.C18_line_graph",
    "Verif.C18_walks"
   ],
   "note": ""
  },
  {
   "property": "C19",
   "status": "proved",
   "theorems": [
    "Verif.C19_vector_round_trip",
    "Verif.C19_writing_succeeds",
    "Verif.C19_record_types",
    "Verif.C19_length_checked",
    "Verif.C19_graph_round_trip",
    "Verif.C19_node_order_round_trip",
    "Verif.C19_cch_round_trip",
    "Verif.C19_bit_vector_bits_round_trip",
    "Verif.C19_bit_vector_length_not_kept"
   ],
   "note": ""
  },
  {
   "property": "C20",
   "status": "proved",
   "theorems": [
    "Verif.C20_dijkstra_exact",
    "Verif.C20_single_query"
   ],
   "note": ""
  },
  {
   "property": "C21",
   "status": "proved",
   "theorems": [
    "Verif.C21_node_path",
    "Verif.C21_edge_path"
   ],
   "note": ""
  },
  {
   "property": "C22",
   "status": "proved",
   "theorems": [
    "Verif.C22_cch_no_state_between_queries",
    "Verif.C22_dijkstra_no_state_between_queries"
   ],
   "note": ""
  },
  {
   "property": "C23",
   "status": "proved",
   "theorems": [
    "Verif.C23_cch_no_overflow",
    "Verif.C23_dijkstra_no_overflow"
   ],
   "note": ""
  },
  {
   "property": "C24",
   "status": "proved",
   "theorems": [
    "Verif.C24_one_to_all",
    "Verif.C24_ranks"
   ],
   "note": ""
  },
  {
   "property": "C25",
   "status": "proved",
   "theorems": [
    "Verif.C25_astar_exact"
   ],
   "note": ""
  },
  {
   "property": "C26",
   "status": "proved",
   "theorems": [
    "Verif.C26_bidirectional_cap",
    "Verif.C26_bidirectional_exact",
    "Verif.C26_strategies"
   ],
   "note": "BiDirZeroPot; for every strategy that picks a non-empty queue, both strategies of the code do; with cap and node_path"
  },
  {
   "property": "C27",
   "status": "proved",
   "theorems": [
    "Verif.C27_alt_forward",
    "Verif.C27_alt_backward",
    "Verif.C27_alt_query_exact"
   ],
   "note": ""
  },
  {
   "property": "C28",
   "status": "proved",
   "theorems": [
    "Verif.C28_chordal_supergraph",
    "Verif.C28_no_superfluous_edges"
   ],
   "note": ""
  },
  {
   "property": "C29",
   "status": "proved",
   "theorems": [
    "Verif.C29_neighbours_are_ancestors",
    "Verif.C29_upward_reachable"
   ],
   "note": ""
  },
  {
   "property": "C30",
   "status": "proved",
   "theorems": [
    "Verif.C30_edge_weights",
    "Verif.C30_updown_distances"
   ],
   "note": ""
  },
  {
   "property": "C31",
   "status": "proved",
   "theorems": [
    "Verif.C31_cch_exact"
   ],
   "note": ""
  },
  {
   "property": "C32",
   "status": "proved",
   "theorems": [
    "Verif.C32_cch_paths"
   ],
   "note": ""
  },
  {
   "property": "C33",
   "status": "proved",
   "theorems": [
    "Verif.C33_schedule_independent"
   ],
   "note": ""
  },
  {
   "property": "C34",
   "status": "proved",
   "theorems": [
    "Verif.C34_perfect_weights",
    "Verif.C34_schedule_independent",
    "Verif.C34_perfect_queries",
    "Verif.C34_perfect_hierarchy"
   ],
   "note": "weights, flags, every schedule, whole query histories with paths, and the potentials of C40"
  },
  {
   "property": "C35",
   "status": "partial",
   "theorems": [
    "Verif.C35_rebuild_partial",
    "Verif.C35_rebuild_panics",
    "Verif.C35_not_independent"
   ],
   "note": "false of the parallel branch: two negations (panic with few edges, wrong first_out with an isolated lowest node); equal to the sequential branch otherwise"
  },
  {
   "property": "C36",
   "status": "proved",
   "theorems": [
    "Verif.C36_always_infinity",
    "Verif.C36_remove_keeps_arcs",
    "Verif.C36_directed_keeps_arcs",
    "Verif.C36_remove_queries",
    "Verif.C36_directed_queries",
    "Verif.C36_directed_any_order",
    "Verif.C36_perfect_not_perfect"
   ],
   "note": "includes the directed variant; the parallel execution is covered as arbitrary orders of node steps in which lower neighbours come first"
  },
  {
   "property": "C37",
   "status": "proved",
   "theorems": [
    "Verif.C37_separator_tree_partitions",
    "Verif.C37_orders_valid"
   ],
   "note": ""
  },
  {
   "property": "C38",
   "status": "partial",
   "theorems": [
    "Verif.C38_queries_exact_on_hierarchy",
    "Verif.C38_contraction_partial",
    "Verif.C38_contraction_queries_partial",
    "Verif.C38_contract_and_query_exact",
    "Verif.C38_from_contracted_graph",
    "Verif.C38_parallel_arcs_panic"
   ],
   "note": "queries exact on every hierarchy; contraction exact for every graph without parallel arcs and every order whenever it ends without overflow, and unconditionally if all arcs are shortest paths; parallel arcs: negation (panic)"
  },
  {
   "property": "C39",
   "status": "partial",
   "theorems": [
    "Verif.C39_path_panics",
    "Verif.C39_returned_paths_partial"
   ],
   "note": "false of the code: path never returns a path between different nodes"
  },
  {
   "property": "C40",
   "status": "proved",
   "theorems": [
    "Verif.C40_cch_potential",
    "Verif.C40_cch_backward_potential",
    "Verif.C40_ch_potential",
    "Verif.C40_cch_potential_perfect"
   ],
   "note": ""
  },
  {
   "property": "C41",
   "status": "partial",
   "theorems": [
    "Verif.C41_dijkstra_nearest_partial",
    "Verif.C41_zero_neighbours",
    "Verif.C41_lazy_nearest_partial",
    "Verif.C41_lazy_nearest_cch_partial",
    "Verif.C41_lazy_zero",
    "Verif.C41_separator_based_wrong"
   ],
   "note": "Dijkstra and LazyRphast variants for k >= 1; false of the code for k = 0 and for SeparatorBasedNearestNeighbor: negations proved with witnesses; BCCHNearestNeighbor not modelled"
  },
  {
   "property": "C42",
   "status": "proved",
   "theorems": [
    "Verif.C42_rphast",
    "Verif.C42_rphast_cch"
   ],
   "note": ""
  },
  {
   "property": "C43",
   "status": "proved",
   "theorems": [
    "Verif.C43_hub_labels",
    "Verif.C43_hub_on_shortest_walk",
    "Verif.C43_hub_labels_cch"
   ],
   "note": ""
  },
  {
   "property": "C44",
   "status": "proved",
   "theorems": [
    "Verif.C44_eval",
    "Verif.C44_breakpoint",
    "Verif.C44_value_unique",
    "Verif.C44_fifo",
    "Verif.C44_normalize",
    "Verif.C44_normalize_moves_points",
    "Verif.C44_graph_new"
   ],
   "note": "for input with the first break point at 0; C44_normalize_moves_points shows what the constructor does otherwise"
  },
  {
   "property": "C45",
   "status": "partial",
   "theorems": [
    "Verif.C45_lower_bound_in_range",
    "Verif.C45_upper_bound_never_attained",
    "Verif.C45_needs_short_range"
   ],
   "note": "lower bounds proved for ranges ending within the next period; upper_bound_in_range always returns INFINITY or more (negation proved); longer ranges: counterexample"
  },
  {
   "property": "C46",
   "status": "proved",
   "theorems": [
    "Verif.C46_live_fifo",
    "Verif.C46_live_value",
    "Verif.C46_pessimistic_fifo",
    "Verif.C46_pessimistic_upper_bound",
    "Verif.C46_live_lower_bound_partial",
    "Verif.C46_live_lower_bound_wrong",
    "Verif.C46_live_lower_bound_at_end"
   ],
   "note": "FIFO and upper_bound as stated; live_lower_bound, not part of the statement, is a bound in some cases only: C46_live_lower_bound_partial and counterexamples"
  },
  {
   "property": "C47",
   "status": "proved",
   "theorems": [
    "Verif.C47_td_dijkstra",
    "Verif.C47_td_astar",
    "Verif.C47_live",
    "Verif.C47_pessimistic"
   ],
   "note": ""
  },
  {
   "property": "C48",
   "status": "proved",
   "theorems": [
    "Verif.C48_tail_lookup"
   ],
   "note": ""
  },
  {
   "property": "C49",
   "status": "proved",
   "theorems": [
    "Verif.C49_merge",
    "Verif.C49_schedule_independent",
    "Verif.C49_needs_bound"
   ],
   "note": ""
  },
  {
   "property": "C50",
   "status": "proved",
   "theorems": [
    "Verif.C50_filter_covered",
    "Verif.C50_needs_ordered_ranges"
   ],
   "note": "for ranges with start <= end; C50_needs_ordered_ranges shows why"
  },
  {
   "property": "C51",
   "status": "proved",
   "theorems": [
    "Verif.C51_interleave",
    "Verif.C51_sweep"
   ],
   "note": ""
  },
  {
   "property": "C52",
   "status": "proved",
   "theorems": [
    "Verif.C52_permutated",
    "Verif.C52_recycling",
    "Verif.C52_turn_expanded",
    "Verif.C52_baseline",
    "Verif.C52_query_permutate"
   ],
   "note": "PotentialForPermutated as BiDirPotential is not modelled"
  },
  {
   "property": "C53",
   "status": "proved",
   "theorems": [
    "Verif.C53_fixed_order"
   ],
   "note": ""
  },
  {
   "property": "C54",
   "status": "proved",
   "theorems": [
    "Verif.C54_interrupted_vector",
    "Verif.C54_interrupted_graph",
    "Verif.C54_overwriting_can_mix",
    "Verif.C54_interrupted_order_can_shrink"
   ],
   "note": ""
  },
  {
   "property": "C55",
   "status": "partial",
   "theorems": [
    "Verif.C55_symmetric_minkey_partial",
    "Verif.C55_symmetric_minkey_path_partial",
    "Verif.C55_symmetric_alternating_wrong",
    "Verif.C55_symmetric_alternating_basic_wrong",
    "Verif.C55_average_wrong"
   ],
   "note": "Exact (distances, caps, paths, any sequence of queries) for SymmetricBiDirPotential, with and without improved pruning, with ChooseMinKeyDir, for consistent potentials and sums below 2^32. False for AlternatingDirs (both pruning variants) and for AveragePotential: negations with witnesses."
  },
  {
   "property": "C56",
   "status": "partial",
   "theorems": [
    "Verif.C56_overlay_sound_partial",
    "Verif.C56_overlay_loses_paths"
   ],
   "note": "false of the code: negation by witness; soundness of the arcs proved"
  },
  {
   "property": "C57",
   "status": "proved",
   "theorems": [
    "Verif.C57_topo_cap",
    "Verif.C57_topo_exact",
    "Verif.C57_one_to_all",
    "Verif.C57_topo_td",
    "Verif.C57_degrees"
   ],
   "note": ""
  },
  {
   "property": "C58",
   "status": "partial",
   "theorems": [
    "Verif.C58_preprocessing",
    "Verif.C58_server_partial",
    "Verif.C58_core_refuted",
    "Verif.C58_degrees_refuted"
   ],
   "note": "false of the code with the separate core search and for graphs whose core has no node of degree two: negations by witness; preprocessing total and queries exact without core search proved"
  },
  {
   "property": "C59",
   "status": "partial",
   "theorems": [
    "Verif.C59_degrees",
    "Verif.C59_core_zero_partial",
    "Verif.C59_core_symmetric_partial",
    "Verif.C59_core_path_partial",
    "Verif.C59_server_refuted"
   ],
   "note": "proved for BiDirCoreServer without potentials (both strategies) and with symmetric potentials and ChooseMinKeyDir; false of the code for BiDirServer: negation by witness"
  },
  {
   "property": "C60",
   "status": "partial",
   "theorems": [
    "Verif.C60_safe",
    "Verif.C60_labels",
    "Verif.C60_sound_partial",
    "Verif.C60_atomic",
    "Verif.C60_exact_refuted",
    "Verif.C60_symmetric_refuted"
   ],
   "note": "safety, termination and soundness proved for all schedules and memory orders; exactness is false of the code: negation by witness"
  },
  {
   "property": "C61",
   "status": "proved",
   "theorems": [
    "Verif.C61_ubs_subpaths",
    "Verif.C61_zero_weight_debug_panic"
   ],
   "note": ""
  },
  {
   "property": "C62",
   "status": "proved",
   "theorems": [
    "Verif.C62_cch_ubs_subpaths",
    "Verif.C62_zero_weight_cycle",
    "Verif.C62_zero_weight_no_answer"
   ],
   "note": ""
  },
  {
   "property": "C63",
   "status": "proved",
   "theorems": [
    "Verif.C63_path_repair_and_stats",
    "Verif.C63_no_violation_shortest",
    "Verif.C63_naive_empty_path",
    "Verif.C63_stats_repeated_node"
   ],
   "note": ""
  },
  {
   "property": "C64",
   "status": "proved",
   "theorems": [
    "Verif.C64_traffic_aware"
   ],
   "note": ""
  },
  {
   "property": "C65",
   "status": "partial",
   "theorems": [
    "Verif.C65_routes_partial",
    "Verif.C65_never_ends"
   ],
   "note": "Proved for every answer: no detours, simple, length at most the reported distance. Termination is refuted by C65_never_ends (negation with witness). Not proved: a route is returned if there is one; absence of panics."
  },
  {
   "property": "C66",
   "status": "proved",
   "theorems": [
    "Verif.C66_td_astar",
    "Verif.C66_recycling",
    "Verif.C66_permuted"
   ],
   "note": ""
  },
  {
   "property": "C67",
   "status": "proved",
   "theorems": [
    "Verif.C67_multi_metric",
    "Verif.C67_exact",
    "Verif.C67_later_days_fail"
   ],
   "note": "Departures before the period, release builds. C67_later_days_fail shows that the first restriction is needed."
  },
  {
   "property": "C68",
   "status": "partial",
   "theorems": [
    "Verif.C68_report_tree_partial",
    "Verif.C68_capture_panics",
    "Verif.C68_duplicate_panics",
    "Verif.C68_override",
    "Verif.C68_disabled"
   ],
   "note": "Contexts and collections directly within a capture panic (C68_capture_panics)."
  },
  {
   "property": "C69",
   "status": "proved",
   "theorems": [
    "Verif.C69_one_estimate_per_link",
    "Verif.C69_errors",
    "Verif.C69_links_lost"
   ],
   "note": "Links that are used twice and last links without positions get lost (C69_links_lost)."
  },
  {
   "property": "C70",
   "status": "partial",
   "theorems": [
    "Verif.C70_average_partial",
    "Verif.C70_wrapping_panics",
    "Verif.C70_sampling_server_panics",
    "Verif.C70_average_wrong"
   ],
   "note": "Windows across midnight and constant functions panic, bounds within the window fail for cut segments (C70_wrapping_panics, C70_sampling_server_panics, C70_average_wrong). Proved for the break points around the window."
  },
  {
   "property": "C71",
   "status": "partial",
   "theorems": [
    "Verif.C71_alternatives_partial",
    "Verif.C71_core",
    "Verif.C71_zero_length_panics",
    "Verif.C71_long_routes_panic",
    "Verif.C71_other_source",
    "Verif.C71_other_numbering"
   ],
   "note": "Proved for positive weights and routes below 11.9 hours, for paths between the places where source and target enter the core. Outside: C71_zero_length_panics, C71_long_routes_panic, C71_other_source, C71_other_numbering. The contract of the search (a simple route; exact for the first search with debug assertions) is an assumption: C60 shows that the search is not always exact."
  },
  {
   "property": "C72",
   "status": "partial",
   "theorems": [
    "Verif.C72_evaluate_partial",
    "Verif.C72_link_partial",
    "Verif.C72_fifo_partial",
    "Verif.C72_inverse_partial",
    "Verif.C72_inverse_later_day"
   ],
   "note": "In exact arithmetic: f64 is a rational number and EPSILON is zero; effects of rounding and of the tolerance are not covered. Inverse evaluation only for the first day; C72_inverse_later_day shows that it is wrong on later days."
  },
  {
   "property": "C73",
   "status": "partial",
   "theorems": [
    "Verif.C73_merge_partial",
    "Verif.C73_debug_partial",
    "Verif.C73_constant_panics"
   ],
   "note": "In exact arithmetic: f64 is a rational number and the tolerances (EPSILON, the literals in ccw) are zero. Merging of partial functions (merge_partial, MergeCursor for PartialPlfMergeCursor) is not covered. C73_constant_panics: debug builds panic for some functions with a constant minimum."
  },
  {
   "property": "C74",
   "status": "partial",
   "theorems": [
    "Verif.C74_approximate_partial",
    "Verif.C74_bounds_partial",
    "Verif.C74_upper_valid_partial",
    "Verif.C74_part_of_day_partial",
    "Verif.C74_lower_negative",
    "Verif.C74_constant_panics"
   ],
   "note": "In exact arithmetic: f64 is a rational number and EPSILON is zero. The variant with the feature tdcch-approx-imai-iri is not covered. C74_lower_negative: lower bounds can be negative. C74_constant_panics: constant functions panic."
  },
  {
   "property": "C75",
   "status": "partial",
   "theorems": [
    "Verif.C75_exact_partial",
    "Verif.C75_triangles_partial",
    "Verif.C75_lazy_wrong"
   ],
   "note": "In exact arithmetic: f64 is a rational number. Without lazy relaxation; the default configuration is refuted by C75_lazy_wrong. The hierarchy is assumed to be customized correctly (BoundsOK, EvalOK and Serves or Triangulated); for the main customization see C76. Path retrieval is not modelled."
  },
  {
   "property": "C76",
   "status": "partial",
   "theorems": [
    "Verif.C76_hierarchy_partial",
    "Verif.C76_exact_partial"
   ],
   "note": "In exact arithmetic: f64 is a rational number, tolerances are 0. With or without pre-customization (with it, all travel times along triangles have to be below infinity); no approximation (tdcch-approx) and no post-customization, which are on by default; at most one road per arc and direction (else the code panics by an assertion); queries without lazy relaxation. Nodes are processed one after the other."
  },
  {
   "property": "C77",
   "status": "partial",
   "theorems": [
    "Verif.C77_path_partial",
    "Verif.C77_customized_partial",
    "Verif.C77_lazy_panics"
   ],
   "note": "In exact arithmetic: f64 is a rational number; without lazy relaxation. The end-to-end theorem has the restrictions of C76 (main customization only)."
  },
  {
   "property": "C78",
   "status": "partial",
   "theorems": [
    "Verif.C78_exact_partial",
    "Verif.C78_ranks_partial",
    "Verif.C78_catchup_agrees_partial"
   ],
   "note": "In exact arithmetic: f64 is a rational number; tolerance of the interpolation 0. Agreement with CATCHUp has the restrictions of C76."
  },
  {
   "property": "C79",
   "status": "proved",
   "theorems": [
    "Verif.C79_import",
    "Verif.C79_debug_panics"
   ],
   "note": "`C79_import` is about builds without debug assertions; with them, `C79_debug_panics`. Lengths, speeds and their rounding are a parameter."
  },
  {
   "property": "C80",
   "status": "partial",
   "theorems": [
    "Verif.C80_same_roads_partial",
    "Verif.C80_never_later_partial",
    "Verif.C80_path_with_times_partial"
   ],
   "note": "Exact arithmetic for the numbers in seconds (f64 is a rational number, tolerance 0)."
  },
  {
   "property": "C81",
   "status": "partial",
   "theorems": [
    "Verif.C81_bounds_partial",
    "Verif.C81_kept_partial"
   ],
   "note": "Exact arithmetic; nodes are processed one after the other."
  },
  {
   "property": "C82",
   "status": "partial",
   "theorems": [
    "Verif.C82_hierarchy_partial",
    "Verif.C82_exact_partial"
   ],
   "note": "Exact arithmetic, no approximation, nodes processed one after the other. The theorems assume that on each road who leaves later arrives strictly later. Without it (a road on which one can only wait for a while), switching off a shortcut whose sources have a useless leg is not covered: the useless leg can then be slower than another way and yet both arrive at the same time at the end. No failing case is known."
  },
  {
   "property": "C83",
   "status": "proved",
   "theorems": [
    "Verif.C83_live",
    "Verif.C83_debug_panics",
    "Verif.C83_no_overtaking",
    "Verif.C83_path",
    "Verif.C83_now"
   ],
   "note": "Exact arithmetic. Reports that have already ended are excluded."
  },
  {
   "property": "C84",
   "status": "proved",
   "theorems": [
    "Verif.C84_bounds",
    "Verif.C84_promises",
    "Verif.C84_uppers",
    "Verif.C84_weights",
    "Verif.C84_schedule_independent"
   ],
   "note": "The steps for different nodes are atomic in the model, as for C34."
  },
  {
   "property": "C85",
   "status": "proved",
   "theorems": [
    "Verif.C85_check",
    "Verif.C85_query",
    "Verif.C85_disconnected"
   ],
   "note": ""
  },
  {
   "property": "C86",
   "status": "proved",
   "theorems": [
    "Verif.C86_required"
   ],
   "note": "The steps for different nodes are atomic in the model."
  },
  {
   "property": "C87",
   "status": "proved",
   "theorems": [
    "Verif.C87_valid_from"
   ],
   "note": "Times are rationals; the tolerance EPSILON is a parameter. The steps for different nodes are atomic in the model. binary_search_by is a parameter with its documented contract."
  },
  {
   "property": "C88",
   "status": "proved",
   "theorems": [
    "Verif.C88_interval"
   ],
   "note": "That for every trip there is an up-down path whose lower bounds it does not beat is a hypothesis, as are the bounds of the arcs. Nodes are ranks."
  },
  {
   "property": "C89",
   "status": "partial",
   "theorems": [
    "Verif.C89_not_a_lower_bound",
    "Verif.C89_slower_trip"
   ],
   "note": "The property as stated is false; the theorems are counterexamples, for a sequence of questions and for a query, evaluated by the kernel. No positive theorem for restricted histories."
  },
  {
   "property": "C90",
   "status": "proved",
   "theorems": [
    "Verif.C90_no_missing_estimate_is_read"
   ],
   "note": ""
  }
 ]
}