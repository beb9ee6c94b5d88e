# Axioms of each theorem

Output of `#print axioms` for the theorems in `MANIFEST.json`. Only the three standard axioms of Lean occur.

| property | theorem | axioms |
| --- | --- | --- |
| C01 | `C01_in_range_option_round_trip` | propext |
| C01 | `C01_some_and_none` | propext |
| C02 | `C02_from_node_order_accepts_exactly_permutations` | propext, Classical.choice, Quot.sound |
| C02 | `C02_rank_node_inverse` | propext, Classical.choice, Quot.sound |
| C02 | `C02_from_ranks_from_node_order_agree` | propext, Classical.choice, Quot.sound |
| C02 | `C02_identity` | propext |
| C03 | `C03_timestamped_vector_is_a_plain_vector` | propext, Classical.choice, Quot.sound |
| C04 | `C04_atomic_dists_is_a_plain_vector` | propext, Quot.sound |
| C05 | `C05_clearlist_vector_is_a_plain_vector` | propext, Classical.choice, Quot.sound |
| C06 | `C06_bit_vector_is_a_set` | propext, Classical.choice, Quot.sound |
| C06 | `C06_set_all_counts_padding` | propext |
| C07 | `C07_fast_clear_is_a_set` | propext, Classical.choice, Quot.sound |
| C07 | `C07_clear_removes_everything` | propext, Quot.sound |
| C07 | `C07_out_of_range` | propext, Quot.sound |
| C08 | `C08_rank_counts_smaller_elements` | propext, Classical.choice, Quot.sound |
| C09 | `C09_rank_maps_invert` | propext, Classical.choice, Quot.sound |
| C09 | `C09_documented_search` | propext, Classical.choice, Quot.sound |
| C09 | `C09_any_match_is_not_enough` | propext, Classical.choice, Quot.sound |
| C10 | `C10_indexed_heap_refines_priority_map` | propext, Classical.choice, Quot.sound |
| C10 | `C10_priority_map_deterministic` | propext, Quot.sound |
| C11 | `C11_decrease_key_does_not_ignore_larger` | propext, Classical.choice, Quot.sound |
| C11 | `C11_increase_key_does_not_ignore_smaller` | propext, Classical.choice, Quot.sound |
| C11 | `C11_wrong_direction_breaks_pop` | propext |
| C11 | `C11_key_moves_in_direction_partial` | propext, Classical.choice, Quot.sound |
| C12 | `C12_heap_pops_in_order` | propext, Classical.choice, Quot.sound |
| C12 | `C12_history_determines_results` | propext, Quot.sound |
| C13 | `C13_from_adjacency_lists` | propext, Quot.sound |
| C13 | `C13_too_large_rejected` | propext, Quot.sound |
| C13 | `C13_constructor_checks` | propext |
| C14 | `C14_reversed` | propext, Classical.choice, Quot.sound |
| C14 | `C14_reversed_with_edge_ids` | propext, Classical.choice, Quot.sound |
| C14 | `C14_reversed_distances` | propext, Classical.choice, Quot.sound |
| C14 | `C14_reversing_filtered_graph_panics` | propext, Quot.sound |
| C15 | `C15_permutated` | propext, Classical.choice, Quot.sound |
| C15 | `C15_permutated_filtered` | propext, Classical.choice, Quot.sound |
| C15 | `C15_distances` | propext, Classical.choice, Quot.sound |
| C16 | `C16_ch_split` | propext, Classical.choice, Quot.sound |
| C17 | `C17_unify_parallel_edges` | propext, Classical.choice, Quot.sound |
| C17 | `C17_distances` | propext, Classical.choice, Quot.sound |
| C18 | `C18_line_graph` | propext, Classical.choice, Quot.sound |
| C18 | `C18_walks` | propext, Classical.choice, Quot.sound |
| C19 | `C19_vector_round_trip` | propext, Classical.choice, Quot.sound |
| C19 | `C19_writing_succeeds` | propext, Quot.sound |
| C19 | `C19_record_types` | propext, Quot.sound |
| C19 | `C19_length_checked` | propext, Quot.sound |
| C19 | `C19_graph_round_trip` | propext, Classical.choice, Quot.sound |
| C19 | `C19_node_order_round_trip` | propext, Classical.choice, Quot.sound |
| C19 | `C19_cch_round_trip` | propext, Classical.choice, Quot.sound |
| C19 | `C19_bit_vector_bits_round_trip` | propext, Classical.choice, Quot.sound |
| C19 | `C19_bit_vector_length_not_kept` | propext, Quot.sound |
| C20 | `C20_dijkstra_exact` | propext, Classical.choice, Quot.sound |
| C20 | `C20_single_query` | propext, Classical.choice, Quot.sound |
| C21 | `C21_node_path` | propext, Classical.choice, Quot.sound |
| C21 | `C21_edge_path` | propext, Classical.choice, Quot.sound |
| C22 | `C22_cch_no_state_between_queries` | propext, Classical.choice, Quot.sound |
| C22 | `C22_dijkstra_no_state_between_queries` | propext, Classical.choice, Quot.sound |
| C23 | `C23_cch_no_overflow` | propext, Classical.choice, Quot.sound |
| C23 | `C23_dijkstra_no_overflow` | propext, Classical.choice, Quot.sound |
| C24 | `C24_one_to_all` | propext, Classical.choice, Quot.sound |
| C24 | `C24_ranks` | propext, Classical.choice, Quot.sound |
| C25 | `C25_astar_exact` | propext, Classical.choice, Quot.sound |
| C26 | `C26_bidirectional_cap` | propext, Classical.choice, Quot.sound |
| C26 | `C26_bidirectional_exact` | propext, Classical.choice, Quot.sound |
| C26 | `C26_strategies` | propext |
| C27 | `C27_alt_forward` | propext, Classical.choice, Quot.sound |
| C27 | `C27_alt_backward` | propext, Classical.choice, Quot.sound |
| C27 | `C27_alt_query_exact` | propext, Classical.choice, Quot.sound |
| C28 | `C28_chordal_supergraph` | propext, Classical.choice, Quot.sound |
| C28 | `C28_no_superfluous_edges` | propext, Classical.choice, Quot.sound |
| C29 | `C29_neighbours_are_ancestors` | propext, Classical.choice, Quot.sound |
| C29 | `C29_upward_reachable` | propext, Classical.choice, Quot.sound |
| C30 | `C30_edge_weights` | propext, Classical.choice, Quot.sound |
| C30 | `C30_updown_distances` | propext, Classical.choice, Quot.sound |
| C31 | `C31_cch_exact` | propext, Classical.choice, Quot.sound |
| C32 | `C32_cch_paths` | propext, Classical.choice, Quot.sound |
| C33 | `C33_schedule_independent` | propext, Classical.choice, Quot.sound |
| C34 | `C34_perfect_weights` | propext, Classical.choice, Quot.sound |
| C34 | `C34_schedule_independent` | propext, Classical.choice, Quot.sound |
| C34 | `C34_perfect_queries` | propext, Classical.choice, Quot.sound |
| C34 | `C34_perfect_hierarchy` | propext, Classical.choice, Quot.sound |
| C35 | `C35_rebuild_partial` | propext, Classical.choice, Quot.sound |
| C35 | `C35_rebuild_panics` | propext, Classical.choice, Quot.sound |
| C35 | `C35_not_independent` | propext, Quot.sound |
| C36 | `C36_always_infinity` | propext, Classical.choice, Quot.sound |
| C36 | `C36_remove_keeps_arcs` | propext, Classical.choice, Quot.sound |
| C36 | `C36_directed_keeps_arcs` | propext, Classical.choice, Quot.sound |
| C36 | `C36_remove_queries` | propext, Classical.choice, Quot.sound |
| C36 | `C36_directed_queries` | propext, Classical.choice, Quot.sound |
| C36 | `C36_directed_any_order` | propext, Classical.choice, Quot.sound |
| C36 | `C36_perfect_not_perfect` | propext, Quot.sound |
| C37 | `C37_separator_tree_partitions` | propext, Classical.choice, Quot.sound |
| C37 | `C37_orders_valid` | propext, Classical.choice, Quot.sound |
| C38 | `C38_queries_exact_on_hierarchy` | propext, Classical.choice, Quot.sound |
| C38 | `C38_contraction_partial` | propext, Classical.choice, Quot.sound |
| C38 | `C38_contraction_queries_partial` | propext, Classical.choice, Quot.sound |
| C38 | `C38_contract_and_query_exact` | propext, Classical.choice, Quot.sound |
| C38 | `C38_from_contracted_graph` | propext, Classical.choice, Quot.sound |
| C38 | `C38_parallel_arcs_panic` | propext, Quot.sound |
| C39 | `C39_path_panics` | propext, Classical.choice, Quot.sound |
| C39 | `C39_returned_paths_partial` | propext, Classical.choice, Quot.sound |
| C40 | `C40_cch_potential` | propext, Classical.choice, Quot.sound |
| C40 | `C40_cch_backward_potential` | propext, Classical.choice, Quot.sound |
| C40 | `C40_ch_potential` | propext, Classical.choice, Quot.sound |
| C40 | `C40_cch_potential_perfect` | propext, Classical.choice, Quot.sound |
| C41 | `C41_dijkstra_nearest_partial` | propext, Classical.choice, Quot.sound |
| C41 | `C41_zero_neighbours` | propext |
| C41 | `C41_lazy_nearest_partial` | propext, Classical.choice, Quot.sound |
| C41 | `C41_lazy_nearest_cch_partial` | propext, Classical.choice, Quot.sound |
| C41 | `C41_lazy_zero` | propext, Quot.sound |
| C41 | `C41_separator_based_wrong` | propext, Quot.sound |
| C42 | `C42_rphast` | propext, Classical.choice, Quot.sound |
| C42 | `C42_rphast_cch` | propext, Classical.choice, Quot.sound |
| C43 | `C43_hub_labels` | propext, Classical.choice, Quot.sound |
| C43 | `C43_hub_on_shortest_walk` | propext, Classical.choice, Quot.sound |
| C43 | `C43_hub_labels_cch` | propext, Classical.choice, Quot.sound |
| C44 | `C44_eval` | propext, Classical.choice, Quot.sound |
| C44 | `C44_breakpoint` | propext, Classical.choice, Quot.sound |
| C44 | `C44_value_unique` | propext, Classical.choice, Quot.sound |
| C44 | `C44_fifo` | propext, Classical.choice, Quot.sound |
| C44 | `C44_normalize` | propext, Classical.choice, Quot.sound |
| C44 | `C44_normalize_moves_points` | propext, Quot.sound |
| C44 | `C44_graph_new` | propext, Classical.choice, Quot.sound |
| C45 | `C45_lower_bound_in_range` | propext, Classical.choice, Quot.sound |
| C45 | `C45_upper_bound_never_attained` | propext, Classical.choice, Quot.sound |
| C45 | `C45_needs_short_range` | propext |
| C46 | `C46_live_fifo` | propext, Classical.choice, Quot.sound |
| C46 | `C46_live_value` | propext, Classical.choice, Quot.sound |
| C46 | `C46_pessimistic_fifo` | propext, Classical.choice, Quot.sound |
| C46 | `C46_pessimistic_upper_bound` | propext, Classical.choice, Quot.sound |
| C46 | `C46_live_lower_bound_partial` | propext, Classical.choice, Quot.sound |
| C46 | `C46_live_lower_bound_wrong` | propext |
| C46 | `C46_live_lower_bound_at_end` | propext |
| C47 | `C47_td_dijkstra` | propext, Classical.choice, Quot.sound |
| C47 | `C47_td_astar` | propext, Classical.choice, Quot.sound |
| C47 | `C47_live` | propext, Classical.choice, Quot.sound |
| C47 | `C47_pessimistic` | propext, Classical.choice, Quot.sound |
| C48 | `C48_tail_lookup` | propext, Classical.choice, Quot.sound |
| C49 | `C49_merge` | propext, Classical.choice, Quot.sound |
| C49 | `C49_schedule_independent` | propext, Classical.choice, Quot.sound |
| C49 | `C49_needs_bound` | propext, Quot.sound |
| C50 | `C50_filter_covered` | propext, Classical.choice, Quot.sound |
| C50 | `C50_needs_ordered_ranges` | propext |
| C51 | `C51_interleave` | propext, Classical.choice, Quot.sound |
| C51 | `C51_sweep` | propext, Classical.choice, Quot.sound |
| C52 | `C52_permutated` | propext, Classical.choice, Quot.sound |
| C52 | `C52_recycling` | propext, Quot.sound |
| C52 | `C52_turn_expanded` | propext, Classical.choice, Quot.sound |
| C52 | `C52_baseline` | propext, Classical.choice, Quot.sound |
| C52 | `C52_query_permutate` | propext, Classical.choice, Quot.sound |
| C53 | `C53_fixed_order` | propext, Classical.choice, Quot.sound |
| C54 | `C54_interrupted_vector` | propext, Classical.choice, Quot.sound |
| C54 | `C54_interrupted_graph` | propext, Classical.choice, Quot.sound |
| C54 | `C54_overwriting_can_mix` | propext, Classical.choice, Quot.sound |
| C54 | `C54_interrupted_order_can_shrink` | propext, Classical.choice, Quot.sound |
| C55 | `C55_symmetric_minkey_partial` | propext, Classical.choice, Quot.sound |
| C55 | `C55_symmetric_minkey_path_partial` | propext, Classical.choice, Quot.sound |
| C55 | `C55_symmetric_alternating_wrong` | propext, Classical.choice, Quot.sound |
| C55 | `C55_symmetric_alternating_basic_wrong` | propext, Classical.choice, Quot.sound |
| C55 | `C55_average_wrong` | propext, Classical.choice, Quot.sound |
| C56 | `C56_overlay_sound_partial` | propext, Classical.choice, Quot.sound |
| C56 | `C56_overlay_loses_paths` | propext, Classical.choice, Quot.sound |
| C57 | `C57_topo_cap` | propext, Classical.choice, Quot.sound |
| C57 | `C57_topo_exact` | propext, Classical.choice, Quot.sound |
| C57 | `C57_one_to_all` | propext, Classical.choice, Quot.sound |
| C57 | `C57_topo_td` | propext, Classical.choice, Quot.sound |
| C57 | `C57_degrees` | propext, Classical.choice, Quot.sound |
| C58 | `C58_preprocessing` | propext, Classical.choice, Quot.sound |
| C58 | `C58_server_partial` | propext, Classical.choice, Quot.sound |
| C58 | `C58_core_refuted` | propext, Classical.choice, Quot.sound |
| C58 | `C58_degrees_refuted` | propext, Classical.choice, Quot.sound |
| C59 | `C59_degrees` | propext, Classical.choice, Quot.sound |
| C59 | `C59_core_zero_partial` | propext, Classical.choice, Quot.sound |
| C59 | `C59_core_symmetric_partial` | propext, Classical.choice, Quot.sound |
| C59 | `C59_core_path_partial` | propext, Classical.choice, Quot.sound |
| C59 | `C59_server_refuted` | propext, Classical.choice, Quot.sound |
| C60 | `C60_safe` | propext, Classical.choice, Quot.sound |
| C60 | `C60_labels` | propext, Classical.choice, Quot.sound |
| C60 | `C60_sound_partial` | propext, Classical.choice, Quot.sound |
| C60 | `C60_atomic` | propext, Classical.choice, Quot.sound |
| C60 | `C60_exact_refuted` | propext, Classical.choice, Quot.sound |
| C60 | `C60_symmetric_refuted` | propext, Classical.choice, Quot.sound |
| C61 | `C61_ubs_subpaths` | propext, Classical.choice, Quot.sound |
| C61 | `C61_zero_weight_debug_panic` | propext, Quot.sound |
| C62 | `C62_cch_ubs_subpaths` | propext, Classical.choice, Quot.sound |
| C62 | `C62_zero_weight_cycle` | propext, Classical.choice, Quot.sound |
| C62 | `C62_zero_weight_no_answer` | propext, Quot.sound |
| C63 | `C63_path_repair_and_stats` | propext, Classical.choice, Quot.sound |
| C63 | `C63_no_violation_shortest` | propext, Classical.choice, Quot.sound |
| C63 | `C63_naive_empty_path` | propext, Quot.sound |
| C63 | `C63_stats_repeated_node` | propext, Classical.choice, Quot.sound |
| C64 | `C64_traffic_aware` | propext, Classical.choice, Quot.sound |
| C65 | `C65_routes_partial` | propext, Classical.choice, Quot.sound |
| C65 | `C65_never_ends` | propext, Classical.choice, Quot.sound |
| C66 | `C66_td_astar` | propext, Classical.choice, Quot.sound |
| C66 | `C66_recycling` | propext, Quot.sound |
| C66 | `C66_permuted` | propext, Quot.sound |
| C67 | `C67_multi_metric` | propext, Classical.choice, Quot.sound |
| C67 | `C67_exact` | propext, Classical.choice, Quot.sound |
| C67 | `C67_later_days_fail` | propext, Classical.choice, Quot.sound |
| C68 | `C68_report_tree_partial` | propext, Classical.choice, Quot.sound |
| C68 | `C68_capture_panics` | propext, Classical.choice, Quot.sound |
| C68 | `C68_duplicate_panics` | propext, Classical.choice, Quot.sound |
| C68 | `C68_override` | propext, Classical.choice, Quot.sound |
| C68 | `C68_disabled` | propext, Classical.choice, Quot.sound |
| C69 | `C69_one_estimate_per_link` | propext, Classical.choice, Quot.sound |
| C69 | `C69_errors` | propext |
| C69 | `C69_links_lost` | propext |
| C70 | `C70_average_partial` | propext, Classical.choice, Quot.sound |
| C70 | `C70_wrapping_panics` | propext, Quot.sound |
| C70 | `C70_sampling_server_panics` | propext, Classical.choice, Quot.sound |
| C70 | `C70_average_wrong` | propext, Classical.choice, Quot.sound |
| C71 | `C71_alternatives_partial` | propext, Classical.choice, Quot.sound |
| C71 | `C71_core` | propext, Classical.choice, Quot.sound |
| C71 | `C71_zero_length_panics` | propext, Classical.choice, Quot.sound |
| C71 | `C71_long_routes_panic` | propext, Quot.sound |
| C71 | `C71_other_source` | propext, Classical.choice, Quot.sound |
| C71 | `C71_other_numbering` | propext, Classical.choice, Quot.sound |
| C72 | `C72_evaluate_partial` | propext, Classical.choice, Quot.sound |
| C72 | `C72_link_partial` | propext, Classical.choice, Quot.sound |
| C72 | `C72_fifo_partial` | propext, Classical.choice, Quot.sound |
| C72 | `C72_inverse_partial` | propext, Classical.choice, Quot.sound |
| C72 | `C72_inverse_later_day` | propext, Classical.choice, Quot.sound |
| C73 | `C73_merge_partial` | propext, Classical.choice, Quot.sound |
| C73 | `C73_debug_partial` | propext, Classical.choice, Quot.sound |
| C73 | `C73_constant_panics` | propext, Classical.choice, Quot.sound |
| C74 | `C74_approximate_partial` | propext, Classical.choice, Quot.sound |
| C74 | `C74_bounds_partial` | propext, Classical.choice, Quot.sound |
| C74 | `C74_upper_valid_partial` | propext, Classical.choice, Quot.sound |
| C74 | `C74_part_of_day_partial` | propext, Classical.choice, Quot.sound |
| C74 | `C74_lower_negative` | propext, Classical.choice, Quot.sound |
| C74 | `C74_constant_panics` | propext, Classical.choice, Quot.sound |
| C75 | `C75_exact_partial` | propext, Classical.choice, Quot.sound |
| C75 | `C75_triangles_partial` | propext, Classical.choice, Quot.sound |
| C75 | `C75_lazy_wrong` | propext, Classical.choice, Quot.sound |
| C76 | `C76_hierarchy_partial` | propext, Classical.choice, Quot.sound |
| C76 | `C76_exact_partial` | propext, Classical.choice, Quot.sound |
| C77 | `C77_path_partial` | propext, Classical.choice, Quot.sound |
| C77 | `C77_customized_partial` | propext, Classical.choice, Quot.sound |
| C77 | `C77_lazy_panics` | propext, Classical.choice, Quot.sound |
| C78 | `C78_exact_partial` | propext, Classical.choice, Quot.sound |
| C78 | `C78_ranks_partial` | propext, Classical.choice, Quot.sound |
| C78 | `C78_catchup_agrees_partial` | propext, Classical.choice, Quot.sound |
| C79 | `C79_import` | propext, Classical.choice, Quot.sound |
| C79 | `C79_debug_panics` | propext, Classical.choice, Quot.sound |
| C80 | `C80_same_roads_partial` | propext, Classical.choice, Quot.sound |
| C80 | `C80_never_later_partial` | propext, Classical.choice, Quot.sound |
| C80 | `C80_path_with_times_partial` | propext, Classical.choice, Quot.sound |
| C81 | `C81_bounds_partial` | propext, Classical.choice, Quot.sound |
| C81 | `C81_kept_partial` | propext, Classical.choice, Quot.sound |
| C82 | `C82_hierarchy_partial` | propext, Classical.choice, Quot.sound |
| C82 | `C82_exact_partial` | propext, Classical.choice, Quot.sound |
| C83 | `C83_live` | propext, Classical.choice, Quot.sound |
| C83 | `C83_debug_panics` | propext, Classical.choice, Quot.sound |
| C83 | `C83_no_overtaking` | propext, Classical.choice, Quot.sound |
| C83 | `C83_path` | propext, Classical.choice, Quot.sound |
| C83 | `C83_now` | propext, Classical.choice, Quot.sound |
| C84 | `C84_bounds` | propext, Classical.choice, Quot.sound |
| C84 | `C84_promises` | propext, Classical.choice, Quot.sound |
| C84 | `C84_uppers` | propext, Classical.choice, Quot.sound |
| C84 | `C84_weights` | propext, Classical.choice, Quot.sound |
| C84 | `C84_schedule_independent` | propext, Classical.choice, Quot.sound |
| C85 | `C85_check` | propext, Classical.choice, Quot.sound |
| C85 | `C85_query` | propext, Classical.choice, Quot.sound |
| C85 | `C85_disconnected` | propext, Classical.choice, Quot.sound |
| C86 | `C86_required` | propext, Classical.choice, Quot.sound |
| C87 | `C87_valid_from` | propext, Classical.choice, Quot.sound |
| C88 | `C88_interval` | propext, Classical.choice, Quot.sound |
| C89 | `C89_not_a_lower_bound` | propext, Classical.choice, Quot.sound |
| C89 | `C89_slower_trip` | propext, Classical.choice, Quot.sound |
| C90 | `C90_no_missing_estimate_is_read` | propext, Classical.choice, Quot.sound |
