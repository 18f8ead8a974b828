# Axioms of the property theorems

Generated by `tools/axioms.py` from `#print axioms`.

| Property | Theorem | Axioms |
|---|---|---|
| C01 | `Pctsp.C01_reorder_is_rotation` | propext, Quot.sound |
| C01 | `Pctsp.C01_reorder_cost_prize` | propext, Quot.sound |
| C01 | `Pctsp.C01_reorder_idempotent` | propext, Quot.sound |
| C01 | `Pctsp.C01_reorder_isTour` | propext, Classical.choice, Quot.sound |
| C02 | `Pctsp.C02_reorder_absent_root` | propext, Quot.sound |
| C02 | `Pctsp.C02_reorder_visits_same_iff` | propext, Classical.choice, Quot.sound |
| C03 | `Pctsp.C03_edges_in_walk` | propext, Classical.choice, Quot.sound |
| C03 | `Pctsp.C03_edge_not_found` | propext, Quot.sound |
| C03 | `Pctsp.C03_ok_iff_walk` | propext, Quot.sound |
| C03 | `Pctsp.C03_short` | propext |
| C04 | `Pctsp.C04_graph_prize` | propext, Classical.choice, Quot.sound |
| C04 | `Pctsp.C04_cost_is_sum` | propext, Quot.sound |
| C04 | `Pctsp.C04_cost_additive` | propext, Quot.sound |
| C04 | `Pctsp.C04_cost_reverse` | propext, Quot.sound |
| C04 | `Pctsp.C04_tour_prize` | propext |
| C04 | `Pctsp.C04_prize_additive` | propext |
| C04 | `Pctsp.C04_text` | propext, Classical.choice, Quot.sound |
| C05 | `Pctsp.C05_subpath_slices` | propext, Quot.sound |
| C05 | `Pctsp.C05_subpath_walks_the_cycle` | propext, Quot.sound |
| C06 | `Pctsp.C06_bfs_exact` | propext, Classical.choice, Quot.sound |
| C06 | `Pctsp.C06_bfs_parents` | propext, Classical.choice, Quot.sound |
| C07 | `Pctsp.C07_dfs_sound` | propext, Quot.sound |
| C07 | `Pctsp.C07_dfs_incomplete` | propext, Quot.sound |
| C07 | `Pctsp.C07_dfs_marks_neighbours` | propext, Quot.sound |
| C08 | `Pctsp.C08_parent_chain` | propext, Quot.sound |
| C08 | `Pctsp.C08_parent_chain_root` | propext, Quot.sound |
| C09 | `Pctsp.C09_neighbor_intersection` | propext, Quot.sound |
| C10 | `Pctsp.C10_index_of_smallest_loss` | propext, Quot.sound |
| C10 | `Pctsp.C10_choose_extension_path` | propext, Classical.choice, Quot.sound |
| C11 | `Pctsp.C11_swap_inner` | propext, Classical.choice, Quot.sound |
| C11 | `Pctsp.C11_swap_through_root` | propext, Classical.choice, Quot.sound |
| C11 | `Pctsp.C11_swap_wraps` | propext, Classical.choice, Quot.sound |
| C11 | `Pctsp.C11_swap_undefined` | propext, Classical.choice, Quot.sound |
| C12 | `Pctsp.C12_path_extension_tour` | propext, Classical.choice, Quot.sound |
| C12 | `Pctsp.C12_extension_unitary_loss_tour` | propext, Classical.choice, Quot.sound |
| C13 | `Pctsp.C13_negative_prize_undefined` | propext, Classical.choice, Quot.sound |
| C13 | `Pctsp.C13_zero_step_undefined` | propext, Classical.choice, Quot.sound |
| C14 | `Pctsp.C14_rounds` | propext, Classical.choice, Quot.sound |
| C14 | `Pctsp.C14_shallow_identity` | propext, Classical.choice, Quot.sound |
| C14 | `Pctsp.C14_large_step_identity` | propext, Classical.choice, Quot.sound |
| C14 | `Pctsp.C14_no_path_identity` | propext, Classical.choice, Quot.sound |
| C14 | `Pctsp.C14_empty_tour_throws` | propext, Quot.sound |
| C15 | `Pctsp.C15_until_feasible_tour` | propext, Classical.choice, Quot.sound |
| C16 | `Pctsp.C16_does_not_stop_at_quota` | propext, Classical.choice, Quot.sound |
| C16 | `Pctsp.C16_quota_only_guards` | propext, Quot.sound |
| C16 | `Pctsp.C16_feasible_untouched` | propext, Quot.sound |
| C16 | `Pctsp.C16_exit_no_detour` | propext, Classical.choice, Quot.sound |
| C16 | `Pctsp.C16_exit` | propext, Classical.choice, Quot.sound |
| C16 | `Pctsp.C16_depth_two_exact` | propext, Classical.choice, Quot.sound |
| C16 | `Pctsp.C16_deep_search_misses` | propext, Classical.choice, Quot.sound |
| C17 | `Pctsp.C17_gain_only_inserts` | propext, Classical.choice, Quot.sound |
| C17 | `Pctsp.C17_until_feasible_only_inserts` | propext, Classical.choice, Quot.sound |
| C18 | `Pctsp.C18_gain_terminates_positive` | propext, Classical.choice, Quot.sound |
| C18 | `Pctsp.C18_until_feasible_terminates_positive` | propext, Classical.choice, Quot.sound |
| C19 | `Pctsp.C19_until_feasible_exit` | propext, Classical.choice, Quot.sound |
| C19 | `Pctsp.C19_until_feasible_dead_end` | propext, Classical.choice, Quot.sound |
| C20 | `Pctsp.C20_gain_rejects_non_walks` | propext, Quot.sound |
| C20 | `Pctsp.C20_until_feasible_rejects_non_walks` | propext, Quot.sound |
| C20 | `Pctsp.C20_non_walk_iff` | propext, Quot.sound |
| C20 | `Pctsp.C20_empty_tour_undefined` | propext, Quot.sound |
| C21 | `Pctsp.C21_collapse_tour` | propext, Classical.choice, Quot.sound |
| C21 | `Pctsp.C21_collapse_outcomes` | propext, Classical.choice, Quot.sound |
| C21 | `Pctsp.C21_negative_prize_single_vertex` | propext, Classical.choice, Quot.sound |
| C22 | `Pctsp.C22_collapse_feasible` | propext, Classical.choice, Quot.sound |
| C22 | `Pctsp.C22_collapse_stays_feasible` | propext, Classical.choice, Quot.sound |
| C23 | `Pctsp.C23_nothing_or_feasible` | propext, Classical.choice, Quot.sound |
| C24 | `Pctsp.C24_never_worse` | propext, Classical.choice, Quot.sound |
| C24 | `Pctsp.C24_empty_iff` | propext, Classical.choice, Quot.sound |
| C25 | `Pctsp.C25_edges_round_trip` | propext, Classical.choice, Quot.sound |
| C25 | `Pctsp.C25_vertices_round_trip` | propext, Classical.choice, Quot.sound |
| C26 | `Pctsp.C26_nonempty_lookup` | propext, Quot.sound |
| C26 | `Pctsp.C26_round_trip_fails` | none |
| C26 | `Pctsp.C26_known_vertices` | propext, Quot.sound |
| C27 | `Pctsp.C27_costs_and_prizes` | propext, Classical.choice, Quot.sound |
| C27 | `Pctsp.C27_isolated_vertex_ub` | propext, Classical.choice, Quot.sound |
| C28 | `Pctsp.C28_component_vectors` | propext, Classical.choice, Quot.sound |
| C28 | `Pctsp.C28_bad_labels` | propext, Classical.choice, Quot.sound |
| C29 | `Pctsp.C29_wrong_components` | propext, Quot.sound |
| C29 | `Pctsp.C29_wrong_after_singular` | propext, Classical.choice, Quot.sound |
| C29 | `Pctsp.C29_right_iff` | propext, Classical.choice, Quot.sound |
| C30 | `Pctsp.C30_isSimpleCycle_iff` | propext, Classical.choice, Quot.sound |
| C30 | `Pctsp.C30_accepted_is_tour` | propext, Classical.choice, Quot.sound |
| C30 | `Pctsp.C30_tour_accepted` | propext, Classical.choice, Quot.sound |
| C30 | `Pctsp.C30_rejected` | propext, Classical.choice, Quot.sound |
| C30 | `Pctsp.C30_disjoint_rejected` | propext, Classical.choice, Quot.sound |
| C31 | `Pctsp.C31_self_loops` | propext, Classical.choice, Quot.sound |
| C31 | `Pctsp.C31_partial_loops_doubled` | propext, Classical.choice, Quot.sound |
| C31 | `Pctsp.C31_prize_weights` | propext, Classical.choice, Quot.sound |
| C32 | `Pctsp.C32_degree_row` | propext, Classical.choice, Quot.sound |
| C32 | `Pctsp.C32_satisfied_iff` | propext, Classical.choice, Quot.sound |
| C32 | `Pctsp.C32_zero_one` | propext, Classical.choice, Quot.sound |
| C32 | `Pctsp.C32_self_loops` | propext, Classical.choice, Quot.sound |
| C33 | `Pctsp.C33_missing_root_loop` | propext, Classical.choice, Quot.sound |
| C33 | `Pctsp.C33_accepts_exactly_feasible_tours` | propext, Classical.choice, Quot.sound |
| C34 | `Pctsp.C34_round_valid` | propext, Classical.choice, Quot.sound |
| C34 | `Pctsp.C34_valid` | propext, Classical.choice, Quot.sound |
| C35 | `Pctsp.C35_outcomes` | propext, Classical.choice, Quot.sound |
| C35 | `Pctsp.C35_missing_self_loop` | propext, Classical.choice, Quot.sound |
| C35 | `Pctsp.C35_missing_variable` | propext, Classical.choice, Quot.sound |
| C36 | `Pctsp.C36_separates` | propext, Classical.choice, Quot.sound |
| C37 | `Pctsp.C37_valid` | propext, Classical.choice, Quot.sound |
| C37 | `Pctsp.C37_separates` | propext, Classical.choice, Quot.sound |
| C37 | `Pctsp.C37_check_accepts` | propext, Classical.choice, Quot.sound |
| C38 | `Pctsp.C38_disjoint_paths` | propext, Classical.choice, Quot.sound |
| C38 | `Pctsp.C38_shortest_paths` | propext, Classical.choice, Quot.sound |
| C39 | `Pctsp.C39_overflow` | propext, Classical.choice, Quot.sound |
| C39 | `Pctsp.C39_no_tour_visits` | propext |
| C39 | `Pctsp.C39_wraps` | propext, Quot.sound |
| C39 | `Pctsp.C39_exact` | propext, Classical.choice, Quot.sound |
| C40 | `Pctsp.C40_aligned` | propext, Classical.choice, Quot.sound |
| C40 | `Pctsp.C40_misaligned` | propext, Classical.choice, Quot.sound |
| C41 | `Pctsp.C41_window` | propext, Quot.sound |
| C41 | `Pctsp.C41_tailing_off` | propext, Quot.sound |
| C42 | `Pctsp.C42_counts` | propext, Classical.choice, Quot.sound |
| C42 | `Pctsp.C42_record` | propext, Classical.choice, Quot.sound |
| C42 | `Pctsp.C42_reset` | propext, Quot.sound |
| C42 | `Pctsp.C42_counts_lost` | propext |
| C42 | `Pctsp.C42_totals_le` | propext, Classical.choice, Quot.sound |
| C42 | `Pctsp.C42_totals` | propext, Classical.choice, Quot.sound |
| C43 | `Pctsp.C43_round_trip` | propext |
| C43 | `Pctsp.C43_identity_iff` | propext |
| C43 | `Pctsp.C43_twice` | propext |
| C43 | `Pctsp.C43_no_file` | propext |
| C43 | `Pctsp.C43_not_round_trip` | propext |
| C43 | `Pctsp.C43_bad_counter` | propext, Quot.sound |
| C44 | `Pctsp.C44_strong` | propext, Classical.choice, Quot.sound |
| C44 | `Pctsp.C44_strong_others` | propext, Quot.sound |
| C44 | `Pctsp.C44_relpscost` | propext, Quot.sound |
| C44 | `Pctsp.C44_others` | none |
| C44 | `Pctsp.C44_tree_top` | propext, Classical.choice, Quot.sound |
| C44 | `Pctsp.C44_idempotent` | propext, Classical.choice, Quot.sound |
| C44 | `Pctsp.C44_default_depth` | propext, Classical.choice, Quot.sound |
| C45 | `Pctsp.C45_defaults_no_op` | propext, Classical.choice, Quot.sound |
| C45 | `Pctsp.C45_small_step_no_op` | propext, Classical.choice, Quot.sound |
| C45 | `Pctsp.C45_as_intended_iff` | propext, Classical.choice, Quot.sound |
| C45 | `Pctsp.C45_unitary_loss_in_order` | propext, Classical.choice, Quot.sound |
| C46 | `Pctsp.C46_vertices_of_edges` | propext, Quot.sound |
| C46 | `Pctsp.C46_self_loops` | propext, Classical.choice, Quot.sound |
| C46 | `Pctsp.C46_self_loop_missing` | propext, Quot.sound |
| C46 | `Pctsp.C46_induced_edges` | propext, Classical.choice, Quot.sound |
| C46 | `Pctsp.C46_induced_edges_positions` | propext, Quot.sound |
| C46 | `Pctsp.C46_edges_from_pairs` | propext, Classical.choice, Quot.sound |
| C46 | `Pctsp.C46_edges_from_pairs_missing` | propext, Quot.sound |
| C46 | `Pctsp.C46_edge_vector` | propext, Quot.sound |
| C47 | `Pctsp.C47_coefficients` | propext, Classical.choice, Quot.sound |
| C47 | `Pctsp.C47_bad_length` | propext, Classical.choice, Quot.sound |
| C47 | `Pctsp.C47_activity` | propext, Classical.choice, Quot.sound |
| C47 | `Pctsp.C47_result` | propext |
| C48 | `Pctsp.C48_ieee` | propext, Classical.choice, Quot.sound |
| C48 | `Pctsp.C48_gain_best_insertions` | propext, Classical.choice, Quot.sound |
| C49 | `Pctsp.C49_ieee` | propext, Classical.choice, Quot.sound |
| C49 | `Pctsp.C49_gain_never_cheaper` | propext, Classical.choice, Quot.sound |
| C49 | `Pctsp.C49_cheaper_insertion_refused` | propext, Classical.choice, Quot.sound |
| C50 | `Pctsp.C50_collapse_no_missed_shortcut` | propext, Classical.choice, Quot.sound |
| C50 | `Pctsp.C50_collapse_shortest_path_tried` | propext, Classical.choice, Quot.sound |
| C51 | `Pctsp.C51_dijkstra_blacklist` | propext, Classical.choice, Quot.sound |
| C51 | `Pctsp.C51_dijkstra_throws_only_negative` | propext, Classical.choice, Quot.sound |
| C52 | `Pctsp.C52_path_extension` | propext, Classical.choice, Quot.sound |
| C52 | `Pctsp.C52_path_extension_until` | propext, Classical.choice, Quot.sound |
| C52 | `Pctsp.C52_extension_gain` | propext, Classical.choice, Quot.sound |
| C52 | `Pctsp.C52_collapse` | propext, Classical.choice, Quot.sound |
| C52 | `Pctsp.C52_path_extension_collapse` | propext, Classical.choice, Quot.sound |
| C53 | `Pctsp.C53_unknown_vertex` | propext, Classical.choice, Quot.sound |
| C53 | `Pctsp.C53_unknown_prize` | propext, Classical.choice, Quot.sound |
| C54 | `Pctsp.C54_wrong_cost_entry` | propext, Classical.choice, Quot.sound |
| C54 | `Pctsp.C54_missing_cost_entry` | propext, Classical.choice, Quot.sound |
| C55 | `Pctsp.C55_warm_start` | propext, Classical.choice, Quot.sound |
| C55 | `Pctsp.C55_missing_self_loop` | propext, Quot.sound |
| C56 | `Pctsp.C56_violated_iff` | propext, Classical.choice, Quot.sound |
| C56 | `Pctsp.C56_cycle_cover` | propext, Classical.choice, Quot.sound |
| C57 | `Pctsp.C57_cutoff_lost` | propext, Quot.sound |
| C57 | `Pctsp.C57_result` | propext, Classical.choice, Quot.sound |
| C58 | `Pctsp.C58_accepted_iff_nothing_separated` | propext, Classical.choice, Quot.sound |
| C59 | `Pctsp.C59_count` | propext, Classical.choice, Quot.sound |
| C59 | `Pctsp.C59_duplicates` | propext, Classical.choice, Quot.sound |
| C60 | `Pctsp.C60_branches_iff` | propext, Quot.sound |
| C61 | `Pctsp.C61_undefined_iff` | propext, Quot.sound |
| C62 | `Pctsp.C62_python_reader` | propext |
| C63 | `Pctsp.C63_fraction_iff` | propext, Classical.choice, Quot.sound |
| C63 | `Pctsp.C63_not_monotone` | none |
| C64 | `Pctsp.C64_rows_valid` | propext, Classical.choice, Quot.sound |
| C65 | `Pctsp.C65_no_row` | propext, Classical.choice, Quot.sound |
| C65 | `Pctsp.C65_no_row_iff` | propext, Classical.choice, Quot.sound |
| C65 | `Pctsp.C65_rounding` | propext, Classical.choice, Quot.sound |
| C66 | `Pctsp.C66_undefined_iff` | propext, Classical.choice, Quot.sound |
| C66 | `Pctsp.C66_defined` | propext, Classical.choice, Quot.sound |
| C67 | `Pctsp.C67_violated_iff` | propext, Classical.choice, Quot.sound |
| C67 | `Pctsp.C67_all_violated` | propext, Classical.choice, Quot.sound |
| C67 | `Pctsp.C67_missed` | propext, Classical.choice, Quot.sound |
| C68 | `Pctsp.C68_round` | propext, Classical.choice, Quot.sound |
| C68 | `Pctsp.C68_complete` | propext, Classical.choice, Quot.sound |
| C68 | `Pctsp.C68_exact` | propext, Classical.choice, Quot.sound |
| C69 | `Pctsp.C69_remove_leaves` | propext, Classical.choice, Quot.sound |
| C69 | `Pctsp.C69_keeps_cycles` | propext, Classical.choice, Quot.sound |
| C69 | `Pctsp.C69_idempotent` | propext, Classical.choice, Quot.sound |
| C69 | `Pctsp.C69_recursion` | propext, Classical.choice, Quot.sound |
| C70 | `Pctsp.C70_one_connected` | propext, Classical.choice, Quot.sound |
| C70 | `Pctsp.C70_tours_kept` | propext, Classical.choice, Quot.sound |
| C70 | `Pctsp.C70_outcomes` | propext, Classical.choice, Quot.sound |
| C70 | `Pctsp.C70_root_lost` | propext, Classical.choice, Quot.sound |
| C71 | `Pctsp.C71_outcome` | propext, Classical.choice, Quot.sound |
| C71 | `Pctsp.C71_cost` | propext, Classical.choice, Quot.sound |
| C71 | `Pctsp.C71_simple` | propext, Quot.sound |
| C72 | `Pctsp.C72_heuristic` | propext, Classical.choice, Quot.sound |
| C72 | `Pctsp.C72_errors` | propext, Classical.choice, Quot.sound |
| C73 | `Pctsp.C73_init` | propext, Classical.choice, Quot.sound |
| C73 | `Pctsp.C73_not_simple` | propext |
| C74 | `Pctsp.C74_random_tour` | propext, Classical.choice, Quot.sound |
| C74 | `Pctsp.C74_errors` | propext, Classical.choice, Quot.sound |
| C75 | `Pctsp.C75_untested` | propext, Classical.choice, Quot.sound |
| C75 | `Pctsp.C75_single` | propext, Classical.choice, Quot.sound |
| C75 | `Pctsp.C75_two` | propext, Classical.choice, Quot.sound |
| C76 | `Pctsp.C76_bfs_cycle` | propext, Classical.choice, Quot.sound |
| C76 | `Pctsp.C76_networkx` | propext, Classical.choice, Quot.sound |
| C76 | `Pctsp.C76_almost_shortest` | propext, Classical.choice, Quot.sound |
| C76 | `Pctsp.C76_not_shortest` | propext, Classical.choice, Quot.sound |
| C77 | `Pctsp.C77_free_detour_blocks` | propext, Classical.choice, Quot.sound |
| C77 | `Pctsp.C77_free_detour_first` | propext, Classical.choice, Quot.sound |
| C78 | `Pctsp.C78_numbers` | propext, Classical.choice, Quot.sound |
| C78 | `Pctsp.C78_order` | propext, Classical.choice, Quot.sound |
| C78 | `Pctsp.C78_recursion` | propext, Quot.sound |
| C79 | `Pctsp.C79_adjusted` | propext, Quot.sound |
| C79 | `Pctsp.C79_shortest` | propext, Quot.sound |
| C80 | `Pctsp.C80_total` | propext, Classical.choice, Quot.sound |
| C80 | `Pctsp.C80_source` | propext, Classical.choice, Quot.sound |
| C81 | `Pctsp.C81_sound` | propext, Classical.choice, Quot.sound |
| C81 | `Pctsp.C81_lower` | propext, Classical.choice, Quot.sound |
| C81 | `Pctsp.C81_none` | propext, Classical.choice, Quot.sound |
| C81 | `Pctsp.C81_misses` | propext, Classical.choice, Quot.sound |
| C81 | `Pctsp.C81_too_high` | propext, Classical.choice, Quot.sound |
| C82 | `Pctsp.C82_extract` | propext, Classical.choice, Quot.sound |
| C82 | `Pctsp.C82_other` | propext |
| C82 | `Pctsp.C82_shares_edge` | propext, Classical.choice, Quot.sound |
| C82 | `Pctsp.C82_not_simple` | propext, Classical.choice, Quot.sound |
| C83 | `Pctsp.C83_exact` | propext, Classical.choice, Quot.sound |
| C83 | `Pctsp.C83_none` | propext, Classical.choice, Quot.sound |
| C83 | `Pctsp.C83_labeled` | propext, Classical.choice, Quot.sound |
| C84 | `Pctsp.C84_disjoint` | propext, Classical.choice, Quot.sound |
| C84 | `Pctsp.C84_simple` | propext, Classical.choice, Quot.sound |
| C85 | `Pctsp.C85_entry` | propext, Classical.choice, Quot.sound |
| C85 | `Pctsp.C85_no_entry` | propext, Classical.choice, Quot.sound |
| C85 | `Pctsp.C85_paths` | propext, Classical.choice, Quot.sound |
| C85 | `Pctsp.C85_heuristic` | propext, Classical.choice, Quot.sound |
| C86 | `Pctsp.C86_root_entry` | propext, Classical.choice, Quot.sound |
| C86 | `Pctsp.C86_filled` | propext, Classical.choice, Quot.sound |
| C86 | `Pctsp.C86_rows` | propext, Classical.choice, Quot.sound |
| C86 | `Pctsp.C86_excludes` | propext, Classical.choice, Quot.sound |
| C86 | `Pctsp.C86_wrong` | propext, Classical.choice, Quot.sound |
| C87 | `Pctsp.C87_vertices` | propext, Classical.choice, Quot.sound |
| C87 | `Pctsp.C87_missing_loop` | propext, Quot.sound |
| C87 | `Pctsp.C87_edges` | propext, Classical.choice, Quot.sound |
| C88 | `Pctsp.C88_answer` | propext, Classical.choice, Quot.sound |
| C88 | `Pctsp.C88_solve` | propext, Classical.choice, Quot.sound |
| C88 | `Pctsp.C88_solver_exists` | propext, Classical.choice, Quot.sound |
| C88 | `Pctsp.C88_callbacks` | propext, Classical.choice, Quot.sound |
| C88 | `Pctsp.C88_misled` | propext, Classical.choice, Quot.sound |
| C89 | `Pctsp.C89_guarantee` | propext, Classical.choice, Quot.sound |
| C89 | `Pctsp.C89_wrong_optimum` | propext, Classical.choice, Quot.sound |
| C90 | `Pctsp.C90_least_loss` | propext, Classical.choice, Quot.sound |
| C90 | `Pctsp.C90_mean_unique` | propext, Quot.sound |
| C91 | `Pctsp.C91_bfs` | propext, Classical.choice, Quot.sound |
| C91 | `Pctsp.C91_bfs_no_cycle` | propext, Classical.choice, Quot.sound |
| C91 | `Pctsp.C91_suurballe` | propext, Classical.choice, Quot.sound |
| C91 | `Pctsp.C91_suurballe_extension` | propext, Classical.choice, Quot.sound |
| C91 | `Pctsp.C91_suurballe_no_prize` | propext, Classical.choice, Quot.sound |
| C91 | `Pctsp.C91_discarded` | propext, Classical.choice, Quot.sound |
| C91 | `Pctsp.C91_figure_eight` | propext, Classical.choice, Quot.sound |
| C91 | `Pctsp.C91_errors` | propext, Quot.sound |
| C91 | `Pctsp.C91_settings` | propext, Classical.choice, Quot.sound |
| C92 | `Pctsp.C92_exact` | propext, Classical.choice, Quot.sound |
| C92 | `Pctsp.C92_lost` | propext, Classical.choice, Quot.sound |
| C92 | `Pctsp.C92_heuristic` | propext, Classical.choice, Quot.sound |
| C92 | `Pctsp.C92_bfs` | propext, Classical.choice, Quot.sound |
| C92 | `Pctsp.C92_suurballe` | propext, Classical.choice, Quot.sound |
| C92 | `Pctsp.C92_rejected` | propext, Classical.choice, Quot.sound |
| C92 | `Pctsp.C92_optimal_lost` | propext, Classical.choice, Quot.sound |
| C93 | `Pctsp.C93_kept` | propext, Classical.choice, Quot.sound |
| C93 | `Pctsp.C93_lost` | propext, Classical.choice, Quot.sound |
| C94 | `Pctsp.C94_count` | propext, Classical.choice, Quot.sound |
| C94 | `Pctsp.C94_zero` | propext, Classical.choice, Quot.sound |
| C94 | `Pctsp.C94_cover` | propext, Classical.choice, Quot.sound |
| C94 | `Pctsp.C94_files` | propext, Classical.choice, Quot.sound |
| C94 | `Pctsp.C94_same` | propext, Classical.choice, Quot.sound |
| C94 | `Pctsp.C94_negative` | propext, Classical.choice, Quot.sound |
| C95 | `Pctsp.C95_simultaneous` | propext, Classical.choice, Quot.sound |
| C95 | `Pctsp.C95_alternate` | propext, Classical.choice, Quot.sound |
| C95 | `Pctsp.C95_skipped` | propext, Classical.choice, Quot.sound |
| C95 | `Pctsp.C95_restart` | propext, Classical.choice, Quot.sound |
| C96 | `Pctsp.C96_results` | propext, Quot.sound |
| C96 | `Pctsp.C96_files` | propext, Classical.choice, Quot.sound |
| C96 | `Pctsp.C96_lost` | propext, Quot.sound |
| C96 | `Pctsp.C96_missing` | propext, Classical.choice, Quot.sound |
| C96 | `Pctsp.C96_batch` | propext, Classical.choice, Quot.sound |
| C96 | `Pctsp.C96_infeasible` | propext, Quot.sound |
| C97 | `Pctsp.C97_read` | propext, Quot.sound |
| C97 | `Pctsp.C97_rows` | propext, Classical.choice, Quot.sound |
| C97 | `Pctsp.C97_raises` | propext, Quot.sound |
| C97 | `Pctsp.C97_agree` | propext, Classical.choice, Quot.sound |
| C97 | `Pctsp.C97_right` | propext, Classical.choice, Quot.sound |
| C97 | `Pctsp.C97_nothing` | propext |
| C97 | `Pctsp.C97_wrong` | propext, Classical.choice, Quot.sound |
| C98 | `Pctsp.C98_kinds` | propext |
| C98 | `Pctsp.C98_algorithms` | propext, Quot.sound |
| C98 | `Pctsp.C98_ignored` | propext, Quot.sound |
| C98 | `Pctsp.C98_collapse` | propext, Quot.sound |
| C98 | `Pctsp.C98_matters` | propext, Classical.choice, Quot.sound |
| C98 | `Pctsp.C98_never` | propext, Classical.choice, Quot.sound |
| C98 | `Pctsp.C98_vials` | propext, Classical.choice, Quot.sound |
| C99 | `Pctsp.C99_tours` | propext, Classical.choice, Quot.sound |
| C99 | `Pctsp.C99_ok` | propext, Classical.choice, Quot.sound |
| C99 | `Pctsp.C99_kept` | propext, Classical.choice, Quot.sound |
| C99 | `Pctsp.C99_exact` | propext, Classical.choice, Quot.sound |
| C99 | `Pctsp.C99_subgraph` | propext |
| C99 | `Pctsp.C99_no_cycle` | propext, Classical.choice, Quot.sound |
| C100 | `Pctsp.C100_written` | propext, Classical.choice, Quot.sound |
| C100 | `Pctsp.C100_rows` | propext, Classical.choice, Quot.sound |
| C100 | `Pctsp.C100_all` | propext, Quot.sound |
| C100 | `Pctsp.C100_stops` | propext, Quot.sound |
| C101 | `Pctsp.C101_table` | propext, Classical.choice, Quot.sound |
| C101 | `Pctsp.C101_cover` | propext, Classical.choice, Quot.sound |
| C101 | `Pctsp.C101_tailing` | propext, Classical.choice, Quot.sound |
| C101 | `Pctsp.C101_wrong` | propext, Classical.choice, Quot.sound |
| C101 | `Pctsp.C101_count` | propext, Quot.sound |
| C102 | `Pctsp.C102_rows` | propext, Classical.choice, Quot.sound |
| C102 | `Pctsp.C102_optimal` | propext, Classical.choice, Quot.sound |
| C102 | `Pctsp.C102_right` | propext, Classical.choice, Quot.sound |
| C102 | `Pctsp.C102_gap` | propext, Classical.choice, Quot.sound |
| C102 | `Pctsp.C102_mean` | propext, Classical.choice, Quot.sound |
| C103 | `Pctsp.C103_offered` | propext |
| C103 | `Pctsp.C103_once` | propext, Quot.sound |
| C103 | `Pctsp.C103_data` | propext, Quot.sound |
| C103 | `Pctsp.C103_settings` | propext, Quot.sound |
| C103 | `Pctsp.C103_limits` | propext, Quot.sound |
| C103 | `Pctsp.C103_vials` | propext, Classical.choice, Quot.sound |
| C103 | `Pctsp.C103_agree` | propext, Classical.choice, Quot.sound |
| C103 | `Pctsp.C103_heuristics` | propext, Classical.choice, Quot.sound |
| C103 | `Pctsp.C103_disagree` | propext, Classical.choice, Quot.sound |
| C103 | `Pctsp.C103_suurballe` | propext, Classical.choice, Quot.sound |
| C103 | `Pctsp.C103_below` | propext, Classical.choice, Quot.sound |
| C104 | `Pctsp.C104_solve` | propext, Classical.choice, Quot.sound |
| C104 | `Pctsp.C104_start` | propext, Classical.choice, Quot.sound |
| C104 | `Pctsp.C104_agree` | propext, Classical.choice, Quot.sound |
| C104 | `Pctsp.C104_limit` | propext, Classical.choice, Quot.sound |
| C104 | `Pctsp.C104_errors` | propext, Quot.sound |
| C104 | `Pctsp.C104_missing` | propext, Classical.choice, Quot.sound |
| C104 | `Pctsp.C104_both` | propext, Quot.sound |
| C105 | `Pctsp.C105_rejected` | propext, Quot.sound |
| C105 | `Pctsp.C105_solve` | propext, Classical.choice, Quot.sound |
| C105 | `Pctsp.C105_no_distances` | propext, Quot.sound |
| C106 | `Pctsp.C106_graph_prize` | propext, Classical.choice, Quot.sound |
| C106 | `Pctsp.C106_prize` | propext, Classical.choice, Quot.sound |
| C106 | `Pctsp.C106_cost` | propext, Classical.choice, Quot.sound |
| C106 | `Pctsp.C106_extension` | propext, Classical.choice, Quot.sound |
| C106 | `Pctsp.C106_gain` | propext, Classical.choice, Quot.sound |
| C106 | `Pctsp.C106_collapse` | propext, Classical.choice, Quot.sound |
| C106 | `Pctsp.C106_reach` | propext, Classical.choice, Quot.sound |
| C106 | `Pctsp.C106_overflow` | propext, Quot.sound |
| C107 | `Pctsp.C107_nodes` | propext, Classical.choice, Quot.sound |
| C107 | `Pctsp.C107_bounds` | propext, Classical.choice, Quot.sound |
| C107 | `Pctsp.C107_no_directory` | propext, Classical.choice, Quot.sound |
| C107 | `Pctsp.C107_precision` | propext, Classical.choice, Quot.sound |
| C107 | `Pctsp.C107_not_kept` | propext, Classical.choice, Quot.sound |
| C108 | `Pctsp.C108_total` | propext, Quot.sound |
| C108 | `Pctsp.C108_records` | propext, Quot.sound |
| C108 | `Pctsp.C108_intervals` | propext, Quot.sound |
| C108 | `Pctsp.C108_not_forward` | propext |
| C109 | `Pctsp.C109_shown` | propext, Classical.choice, Quot.sound |
| C109 | `Pctsp.C109_reversed_iff` | propext, Classical.choice, Quot.sound |
| C110 | `Pctsp.C110_script` | propext, Classical.choice, Quot.sound |
| C110 | `Pctsp.C110_job` | propext, Classical.choice, Quot.sound |
| C110 | `Pctsp.C110_same` | propext, Classical.choice, Quot.sound |
| C110 | `Pctsp.C110_nbatches` | propext, Classical.choice, Quot.sound |
| C111 | `Pctsp.C111_missing` | propext, Classical.choice, Quot.sound |
| C111 | `Pctsp.C111_workflow` | propext, Classical.choice, Quot.sound |
| C111 | `Pctsp.C111_stale` | propext, Classical.choice, Quot.sound |
| C111 | `Pctsp.C111_infeasible` | propext, Quot.sound |
| C112 | `Pctsp.C112_vial` | propext, Classical.choice, Quot.sound |
| C113 | `Pctsp.C113_enough` | propext, Classical.choice, Quot.sound |
| C113 | `Pctsp.C113_hours` | propext, Classical.choice, Quot.sound |
| C113 | `Pctsp.C113_not_two_days` | propext, Classical.choice, Quot.sound |
| C114 | `Pctsp.C114_ignored` | propext, Quot.sound |
| C114 | `Pctsp.C114_settings` | propext |
| C114 | `Pctsp.C114_recorded` | propext |
| C114 | `Pctsp.C114_never` | propext, Classical.choice, Quot.sound |
| C114 | `Pctsp.C114_agree` | propext, Classical.choice, Quot.sound |
| C115 | `Pctsp.C115_premature` | propext, Classical.choice, Quot.sound |
| C115 | `Pctsp.C115_defaults` | propext, Classical.choice, Quot.sound |
| C116 | `Pctsp.C116_outcome` | propext, Classical.choice, Quot.sound |
| C116 | `Pctsp.C116_values` | propext, Classical.choice, Quot.sound |
| C116 | `Pctsp.C116_ratios` | propext, Classical.choice, Quot.sound |
| C116 | `Pctsp.C116_counts` | propext, Classical.choice, Quot.sound |
| C116 | `Pctsp.C116_wrong` | propext, Classical.choice, Quot.sound |
| C116 | `Pctsp.C116_exceeds` | propext, Classical.choice, Quot.sound |
| C116 | `Pctsp.C116_tree` | propext, Classical.choice, Quot.sound |
| C117 | `Pctsp.C117_fails` | propext, Quot.sound |
| C117 | `Pctsp.C117_lines` | propext, Classical.choice, Quot.sound |
| C117 | `Pctsp.C117_clean` | propext, Classical.choice, Quot.sound |
| C117 | `Pctsp.C117_tour` | propext, Classical.choice, Quot.sound |
| C117 | `Pctsp.C117_ordered` | propext, Classical.choice, Quot.sound |
| C117 | `Pctsp.C117_spurious` | propext, Quot.sound |
| C118 | `Pctsp.C118_times` | propext, Classical.choice, Quot.sound |
| C118 | `Pctsp.C118_once` | propext, Classical.choice, Quot.sound |
| C118 | `Pctsp.C118_default` | propext, Classical.choice, Quot.sound |
| C118 | `Pctsp.C118_zero` | propext, Classical.choice, Quot.sound |
| C119 | `Pctsp.C119_extensions` | propext, Classical.choice, Quot.sound |
| C119 | `Pctsp.C119_collapse` | propext, Classical.choice, Quot.sound |
| C119 | `Pctsp.C119_extension_and_collapse` | propext, Classical.choice, Quot.sound |
| C119 | `Pctsp.C119_isolated` | propext, Classical.choice, Quot.sound |
| C119 | `Pctsp.C119_missing` | propext, Classical.choice, Quot.sound |
| C120 | `Pctsp.C120_answer` | propext, Classical.choice, Quot.sound |
| C120 | `Pctsp.C120_mixed` | propext, Classical.choice, Quot.sound |
| C120 | `Pctsp.C120_wrong` | propext, Classical.choice, Quot.sound |
| C121 | `Pctsp.C121_both_directions` | propext, Classical.choice, Quot.sound |
| C121 | `Pctsp.C121_rows` | propext, Classical.choice, Quot.sound |
| C122 | `Pctsp.C122_independent` | propext, Quot.sound |
| C122 | `Pctsp.C122_londonaq` | propext, Quot.sound |
| C122 | `Pctsp.C122_tspwplib` | propext, Classical.choice, Quot.sound |
| C122 | `Pctsp.C122_stale` | propext, Quot.sound |
| C122 | `Pctsp.C122_stale_failed` | propext, Quot.sound |
| C122 | `Pctsp.C122_raises` | propext, Quot.sound |
| C122 | `Pctsp.C122_costs` | propext, Quot.sound |
| C122 | `Pctsp.C122_sparse` | propext, Quot.sound |
| C123 | `Pctsp.C123_tour` | propext, Classical.choice, Quot.sound |
| C123 | `Pctsp.C123_quota` | propext, Classical.choice, Quot.sound |
| C123 | `Pctsp.C123_exact` | propext, Classical.choice, Quot.sound |
| C123 | `Pctsp.C123_optimal` | propext, Classical.choice, Quot.sound |
| C123 | `Pctsp.C123_rejected` | propext, Classical.choice, Quot.sound |
| C123 | `Pctsp.C123_missed` | propext, Classical.choice, Quot.sound |
| C124 | `Pctsp.C124_numbers` | propext, Classical.choice, Quot.sound |
| C124 | `Pctsp.C124_texts` | propext, Classical.choice, Quot.sound |
| C124 | `Pctsp.C124_distinct` | propext, Classical.choice, Quot.sound |
| C124 | `Pctsp.C124_headings` | propext, Quot.sound |
| C124 | `Pctsp.C124_levels` | propext, Classical.choice, Quot.sound |
| C124 | `Pctsp.C124_sorted` | propext, Classical.choice, Quot.sound |
| C124 | `Pctsp.C124_unstacked` | propext, Classical.choice, Quot.sound |
| C124 | `Pctsp.C124_dollars` | propext, Classical.choice, Quot.sound |
| C124 | `Pctsp.C124_covers` | propext, Classical.choice, Quot.sound |
| C124 | `Pctsp.C124_all` | propext, Quot.sound |
| C125 | `Pctsp.C125_points` | propext, Classical.choice, Quot.sound |
| C125 | `Pctsp.C125_columns` | propext, Classical.choice, Quot.sound |
| C125 | `Pctsp.C125_legend` | propext, Classical.choice, Quot.sound |
| C126 | `Pctsp.C126_easier` | propext, Classical.choice, Quot.sound |
| C126 | `Pctsp.C126_renamed` | propext, Classical.choice, Quot.sound |
| C126 | `Pctsp.C126_suurballe` | propext, Classical.choice, Quot.sound |
| C126 | `Pctsp.C126_not_monotone` | propext, Classical.choice, Quot.sound |
| C127 | `Pctsp.C127_exact` | propext, Classical.choice, Quot.sound |
| C127 | `Pctsp.C127_heuristics` | propext, Classical.choice, Quot.sound |
| C128 | `Pctsp.C128_bound` | propext, Classical.choice, Quot.sound |
| C128 | `Pctsp.C128_optimal` | propext, Classical.choice, Quot.sound |
| C128 | `Pctsp.C128_factor` | propext, Classical.choice, Quot.sound |
| C129 | `Pctsp.C129_sec` | propext, Classical.choice, Quot.sound |
| C129 | `Pctsp.C129_cycle` | propext, Quot.sound |
| C129 | `Pctsp.C129_covers` | propext, Classical.choice, Quot.sound |
| C129 | `Pctsp.C129_sec_differs` | propext |
| C130 | `Pctsp.C130_rows` | propext, Quot.sound |
| C130 | `Pctsp.C130_loads` | propext, Classical.choice, Quot.sound |
| C130 | `Pctsp.C130_instance` | propext, Quot.sound |
| C130 | `Pctsp.C130_covered` | propext, Quot.sound |
| C130 | `Pctsp.C130_table` | propext, Classical.choice, Quot.sound |
| C131 | `Pctsp.C131_anytime` | propext, Quot.sound |
| C131 | `Pctsp.C131_ended` | propext, Classical.choice, Quot.sound |
| C131 | `Pctsp.C131_terminates` | propext, Classical.choice, Quot.sound |
| C131 | `Pctsp.C131_resume` | propext, Classical.choice, Quot.sound |
| C131 | `Pctsp.C131_slurm` | propext, Classical.choice, Quot.sound |
| C132 | `Pctsp.C132_zip` | propext, Quot.sound |
| C132 | `Pctsp.C132_zip_missing` | propext, Quot.sound |
| C132 | `Pctsp.C132_unzip` | propext, Quot.sound |
| C132 | `Pctsp.C132_unzip_missing` | propext |
| C132 | `Pctsp.C132_results` | propext, Quot.sound |
| C133 | `Pctsp.C133_heuristics` | propext, Classical.choice, Quot.sound |
| C133 | `Pctsp.C133_solver` | propext, Classical.choice, Quot.sound |
| C133 | `Pctsp.C133_directions` | propext, Classical.choice, Quot.sound |
| C134 | `Pctsp.C134_units` | propext, Classical.choice, Quot.sound |
| C134 | `Pctsp.C134_factors` | propext, Classical.choice, Quot.sound |
| C134 | `Pctsp.C134_rounding` | propext, Classical.choice, Quot.sound |
| C135 | `Pctsp.C135_form` | propext, Classical.choice, Quot.sound |
| C135 | `Pctsp.C135_least` | propext, Classical.choice, Quot.sound |
| C135 | `Pctsp.C135_names` | propext, Classical.choice, Quot.sound |
| C135 | `Pctsp.C135_order` | propext, Classical.choice, Quot.sound |
| C135 | `Pctsp.C135_depends` | propext, Classical.choice, Quot.sound |
| C136 | `Pctsp.C136_stay` | propext, Classical.choice, Quot.sound |
| C136 | `Pctsp.C136_runs` | propext, Classical.choice, Quot.sound |
| C136 | `Pctsp.C136_factor` | propext, Classical.choice, Quot.sound |
| C136 | `Pctsp.C136_stuck` | propext, Classical.choice, Quot.sound |
| C137 | `Pctsp.C137_enforced` | propext, Classical.choice, Quot.sound |
| C137 | `Pctsp.C137_answer` | propext, Classical.choice, Quot.sound |
| C137 | `Pctsp.C137_ends` | propext, Classical.choice, Quot.sound |
| C137 | `Pctsp.C137_solve` | propext, Classical.choice, Quot.sound |
| C137 | `Pctsp.C137_kept` | propext, Classical.choice, Quot.sound |
| C137 | `Pctsp.C137_dropped_rows` | propext, Classical.choice, Quot.sound |
| C137 | `Pctsp.C137_pseudo` | propext, Classical.choice, Quot.sound |
| C138 | `Pctsp.C138_same_paths` | propext, Classical.choice, Quot.sound |
| C138 | `Pctsp.C138_bound` | propext, Classical.choice, Quot.sound |
| C138 | `Pctsp.C138_optimal` | propext, Classical.choice, Quot.sound |
| C138 | `Pctsp.C138_factor` | propext, Classical.choice, Quot.sound |
| C138 | `Pctsp.C138_dear` | propext, Classical.choice, Quot.sound |
| C139 | `Pctsp.C139_laws` | propext, Classical.choice, Quot.sound |
| C139 | `Pctsp.C139_double` | propext, Classical.choice, Quot.sound |
| C139 | `Pctsp.C139_single` | propext, Classical.choice, Quot.sound |
| C139 | `Pctsp.C139_order` | propext, Classical.choice, Quot.sound |
| C139 | `Pctsp.C139_near` | propext, Classical.choice, Quot.sound |
| C139 | `Pctsp.C139_until_exact` | propext, Classical.choice, Quot.sound |
| C139 | `Pctsp.C139_until_gain_exact` | propext, Classical.choice, Quot.sound |
| C139 | `Pctsp.C139_loss_near` | propext, Classical.choice, Quot.sound |
| C139 | `Pctsp.C139_gain_near` | propext, Classical.choice, Quot.sound |
| C139 | `Pctsp.C139_tie` | propext, Classical.choice, Quot.sound |
| C139 | `Pctsp.C139_average` | propext, Classical.choice, Quot.sound |
| C140 | `Pctsp.C140_vertices` | propext, Classical.choice, Quot.sound |
| C140 | `Pctsp.C140_edges` | propext, Quot.sound |
| C140 | `Pctsp.C140_neighbours` | propext, Quot.sound |
| C140 | `Pctsp.C140_search` | propext, Quot.sound |
| C140 | `Pctsp.C140_outside` | propext, Classical.choice, Quot.sound |
| C140 | `Pctsp.C140_too_few` | propext, Quot.sound |
| C141 | `Pctsp.C141_problem` | propext, Quot.sound |
| C141 | `Pctsp.C141_no_overflow` | propext, Classical.choice, Quot.sound |
| C141 | `Pctsp.C141_fewer_weights` | propext, Classical.choice, Quot.sound |
| C141 | `Pctsp.C141_more_weights` | propext, Classical.choice, Quot.sound |
| C141 | `Pctsp.C141_silent` | propext, Quot.sound |
| C142 | `Pctsp.C142_preprocessing` | propext, Classical.choice, Quot.sound |
| C142 | `Pctsp.C142_root_alone` | propext, Classical.choice, Quot.sound |
| C143 | `Pctsp.C143_until_gain` | propext, Classical.choice, Quot.sound |
| C143 | `Pctsp.C143_until_loss` | propext, Classical.choice, Quot.sound |
| C143 | `Pctsp.C143_gain_fixed` | propext, Classical.choice, Quot.sound |
| C143 | `Pctsp.C143_vertices` | propext, Classical.choice, Quot.sound |
| C143 | `Pctsp.C143_prize` | propext, Classical.choice, Quot.sound |
| C143 | `Pctsp.C143_cost` | propext, Classical.choice, Quot.sound |
| C143 | `Pctsp.C143_second_run` | propext, Classical.choice, Quot.sound |
| C144 | `Pctsp.C144_iff` | propext, Classical.choice, Quot.sound |
| C144 | `Pctsp.C144_short` | propext, Quot.sound |
| C144 | `Pctsp.C144_agrees` | propext, Classical.choice, Quot.sound |
| C144 | `Pctsp.C144_solution_graph` | propext, Classical.choice, Quot.sound |
| C145 | `Pctsp.C145_flat` | propext, Quot.sound |
| C145 | `Pctsp.C145_flat_injective` | propext, Quot.sound |
| C145 | `Pctsp.C145_flat_general` | propext, Quot.sound |
| C145 | `Pctsp.C145_summary` | propext, Classical.choice, Quot.sound |
| C145 | `Pctsp.C145_branch_cut` | propext, Classical.choice, Quot.sound |
| C145 | `Pctsp.C145_read` | propext, Classical.choice, Quot.sound |
| C146 | `Pctsp.C146_join` | propext |
| C146 | `Pctsp.C146_null` | propext, Classical.choice, Quot.sound |
| C146 | `Pctsp.C146_injective` | propext, Classical.choice, Quot.sound |
| C147 | `Pctsp.C147_cheaper` | propext, Classical.choice, Quot.sound |
| C147 | `Pctsp.C147_best` | propext, Classical.choice, Quot.sound |
| C147 | `Pctsp.C147_only` | propext, Classical.choice, Quot.sound |
| C148 | `Pctsp.C148_dearer` | propext, Classical.choice, Quot.sound |
| C148 | `Pctsp.C148_lost` | propext, Classical.choice, Quot.sound |
| C148 | `Pctsp.C148_collapse_below` | propext, Classical.choice, Quot.sound |
| C148 | `Pctsp.C148_path_extension_collapse` | propext, Classical.choice, Quot.sound |
| C149 | `Pctsp.C149_cut` | propext, Classical.choice, Quot.sound |
| C149 | `Pctsp.C149_short` | propext, Classical.choice, Quot.sound |
| C149 | `Pctsp.C149_swap` | propext, Quot.sound |
| C149 | `Pctsp.C149_walk` | propext, Classical.choice, Quot.sound |
| C149 | `Pctsp.C149_tour` | propext, Classical.choice, Quot.sound |
| C149 | `Pctsp.C149_empty` | propext, Classical.choice, Quot.sound |
| C149 | `Pctsp.C149_pairs` | propext, Classical.choice, Quot.sound |
| C149 | `Pctsp.C149_rebuild` | propext, Classical.choice, Quot.sound |
| C150 | `Pctsp.C150_edges` | propext, Classical.choice, Quot.sound |
| C150 | `Pctsp.C150_neighbours` | propext, Quot.sound |
| C150 | `Pctsp.C150_components` | propext, Quot.sound |
| C150 | `Pctsp.C150_no_variable` | propext, Quot.sound |
| C150 | `Pctsp.C150_tour` | propext, Classical.choice, Quot.sound |
| C150 | `Pctsp.C150_integral` | propext, Classical.choice, Quot.sound |
| C151 | `Pctsp.C151_last` | propext, Classical.choice, Quot.sound |
| C151 | `Pctsp.C151_quota` | propext, Classical.choice, Quot.sound |
| C152 | `Pctsp.C152_answer` | propext, Classical.choice, Quot.sound |
| C152 | `Pctsp.C152_missing` | propext, Classical.choice, Quot.sound |
| C152 | `Pctsp.C152_costs` | propext, Classical.choice, Quot.sound |
| C152 | `Pctsp.C152_lost` | propext, Classical.choice, Quot.sound |
| C152 | `Pctsp.C152_one_edge` | propext, Classical.choice, Quot.sound |
| C152 | `Pctsp.C152_back_and_forth` | propext, Classical.choice, Quot.sound |
| C152 | `Pctsp.C152_wrong` | propext, Classical.choice, Quot.sound |
| C153 | `Pctsp.C153_list` | propext, Quot.sound |
| C153 | `Pctsp.C153_path_extension` | propext, Classical.choice, Quot.sound |
| C153 | `Pctsp.C153_path_extension_until` | propext, Classical.choice, Quot.sound |
| C153 | `Pctsp.C153_unitary_gain` | propext, Classical.choice, Quot.sound |
| C153 | `Pctsp.C153_unitary_gain_until` | propext, Classical.choice, Quot.sound |
| C153 | `Pctsp.C153_collapse` | propext, Classical.choice, Quot.sound |
| C153 | `Pctsp.C153_path_extension_collapse` | propext, Classical.choice, Quot.sound |
| C153 | `Pctsp.C153_shortest` | propext, Quot.sound |
| C154 | `Pctsp.C154_solver` | propext, Classical.choice, Quot.sound |
| C154 | `Pctsp.C154_run` | propext, Classical.choice, Quot.sound |
| C154 | `Pctsp.C154_path_extension` | propext, Classical.choice, Quot.sound |
| C154 | `Pctsp.C154_path_extension_until` | propext, Classical.choice, Quot.sound |
| C154 | `Pctsp.C154_unitary_loss` | propext, Classical.choice, Quot.sound |
| C154 | `Pctsp.C154_matters` | propext, Classical.choice, Quot.sound |
| C155 | `Pctsp.C155_unitary_gain` | propext, Classical.choice, Quot.sound |
| C155 | `Pctsp.C155_unitary_gain_until` | propext, Classical.choice, Quot.sound |
| C155 | `Pctsp.C155_path_extension` | propext, Classical.choice, Quot.sound |
| C155 | `Pctsp.C155_path_extension_until` | propext, Classical.choice, Quot.sound |
| C155 | `Pctsp.C155_unitary_loss` | propext, Classical.choice, Quot.sound |
| C155 | `Pctsp.C155_matters` | propext, Classical.choice, Quot.sound |
| C156 | `Pctsp.C156_answer` | propext, Classical.choice, Quot.sound |
| C156 | `Pctsp.C156_solve` | propext, Classical.choice, Quot.sound |
| C156 | `Pctsp.C156_fixed` | propext, Classical.choice, Quot.sound |
| C156 | `Pctsp.C156_cast` | propext, Classical.choice, Quot.sound |
| C157 | `Pctsp.C157_outcome` | propext, Classical.choice, Quot.sound |
| C157 | `Pctsp.C157_setup_batch` | propext, Classical.choice, Quot.sound |
| C157 | `Pctsp.C157_missing` | propext, Classical.choice, Quot.sound |
| C157 | `Pctsp.C157_backup` | propext, Classical.choice, Quot.sound |
| C157 | `Pctsp.C157_unwritten` | propext, Classical.choice, Quot.sound |
| C157 | `Pctsp.C157_sequence` | propext, Classical.choice, Quot.sound |
| C157 | `Pctsp.C157_stale` | propext, Classical.choice, Quot.sound |
| C157 | `Pctsp.C157_one_run` | propext, Classical.choice, Quot.sound |
| C158 | `Pctsp.C158_unitary_gain` | propext, Classical.choice, Quot.sound |
| C158 | `Pctsp.C158_until_feasible` | propext, Classical.choice, Quot.sound |
| C158 | `Pctsp.C158_same_cycle` | propext, Classical.choice, Quot.sound |
| C158 | `Pctsp.C158_rotation` | propext, Classical.choice, Quot.sound |
| C158 | `Pctsp.C158_ties` | propext, Classical.choice, Quot.sound |
| C158 | `Pctsp.C158_other` | propext, Classical.choice, Quot.sound |
| C158 | `Pctsp.C158_two_vertices` | propext, Classical.choice, Quot.sound |
| C159 | `Pctsp.C159_only_csv` | propext |
| C159 | `Pctsp.C159_heuristics` | propext, Classical.choice, Quot.sound |
| C159 | `Pctsp.C159_both` | propext, Classical.choice, Quot.sound |
| C159 | `Pctsp.C159_overwrite` | propext, Quot.sound |
| C159 | `Pctsp.C159_stale` | propext, Classical.choice, Quot.sound |
| C159 | `Pctsp.C159_old_rows` | propext, Classical.choice, Quot.sound |
| C159 | `Pctsp.C159_all` | propext, Classical.choice, Quot.sound |
| C159 | `Pctsp.C159_blocked` | propext, Classical.choice, Quot.sound |
| C160 | `Pctsp.C160_exists` | propext, Classical.choice, Quot.sound |
| C160 | `Pctsp.C160_blocks` | propext, Classical.choice, Quot.sound |
| C160 | `Pctsp.C160_repeat` | propext, Classical.choice, Quot.sound |
| C160 | `Pctsp.C160_heuristics` | propext, Quot.sound |
| C160 | `Pctsp.C160_new` | propext, Quot.sound |
| C160 | `Pctsp.C160_twice` | propext, Classical.choice, Quot.sound |
| C160 | `Pctsp.C160_no_parent` | propext, Quot.sound |
| C160 | `Pctsp.C160_csv` | propext, Classical.choice, Quot.sound |
| C161 | `Pctsp.C161_result` | propext, Classical.choice, Quot.sound |
| C161 | `Pctsp.C161_gap` | propext, Classical.choice, Quot.sound |
| C161 | `Pctsp.C161_no_solution` | propext, Classical.choice, Quot.sound |
| C161 | `Pctsp.C161_first_solution` | propext, Classical.choice, Quot.sound |
| C161 | `Pctsp.C161_scaled_gap` | propext, Classical.choice, Quot.sound |
| C161 | `Pctsp.C161_scaled` | propext, Classical.choice, Quot.sound |
| C162 | `Pctsp.C162_strong` | propext, Classical.choice, Quot.sound |
| C162 | `Pctsp.C162_tree_top` | propext, Classical.choice, Quot.sound |
| C162 | `Pctsp.C162_relpscost` | propext, Quot.sound |
| C162 | `Pctsp.C162_other` | propext, Quot.sound |
| C163 | `Pctsp.C163_killed` | propext, Quot.sound |
| C163 | `Pctsp.C163_exit` | propext, Quot.sound |
| C163 | `Pctsp.C163_complete_iff` | propext, Quot.sound |
| C163 | `Pctsp.C163_same_directory` | propext, Quot.sound |
| C164 | `Pctsp.C164_improves` | propext, Classical.choice, Quot.sound |
| C164 | `Pctsp.C164_bound` | propext, Classical.choice, Quot.sound |
| C164 | `Pctsp.C164_never` | propext, Classical.choice, Quot.sound |
| C165 | `Pctsp.C165_rejected_iff` | propext, Classical.choice, Quot.sound |
| C165 | `Pctsp.C165_separable` | propext, Classical.choice, Quot.sound |
| C165 | `Pctsp.C165_disabled` | propext, Classical.choice, Quot.sound |
| C166 | `Pctsp.C166_covers` | propext, Classical.choice, Quot.sound |
| C166 | `Pctsp.C166_heuristics` | propext, Classical.choice, Quot.sound |
| C166 | `Pctsp.C166_datasets` | propext, Classical.choice, Quot.sound |
