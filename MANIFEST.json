{
 "claims": [
  {
   "property": "C01",
   "status": "proved",
   "theorems": [
    "Pctsp.C01_reorder_is_rotation",
    "Pctsp.C01_reorder_cost_prize",
    "Pctsp.C01_reorder_idempotent",
    "Pctsp.C01_reorder_isTour"
   ],
   "note": ""
  },
  {
   "property": "C02",
   "status": "proved",
   "theorems": [
    "Pctsp.C02_reorder_absent_root",
    "Pctsp.C02_reorder_visits_same_iff"
   ],
   "note": "defect: the order-preserving claim is false when the root is absent; exact characterisation proved"
  },
  {
   "property": "C03",
   "status": "proved",
   "theorems": [
    "Pctsp.C03_edges_in_walk",
    "Pctsp.C03_edge_not_found",
    "Pctsp.C03_ok_iff_walk",
    "Pctsp.C03_short"
   ],
   "note": ""
  },
  {
   "property": "C04",
   "status": "proved",
   "theorems": [
    "Pctsp.C04_graph_prize",
    "Pctsp.C04_cost_is_sum",
    "Pctsp.C04_cost_additive",
    "Pctsp.C04_cost_reverse",
    "Pctsp.C04_tour_prize",
    "Pctsp.C04_prize_additive",
    "Pctsp.C04_text"
   ],
   "note": ""
  },
  {
   "property": "C05",
   "status": "proved",
   "theorems": [
    "Pctsp.C05_subpath_slices",
    "Pctsp.C05_subpath_walks_the_cycle"
   ],
   "note": ""
  },
  {
   "property": "C06",
   "status": "proved",
   "theorems": [
    "Pctsp.C06_bfs_exact",
    "Pctsp.C06_bfs_parents"
   ],
   "note": ""
  },
  {
   "property": "C07",
   "status": "proved",
   "theorems": [
    "Pctsp.C07_dfs_sound",
    "Pctsp.C07_dfs_incomplete",
    "Pctsp.C07_dfs_marks_neighbours"
   ],
   "note": "soundness proved; completeness refuted by a witness"
  },
  {
   "property": "C08",
   "status": "proved",
   "theorems": [
    "Pctsp.C08_parent_chain",
    "Pctsp.C08_parent_chain_root"
   ],
   "note": ""
  },
  {
   "property": "C09",
   "status": "proved",
   "theorems": [
    "Pctsp.C09_neighbor_intersection"
   ],
   "note": ""
  },
  {
   "property": "C10",
   "status": "proved",
   "theorems": [
    "Pctsp.C10_index_of_smallest_loss",
    "Pctsp.C10_choose_extension_path"
   ],
   "note": ""
  },
  {
   "property": "C11",
   "status": "proved",
   "theorems": [
    "Pctsp.C11_swap_inner",
    "Pctsp.C11_swap_through_root",
    "Pctsp.C11_swap_wraps",
    "Pctsp.C11_swap_undefined"
   ],
   "note": ""
  },
  {
   "property": "C12",
   "status": "proved",
   "theorems": [
    "Pctsp.C12_path_extension_tour",
    "Pctsp.C12_extension_unitary_loss_tour"
   ],
   "note": ""
  },
  {
   "property": "C13",
   "status": "proved",
   "theorems": [
    "Pctsp.C13_negative_prize_undefined",
    "Pctsp.C13_zero_step_undefined"
   ],
   "note": ""
  },
  {
   "property": "C14",
   "status": "proved",
   "theorems": [
    "Pctsp.C14_rounds",
    "Pctsp.C14_shallow_identity",
    "Pctsp.C14_large_step_identity",
    "Pctsp.C14_no_path_identity",
    "Pctsp.C14_empty_tour_throws"
   ],
   "note": ""
  },
  {
   "property": "C15",
   "status": "proved",
   "theorems": [
    "Pctsp.C15_until_feasible_tour"
   ],
   "note": ""
  },
  {
   "property": "C16",
   "status": "proved",
   "theorems": [
    "Pctsp.C16_does_not_stop_at_quota",
    "Pctsp.C16_quota_only_guards",
    "Pctsp.C16_feasible_untouched",
    "Pctsp.C16_exit_no_detour",
    "Pctsp.C16_exit",
    "Pctsp.C16_depth_two_exact",
    "Pctsp.C16_deep_search_misses"
   ],
   "note": ""
  },
  {
   "property": "C17",
   "status": "proved",
   "theorems": [
    "Pctsp.C17_gain_only_inserts",
    "Pctsp.C17_until_feasible_only_inserts"
   ],
   "note": ""
  },
  {
   "property": "C18",
   "status": "proved",
   "theorems": [
    "Pctsp.C18_gain_terminates_positive",
    "Pctsp.C18_until_feasible_terminates_positive"
   ],
   "note": ""
  },
  {
   "property": "C19",
   "status": "proved",
   "theorems": [
    "Pctsp.C19_until_feasible_exit",
    "Pctsp.C19_until_feasible_dead_end"
   ],
   "note": ""
  },
  {
   "property": "C20",
   "status": "proved",
   "theorems": [
    "Pctsp.C20_gain_rejects_non_walks",
    "Pctsp.C20_until_feasible_rejects_non_walks",
    "Pctsp.C20_non_walk_iff",
    "Pctsp.C20_empty_tour_undefined"
   ],
   "note": ""
  },
  {
   "property": "C21",
   "status": "proved",
   "theorems": [
    "Pctsp.C21_collapse_tour",
    "Pctsp.C21_collapse_outcomes",
    "Pctsp.C21_negative_prize_single_vertex"
   ],
   "note": ""
  },
  {
   "property": "C22",
   "status": "proved",
   "theorems": [
    "Pctsp.C22_collapse_feasible",
    "Pctsp.C22_collapse_stays_feasible"
   ],
   "note": ""
  },
  {
   "property": "C23",
   "status": "proved",
   "theorems": [
    "Pctsp.C23_nothing_or_feasible"
   ],
   "note": ""
  },
  {
   "property": "C24",
   "status": "proved",
   "theorems": [
    "Pctsp.C24_never_worse",
    "Pctsp.C24_empty_iff"
   ],
   "note": ""
  },
  {
   "property": "C25",
   "status": "proved",
   "theorems": [
    "Pctsp.C25_edges_round_trip",
    "Pctsp.C25_vertices_round_trip"
   ],
   "note": ""
  },
  {
   "property": "C26",
   "status": "proved",
   "theorems": [
    "Pctsp.C26_nonempty_lookup",
    "Pctsp.C26_round_trip_fails",
    "Pctsp.C26_known_vertices"
   ],
   "note": ""
  },
  {
   "property": "C27",
   "status": "proved",
   "theorems": [
    "Pctsp.C27_costs_and_prizes",
    "Pctsp.C27_isolated_vertex_ub"
   ],
   "note": ""
  },
  {
   "property": "C28",
   "status": "proved",
   "theorems": [
    "Pctsp.C28_component_vectors",
    "Pctsp.C28_bad_labels"
   ],
   "note": ""
  },
  {
   "property": "C29",
   "status": "proved",
   "theorems": [
    "Pctsp.C29_wrong_components",
    "Pctsp.C29_wrong_after_singular",
    "Pctsp.C29_right_iff"
   ],
   "note": ""
  },
  {
   "property": "C30",
   "status": "proved",
   "theorems": [
    "Pctsp.C30_isSimpleCycle_iff",
    "Pctsp.C30_accepted_is_tour",
    "Pctsp.C30_tour_accepted",
    "Pctsp.C30_rejected",
    "Pctsp.C30_disjoint_rejected"
   ],
   "note": ""
  },
  {
   "property": "C31",
   "status": "proved",
   "theorems": [
    "Pctsp.C31_self_loops",
    "Pctsp.C31_partial_loops_doubled",
    "Pctsp.C31_prize_weights"
   ],
   "note": ""
  },
  {
   "property": "C32",
   "status": "proved",
   "theorems": [
    "Pctsp.C32_degree_row",
    "Pctsp.C32_satisfied_iff",
    "Pctsp.C32_zero_one",
    "Pctsp.C32_self_loops"
   ],
   "note": ""
  },
  {
   "property": "C33",
   "status": "proved",
   "theorems": [
    "Pctsp.C33_missing_root_loop",
    "Pctsp.C33_accepts_exactly_feasible_tours"
   ],
   "note": ""
  },
  {
   "property": "C34",
   "status": "proved",
   "theorems": [
    "Pctsp.C34_round_valid",
    "Pctsp.C34_valid"
   ],
   "note": ""
  },
  {
   "property": "C35",
   "status": "proved",
   "theorems": [
    "Pctsp.C35_outcomes",
    "Pctsp.C35_missing_self_loop",
    "Pctsp.C35_missing_variable"
   ],
   "note": ""
  },
  {
   "property": "C36",
   "status": "proved",
   "theorems": [
    "Pctsp.C36_separates"
   ],
   "note": ""
  },
  {
   "property": "C37",
   "status": "proved",
   "theorems": [
    "Pctsp.C37_valid",
    "Pctsp.C37_separates",
    "Pctsp.C37_check_accepts"
   ],
   "note": ""
  },
  {
   "property": "C38",
   "status": "proved",
   "theorems": [
    "Pctsp.C38_disjoint_paths",
    "Pctsp.C38_shortest_paths"
   ],
   "note": ""
  },
  {
   "property": "C39",
   "status": "proved",
   "theorems": [
    "Pctsp.C39_overflow",
    "Pctsp.C39_no_tour_visits",
    "Pctsp.C39_wraps",
    "Pctsp.C39_exact"
   ],
   "note": ""
  },
  {
   "property": "C40",
   "status": "proved",
   "theorems": [
    "Pctsp.C40_aligned",
    "Pctsp.C40_misaligned"
   ],
   "note": ""
  },
  {
   "property": "C41",
   "status": "proved",
   "theorems": [
    "Pctsp.C41_window",
    "Pctsp.C41_tailing_off"
   ],
   "note": ""
  },
  {
   "property": "C42",
   "status": "proved",
   "theorems": [
    "Pctsp.C42_counts",
    "Pctsp.C42_record",
    "Pctsp.C42_reset",
    "Pctsp.C42_counts_lost",
    "Pctsp.C42_totals_le",
    "Pctsp.C42_totals"
   ],
   "note": ""
  },
  {
   "property": "C43",
   "status": "proved",
   "theorems": [
    "Pctsp.C43_round_trip",
    "Pctsp.C43_identity_iff",
    "Pctsp.C43_twice",
    "Pctsp.C43_no_file",
    "Pctsp.C43_not_round_trip",
    "Pctsp.C43_bad_counter"
   ],
   "note": ""
  },
  {
   "property": "C44",
   "status": "proved",
   "theorems": [
    "Pctsp.C44_strong",
    "Pctsp.C44_strong_others",
    "Pctsp.C44_relpscost",
    "Pctsp.C44_others",
    "Pctsp.C44_tree_top",
    "Pctsp.C44_idempotent",
    "Pctsp.C44_default_depth"
   ],
   "note": ""
  },
  {
   "property": "C45",
   "status": "proved",
   "theorems": [
    "Pctsp.C45_defaults_no_op",
    "Pctsp.C45_small_step_no_op",
    "Pctsp.C45_as_intended_iff",
    "Pctsp.C45_unitary_loss_in_order"
   ],
   "note": ""
  },
  {
   "property": "C46",
   "status": "proved",
   "theorems": [
    "Pctsp.C46_vertices_of_edges",
    "Pctsp.C46_self_loops",
    "Pctsp.C46_self_loop_missing",
    "Pctsp.C46_induced_edges",
    "Pctsp.C46_induced_edges_positions",
    "Pctsp.C46_edges_from_pairs",
    "Pctsp.C46_edges_from_pairs_missing",
    "Pctsp.C46_edge_vector"
   ],
   "note": ""
  },
  {
   "property": "C47",
   "status": "proved",
   "theorems": [
    "Pctsp.C47_coefficients",
    "Pctsp.C47_bad_length",
    "Pctsp.C47_activity",
    "Pctsp.C47_result"
   ],
   "note": ""
  },
  {
   "property": "C48",
   "status": "proved",
   "theorems": [
    "Pctsp.C48_ieee",
    "Pctsp.C48_gain_best_insertions"
   ],
   "note": ""
  },
  {
   "property": "C49",
   "status": "proved",
   "theorems": [
    "Pctsp.C49_ieee",
    "Pctsp.C49_gain_never_cheaper",
    "Pctsp.C49_cheaper_insertion_refused"
   ],
   "note": ""
  },
  {
   "property": "C50",
   "status": "proved",
   "theorems": [
    "Pctsp.C50_collapse_no_missed_shortcut",
    "Pctsp.C50_collapse_shortest_path_tried"
   ],
   "note": ""
  },
  {
   "property": "C51",
   "status": "proved",
   "theorems": [
    "Pctsp.C51_dijkstra_blacklist",
    "Pctsp.C51_dijkstra_throws_only_negative"
   ],
   "note": ""
  },
  {
   "property": "C52",
   "status": "proved",
   "theorems": [
    "Pctsp.C52_path_extension",
    "Pctsp.C52_path_extension_until",
    "Pctsp.C52_extension_gain",
    "Pctsp.C52_collapse",
    "Pctsp.C52_path_extension_collapse"
   ],
   "note": ""
  },
  {
   "property": "C53",
   "status": "proved",
   "theorems": [
    "Pctsp.C53_unknown_vertex",
    "Pctsp.C53_unknown_prize"
   ],
   "note": ""
  },
  {
   "property": "C54",
   "status": "proved",
   "theorems": [
    "Pctsp.C54_wrong_cost_entry",
    "Pctsp.C54_missing_cost_entry"
   ],
   "note": ""
  },
  {
   "property": "C55",
   "status": "proved",
   "theorems": [
    "Pctsp.C55_warm_start",
    "Pctsp.C55_missing_self_loop"
   ],
   "note": ""
  },
  {
   "property": "C56",
   "status": "proved",
   "theorems": [
    "Pctsp.C56_violated_iff",
    "Pctsp.C56_cycle_cover"
   ],
   "note": ""
  },
  {
   "property": "C57",
   "status": "proved",
   "theorems": [
    "Pctsp.C57_cutoff_lost",
    "Pctsp.C57_result"
   ],
   "note": ""
  },
  {
   "property": "C58",
   "status": "proved",
   "theorems": [
    "Pctsp.C58_accepted_iff_nothing_separated"
   ],
   "note": ""
  },
  {
   "property": "C59",
   "status": "proved",
   "theorems": [
    "Pctsp.C59_count",
    "Pctsp.C59_duplicates"
   ],
   "note": ""
  },
  {
   "property": "C60",
   "status": "proved",
   "theorems": [
    "Pctsp.C60_branches_iff"
   ],
   "note": ""
  },
  {
   "property": "C61",
   "status": "proved",
   "theorems": [
    "Pctsp.C61_undefined_iff"
   ],
   "note": ""
  },
  {
   "property": "C62",
   "status": "proved",
   "theorems": [
    "Pctsp.C62_python_reader"
   ],
   "note": ""
  },
  {
   "property": "C63",
   "status": "proved",
   "theorems": [
    "Pctsp.C63_fraction_iff",
    "Pctsp.C63_not_monotone"
   ],
   "note": ""
  },
  {
   "property": "C64",
   "status": "proved",
   "theorems": [
    "Pctsp.C64_rows_valid"
   ],
   "note": ""
  },
  {
   "property": "C65",
   "status": "proved",
   "theorems": [
    "Pctsp.C65_no_row",
    "Pctsp.C65_no_row_iff",
    "Pctsp.C65_rounding"
   ],
   "note": ""
  },
  {
   "property": "C66",
   "status": "proved",
   "theorems": [
    "Pctsp.C66_undefined_iff",
    "Pctsp.C66_defined"
   ],
   "note": ""
  },
  {
   "property": "C67",
   "status": "proved",
   "theorems": [
    "Pctsp.C67_violated_iff",
    "Pctsp.C67_all_violated",
    "Pctsp.C67_missed"
   ],
   "note": ""
  },
  {
   "property": "C68",
   "status": "proved",
   "theorems": [
    "Pctsp.C68_round",
    "Pctsp.C68_complete",
    "Pctsp.C68_exact"
   ],
   "note": ""
  },
  {
   "property": "C69",
   "status": "proved",
   "theorems": [
    "Pctsp.C69_remove_leaves",
    "Pctsp.C69_keeps_cycles",
    "Pctsp.C69_idempotent",
    "Pctsp.C69_recursion"
   ],
   "note": ""
  },
  {
   "property": "C70",
   "status": "proved",
   "theorems": [
    "Pctsp.C70_one_connected",
    "Pctsp.C70_tours_kept",
    "Pctsp.C70_outcomes",
    "Pctsp.C70_root_lost"
   ],
   "note": ""
  },
  {
   "property": "C71",
   "status": "proved",
   "theorems": [
    "Pctsp.C71_outcome",
    "Pctsp.C71_cost",
    "Pctsp.C71_simple"
   ],
   "note": ""
  },
  {
   "property": "C72",
   "status": "proved",
   "theorems": [
    "Pctsp.C72_heuristic",
    "Pctsp.C72_errors"
   ],
   "note": ""
  },
  {
   "property": "C73",
   "status": "proved",
   "theorems": [
    "Pctsp.C73_init",
    "Pctsp.C73_not_simple"
   ],
   "note": ""
  },
  {
   "property": "C74",
   "status": "proved",
   "theorems": [
    "Pctsp.C74_random_tour",
    "Pctsp.C74_errors"
   ],
   "note": ""
  },
  {
   "property": "C75",
   "status": "proved",
   "theorems": [
    "Pctsp.C75_untested",
    "Pctsp.C75_single",
    "Pctsp.C75_two"
   ],
   "note": ""
  },
  {
   "property": "C76",
   "status": "proved",
   "theorems": [
    "Pctsp.C76_bfs_cycle",
    "Pctsp.C76_networkx",
    "Pctsp.C76_almost_shortest",
    "Pctsp.C76_not_shortest"
   ],
   "note": ""
  },
  {
   "property": "C77",
   "status": "proved",
   "theorems": [
    "Pctsp.C77_free_detour_blocks",
    "Pctsp.C77_free_detour_first"
   ],
   "note": ""
  },
  {
   "property": "C78",
   "status": "proved",
   "theorems": [
    "Pctsp.C78_numbers",
    "Pctsp.C78_order",
    "Pctsp.C78_recursion"
   ],
   "note": ""
  },
  {
   "property": "C79",
   "status": "proved",
   "theorems": [
    "Pctsp.C79_adjusted",
    "Pctsp.C79_shortest"
   ],
   "note": ""
  },
  {
   "property": "C80",
   "status": "proved",
   "theorems": [
    "Pctsp.C80_total",
    "Pctsp.C80_source"
   ],
   "note": ""
  },
  {
   "property": "C81",
   "status": "proved",
   "theorems": [
    "Pctsp.C81_sound",
    "Pctsp.C81_lower",
    "Pctsp.C81_none",
    "Pctsp.C81_misses",
    "Pctsp.C81_too_high"
   ],
   "note": ""
  },
  {
   "property": "C82",
   "status": "proved",
   "theorems": [
    "Pctsp.C82_extract",
    "Pctsp.C82_other",
    "Pctsp.C82_shares_edge",
    "Pctsp.C82_not_simple"
   ],
   "note": ""
  },
  {
   "property": "C83",
   "status": "proved",
   "theorems": [
    "Pctsp.C83_exact",
    "Pctsp.C83_none",
    "Pctsp.C83_labeled"
   ],
   "note": ""
  },
  {
   "property": "C84",
   "status": "proved",
   "theorems": [
    "Pctsp.C84_disjoint",
    "Pctsp.C84_simple"
   ],
   "note": ""
  },
  {
   "property": "C85",
   "status": "proved",
   "theorems": [
    "Pctsp.C85_entry",
    "Pctsp.C85_no_entry",
    "Pctsp.C85_paths",
    "Pctsp.C85_heuristic"
   ],
   "note": ""
  },
  {
   "property": "C86",
   "status": "proved",
   "theorems": [
    "Pctsp.C86_root_entry",
    "Pctsp.C86_filled",
    "Pctsp.C86_rows",
    "Pctsp.C86_excludes",
    "Pctsp.C86_wrong"
   ],
   "note": ""
  },
  {
   "property": "C87",
   "status": "proved",
   "theorems": [
    "Pctsp.C87_vertices",
    "Pctsp.C87_missing_loop",
    "Pctsp.C87_edges"
   ],
   "note": ""
  },
  {
   "property": "C88",
   "status": "proved",
   "theorems": [
    "Pctsp.C88_answer",
    "Pctsp.C88_solve",
    "Pctsp.C88_solver_exists",
    "Pctsp.C88_callbacks",
    "Pctsp.C88_misled"
   ],
   "note": ""
  },
  {
   "property": "C89",
   "status": "proved",
   "theorems": [
    "Pctsp.C89_guarantee",
    "Pctsp.C89_wrong_optimum"
   ],
   "note": ""
  },
  {
   "property": "C90",
   "status": "proved",
   "theorems": [
    "Pctsp.C90_least_loss",
    "Pctsp.C90_mean_unique"
   ],
   "note": ""
  },
  {
   "property": "C91",
   "status": "proved",
   "theorems": [
    "Pctsp.C91_bfs",
    "Pctsp.C91_bfs_no_cycle",
    "Pctsp.C91_suurballe",
    "Pctsp.C91_suurballe_extension",
    "Pctsp.C91_suurballe_no_prize",
    "Pctsp.C91_discarded",
    "Pctsp.C91_figure_eight",
    "Pctsp.C91_errors",
    "Pctsp.C91_settings"
   ],
   "note": ""
  },
  {
   "property": "C92",
   "status": "proved",
   "theorems": [
    "Pctsp.C92_exact",
    "Pctsp.C92_lost",
    "Pctsp.C92_heuristic",
    "Pctsp.C92_bfs",
    "Pctsp.C92_suurballe",
    "Pctsp.C92_rejected",
    "Pctsp.C92_optimal_lost"
   ],
   "note": ""
  },
  {
   "property": "C93",
   "status": "proved",
   "theorems": [
    "Pctsp.C93_kept",
    "Pctsp.C93_lost"
   ],
   "note": ""
  },
  {
   "property": "C94",
   "status": "proved",
   "theorems": [
    "Pctsp.C94_count",
    "Pctsp.C94_zero",
    "Pctsp.C94_cover",
    "Pctsp.C94_files",
    "Pctsp.C94_same",
    "Pctsp.C94_negative"
   ],
   "note": ""
  },
  {
   "property": "C95",
   "status": "proved",
   "theorems": [
    "Pctsp.C95_simultaneous",
    "Pctsp.C95_alternate",
    "Pctsp.C95_skipped",
    "Pctsp.C95_restart"
   ],
   "note": ""
  },
  {
   "property": "C96",
   "status": "proved",
   "theorems": [
    "Pctsp.C96_results",
    "Pctsp.C96_files",
    "Pctsp.C96_lost",
    "Pctsp.C96_missing",
    "Pctsp.C96_batch",
    "Pctsp.C96_infeasible"
   ],
   "note": ""
  },
  {
   "property": "C97",
   "status": "proved",
   "theorems": [
    "Pctsp.C97_read",
    "Pctsp.C97_rows",
    "Pctsp.C97_raises",
    "Pctsp.C97_agree",
    "Pctsp.C97_right",
    "Pctsp.C97_nothing",
    "Pctsp.C97_wrong"
   ],
   "note": ""
  },
  {
   "property": "C98",
   "status": "proved",
   "theorems": [
    "Pctsp.C98_kinds",
    "Pctsp.C98_algorithms",
    "Pctsp.C98_ignored",
    "Pctsp.C98_collapse",
    "Pctsp.C98_matters",
    "Pctsp.C98_never",
    "Pctsp.C98_vials"
   ],
   "note": ""
  },
  {
   "property": "C99",
   "status": "proved",
   "theorems": [
    "Pctsp.C99_tours",
    "Pctsp.C99_ok",
    "Pctsp.C99_kept",
    "Pctsp.C99_exact",
    "Pctsp.C99_subgraph",
    "Pctsp.C99_no_cycle"
   ],
   "note": ""
  },
  {
   "property": "C100",
   "status": "proved",
   "theorems": [
    "Pctsp.C100_written",
    "Pctsp.C100_rows",
    "Pctsp.C100_all",
    "Pctsp.C100_stops"
   ],
   "note": ""
  },
  {
   "property": "C101",
   "status": "proved",
   "theorems": [
    "Pctsp.C101_table",
    "Pctsp.C101_cover",
    "Pctsp.C101_tailing",
    "Pctsp.C101_wrong",
    "Pctsp.C101_count"
   ],
   "note": ""
  },
  {
   "property": "C102",
   "status": "proved",
   "theorems": [
    "Pctsp.C102_rows",
    "Pctsp.C102_optimal",
    "Pctsp.C102_right",
    "Pctsp.C102_gap",
    "Pctsp.C102_mean"
   ],
   "note": ""
  },
  {
   "property": "C103",
   "status": "proved",
   "theorems": [
    "Pctsp.C103_offered",
    "Pctsp.C103_once",
    "Pctsp.C103_data",
    "Pctsp.C103_settings",
    "Pctsp.C103_limits",
    "Pctsp.C103_vials",
    "Pctsp.C103_agree",
    "Pctsp.C103_heuristics",
    "Pctsp.C103_disagree",
    "Pctsp.C103_suurballe",
    "Pctsp.C103_below"
   ],
   "note": ""
  },
  {
   "property": "C104",
   "status": "proved",
   "theorems": [
    "Pctsp.C104_solve",
    "Pctsp.C104_start",
    "Pctsp.C104_agree",
    "Pctsp.C104_limit",
    "Pctsp.C104_errors",
    "Pctsp.C104_missing",
    "Pctsp.C104_both"
   ],
   "note": ""
  },
  {
   "property": "C105",
   "status": "proved",
   "theorems": [
    "Pctsp.C105_rejected",
    "Pctsp.C105_solve",
    "Pctsp.C105_no_distances"
   ],
   "note": ""
  },
  {
   "property": "C106",
   "status": "proved",
   "theorems": [
    "Pctsp.C106_graph_prize",
    "Pctsp.C106_prize",
    "Pctsp.C106_cost",
    "Pctsp.C106_extension",
    "Pctsp.C106_gain",
    "Pctsp.C106_collapse",
    "Pctsp.C106_reach",
    "Pctsp.C106_overflow"
   ],
   "note": ""
  },
  {
   "property": "C107",
   "status": "proved",
   "theorems": [
    "Pctsp.C107_nodes",
    "Pctsp.C107_bounds",
    "Pctsp.C107_no_directory",
    "Pctsp.C107_precision",
    "Pctsp.C107_not_kept"
   ],
   "note": ""
  },
  {
   "property": "C108",
   "status": "proved",
   "theorems": [
    "Pctsp.C108_total",
    "Pctsp.C108_records",
    "Pctsp.C108_intervals",
    "Pctsp.C108_not_forward"
   ],
   "note": ""
  },
  {
   "property": "C109",
   "status": "proved",
   "theorems": [
    "Pctsp.C109_shown",
    "Pctsp.C109_reversed_iff"
   ],
   "note": ""
  },
  {
   "property": "C110",
   "status": "proved",
   "theorems": [
    "Pctsp.C110_script",
    "Pctsp.C110_job",
    "Pctsp.C110_same",
    "Pctsp.C110_nbatches"
   ],
   "note": ""
  },
  {
   "property": "C111",
   "status": "proved",
   "theorems": [
    "Pctsp.C111_missing",
    "Pctsp.C111_workflow",
    "Pctsp.C111_stale",
    "Pctsp.C111_infeasible"
   ],
   "note": ""
  },
  {
   "property": "C112",
   "status": "proved",
   "theorems": [
    "Pctsp.C112_vial"
   ],
   "note": ""
  },
  {
   "property": "C113",
   "status": "proved",
   "theorems": [
    "Pctsp.C113_enough",
    "Pctsp.C113_hours",
    "Pctsp.C113_not_two_days"
   ],
   "note": ""
  },
  {
   "property": "C114",
   "status": "proved",
   "theorems": [
    "Pctsp.C114_ignored",
    "Pctsp.C114_settings",
    "Pctsp.C114_recorded",
    "Pctsp.C114_never",
    "Pctsp.C114_agree"
   ],
   "note": ""
  },
  {
   "property": "C115",
   "status": "proved",
   "theorems": [
    "Pctsp.C115_premature",
    "Pctsp.C115_defaults"
   ],
   "note": ""
  },
  {
   "property": "C116",
   "status": "proved",
   "theorems": [
    "Pctsp.C116_outcome",
    "Pctsp.C116_values",
    "Pctsp.C116_ratios",
    "Pctsp.C116_counts",
    "Pctsp.C116_wrong",
    "Pctsp.C116_exceeds",
    "Pctsp.C116_tree"
   ],
   "note": ""
  },
  {
   "property": "C117",
   "status": "proved",
   "theorems": [
    "Pctsp.C117_fails",
    "Pctsp.C117_lines",
    "Pctsp.C117_clean",
    "Pctsp.C117_tour",
    "Pctsp.C117_ordered",
    "Pctsp.C117_spurious"
   ],
   "note": ""
  },
  {
   "property": "C118",
   "status": "proved",
   "theorems": [
    "Pctsp.C118_times",
    "Pctsp.C118_once",
    "Pctsp.C118_default",
    "Pctsp.C118_zero"
   ],
   "note": ""
  },
  {
   "property": "C119",
   "status": "proved",
   "theorems": [
    "Pctsp.C119_extensions",
    "Pctsp.C119_collapse",
    "Pctsp.C119_extension_and_collapse",
    "Pctsp.C119_isolated",
    "Pctsp.C119_missing"
   ],
   "note": ""
  },
  {
   "property": "C120",
   "status": "proved",
   "theorems": [
    "Pctsp.C120_answer",
    "Pctsp.C120_mixed",
    "Pctsp.C120_wrong"
   ],
   "note": ""
  },
  {
   "property": "C121",
   "status": "proved",
   "theorems": [
    "Pctsp.C121_both_directions",
    "Pctsp.C121_rows"
   ],
   "note": ""
  },
  {
   "property": "C122",
   "status": "proved",
   "theorems": [
    "Pctsp.C122_independent",
    "Pctsp.C122_londonaq",
    "Pctsp.C122_tspwplib",
    "Pctsp.C122_stale",
    "Pctsp.C122_stale_failed",
    "Pctsp.C122_raises",
    "Pctsp.C122_costs",
    "Pctsp.C122_sparse"
   ],
   "note": ""
  },
  {
   "property": "C123",
   "status": "proved",
   "theorems": [
    "Pctsp.C123_tour",
    "Pctsp.C123_quota",
    "Pctsp.C123_exact",
    "Pctsp.C123_optimal",
    "Pctsp.C123_rejected",
    "Pctsp.C123_missed"
   ],
   "note": ""
  },
  {
   "property": "C124",
   "status": "proved",
   "theorems": [
    "Pctsp.C124_numbers",
    "Pctsp.C124_texts",
    "Pctsp.C124_distinct",
    "Pctsp.C124_headings",
    "Pctsp.C124_levels",
    "Pctsp.C124_sorted",
    "Pctsp.C124_unstacked",
    "Pctsp.C124_dollars",
    "Pctsp.C124_covers",
    "Pctsp.C124_all"
   ],
   "note": ""
  },
  {
   "property": "C125",
   "status": "proved",
   "theorems": [
    "Pctsp.C125_points",
    "Pctsp.C125_columns",
    "Pctsp.C125_legend"
   ],
   "note": ""
  },
  {
   "property": "C126",
   "status": "proved",
   "theorems": [
    "Pctsp.C126_easier",
    "Pctsp.C126_renamed",
    "Pctsp.C126_suurballe",
    "Pctsp.C126_not_monotone"
   ],
   "note": ""
  },
  {
   "property": "C127",
   "status": "proved",
   "theorems": [
    "Pctsp.C127_exact",
    "Pctsp.C127_heuristics"
   ],
   "note": ""
  },
  {
   "property": "C128",
   "status": "proved",
   "theorems": [
    "Pctsp.C128_bound",
    "Pctsp.C128_optimal",
    "Pctsp.C128_factor"
   ],
   "note": ""
  },
  {
   "property": "C129",
   "status": "proved",
   "theorems": [
    "Pctsp.C129_sec",
    "Pctsp.C129_cycle",
    "Pctsp.C129_covers",
    "Pctsp.C129_sec_differs"
   ],
   "note": ""
  },
  {
   "property": "C130",
   "status": "proved",
   "theorems": [
    "Pctsp.C130_rows",
    "Pctsp.C130_loads",
    "Pctsp.C130_instance",
    "Pctsp.C130_covered",
    "Pctsp.C130_table"
   ],
   "note": ""
  },
  {
   "property": "C131",
   "status": "proved",
   "theorems": [
    "Pctsp.C131_anytime",
    "Pctsp.C131_ended",
    "Pctsp.C131_terminates",
    "Pctsp.C131_resume",
    "Pctsp.C131_slurm"
   ],
   "note": ""
  },
  {
   "property": "C132",
   "status": "proved",
   "theorems": [
    "Pctsp.C132_zip",
    "Pctsp.C132_zip_missing",
    "Pctsp.C132_unzip",
    "Pctsp.C132_unzip_missing",
    "Pctsp.C132_results"
   ],
   "note": ""
  },
  {
   "property": "C133",
   "status": "proved",
   "theorems": [
    "Pctsp.C133_heuristics",
    "Pctsp.C133_solver",
    "Pctsp.C133_directions"
   ],
   "note": ""
  },
  {
   "property": "C134",
   "status": "proved",
   "theorems": [
    "Pctsp.C134_units",
    "Pctsp.C134_factors",
    "Pctsp.C134_rounding"
   ],
   "note": ""
  },
  {
   "property": "C135",
   "status": "proved",
   "theorems": [
    "Pctsp.C135_form",
    "Pctsp.C135_least",
    "Pctsp.C135_names",
    "Pctsp.C135_order",
    "Pctsp.C135_depends"
   ],
   "note": ""
  },
  {
   "property": "C136",
   "status": "proved",
   "theorems": [
    "Pctsp.C136_stay",
    "Pctsp.C136_runs",
    "Pctsp.C136_factor",
    "Pctsp.C136_stuck"
   ],
   "note": ""
  },
  {
   "property": "C137",
   "status": "proved",
   "theorems": [
    "Pctsp.C137_enforced",
    "Pctsp.C137_answer",
    "Pctsp.C137_ends",
    "Pctsp.C137_solve",
    "Pctsp.C137_kept",
    "Pctsp.C137_dropped_rows",
    "Pctsp.C137_pseudo"
   ],
   "note": ""
  },
  {
   "property": "C138",
   "status": "proved",
   "theorems": [
    "Pctsp.C138_same_paths",
    "Pctsp.C138_bound",
    "Pctsp.C138_optimal",
    "Pctsp.C138_factor",
    "Pctsp.C138_dear"
   ],
   "note": ""
  },
  {
   "property": "C139",
   "status": "proved",
   "theorems": [
    "Pctsp.C139_laws",
    "Pctsp.C139_double",
    "Pctsp.C139_single",
    "Pctsp.C139_order",
    "Pctsp.C139_near",
    "Pctsp.C139_until_exact",
    "Pctsp.C139_until_gain_exact",
    "Pctsp.C139_loss_near",
    "Pctsp.C139_gain_near",
    "Pctsp.C139_tie",
    "Pctsp.C139_average"
   ],
   "note": ""
  },
  {
   "property": "C140",
   "status": "proved",
   "theorems": [
    "Pctsp.C140_vertices",
    "Pctsp.C140_edges",
    "Pctsp.C140_neighbours",
    "Pctsp.C140_search",
    "Pctsp.C140_outside",
    "Pctsp.C140_too_few"
   ],
   "note": ""
  },
  {
   "property": "C141",
   "status": "proved",
   "theorems": [
    "Pctsp.C141_problem",
    "Pctsp.C141_no_overflow",
    "Pctsp.C141_fewer_weights",
    "Pctsp.C141_more_weights",
    "Pctsp.C141_silent"
   ],
   "note": ""
  },
  {
   "property": "C142",
   "status": "proved",
   "theorems": [
    "Pctsp.C142_preprocessing",
    "Pctsp.C142_root_alone"
   ],
   "note": ""
  },
  {
   "property": "C143",
   "status": "proved",
   "theorems": [
    "Pctsp.C143_until_gain",
    "Pctsp.C143_until_loss",
    "Pctsp.C143_gain_fixed",
    "Pctsp.C143_vertices",
    "Pctsp.C143_prize",
    "Pctsp.C143_cost",
    "Pctsp.C143_second_run"
   ],
   "note": ""
  },
  {
   "property": "C144",
   "status": "proved",
   "theorems": [
    "Pctsp.C144_iff",
    "Pctsp.C144_short",
    "Pctsp.C144_agrees",
    "Pctsp.C144_solution_graph"
   ],
   "note": ""
  },
  {
   "property": "C145",
   "status": "proved",
   "theorems": [
    "Pctsp.C145_flat",
    "Pctsp.C145_flat_injective",
    "Pctsp.C145_flat_general",
    "Pctsp.C145_summary",
    "Pctsp.C145_branch_cut",
    "Pctsp.C145_read"
   ],
   "note": ""
  },
  {
   "property": "C146",
   "status": "proved",
   "theorems": [
    "Pctsp.C146_join",
    "Pctsp.C146_null",
    "Pctsp.C146_injective"
   ],
   "note": ""
  },
  {
   "property": "C147",
   "status": "proved",
   "theorems": [
    "Pctsp.C147_cheaper",
    "Pctsp.C147_best",
    "Pctsp.C147_only"
   ],
   "note": ""
  },
  {
   "property": "C148",
   "status": "proved",
   "theorems": [
    "Pctsp.C148_dearer",
    "Pctsp.C148_lost",
    "Pctsp.C148_collapse_below",
    "Pctsp.C148_path_extension_collapse"
   ],
   "note": ""
  },
  {
   "property": "C149",
   "status": "proved",
   "theorems": [
    "Pctsp.C149_cut",
    "Pctsp.C149_short",
    "Pctsp.C149_swap",
    "Pctsp.C149_walk",
    "Pctsp.C149_tour",
    "Pctsp.C149_empty",
    "Pctsp.C149_pairs",
    "Pctsp.C149_rebuild"
   ],
   "note": ""
  },
  {
   "property": "C150",
   "status": "proved",
   "theorems": [
    "Pctsp.C150_edges",
    "Pctsp.C150_neighbours",
    "Pctsp.C150_components",
    "Pctsp.C150_no_variable",
    "Pctsp.C150_tour",
    "Pctsp.C150_integral"
   ],
   "note": ""
  },
  {
   "property": "C151",
   "status": "proved",
   "theorems": [
    "Pctsp.C151_last",
    "Pctsp.C151_quota"
   ],
   "note": ""
  },
  {
   "property": "C152",
   "status": "proved",
   "theorems": [
    "Pctsp.C152_answer",
    "Pctsp.C152_missing",
    "Pctsp.C152_costs",
    "Pctsp.C152_lost",
    "Pctsp.C152_one_edge",
    "Pctsp.C152_back_and_forth",
    "Pctsp.C152_wrong"
   ],
   "note": ""
  },
  {
   "property": "C153",
   "status": "proved",
   "theorems": [
    "Pctsp.C153_list",
    "Pctsp.C153_path_extension",
    "Pctsp.C153_path_extension_until",
    "Pctsp.C153_unitary_gain",
    "Pctsp.C153_unitary_gain_until",
    "Pctsp.C153_collapse",
    "Pctsp.C153_path_extension_collapse",
    "Pctsp.C153_shortest"
   ],
   "note": ""
  },
  {
   "property": "C154",
   "status": "proved",
   "theorems": [
    "Pctsp.C154_solver",
    "Pctsp.C154_run",
    "Pctsp.C154_path_extension",
    "Pctsp.C154_path_extension_until",
    "Pctsp.C154_unitary_loss",
    "Pctsp.C154_matters"
   ],
   "note": ""
  },
  {
   "property": "C155",
   "status": "proved",
   "theorems": [
    "Pctsp.C155_unitary_gain",
    "Pctsp.C155_unitary_gain_until",
    "Pctsp.C155_path_extension",
    "Pctsp.C155_path_extension_until",
    "Pctsp.C155_unitary_loss",
    "Pctsp.C155_matters"
   ],
   "note": ""
  },
  {
   "property": "C156",
   "status": "proved",
   "theorems": [
    "Pctsp.C156_answer",
    "Pctsp.C156_solve",
    "Pctsp.C156_fixed",
    "Pctsp.C156_cast"
   ],
   "note": ""
  },
  {
   "property": "C157",
   "status": "proved",
   "theorems": [
    "Pctsp.C157_outcome",
    "Pctsp.C157_setup_batch",
    "Pctsp.C157_missing",
    "Pctsp.C157_backup",
    "Pctsp.C157_unwritten",
    "Pctsp.C157_sequence",
    "Pctsp.C157_stale",
    "Pctsp.C157_one_run"
   ],
   "note": ""
  },
  {
   "property": "C158",
   "status": "proved",
   "theorems": [
    "Pctsp.C158_unitary_gain",
    "Pctsp.C158_until_feasible",
    "Pctsp.C158_same_cycle",
    "Pctsp.C158_rotation",
    "Pctsp.C158_ties",
    "Pctsp.C158_other",
    "Pctsp.C158_two_vertices"
   ],
   "note": ""
  },
  {
   "property": "C159",
   "status": "proved",
   "theorems": [
    "Pctsp.C159_only_csv",
    "Pctsp.C159_heuristics",
    "Pctsp.C159_both",
    "Pctsp.C159_overwrite",
    "Pctsp.C159_stale",
    "Pctsp.C159_old_rows",
    "Pctsp.C159_all",
    "Pctsp.C159_blocked"
   ],
   "note": ""
  },
  {
   "property": "C160",
   "status": "proved",
   "theorems": [
    "Pctsp.C160_exists",
    "Pctsp.C160_blocks",
    "Pctsp.C160_repeat",
    "Pctsp.C160_heuristics",
    "Pctsp.C160_new",
    "Pctsp.C160_twice",
    "Pctsp.C160_no_parent",
    "Pctsp.C160_csv"
   ],
   "note": ""
  },
  {
   "property": "C161",
   "status": "proved",
   "theorems": [
    "Pctsp.C161_result",
    "Pctsp.C161_gap",
    "Pctsp.C161_no_solution",
    "Pctsp.C161_first_solution",
    "Pctsp.C161_scaled_gap",
    "Pctsp.C161_scaled"
   ],
   "note": ""
  },
  {
   "property": "C162",
   "status": "proved",
   "theorems": [
    "Pctsp.C162_strong",
    "Pctsp.C162_tree_top",
    "Pctsp.C162_relpscost",
    "Pctsp.C162_other"
   ],
   "note": ""
  },
  {
   "property": "C163",
   "status": "proved",
   "theorems": [
    "Pctsp.C163_killed",
    "Pctsp.C163_exit",
    "Pctsp.C163_complete_iff",
    "Pctsp.C163_same_directory"
   ],
   "note": ""
  },
  {
   "property": "C164",
   "status": "proved",
   "theorems": [
    "Pctsp.C164_improves",
    "Pctsp.C164_bound",
    "Pctsp.C164_never"
   ],
   "note": ""
  },
  {
   "property": "C165",
   "status": "proved",
   "theorems": [
    "Pctsp.C165_rejected_iff",
    "Pctsp.C165_separable",
    "Pctsp.C165_disabled"
   ],
   "note": ""
  },
  {
   "property": "C166",
   "status": "proved",
   "theorems": [
    "Pctsp.C166_covers",
    "Pctsp.C166_heuristics",
    "Pctsp.C166_datasets"
   ],
   "note": ""
  }
 ]
}
