# Axioms each property theorem depends on

Output of `#print axioms`, one theorem per line.

| theorem | axioms |
| --- | --- |
| `Gamma.C01_add_node` | propext, Classical.choice, Quot.sound |
| `Gamma.C02_add_edge` | propext, Classical.choice, Quot.sound |
| `Gamma.C03_counts` | propext, Classical.choice, Quot.sound |
| `Gamma.C04_undirected` | propext, Classical.choice, Quot.sound |
| `Gamma.C05_queries` | propext, Classical.choice, Quot.sound |
| `Gamma.C06_edges` | propext, Classical.choice, Quot.sound |
| `Gamma.C06_edges_no_adjacency_loop` | propext, Classical.choice, Quot.sound |
| `Gamma.C06_adjacency_loop_missing` | propext |
| `Gamma.C07_handshake` | propext, Classical.choice, Quot.sound |
| `Gamma.C07_handshake_no_adjacency_loop` | propext, Classical.choice, Quot.sound |
| `Gamma.C07_adjacency_loop_breaks` | propext |
| `Gamma.C08_insertion_order` | propext, Classical.choice, Quot.sound |
| `Gamma.C09_adjacency` | propext, Classical.choice, Quot.sound |
| `Gamma.C10_first_defect` | propext, Classical.choice, Quot.sound |
| `Gamma.C10_first_defect_unique` | propext, Quot.sound |
| `Gamma.C11_edge_list` | propext, Classical.choice, Quot.sound |
| `Gamma.C12_eq` | propext, Classical.choice, Quot.sound |
| `Gamma.C12_eq_equivalence` | propext, Classical.choice, Quot.sound |
| `Gamma.C12_eq_general` | propext, Classical.choice, Quot.sound |
| `Gamma.C12_adjacency_loop_asymmetric` | propext |
| `Gamma.C13_round_trip_edges` | propext, Classical.choice, Quot.sound |
| `Gamma.C13_round_trip_adjacency` | propext, Classical.choice, Quot.sound |
| `Gamma.C13_round_trip_edges_iff` | propext, Classical.choice, Quot.sound |
| `Gamma.C13_round_trip_adjacency_fails` | propext, Classical.choice, Quot.sound |
| `Gamma.C14_new` | propext |
| `Gamma.C15_bfs_ends` | propext, Classical.choice, Quot.sound |
| `Gamma.C15_bfs_collect` | propext, Classical.choice, Quot.sound |
| `Gamma.C16_bfs_discovers` | propext, Classical.choice, Quot.sound |
| `Gamma.C17_bfs_distance` | propext, Classical.choice, Quot.sound |
| `Gamma.C18_bfs_edges` | propext, Classical.choice, Quot.sound |
| `Gamma.C18_bfs_at_most_size` | propext, Classical.choice, Quot.sound |
| `Gamma.C19_bfs_order` | propext, Classical.choice, Quot.sound |
| `Gamma.C20_bfs_flags` | propext, Classical.choice, Quot.sound |
| `Gamma.C21_dfs_ends` | propext, Classical.choice, Quot.sound |
| `Gamma.C21_dfs_collect` | propext, Classical.choice, Quot.sound |
| `Gamma.C22_dfs_sound` | propext, Classical.choice, Quot.sound |
| `Gamma.C23_dfs_once` | propext, Classical.choice, Quot.sound |
| `Gamma.C23_dfs_at_most_size` | propext, Classical.choice, Quot.sound |
| `Gamma.C24_incomplete` | propext, Classical.choice, Quot.sound |
| `Gamma.C24_dfs_discovers_acyclic_partial` | propext, Classical.choice, Quot.sound |
| `Gamma.C24_dfs_discovers_degree_two_partial` | propext, Classical.choice, Quot.sound |
| `Gamma.C24_dfs_missed_only_beside_cycle_partial` | propext, Classical.choice, Quot.sound |
| `Gamma.C24_dfs_missed_iff_partial` | propext, Classical.choice, Quot.sound |
| `Gamma.C24_dfs_missed_next_to_partial` | propext, Classical.choice, Quot.sound |
| `Gamma.C24_dfs_discovers_tame_partial` | propext, Classical.choice, Quot.sound |
| `Gamma.C24_tame_classes_partial` | propext, Classical.choice, Quot.sound |
| `Gamma.C24_tame_cycles_partial` | propext, Classical.choice, Quot.sound |
| `Gamma.C25_dfs_backtracks` | propext, Classical.choice, Quot.sound |
| `Gamma.C26_into_table` | propext, Classical.choice, Quot.sound |
| `Gamma.C26_try_from_once` | propext, Classical.choice, Quot.sound |
| `Gamma.C26_try_from` | propext, Classical.choice, Quot.sound |
| `Gamma.C26_try_from_fails` | propext, Classical.choice, Quot.sound |
| `Gamma.C26_double_loop_fails` | propext |
| `Gamma.C27_components_ends` | propext, Classical.choice, Quot.sound |
| `Gamma.C27_components_collect` | propext, Classical.choice, Quot.sound |
| `Gamma.C27_double_loop_panics` | propext, Quot.sound |
| `Gamma.C27_ends_or_panics` | propext, Classical.choice, Quot.sound |
| `Gamma.C28_components_connected_cover` | propext, Classical.choice, Quot.sound |
| `Gamma.C28_components_exact` | propext, Classical.choice, Quot.sound |
| `Gamma.C29_overlap` | propext, Classical.choice, Quot.sound |
| `Gamma.C29_components_acyclic_partial` | propext, Classical.choice, Quot.sound |
| `Gamma.C29_components_degree_two_partial` | propext, Classical.choice, Quot.sound |
| `Gamma.C29_components_tame_partial` | propext, Classical.choice, Quot.sound |
| `Gamma.C29_component_tame_partial` | propext, Classical.choice, Quot.sound |
| `Gamma.C30_greedy_matching` | propext, Classical.choice, Quot.sound |
| `Gamma.C30_double_loop_panics` | propext, Quot.sound |
| `Gamma.C30_returns_iff` | propext, Classical.choice, Quot.sound |
| `Gamma.C31_not_maximal` | propext, Classical.choice, Quot.sound |
| `Gamma.C31_greedy_uncovered_beside_cycle_partial` | propext, Classical.choice, Quot.sound |
| `Gamma.C31_greedy_maximal_lone_cycles_partial` | propext, Classical.choice, Quot.sound |
| `Gamma.C31_greedy_maximal_acyclic_partial` | propext, Classical.choice, Quot.sound |
| `Gamma.C31_greedy_maximal_degree_two_partial` | propext, Classical.choice, Quot.sound |
| `Gamma.C32_symmetric` | propext, Classical.choice, Quot.sound |
| `Gamma.C32_symmetric_structure` | propext, Classical.choice, Quot.sound |
| `Gamma.C32_self_pair_breaks` | none |
| `Gamma.C33_pair` | propext, Classical.choice, Quot.sound |
| `Gamma.C34_edges` | propext, Classical.choice, Quot.sound |
| `Gamma.C35_augment_panics` | propext, Classical.choice, Quot.sound |
| `Gamma.C35_augment` | propext, Classical.choice, Quot.sound |
| `Gamma.C35_augmenting` | propext, Classical.choice, Quot.sound |
| `Gamma.C35_improving` | propext, Classical.choice, Quot.sound |
| `Gamma.C36_eq` | propext, Classical.choice, Quot.sound |
| `Gamma.C36_eq_equivalence` | propext, Classical.choice, Quot.sound |
| `Gamma.C37_mate_panics_iff` | propext, Quot.sound |
| `Gamma.C37_mate_defined` | propext, Classical.choice, Quot.sound |
| `Gamma.C38_default_graph` | propext, Classical.choice, Quot.sound |
| `Gamma.C38_result_is_matching` | propext, Classical.choice, Quot.sound |
| `Gamma.C39_result_is_maximum` | propext, Classical.choice, Quot.sound |
| `Gamma.C39_order_of_result` | propext, Classical.choice, Quot.sound |
| `Gamma.C40_maximum_unchanged` | propext, Classical.choice, Quot.sound |
| `Gamma.C40_unchanged_iff_maximum` | propext, Classical.choice, Quot.sound |
| `Gamma.C41_panics` | propext, Classical.choice, Quot.sound |
| `Gamma.C41_panics_from_greedy` | propext, Classical.choice, Quot.sound |
| `Gamma.C41_panics_molecule` | propext, Classical.choice, Quot.sound |
| `Gamma.C41_possible_panics_partial` | propext, Classical.choice, Quot.sound |
| `Gamma.C41_no_panic_bipartite_partial` | propext, Classical.choice, Quot.sound |
| `Gamma.C41_no_panic_good_partial` | propext, Classical.choice, Quot.sound |
| `Gamma.C41_no_panic_odd_cycles_apart_partial` | propext, Classical.choice, Quot.sound |
| `Gamma.C41_no_panic_odd_cycles_touch_partial` | propext, Classical.choice, Quot.sound |
| `Gamma.C42_diverges` | propext, Classical.choice, Quot.sound |
| `Gamma.C42_search_ends_partial` | propext, Classical.choice, Quot.sound |
| `Gamma.C42_ends_bipartite_partial` | propext, Classical.choice, Quot.sound |
| `Gamma.C42_ends_good_partial` | propext, Classical.choice, Quot.sound |
| `Gamma.C42_ends_odd_cycles_apart_partial` | propext, Classical.choice, Quot.sound |
| `Gamma.C42_diverges_where_odd_cycles_touch` | propext, Classical.choice, Quot.sound |
| `Gamma.C43_order_independent` | propext, Classical.choice, Quot.sound |
| `Gamma.C44_uncovers` | propext, Classical.choice, Quot.sound |
| `Gamma.C44_covers_bipartite_partial` | propext, Classical.choice, Quot.sound |
| `Gamma.C44_covers_good_partial` | propext, Classical.choice, Quot.sound |
| `Gamma.C44_covers_odd_cycles_apart_partial` | propext, Classical.choice, Quot.sound |
| `Gamma.C44_uncovers_where_odd_cycles_touch` | propext, Classical.choice, Quot.sound |
| `Gamma.C45_no_overflow` | propext, Classical.choice, Quot.sound |
| `Gamma.C45_overflows` | propext, Classical.choice, Quot.sound |
| `Gamma.C45_wraps_and_clashes` | propext, Classical.choice, Quot.sound |
| `Gamma.C46_greedy_start` | propext, Classical.choice, Quot.sound |
| `Gamma.C47_dfs_order` | propext, Classical.choice, Quot.sound |
| `Gamma.C48_dfs_reported` | propext, Classical.choice, Quot.sound |
| `Gamma.C49_total_where_odd_cycles_apart` | propext, Classical.choice, Quot.sound |
| `Gamma.C49_bipartite_apart` | propext, Classical.choice, Quot.sound |
| `Gamma.C49_greedy_then_maximum` | propext, Classical.choice, Quot.sound |
| `Gamma.C50_exact_where_tame` | propext, Classical.choice, Quot.sound |
| `Gamma.C51_every_set_bounds` | propext, Classical.choice, Quot.sound |
| `Gamma.C51_bound_attained` | propext, Classical.choice, Quot.sound |
| `Gamma.C51_all_paired_iff` | propext, Classical.choice, Quot.sound |
| `Gamma.C52_smallest_cover` | propext, Classical.choice, Quot.sound |
| `Gamma.C52_bipartite_returns` | propext, Classical.choice, Quot.sound |
| `Gamma.C53_embedding` | propext, Classical.choice, Quot.sound |
| `Gamma.C53_same_size` | propext, Classical.choice, Quot.sound |
| `Gamma.C53_renaming` | propext, Classical.choice, Quot.sound |
| `Gamma.C53_equal_graphs` | propext, Classical.choice, Quot.sound |
| `Gamma.C53_add_edge` | propext, Classical.choice, Quot.sound |
| `Gamma.C53_add_node` | propext, Classical.choice, Quot.sound |
| `Gamma.C54_cut_edge_on_cycle` | propext, Classical.choice, Quot.sound |
| `Gamma.C54_bfs_cut_iff_cycle` | propext, Classical.choice, Quot.sound |
| `Gamma.C54_dfs_cut_iff_cycle` | propext, Classical.choice, Quot.sound |
| `Gamma.C54_dfs_no_cut_complete` | propext, Classical.choice, Quot.sound |
| `Gamma.C54_components_trees` | propext, Classical.choice, Quot.sound |
| `Gamma.C55_bfs_discoveries` | propext, Classical.choice, Quot.sound |
| `Gamma.C55_bfs_steps` | propext, Classical.choice, Quot.sound |
| `Gamma.C55_bfs_connected` | propext, Classical.choice, Quot.sound |
| `Gamma.C56_into_table_rest` | propext, Classical.choice, Quot.sound |
| `Gamma.C56_try_from_rest` | propext, Classical.choice, Quot.sound |
| `Gamma.C56_try_from_rest_fails` | propext, Classical.choice, Quot.sound |
| `Gamma.C57_greedy_pairs_first` | propext, Classical.choice, Quot.sound |
| `Gamma.C57_greedy_empty_iff` | propext, Classical.choice, Quot.sound |
| `Gamma.C57_maximal_is_half` | propext, Classical.choice, Quot.sound |
| `Gamma.C57_greedy_half_of_maximum` | propext, Classical.choice, Quot.sound |
| `Gamma.C58_dfs_again` | propext, Classical.choice, Quot.sound |
| `Gamma.C58_components_again` | propext, Classical.choice, Quot.sound |
| `Gamma.C58_components_again_tame` | propext, Classical.choice, Quot.sound |
| `Gamma.C58_components_again_differ` | propext, Classical.choice, Quot.sound |
| `Gamma.C59_traversals_renamed` | propext, Classical.choice, Quot.sound |
| `Gamma.C59_traversals_local` | propext, Classical.choice, Quot.sound |
| `Gamma.C59_traversals_unchanged` | propext, Classical.choice, Quot.sound |
| `Gamma.C60_components_renamed` | propext, Classical.choice, Quot.sound |
| `Gamma.C60_greedy_renamed` | propext, Classical.choice, Quot.sound |
| `Gamma.C61_bfs_levels` | propext, Classical.choice, Quot.sound |
| `Gamma.C61_bfs_decides_bipartite` | propext, Classical.choice, Quot.sound |
| `Gamma.C62_bfs_spanning_tree` | propext, Classical.choice, Quot.sound |
| `Gamma.C62_dfs_tree` | propext, Classical.choice, Quot.sound |
| `Gamma.C63_forest_calls` | propext, Classical.choice, Quot.sound |
| `Gamma.C63_forest_paths` | propext, Classical.choice, Quot.sound |
| `Gamma.C63_forest_grows` | propext, Classical.choice, Quot.sound |
| `Gamma.C64_marker` | propext, Classical.choice, Quot.sound |
| `Gamma.C65_blossom_new` | propext, Quot.sound |
| `Gamma.C65_contract_graph` | propext, Classical.choice, Quot.sound |
| `Gamma.C65_contract_pairing` | propext, Classical.choice, Quot.sound |
| `Gamma.C66_lift_outside` | propext, Classical.choice, Quot.sound |
| `Gamma.C66_lift_through` | propext, Classical.choice, Quot.sound |
| `Gamma.C66_lift_even` | propext, Classical.choice, Quot.sound |
| `Gamma.C66_lift_odd` | propext, Classical.choice, Quot.sound |
| `Gamma.C67_bfs` | propext, Classical.choice, Quot.sound |
| `Gamma.C67_dfs_tame` | propext, Classical.choice, Quot.sound |
| `Gamma.C67_counts` | propext, Classical.choice, Quot.sound |
| `Gamma.C67_equal_graphs_differ` | propext, Quot.sound |
| `Gamma.C68_at_least` | propext, Classical.choice, Quot.sound |
| `Gamma.C68_exactly_tame` | propext, Classical.choice, Quot.sound |
| `Gamma.C68_order_size` | propext, Classical.choice, Quot.sound |
| `Gamma.C68_forest_test` | propext, Classical.choice, Quot.sound |
| `Gamma.C69_dfs_loops` | propext, Classical.choice, Quot.sound |
| `Gamma.C69_dfs_loops_off_cycles` | propext, Classical.choice, Quot.sound |
| `Gamma.C69_components_panic` | propext, Classical.choice, Quot.sound |
| `Gamma.C69_acyclic_iff` | propext, Classical.choice, Quot.sound |
| `Gamma.C69_default_iff` | propext, Classical.choice, Quot.sound |
| `Gamma.C69_cycle_hides_loop` | propext, Quot.sound |
| `Gamma.C70_outside_pairs` | propext, Classical.choice, Quot.sound |
| `Gamma.C70_outside_pairs_bipartite` | propext, Classical.choice, Quot.sound |
| `Gamma.C70_maximum_inside` | propext, Classical.choice, Quot.sound |
| `Gamma.C70_clash_panics` | propext |
| `Gamma.C70_half_outside_panics` | propext |
| `Gamma.C71_each_part` | propext, Classical.choice, Quot.sound |
| `Gamma.C71_in_turn` | propext, Classical.choice, Quot.sound |
| `Gamma.C71_components` | propext, Classical.choice, Quot.sound |
| `Gamma.C71_increasing` | propext |
| `Gamma.C71_clash` | propext, Quot.sound |
| `Gamma.C72_maximum_matching_renamed` | propext, Classical.choice, Quot.sound |
| `Gamma.C72_greedy_then_matching_renamed` | propext, Classical.choice, Quot.sound |
| `Gamma.C72_built_renamed` | propext, Classical.choice, Quot.sound |
| `Gamma.C72_failures_renamed` | propext, Classical.choice, Quot.sound |
| `Gamma.C73_equal_traversals` | propext, Classical.choice, Quot.sound |
| `Gamma.C73_new_and_finished` | propext, Classical.choice, Quot.sound |
| `Gamma.C73_equal_graphs_differ` | propext, Quot.sound |
| `Gamma.C74_tame` | propext, Classical.choice, Quot.sound |
| `Gamma.C74_loses` | propext, Classical.choice, Quot.sound |
| `Gamma.C74_loses_any` | propext, Classical.choice, Quot.sound |
| `Gamma.C74_tame_any` | propext, Classical.choice, Quot.sound |
| `Gamma.C74_degrees` | propext, Classical.choice, Quot.sound |
| `Gamma.C74_apart` | propext, Classical.choice, Quot.sound |
| `Gamma.C74_components_loses` | propext, Classical.choice, Quot.sound |
| `Gamma.C74_components_degrees` | propext, Classical.choice, Quot.sound |
| `Gamma.C75_new` | propext, Quot.sound |
| `Gamma.C75_bfs_sound` | propext, Classical.choice, Quot.sound |
| `Gamma.C75_bfs_fails` | propext, Classical.choice, Quot.sound |
| `Gamma.C75_bfs_ends_iff` | propext, Classical.choice, Quot.sound |
| `Gamma.C75_bfs_discovers` | propext, Classical.choice, Quot.sound |
| `Gamma.C75_bfs_order` | propext, Classical.choice, Quot.sound |
| `Gamma.C76_dfs_sound` | propext, Classical.choice, Quot.sound |
| `Gamma.C76_dfs_once` | propext, Classical.choice, Quot.sound |
| `Gamma.C76_dfs_fails` | propext, Classical.choice, Quot.sound |
| `Gamma.C76_dfs_ends_or_panics` | propext, Classical.choice, Quot.sound |
| `Gamma.C76_dfs_discovers_acyclic` | propext, Classical.choice, Quot.sound |
| `Gamma.C76_dfs_incomplete` | propext, Quot.sound |
| `Gamma.C76_try_from` | propext, Classical.choice, Quot.sound |
| `Gamma.C77_components_ends` | propext, Classical.choice, Quot.sound |
| `Gamma.C77_components` | propext, Classical.choice, Quot.sound |
| `Gamma.C77_components_acyclic` | propext, Classical.choice, Quot.sound |
| `Gamma.C77_greedy` | propext, Classical.choice, Quot.sound |
| `Gamma.C78_first_come` | propext, Classical.choice, Quot.sound |
| `Gamma.C78_determined` | propext, Classical.choice, Quot.sound |
| `Gamma.C78_down_the_tree` | propext, Classical.choice, Quot.sound |
| `Gamma.C79_returns_large` | propext, Classical.choice, Quot.sound |
| `Gamma.C79_at_least_maximum` | propext, Classical.choice, Quot.sound |
| `Gamma.C79_failures` | propext, Classical.choice, Quot.sound |
| `Gamma.C79_left_alone` | propext, Classical.choice, Quot.sound |
| `Gamma.C79_two_colours` | propext, Classical.choice, Quot.sound |
| `Gamma.C79_order_independent` | propext, Classical.choice, Quot.sound |
| `Gamma.C79_non_edges_may_stay` | propext, Classical.choice, Quot.sound |
| `Gamma.C79_non_edges_may_appear` | propext, Classical.choice, Quot.sound |
| `Gamma.C79_may_hang` | propext, Classical.choice, Quot.sound |
| `Gamma.C80_same_outcome` | propext, Quot.sound |
| `Gamma.C80_left_is_matching` | propext, Classical.choice, Quot.sound |
| `Gamma.C80_left_is_pairing` | propext, Classical.choice, Quot.sound |
| `Gamma.C80_keeps_odd_cycles_apart` | propext, Classical.choice, Quot.sound |
| `Gamma.C80_refused_not_maximum` | propext, Classical.choice, Quot.sound |
| `Gamma.C80_retry` | propext, Classical.choice, Quot.sound |
| `Gamma.C80_order_independent` | propext, Classical.choice, Quot.sound |
| `Gamma.C80_may_shrink` | propext, Classical.choice, Quot.sound |
| `Gamma.C81_same_outcome` | propext, Quot.sound |
| `Gamma.C81_searches` | propext, Classical.choice, Quot.sound |
| `Gamma.C81_exact_odd_cycles_apart` | propext, Classical.choice, Quot.sound |
| `Gamma.C81_at_most` | propext, Classical.choice, Quot.sound |
| `Gamma.C81_nested_searches` | propext, Classical.choice, Quot.sound |
| `Gamma.C81_nested_searches_bipartite` | propext, Classical.choice, Quot.sound |
| `Gamma.C81_nested_searches_sharp` | propext |
| `Gamma.C82_stays_matching` | propext, Classical.choice, Quot.sound |
| `Gamma.C82_add_node_stays_maximum` | propext, Classical.choice, Quot.sound |
| `Gamma.C82_add_edge_maximum` | propext, Classical.choice, Quot.sound |
| `Gamma.C82_again_after_add_edge` | propext, Classical.choice, Quot.sound |
| `Gamma.C82_again_cheap` | propext, Classical.choice, Quot.sound |
| `Gamma.C83_paths_even` | propext, Classical.choice, Quot.sound |
| `Gamma.C83_returns_maximum_or_runs_forever` | propext, Classical.choice, Quot.sound |
| `Gamma.C83_apart_touch` | none |
| `Gamma.C41_no_panic_odd_cycles_touch_partial` | propext, Classical.choice, Quot.sound |
| `Gamma.C42_diverges_where_odd_cycles_touch` | propext, Classical.choice, Quot.sound |
| `Gamma.C44_uncovers_where_odd_cycles_touch` | propext, Classical.choice, Quot.sound |
| `Gamma.C84_never_ends_iff_goes_in_circles` | propext, Classical.choice, Quot.sound |
| `Gamma.C84_circle_closes_early` | propext, Classical.choice, Quot.sound |
| `Gamma.C84_one_budget_settles` | propext, Classical.choice, Quot.sound |
| `Gamma.C84_rounds_of_a_call` | propext, Classical.choice, Quot.sound |
| `Gamma.C84_panics_iff_odd_path` | propext, Classical.choice, Quot.sound |
| `Gamma.C84_returns_iff_maximum` | propext, Classical.choice, Quot.sound |
| `Gamma.C84_one_of_three` | propext, Classical.choice, Quot.sound |
| `Gamma.C85_same_outcome` | propext, Quot.sound |
| `Gamma.C85_same_search` | propext, Quot.sound |
| `Gamma.C85_looks_of_search` | propext, Classical.choice, Quot.sound |
| `Gamma.C85_looks_bipartite` | propext, Classical.choice, Quot.sound |
| `Gamma.C85_looks_of_call` | propext, Classical.choice, Quot.sound |
| `Gamma.C85_polynomial_odd_cycles_apart` | propext, Classical.choice, Quot.sound |
| `Gamma.C85_polynomial_bipartite` | propext, Classical.choice, Quot.sound |
| `Gamma.C85_looks_sharp` | propext, Classical.choice, Quot.sound |
| `Gamma.C86_total_cliques` | propext, Classical.choice, Quot.sound |
| `Gamma.C86_no_panic_cliques` | propext, Classical.choice, Quot.sound |
| `Gamma.C86_covers_cliques` | propext, Classical.choice, Quot.sound |
| `Gamma.C86_searches_cliques` | propext, Classical.choice, Quot.sound |
| `Gamma.C86_total_complete` | propext, Classical.choice, Quot.sound |
| `Gamma.C86_complete_family` | propext, Classical.choice, Quot.sound |
| `Gamma.C86_three_parts_panic` | propext, Classical.choice, Quot.sound |
| `Gamma.C87_total` | propext, Classical.choice, Quot.sound |
| `Gamma.C87_no_panic` | propext, Classical.choice, Quot.sound |
| `Gamma.C87_keeps` | propext, Classical.choice, Quot.sound |
| `Gamma.C87_searches` | propext, Classical.choice, Quot.sound |
| `Gamma.C87_polynomial` | propext, Classical.choice, Quot.sound |
| `Gamma.C87_covers` | propext, Quot.sound |
| `Gamma.C88_part_returns` | propext, Classical.choice, Quot.sound |
| `Gamma.C88_panics_in_a_part` | propext, Classical.choice, Quot.sound |
| `Gamma.C88_never_ends_in_a_part` | propext, Classical.choice, Quot.sound |
| `Gamma.C88_returns_iff` | propext, Classical.choice, Quot.sound |
| `Gamma.C88_panics_iff` | propext, Classical.choice, Quot.sound |
| `Gamma.C88_never_ends_iff` | propext, Classical.choice, Quot.sound |
| `Gamma.C88_made_with_calls` | propext, Classical.choice, Quot.sound |
| `Gamma.C88_mixed_no_panic` | propext, Classical.choice, Quot.sound |
| `Gamma.C88_mixed_ends` | propext, Classical.choice, Quot.sound |
| `Gamma.C89_bfs_lazy` | propext, Classical.choice, Quot.sound |
| `Gamma.C89_dfs_lazy` | propext, Classical.choice, Quot.sound |
| `Gamma.C89_bfs_nearest_first` | propext, Classical.choice, Quot.sound |
| `Gamma.C89_bfs_finds` | propext, Classical.choice, Quot.sound |
| `Gamma.C89_bfs_goes_on` | propext, Classical.choice, Quot.sound |
| `Gamma.C89_dfs_may_never_find` | propext, Classical.choice, Quot.sound |
| `Gamma.C90_total` | propext, Classical.choice, Quot.sound |
| `Gamma.C90_no_panic` | propext, Classical.choice, Quot.sound |
| `Gamma.C90_keeps` | propext, Classical.choice, Quot.sound |
| `Gamma.C90_searches` | propext, Classical.choice, Quot.sound |
| `Gamma.C90_polynomial` | propext, Classical.choice, Quot.sound |
| `Gamma.C90_qualify` | propext, Quot.sound |
| `Gamma.C90_small_components` | propext, Classical.choice, Quot.sound |
| `Gamma.C90_five_nodes` | propext, Classical.choice, Quot.sound |
| `Gamma.C90_six_nodes_panic` | propext, Classical.choice, Quot.sound |
| `Gamma.C91_total` | propext, Classical.choice, Quot.sound |
| `Gamma.C91_no_panic` | propext, Classical.choice, Quot.sound |
| `Gamma.C91_keeps` | propext, Classical.choice, Quot.sound |
| `Gamma.C91_searches` | propext, Classical.choice, Quot.sound |
| `Gamma.C91_qualify` | propext, Classical.choice, Quot.sound |
| `Gamma.C91_limit` | propext, Classical.choice, Quot.sound |
| `Gamma.C92_one_odd_cycle` | propext, Classical.choice, Quot.sound |
| `Gamma.C92_total` | propext, Classical.choice, Quot.sound |
| `Gamma.C92_no_panic` | propext, Classical.choice, Quot.sound |
| `Gamma.C92_searches` | propext, Classical.choice, Quot.sound |
| `Gamma.C92_connected` | propext, Classical.choice, Quot.sound |
| `Gamma.C92_one_more_panics` | propext, Classical.choice, Quot.sound |
| `Gamma.C93_perfect_test` | propext, Classical.choice, Quot.sound |
| `Gamma.C93_perfect_unchanged` | propext, Classical.choice, Quot.sound |
| `Gamma.C93_result_perfect_iff` | propext, Classical.choice, Quot.sound |
| `Gamma.C93_fallback_only_if_needed` | propext, Classical.choice, Quot.sound |
| `Gamma.C94_same_outcome` | propext, Quot.sound |
| `Gamma.C94_no_panic` | propext, Quot.sound |
| `Gamma.C94_ends` | propext, Classical.choice, Quot.sound |
| `Gamma.C94_caught` | propext, Classical.choice, Quot.sound |
| `Gamma.C94_others_yielded` | propext, Classical.choice, Quot.sound |
| `Gamma.C94_acyclic` | propext, Classical.choice, Quot.sound |
| `Gamma.C94_example` | propext, Classical.choice, Quot.sound |
| `Gamma.C95_same_outcome` | propext, Quot.sound |
| `Gamma.C95_caught` | propext, Classical.choice, Quot.sound |
| `Gamma.C95_ends` | propext, Classical.choice, Quot.sound |
| `Gamma.C95_complete` | propext, Classical.choice, Quot.sound |
| `Gamma.C95_example` | propext, Quot.sound |
| `Gamma.C96_caught_ends` | propext, Classical.choice, Quot.sound |
| `Gamma.C96_caught` | propext, Classical.choice, Quot.sound |
| `Gamma.C96_uncaught` | propext, Classical.choice, Quot.sound |
| `Gamma.C96_ends` | propext, Classical.choice, Quot.sound |
| `Gamma.C96_example` | propext, Quot.sound |
| `Gamma.C97_returns_iff` | propext, Classical.choice, Quot.sound |
| `Gamma.C97_panics` | propext, Classical.choice, Quot.sound |
| `Gamma.C97_first_come` | propext, Classical.choice, Quot.sound |
| `Gamma.C97_pairs` | propext, Classical.choice, Quot.sound |
| `Gamma.C97_returns` | propext, Classical.choice, Quot.sound |
| `Gamma.C97_example` | propext, Classical.choice, Quot.sound |
| `Gamma.C98_goes_on` | propext, Classical.choice, Quot.sound |
| `Gamma.C98_multipartite` | propext, Classical.choice, Quot.sound |
| `Gamma.C98_components` | propext, Classical.choice, Quot.sound |
| `Gamma.C98_classes` | propext, Classical.choice, Quot.sound |
| `Gamma.C98_edges_lost` | propext, Classical.choice, Quot.sound |
| `Gamma.C98_example` | propext, Classical.choice, Quot.sound |
| `Gamma.C99_traversal` | propext, Classical.choice, Quot.sound |
| `Gamma.C99_one_pair` | propext, Classical.choice, Quot.sound |
| `Gamma.C99_complete` | propext, Classical.choice, Quot.sound |
| `Gamma.C99_then_maximum` | propext, Classical.choice, Quot.sound |
