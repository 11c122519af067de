{
 "claims": [
  {
   "property": "C01",
   "status": "proved",
   "theorems": [
    "Gamma.C01_add_node"
   ],
   "note": ""
  },
  {
   "property": "C02",
   "status": "proved",
   "theorems": [
    "Gamma.C02_add_edge"
   ],
   "note": ""
  },
  {
   "property": "C03",
   "status": "proved",
   "theorems": [
    "Gamma.C03_counts"
   ],
   "note": ""
  },
  {
   "property": "C04",
   "status": "proved",
   "theorems": [
    "Gamma.C04_undirected"
   ],
   "note": ""
  },
  {
   "property": "C05",
   "status": "proved",
   "theorems": [
    "Gamma.C05_queries"
   ],
   "note": ""
  },
  {
   "property": "C06",
   "status": "proved",
   "theorems": [
    "Gamma.C06_edges",
    "Gamma.C06_edges_no_adjacency_loop",
    "Gamma.C06_adjacency_loop_missing"
   ],
   "note": ""
  },
  {
   "property": "C07",
   "status": "proved",
   "theorems": [
    "Gamma.C07_handshake",
    "Gamma.C07_handshake_no_adjacency_loop",
    "Gamma.C07_adjacency_loop_breaks"
   ],
   "note": ""
  },
  {
   "property": "C08",
   "status": "proved",
   "theorems": [
    "Gamma.C08_insertion_order"
   ],
   "note": ""
  },
  {
   "property": "C09",
   "status": "proved",
   "theorems": [
    "Gamma.C09_adjacency"
   ],
   "note": ""
  },
  {
   "property": "C10",
   "status": "proved",
   "theorems": [
    "Gamma.C10_first_defect",
    "Gamma.C10_first_defect_unique"
   ],
   "note": ""
  },
  {
   "property": "C11",
   "status": "proved",
   "theorems": [
    "Gamma.C11_edge_list"
   ],
   "note": ""
  },
  {
   "property": "C12",
   "status": "proved",
   "theorems": [
    "Gamma.C12_eq",
    "Gamma.C12_eq_equivalence",
    "Gamma.C12_eq_general",
    "Gamma.C12_adjacency_loop_asymmetric"
   ],
   "note": ""
  },
  {
   "property": "C13",
   "status": "proved",
   "theorems": [
    "Gamma.C13_round_trip_edges",
    "Gamma.C13_round_trip_adjacency",
    "Gamma.C13_round_trip_edges_iff",
    "Gamma.C13_round_trip_adjacency_fails"
   ],
   "note": ""
  },
  {
   "property": "C14",
   "status": "proved",
   "theorems": [
    "Gamma.C14_new"
   ],
   "note": ""
  },
  {
   "property": "C15",
   "status": "proved",
   "theorems": [
    "Gamma.C15_bfs_ends",
    "Gamma.C15_bfs_collect"
   ],
   "note": ""
  },
  {
   "property": "C16",
   "status": "proved",
   "theorems": [
    "Gamma.C16_bfs_discovers"
   ],
   "note": ""
  },
  {
   "property": "C17",
   "status": "proved",
   "theorems": [
    "Gamma.C17_bfs_distance"
   ],
   "note": ""
  },
  {
   "property": "C18",
   "status": "proved",
   "theorems": [
    "Gamma.C18_bfs_edges",
    "Gamma.C18_bfs_at_most_size"
   ],
   "note": ""
  },
  {
   "property": "C19",
   "status": "proved",
   "theorems": [
    "Gamma.C19_bfs_order"
   ],
   "note": ""
  },
  {
   "property": "C20",
   "status": "proved",
   "theorems": [
    "Gamma.C20_bfs_flags"
   ],
   "note": ""
  },
  {
   "property": "C21",
   "status": "proved",
   "theorems": [
    "Gamma.C21_dfs_ends",
    "Gamma.C21_dfs_collect"
   ],
   "note": ""
  },
  {
   "property": "C22",
   "status": "proved",
   "theorems": [
    "Gamma.C22_dfs_sound"
   ],
   "note": ""
  },
  {
   "property": "C23",
   "status": "proved",
   "theorems": [
    "Gamma.C23_dfs_once",
    "Gamma.C23_dfs_at_most_size"
   ],
   "note": ""
  },
  {
   "property": "C24",
   "status": "partial",
   "theorems": [
    "Gamma.C24_incomplete",
    "Gamma.C24_dfs_discovers_acyclic_partial",
    "Gamma.C24_dfs_discovers_degree_two_partial",
    "Gamma.C24_dfs_missed_only_beside_cycle_partial",
    "Gamma.C24_dfs_missed_iff_partial",
    "Gamma.C24_dfs_missed_next_to_partial",
    "Gamma.C24_dfs_discovers_tame_partial",
    "Gamma.C24_tame_classes_partial",
    "Gamma.C24_tame_cycles_partial"
   ],
   "note": "False in general: C24_incomplete exhibits a 4-node graph on which depth-first traversal misses a neighbor of the root. Proved where cycles are tame (DepthFirst.Tame), which includes acyclic graphs, graphs of maximum degree two, graphs whose nodes on cycles have at most three neighbors and graphs whose cycles share no nodes and are entered at nodes with at most three neighbors (in each case the root is on no cycle, has at most two neighbors or is not a cut vertex); on every graph, an undiscovered node's discovered neighbors lie on cycles and have at least four neighbors (the root: three), and an exact criterion for a node to be missed (C24_dfs_missed_iff_partial). C74 says for which graphs in two classes (no node on a cycle has more than three neighbors but the root; cycles that share no nodes) the traversal is complete whatever the neighbor order."
  },
  {
   "property": "C25",
   "status": "proved",
   "theorems": [
    "Gamma.C25_dfs_backtracks"
   ],
   "note": ""
  },
  {
   "property": "C26",
   "status": "proved",
   "theorems": [
    "Gamma.C26_into_table",
    "Gamma.C26_try_from_once",
    "Gamma.C26_try_from",
    "Gamma.C26_try_from_fails",
    "Gamma.C26_double_loop_fails"
   ],
   "note": ""
  },
  {
   "property": "C27",
   "status": "proved",
   "theorems": [
    "Gamma.C27_components_ends",
    "Gamma.C27_components_collect",
    "Gamma.C27_double_loop_panics",
    "Gamma.C27_ends_or_panics"
   ],
   "note": ""
  },
  {
   "property": "C28",
   "status": "proved",
   "theorems": [
    "Gamma.C28_components_connected_cover",
    "Gamma.C28_components_exact"
   ],
   "note": ""
  },
  {
   "property": "C29",
   "status": "partial",
   "theorems": [
    "Gamma.C29_overlap",
    "Gamma.C29_components_acyclic_partial",
    "Gamma.C29_components_degree_two_partial",
    "Gamma.C29_components_tame_partial",
    "Gamma.C29_component_tame_partial"
   ],
   "note": "False in general: C29_overlap exhibits a connected 4-node graph with two overlapping components. Proved where cycles are tame at the first node of each component (includes acyclic graphs and graphs of maximum degree two); on every graph for each single component whose first node is tame. C74 says where it holds for every order of the neighbors."
  },
  {
   "property": "C30",
   "status": "proved",
   "theorems": [
    "Gamma.C30_greedy_matching",
    "Gamma.C30_double_loop_panics",
    "Gamma.C30_returns_iff"
   ],
   "note": ""
  },
  {
   "property": "C31",
   "status": "partial",
   "theorems": [
    "Gamma.C31_not_maximal",
    "Gamma.C31_greedy_uncovered_beside_cycle_partial",
    "Gamma.C31_greedy_maximal_lone_cycles_partial",
    "Gamma.C31_greedy_maximal_acyclic_partial",
    "Gamma.C31_greedy_maximal_degree_two_partial"
   ],
   "note": "False in general: C31_not_maximal exhibits a 4-node graph on which greedy leaves an edge with both ends unpaired. Proved where nodes on cycles have at most two neighbors (trees and lone cycles); where cycles are tame, an uncovered edge has an end on a cycle with at least three neighbors. C78 says on every graph which nodes are paired."
  },
  {
   "property": "C32",
   "status": "proved",
   "theorems": [
    "Gamma.C32_symmetric",
    "Gamma.C32_symmetric_structure",
    "Gamma.C32_self_pair_breaks"
   ],
   "note": ""
  },
  {
   "property": "C33",
   "status": "proved",
   "theorems": [
    "Gamma.C33_pair"
   ],
   "note": ""
  },
  {
   "property": "C34",
   "status": "proved",
   "theorems": [
    "Gamma.C34_edges"
   ],
   "note": ""
  },
  {
   "property": "C35",
   "status": "proved",
   "theorems": [
    "Gamma.C35_augment_panics",
    "Gamma.C35_augment",
    "Gamma.C35_augmenting",
    "Gamma.C35_improving"
   ],
   "note": ""
  },
  {
   "property": "C36",
   "status": "proved",
   "theorems": [
    "Gamma.C36_eq",
    "Gamma.C36_eq_equivalence"
   ],
   "note": ""
  },
  {
   "property": "C37",
   "status": "proved",
   "theorems": [
    "Gamma.C37_mate_panics_iff",
    "Gamma.C37_mate_defined"
   ],
   "note": ""
  },
  {
   "property": "C38",
   "status": "proved",
   "theorems": [
    "Gamma.C38_default_graph",
    "Gamma.C38_result_is_matching"
   ],
   "note": ""
  },
  {
   "property": "C39",
   "status": "proved",
   "theorems": [
    "Gamma.C39_result_is_maximum",
    "Gamma.C39_order_of_result"
   ],
   "note": ""
  },
  {
   "property": "C40",
   "status": "proved",
   "theorems": [
    "Gamma.C40_maximum_unchanged",
    "Gamma.C40_unchanged_iff_maximum"
   ],
   "note": ""
  },
  {
   "property": "C41",
   "status": "partial",
   "theorems": [
    "Gamma.C41_panics",
    "Gamma.C41_panics_from_greedy",
    "Gamma.C41_panics_molecule",
    "Gamma.C41_possible_panics_partial",
    "Gamma.C41_no_panic_bipartite_partial",
    "Gamma.C41_no_panic_good_partial",
    "Gamma.C41_no_panic_odd_cycles_apart_partial",
    "Gamma.C41_no_panic_odd_cycles_touch_partial"
   ],
   "note": "False in general: C41_panics exhibits a 6-node graph on which every run from the empty pairing panics in augment, C41_panics_from_greedy one where every run from the greedy pairing does, C41_panics_molecule one with at most three neighbors per node and no cycle shorter than five. Proved: the only possible panics; none on bipartite graphs; none on graphs no two of whose odd cycles share a node, and none on graphs any two of whose odd cycles share at most one node (C41_no_panic_odd_cycles_touch_partial); none in runs whose paths are improving. C84_panics_iff_odd_path says exactly when it does."
  },
  {
   "property": "C42",
   "status": "partial",
   "theorems": [
    "Gamma.C42_diverges",
    "Gamma.C42_search_ends_partial",
    "Gamma.C42_ends_bipartite_partial",
    "Gamma.C42_ends_good_partial",
    "Gamma.C42_ends_odd_cycles_apart_partial",
    "Gamma.C42_diverges_where_odd_cycles_touch"
   ],
   "note": "False in general: C42_diverges exhibits a 9-node graph on which no budget suffices from the empty pairing. C42_diverges_where_odd_cycles_touch exhibits one any two of whose odd cycles share at most one node, so the positive result for odd cycles apart is sharp in that sense. Proved: every single search ends within a bound; runs on bipartite graphs and on graphs no two of whose odd cycles share a node end; runs whose paths are improving end. C84_never_ends_iff_goes_in_circles says exactly when it does not."
  },
  {
   "property": "C43",
   "status": "proved",
   "theorems": [
    "Gamma.C43_order_independent"
   ],
   "note": ""
  },
  {
   "property": "C44",
   "status": "partial",
   "theorems": [
    "Gamma.C44_uncovers",
    "Gamma.C44_covers_bipartite_partial",
    "Gamma.C44_covers_good_partial",
    "Gamma.C44_covers_odd_cycles_apart_partial",
    "Gamma.C44_uncovers_where_odd_cycles_touch"
   ],
   "note": "False in general: C44_uncovers exhibits a 9-node graph and a matching of which a paired node ends up unpaired. C44_uncovers_where_odd_cycles_touch exhibits a 7-node graph any two of whose odd cycles share at most one node. Proved for bipartite graphs, for graphs no two of whose odd cycles share a node, and for runs whose paths are improving."
  },
  {
   "property": "C45",
   "status": "proved",
   "theorems": [
    "Gamma.C45_no_overflow",
    "Gamma.C45_overflows",
    "Gamma.C45_wraps_and_clashes"
   ],
   "note": ""
  },
  {
   "property": "C46",
   "status": "proved",
   "theorems": [
    "Gamma.C46_greedy_start"
   ],
   "note": ""
  },
  {
   "property": "C47",
   "status": "proved",
   "theorems": [
    "Gamma.C47_dfs_order"
   ],
   "note": ""
  },
  {
   "property": "C48",
   "status": "proved",
   "theorems": [
    "Gamma.C48_dfs_reported"
   ],
   "note": ""
  },
  {
   "property": "C49",
   "status": "proved",
   "theorems": [
    "Gamma.C49_total_where_odd_cycles_apart",
    "Gamma.C49_bipartite_apart",
    "Gamma.C49_greedy_then_maximum"
   ],
   "note": ""
  },
  {
   "property": "C50",
   "status": "proved",
   "theorems": [
    "Gamma.C50_exact_where_tame"
   ],
   "note": ""
  },
  {
   "property": "C51",
   "status": "proved",
   "theorems": [
    "Gamma.C51_every_set_bounds",
    "Gamma.C51_bound_attained",
    "Gamma.C51_all_paired_iff"
   ],
   "note": ""
  },
  {
   "property": "C52",
   "status": "proved",
   "theorems": [
    "Gamma.C52_smallest_cover",
    "Gamma.C52_bipartite_returns"
   ],
   "note": ""
  },
  {
   "property": "C53",
   "status": "proved",
   "theorems": [
    "Gamma.C53_embedding",
    "Gamma.C53_same_size",
    "Gamma.C53_renaming",
    "Gamma.C53_equal_graphs",
    "Gamma.C53_add_edge",
    "Gamma.C53_add_node"
   ],
   "note": ""
  },
  {
   "property": "C54",
   "status": "proved",
   "theorems": [
    "Gamma.C54_cut_edge_on_cycle",
    "Gamma.C54_bfs_cut_iff_cycle",
    "Gamma.C54_dfs_cut_iff_cycle",
    "Gamma.C54_dfs_no_cut_complete",
    "Gamma.C54_components_trees"
   ],
   "note": ""
  },
  {
   "property": "C55",
   "status": "proved",
   "theorems": [
    "Gamma.C55_bfs_discoveries",
    "Gamma.C55_bfs_steps",
    "Gamma.C55_bfs_connected"
   ],
   "note": ""
  },
  {
   "property": "C56",
   "status": "proved",
   "theorems": [
    "Gamma.C56_into_table_rest",
    "Gamma.C56_try_from_rest",
    "Gamma.C56_try_from_rest_fails"
   ],
   "note": ""
  },
  {
   "property": "C57",
   "status": "proved",
   "theorems": [
    "Gamma.C57_greedy_pairs_first",
    "Gamma.C57_greedy_empty_iff",
    "Gamma.C57_maximal_is_half",
    "Gamma.C57_greedy_half_of_maximum"
   ],
   "note": ""
  },
  {
   "property": "C58",
   "status": "proved",
   "theorems": [
    "Gamma.C58_dfs_again",
    "Gamma.C58_components_again",
    "Gamma.C58_components_again_tame",
    "Gamma.C58_components_again_differ"
   ],
   "note": ""
  },
  {
   "property": "C59",
   "status": "proved",
   "theorems": [
    "Gamma.C59_traversals_renamed",
    "Gamma.C59_traversals_local",
    "Gamma.C59_traversals_unchanged"
   ],
   "note": ""
  },
  {
   "property": "C60",
   "status": "proved",
   "theorems": [
    "Gamma.C60_components_renamed",
    "Gamma.C60_greedy_renamed"
   ],
   "note": ""
  },
  {
   "property": "C61",
   "status": "proved",
   "theorems": [
    "Gamma.C61_bfs_levels",
    "Gamma.C61_bfs_decides_bipartite"
   ],
   "note": ""
  },
  {
   "property": "C62",
   "status": "proved",
   "theorems": [
    "Gamma.C62_bfs_spanning_tree",
    "Gamma.C62_dfs_tree"
   ],
   "note": ""
  },
  {
   "property": "C63",
   "status": "proved",
   "theorems": [
    "Gamma.C63_forest_calls",
    "Gamma.C63_forest_paths",
    "Gamma.C63_forest_grows"
   ],
   "note": ""
  },
  {
   "property": "C64",
   "status": "proved",
   "theorems": [
    "Gamma.C64_marker"
   ],
   "note": ""
  },
  {
   "property": "C65",
   "status": "proved",
   "theorems": [
    "Gamma.C65_blossom_new",
    "Gamma.C65_contract_graph",
    "Gamma.C65_contract_pairing"
   ],
   "note": ""
  },
  {
   "property": "C66",
   "status": "proved",
   "theorems": [
    "Gamma.C66_lift_outside",
    "Gamma.C66_lift_through",
    "Gamma.C66_lift_even",
    "Gamma.C66_lift_odd"
   ],
   "note": ""
  },
  {
   "property": "C67",
   "status": "proved",
   "theorems": [
    "Gamma.C67_bfs",
    "Gamma.C67_dfs_tame",
    "Gamma.C67_counts",
    "Gamma.C67_equal_graphs_differ"
   ],
   "note": ""
  },
  {
   "property": "C68",
   "status": "proved",
   "theorems": [
    "Gamma.C68_at_least",
    "Gamma.C68_exactly_tame",
    "Gamma.C68_order_size",
    "Gamma.C68_forest_test"
   ],
   "note": ""
  },
  {
   "property": "C69",
   "status": "proved",
   "theorems": [
    "Gamma.C69_dfs_loops",
    "Gamma.C69_dfs_loops_off_cycles",
    "Gamma.C69_components_panic",
    "Gamma.C69_acyclic_iff",
    "Gamma.C69_default_iff",
    "Gamma.C69_cycle_hides_loop"
   ],
   "note": ""
  },
  {
   "property": "C70",
   "status": "proved",
   "theorems": [
    "Gamma.C70_outside_pairs",
    "Gamma.C70_outside_pairs_bipartite",
    "Gamma.C70_maximum_inside",
    "Gamma.C70_clash_panics",
    "Gamma.C70_half_outside_panics"
   ],
   "note": ""
  },
  {
   "property": "C71",
   "status": "proved",
   "theorems": [
    "Gamma.C71_each_part",
    "Gamma.C71_in_turn",
    "Gamma.C71_components",
    "Gamma.C71_increasing",
    "Gamma.C71_clash"
   ],
   "note": ""
  },
  {
   "property": "C72",
   "status": "proved",
   "theorems": [
    "Gamma.C72_maximum_matching_renamed",
    "Gamma.C72_greedy_then_matching_renamed",
    "Gamma.C72_built_renamed",
    "Gamma.C72_failures_renamed"
   ],
   "note": ""
  },
  {
   "property": "C73",
   "status": "proved",
   "theorems": [
    "Gamma.C73_equal_traversals",
    "Gamma.C73_new_and_finished",
    "Gamma.C73_equal_graphs_differ"
   ],
   "note": ""
  },
  {
   "property": "C74",
   "status": "proved",
   "theorems": [
    "Gamma.C74_tame",
    "Gamma.C74_loses",
    "Gamma.C74_loses_any",
    "Gamma.C74_tame_any",
    "Gamma.C74_degrees",
    "Gamma.C74_apart",
    "Gamma.C74_components_loses",
    "Gamma.C74_components_degrees"
   ],
   "note": ""
  },
  {
   "property": "C75",
   "status": "proved",
   "theorems": [
    "Gamma.C75_new",
    "Gamma.C75_bfs_sound",
    "Gamma.C75_bfs_fails",
    "Gamma.C75_bfs_ends_iff",
    "Gamma.C75_bfs_discovers",
    "Gamma.C75_bfs_order"
   ],
   "note": ""
  },
  {
   "property": "C76",
   "status": "proved",
   "theorems": [
    "Gamma.C76_dfs_sound",
    "Gamma.C76_dfs_once",
    "Gamma.C76_dfs_fails",
    "Gamma.C76_dfs_ends_or_panics",
    "Gamma.C76_dfs_discovers_acyclic",
    "Gamma.C76_dfs_incomplete",
    "Gamma.C76_try_from"
   ],
   "note": ""
  },
  {
   "property": "C77",
   "status": "proved",
   "theorems": [
    "Gamma.C77_components_ends",
    "Gamma.C77_components",
    "Gamma.C77_components_acyclic",
    "Gamma.C77_greedy"
   ],
   "note": ""
  },
  {
   "property": "C78",
   "status": "proved",
   "theorems": [
    "Gamma.C78_first_come",
    "Gamma.C78_determined",
    "Gamma.C78_down_the_tree"
   ],
   "note": ""
  },
  {
   "property": "C79",
   "status": "proved",
   "theorems": [
    "Gamma.C79_returns_large",
    "Gamma.C79_at_least_maximum",
    "Gamma.C79_failures",
    "Gamma.C79_left_alone",
    "Gamma.C79_two_colours",
    "Gamma.C79_order_independent",
    "Gamma.C79_non_edges_may_stay",
    "Gamma.C79_non_edges_may_appear",
    "Gamma.C79_may_hang"
   ],
   "note": ""
  },
  {
   "property": "C80",
   "status": "proved",
   "theorems": [
    "Gamma.C80_same_outcome",
    "Gamma.C80_left_is_matching",
    "Gamma.C80_left_is_pairing",
    "Gamma.C80_keeps_odd_cycles_apart",
    "Gamma.C80_refused_not_maximum",
    "Gamma.C80_retry",
    "Gamma.C80_order_independent",
    "Gamma.C80_may_shrink"
   ],
   "note": ""
  },
  {
   "property": "C81",
   "status": "proved",
   "theorems": [
    "Gamma.C81_same_outcome",
    "Gamma.C81_searches",
    "Gamma.C81_exact_odd_cycles_apart",
    "Gamma.C81_at_most",
    "Gamma.C81_nested_searches",
    "Gamma.C81_nested_searches_bipartite",
    "Gamma.C81_nested_searches_sharp"
   ],
   "note": ""
  },
  {
   "property": "C82",
   "status": "proved",
   "theorems": [
    "Gamma.C82_stays_matching",
    "Gamma.C82_add_node_stays_maximum",
    "Gamma.C82_add_edge_maximum",
    "Gamma.C82_again_after_add_edge",
    "Gamma.C82_again_cheap"
   ],
   "note": ""
  },
  {
   "property": "C83",
   "status": "proved",
   "theorems": [
    "Gamma.C83_paths_even",
    "Gamma.C83_returns_maximum_or_runs_forever",
    "Gamma.C83_apart_touch",
    "Gamma.C41_no_panic_odd_cycles_touch_partial",
    "Gamma.C42_diverges_where_odd_cycles_touch",
    "Gamma.C44_uncovers_where_odd_cycles_touch"
   ],
   "note": "The theorem named _partial is partial for C41 (all graphs) and complete for this property."
  },
  {
   "property": "C84",
   "status": "proved",
   "theorems": [
    "Gamma.C84_never_ends_iff_goes_in_circles",
    "Gamma.C84_circle_closes_early",
    "Gamma.C84_one_budget_settles",
    "Gamma.C84_rounds_of_a_call",
    "Gamma.C84_panics_iff_odd_path",
    "Gamma.C84_returns_iff_maximum",
    "Gamma.C84_one_of_three"
   ],
   "note": ""
  },
  {
   "property": "C85",
   "status": "proved",
   "theorems": [
    "Gamma.C85_same_outcome",
    "Gamma.C85_same_search",
    "Gamma.C85_looks_of_search",
    "Gamma.C85_looks_bipartite",
    "Gamma.C85_looks_of_call",
    "Gamma.C85_polynomial_odd_cycles_apart",
    "Gamma.C85_polynomial_bipartite",
    "Gamma.C85_looks_sharp"
   ],
   "note": ""
  },
  {
   "property": "C86",
   "status": "proved",
   "theorems": [
    "Gamma.C86_total_cliques",
    "Gamma.C86_no_panic_cliques",
    "Gamma.C86_covers_cliques",
    "Gamma.C86_searches_cliques",
    "Gamma.C86_total_complete",
    "Gamma.C86_complete_family",
    "Gamma.C86_three_parts_panic"
   ],
   "note": ""
  },
  {
   "property": "C87",
   "status": "proved",
   "theorems": [
    "Gamma.C87_total",
    "Gamma.C87_no_panic",
    "Gamma.C87_keeps",
    "Gamma.C87_searches",
    "Gamma.C87_polynomial",
    "Gamma.C87_covers"
   ],
   "note": ""
  },
  {
   "property": "C88",
   "status": "proved",
   "theorems": [
    "Gamma.C88_part_returns",
    "Gamma.C88_panics_in_a_part",
    "Gamma.C88_never_ends_in_a_part",
    "Gamma.C88_returns_iff",
    "Gamma.C88_panics_iff",
    "Gamma.C88_never_ends_iff",
    "Gamma.C88_made_with_calls",
    "Gamma.C88_mixed_no_panic",
    "Gamma.C88_mixed_ends"
   ],
   "note": ""
  },
  {
   "property": "C89",
   "status": "proved",
   "theorems": [
    "Gamma.C89_bfs_lazy",
    "Gamma.C89_dfs_lazy",
    "Gamma.C89_bfs_nearest_first",
    "Gamma.C89_bfs_finds",
    "Gamma.C89_bfs_goes_on",
    "Gamma.C89_dfs_may_never_find"
   ],
   "note": ""
  },
  {
   "property": "C90",
   "status": "proved",
   "theorems": [
    "Gamma.C90_total",
    "Gamma.C90_no_panic",
    "Gamma.C90_keeps",
    "Gamma.C90_searches",
    "Gamma.C90_polynomial",
    "Gamma.C90_qualify",
    "Gamma.C90_small_components",
    "Gamma.C90_five_nodes",
    "Gamma.C90_six_nodes_panic"
   ],
   "note": ""
  },
  {
   "property": "C91",
   "status": "proved",
   "theorems": [
    "Gamma.C91_total",
    "Gamma.C91_no_panic",
    "Gamma.C91_keeps",
    "Gamma.C91_searches",
    "Gamma.C91_qualify",
    "Gamma.C91_limit"
   ],
   "note": ""
  },
  {
   "property": "C92",
   "status": "proved",
   "theorems": [
    "Gamma.C92_one_odd_cycle",
    "Gamma.C92_total",
    "Gamma.C92_no_panic",
    "Gamma.C92_searches",
    "Gamma.C92_connected",
    "Gamma.C92_one_more_panics"
   ],
   "note": ""
  },
  {
   "property": "C93",
   "status": "proved",
   "theorems": [
    "Gamma.C93_perfect_test",
    "Gamma.C93_perfect_unchanged",
    "Gamma.C93_result_perfect_iff",
    "Gamma.C93_fallback_only_if_needed"
   ],
   "note": ""
  },
  {
   "property": "C94",
   "status": "proved",
   "theorems": [
    "Gamma.C94_same_outcome",
    "Gamma.C94_no_panic",
    "Gamma.C94_ends",
    "Gamma.C94_caught",
    "Gamma.C94_others_yielded",
    "Gamma.C94_acyclic",
    "Gamma.C94_example"
   ],
   "note": ""
  },
  {
   "property": "C95",
   "status": "proved",
   "theorems": [
    "Gamma.C95_same_outcome",
    "Gamma.C95_caught",
    "Gamma.C95_ends",
    "Gamma.C95_complete",
    "Gamma.C95_example"
   ],
   "note": ""
  },
  {
   "property": "C96",
   "status": "proved",
   "theorems": [
    "Gamma.C96_caught_ends",
    "Gamma.C96_caught",
    "Gamma.C96_uncaught",
    "Gamma.C96_ends",
    "Gamma.C96_example"
   ],
   "note": ""
  },
  {
   "property": "C97",
   "status": "proved",
   "theorems": [
    "Gamma.C97_returns_iff",
    "Gamma.C97_panics",
    "Gamma.C97_first_come",
    "Gamma.C97_pairs",
    "Gamma.C97_returns",
    "Gamma.C97_example"
   ],
   "note": ""
  },
  {
   "property": "C98",
   "status": "proved",
   "theorems": [
    "Gamma.C98_goes_on",
    "Gamma.C98_multipartite",
    "Gamma.C98_components",
    "Gamma.C98_classes",
    "Gamma.C98_edges_lost",
    "Gamma.C98_example"
   ],
   "note": ""
  },
  {
   "property": "C99",
   "status": "proved",
   "theorems": [
    "Gamma.C99_traversal",
    "Gamma.C99_one_pair",
    "Gamma.C99_complete",
    "Gamma.C99_then_maximum"
   ],
   "note": ""
  }
 ]
}