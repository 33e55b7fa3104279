{
 "claims": [
  {
   "property": "C01",
   "status": "proved",
   "theorems": [
    "Stag.C01_construct_adjacency_iff",
    "Stag.C01_construct_laplacian_iff",
    "Stag.C01_constructed_graph_sound"
   ],
   "note": ""
  },
  {
   "property": "C02",
   "status": "proved",
   "theorems": [
    "Stag.C02_laplacian_round_trip",
    "Stag.C02_zero_weight_edge_breaks_round_trip"
   ],
   "note": ""
  },
  {
   "property": "C03",
   "status": "proved",
   "theorems": [
    "Stag.C03_caches_never_stale"
   ],
   "note": ""
  },
  {
   "property": "C04",
   "status": "proved",
   "theorems": [
    "Stag.C04_history_refines",
    "Stag.C04_remove_missing_self_loop_asserts"
   ],
   "note": ""
  },
  {
   "property": "C05",
   "status": "proved",
   "theorems": [
    "Stag.C05_structure_invariant",
    "Stag.C05_self_loop_flag_complete",
    "Stag.C05_positive_history",
    "Stag.C05_zero_self_loop_sets_flag"
   ],
   "note": ""
  },
  {
   "property": "C06",
   "status": "proved",
   "theorems": [
    "Stag.C06_number_of_edges",
    "Stag.C06_zero_weight_edge_counted"
   ],
   "note": ""
  },
  {
   "property": "C07",
   "status": "proved",
   "theorems": [
    "Stag.C07_degree",
    "Stag.C07_degrees",
    "Stag.C07_total_volume",
    "Stag.C07_average_degree"
   ],
   "note": ""
  },
  {
   "property": "C08",
   "status": "proved",
   "theorems": [
    "Stag.C08_laplacian_quadratic_form",
    "Stag.C08_signless_quadratic_form",
    "Stag.C08_laplacian_entries",
    "Stag.C08_positive_semidefinite"
   ],
   "note": ""
  },
  {
   "property": "C09",
   "status": "proved",
   "theorems": [
    "Stag.Graph.C09_isolated",
    "Stag.Graph.C09_isolated_bounds",
    "Stag.Graph.C09_stored_zero_is_nan",
    "Stag.Graph.C09_degree_not_positive",
    "Stag.C09_entries",
    "Stag.C09_spectrum_bounds",
    "Stag.C09_sum"
   ],
   "note": ""
  },
  {
   "property": "C10",
   "status": "proved",
   "theorems": [
    "Stag.Graph.C10_column",
    "Stag.C10_lazy_walk_entries",
    "Stag.C10_column_sums",
    "Stag.C10_stationary"
   ],
   "note": ""
  },
  {
   "property": "C11",
   "status": "partial",
   "theorems": [
    "Stag.C11_inverse_degree_partial",
    "Stag.C11_isolated_vertex_is_infinite"
   ],
   "note": "Proved for vertices of positive degree; the documented value 0 for an isolated vertex is false of the code (C11_isolated_vertex_is_infinite)."
  },
  {
   "property": "C12",
   "status": "proved",
   "theorems": [
    "Stag.C12_equality_iff",
    "Stag.C12_equivalence",
    "Stag.C12_stored_zero_differs"
   ],
   "note": ""
  },
  {
   "property": "C13",
   "status": "proved",
   "theorems": [
    "Stag.C13_cycle_graph",
    "Stag.C13_cycle_graph_two",
    "Stag.C13_complete_graph",
    "Stag.C13_star_graph",
    "Stag.C13_barbell_graph",
    "Stag.C13_identity_graph",
    "Stag.C13_invalid_sizes"
   ],
   "note": ""
  },
  {
   "property": "C14",
   "status": "proved",
   "theorems": [
    "Stag.C14_add_mismatch",
    "Stag.C14_add",
    "Stag.C14_add_comm_assoc",
    "Stag.C14_scale",
    "Stag.C14_negative_scale"
   ],
   "note": ""
  },
  {
   "property": "C15",
   "status": "proved",
   "theorems": [
    "Stag.C15_subgraph",
    "Stag.C15_missing_vertex"
   ],
   "note": ""
  },
  {
   "property": "C16",
   "status": "partial",
   "theorems": [
    "Stag.C16_disjoint_union_partial",
    "Stag.C16_isolated_first_vertex",
    "Stag.C16_counterexamples"
   ],
   "note": "Proved when the first vertex of the second graph is not isolated; false otherwise (C16_isolated_first_vertex, C16_counterexamples): the code skips zero column starts."
  },
  {
   "property": "C17",
   "status": "proved",
   "theorems": [
    "Stag.C17_undefined",
    "Stag.C17_inconsistent_lengths",
    "Stag.C17_vectors_read_back",
    "Stag.C17_rebuild"
   ],
   "note": ""
  },
  {
   "property": "C18",
   "status": "proved",
   "theorems": [
    "Stag.C18_isSymmetric_iff"
   ],
   "note": ""
  },
  {
   "property": "C19",
   "status": "proved",
   "theorems": [
    "Stag.C19_neighbors",
    "Stag.C19_unweighted",
    "Stag.C19_missing_vertex"
   ],
   "note": ""
  },
  {
   "property": "C20",
   "status": "proved",
   "theorems": [
    "Stag.C20_content_lines",
    "Stag.C20_convention_independent",
    "Stag.C20_lines",
    "Stag.C20_every_file"
   ],
   "note": ""
  },
  {
   "property": "C21",
   "status": "proved",
   "theorems": [
    "Stag.C21_two_fields",
    "Stag.C21_three_fields",
    "Stag.C21_too_few_fields",
    "Stag.C21_bad_id",
    "Stag.C21_negative_id",
    "Stag.C21_unreadable_weight_ignored",
    "Stag.C21_ids",
    "Stag.C21_signed_ids"
   ],
   "note": ""
  },
  {
   "property": "C22",
   "status": "proved",
   "theorems": [
    "Stag.C22_comments_ignored",
    "Stag.C22_load",
    "Stag.C22_order_independent",
    "Stag.C22_malformed",
    "Stag.C22_out_of_range_escapes"
   ],
   "note": ""
  },
  {
   "property": "C23",
   "status": "proved",
   "theorems": [
    "Stag.C23_save_load",
    "Stag.C23_round_trip"
   ],
   "note": ""
  },
  {
   "property": "C24",
   "status": "proved",
   "theorems": [
    "Stag.C24_line_format",
    "Stag.C24_load",
    "Stag.C24_line_errors",
    "Stag.C24_malformed",
    "Stag.C24_negative_id_undefined",
    "Stag.C24_save_load",
    "Stag.C24_round_trip"
   ],
   "note": ""
  },
  {
   "property": "C25",
   "status": "proved",
   "theorems": [
    "Stag.C25_sorts",
    "Stag.C25_malformed",
    "Stag.C25_debug_assertion_fails"
   ],
   "note": ""
  },
  {
   "property": "C26",
   "status": "proved",
   "theorems": [
    "Stag.C26_converts"
   ],
   "note": ""
  },
  {
   "property": "C27",
   "status": "proved",
   "theorems": [
    "Stag.C27_converts",
    "Stag.C27_same_graph",
    "Stag.C27_self_loop_doubles"
   ],
   "note": ""
  },
  {
   "property": "C28",
   "status": "partial",
   "theorems": [
    "Stag.C28_neighbors",
    "Stag.C28_neighbors_missing_partial",
    "Stag.C28_vertex_exists_partial",
    "Stag.C28_degree",
    "Stag.C28_saved_graph",
    "Stag.C28_minus_one"
   ],
   "note": "Proved for every vertex id except -1, the code's end-of-file mark, for which vertex_exists wrongly answers true (C28_minus_one)."
  },
  {
   "property": "C29",
   "status": "partial",
   "theorems": [
    "Stag.C29_returns_partial",
    "Stag.C29_hangs",
    "Stag.C29_saved_empty_graph_hangs"
   ],
   "note": "Proved when the last line of the file is a vertex line (C29_returns_partial); false otherwise: with a trailing blank or comment line, and on the saved empty graph, vertex_exists never returns (C29_hangs, C29_saved_empty_graph_hangs)."
  },
  {
   "property": "C30",
   "status": "proved",
   "theorems": [
    "Stag.C30_component",
    "Stag.C30_missing_vertex",
    "Stag.C30_components",
    "Stag.C30_on_disk",
    "Stag.C30_zero_weight_edge_connects"
   ],
   "note": ""
  },
  {
   "property": "C31",
   "status": "proved",
   "theorems": [
    "Stag.C31_is_connected",
    "Stag.C31_empty_graph"
   ],
   "note": ""
  },
  {
   "property": "C32",
   "status": "proved",
   "theorems": [
    "Stag.C32_symmetric_difference",
    "Stag.C32_arguments",
    "Stag.C32_sets"
   ],
   "note": ""
  },
  {
   "property": "C33",
   "status": "proved",
   "theorems": [
    "Stag.C33_value",
    "Stag.C33_conductance",
    "Stag.C33_order",
    "Stag.C33_between_zero_and_one",
    "Stag.C33_missing_vertex",
    "Stag.C33_self_loop_counted_once",
    "Stag.C33_repeated_vertex_counted_twice"
   ],
   "note": ""
  },
  {
   "property": "C34",
   "status": "proved",
   "theorems": [
    "Stag.C34_order",
    "Stag.C34_local",
    "Stag.C34_graph"
   ],
   "note": ""
  },
  {
   "property": "C35",
   "status": "proved",
   "theorems": [
    "Stag.C35_self_loop_loses_mass",
    "Stag.C35_pagerank_unique",
    "Stag.C35_invariants",
    "Stag.C35_progress",
    "Stag.C35_any_graph",
    "Stag.C35_any_graph_result",
    "Stag.C35_result",
    "Stag.C35_error_bound",
    "Stag.C35_pagerank_exists",
    "Stag.C35_bad_arguments"
   ],
   "note": ""
  },
  {
   "property": "C36",
   "status": "proved",
   "theorems": [
    "Stag.C36_work",
    "Stag.C36_local",
    "Stag.C36_terminates",
    "Stag.C36_alpha_zero_never_returns"
   ],
   "note": ""
  },
  {
   "property": "C37",
   "status": "proved",
   "theorems": [
    "Stag.C37_on_disk",
    "Stag.C37_local_cluster_acl",
    "Stag.C37_terminates",
    "Stag.C37_local_cluster",
    "Stag.C37_empty_iff",
    "Stag.C37_bad_arguments"
   ],
   "note": ""
  },
  {
   "property": "C38",
   "status": "proved",
   "theorems": [
    "Stag.C38_errors",
    "Stag.C38_value",
    "Stag.C38_undefined",
    "Stag.C38_range",
    "Stag.C38_symmetric",
    "Stag.C38_rename",
    "Stag.C38_permute",
    "Stag.C38_self",
    "Stag.C38_no_overflow",
    "Stag.C38_overflow_at_77937"
   ],
   "note": ""
  },
  {
   "property": "C39",
   "status": "proved",
   "theorems": [
    "Stag.C39_entropy",
    "Stag.C39_errors",
    "Stag.C39_value",
    "Stag.C39_symmetric",
    "Stag.C39_bounds",
    "Stag.C39_rename",
    "Stag.C39_permute",
    "Stag.C39_normalised_nan",
    "Stag.C39_normalised",
    "Stag.C39_normalised_symmetric",
    "Stag.C39_normalised_self"
   ],
   "note": ""
  },
  {
   "property": "C40",
   "status": "proved",
   "theorems": [
    "Stag.C40_general_sbm",
    "Stag.C40_general_sbm_returns",
    "Stag.C40_complete",
    "Stag.C40_errors",
    "Stag.C40_sbm",
    "Stag.C40_sbm_errors",
    "Stag.C40_erdos_renyi",
    "Stag.C40_erdos_renyi_errors",
    "Stag.C40_general_sbm_returns_fair",
    "Stag.C40_sbm_loses_vertices",
    "Stag.C40_edge_count"
   ],
   "note": ""
  },
  {
   "property": "C41",
   "status": "proved",
   "theorems": [
    "Stag.C41_labels",
    "Stag.C41_labels_errors",
    "Stag.C41_sbm_labels",
    "Stag.C41_sbm_labels_errors"
   ],
   "note": ""
  },
  {
   "property": "C42",
   "status": "proved",
   "theorems": [
    "Stag.C42_same_graph"
   ],
   "note": ""
  },
  {
   "property": "C43",
   "status": "proved",
   "theorems": [
    "Stag.C43_function_formula",
    "Stag.C43_collision_is_close",
    "Stag.C43_near_neighbors",
    "Stag.C43_contains_agreeing",
    "Stag.C43_contains_self",
    "Stag.C43_returns_stored",
    "Stag.C43_no_tables",
    "Stag.C43_combined_value_collides",
    "Stag.C43_key",
    "Stag.C43_false_collisions"
   ],
   "note": ""
  },
  {
   "property": "C44",
   "status": "proved",
   "theorems": [
    "Stag.C44_function_range",
    "Stag.C44_function_symmetric",
    "Stag.C44_range",
    "Stag.C44_mono_L",
    "Stag.C44_anti_K",
    "Stag.C44_zero_distance",
    "Stag.C44_accuracy_far",
    "Stag.C44_accuracy",
    "Stag.C44_not_monotone",
    "Stag.C44_anti_distance"
   ],
   "note": ""
  },
  {
   "property": "C45",
   "status": "proved",
   "theorems": [
    "Stag.C45_squared_distance",
    "Stag.C45_at_most",
    "Stag.C45_no_coordinates",
    "Stag.C45_shell_test"
   ],
   "note": ""
  },
  {
   "property": "C46",
   "status": "proved",
   "theorems": [
    "Stag.C46_kernel",
    "Stag.C46_query",
    "Stag.C46_query_range",
    "Stag.C46_range_defined",
    "Stag.C46_query_in_unit_interval",
    "Stag.C46_query_order",
    "Stag.C46_query_empty"
   ],
   "note": ""
  },
  {
   "property": "C47",
   "status": "proved",
   "theorems": [
    "Stag.C47_exact",
    "Stag.C47_exact_no_threads",
    "Stag.C47_chunk",
    "Stag.C47_ckns",
    "Stag.C47_ckns_no_threads",
    "Stag.C47_no_copies"
   ],
   "note": ""
  },
  {
   "property": "C48",
   "status": "proved",
   "theorems": [
    "Stag.C48_partition",
    "Stag.C48_distance_zero",
    "Stag.C48_shells_sum",
    "Stag.C48_unit",
    "Stag.C48_unit_lsh",
    "Stag.C48_unit_average",
    "Stag.C48_unbiased",
    "Stag.C48_outer_ring_empty",
    "Stag.C48_positive_offset"
   ],
   "note": ""
  },
  {
   "property": "C49",
   "status": "proved",
   "theorems": [
    "Stag.C49_grid",
    "Stag.C49_answer",
    "Stag.C49_schedule",
    "Stag.C49_returns",
    "Stag.C49_no_threads",
    "Stag.C49_iterations",
    "Stag.C49_single_point",
    "Stag.C49_median"
   ],
   "note": ""
  },
  {
   "property": "C50",
   "status": "proved",
   "theorems": [
    "Stag.C50_samples",
    "Stag.C50_count_and_range",
    "Stag.C50_missing",
    "Stag.C50_distribution"
   ],
   "note": ""
  },
  {
   "property": "C51",
   "status": "proved",
   "theorems": [
    "Stag.C51_similarity_graph",
    "Stag.C51_weights",
    "Stag.C51_no_threads"
   ],
   "note": ""
  },
  {
   "property": "C52",
   "status": "proved",
   "theorems": [
    "Stag.C52_slots",
    "Stag.C52_disjoint",
    "Stag.C52_vector",
    "Stag.C52_leaf_weight",
    "Stag.C52_samples",
    "Stag.C52_samples_defined",
    "Stag.C52_cutoff_one",
    "Stag.C52_last_row_never_sampled",
    "Stag.C52_graph",
    "Stag.C52_degrees",
    "Stag.C52_fewer_than_two"
   ],
   "note": ""
  },
  {
   "property": "C53",
   "status": "proved",
   "theorems": [
    "Stag.C53_contract_satisfiable",
    "Stag.C53_variational",
    "Stag.C53_always_answers",
    "Stag.C53_arguments",
    "Stag.C53_residual",
    "Stag.C53_eigensystem",
    "Stag.C53_ranges",
    "Stag.C53_smallest_is_zero"
   ],
   "note": ""
  },
  {
   "property": "C54",
   "status": "proved",
   "theorems": [
    "Stag.C54_arguments",
    "Stag.C54_power_method",
    "Stag.C54_fixes_eigenvectors",
    "Stag.C54_rayleigh",
    "Stag.C54_convergence",
    "Stag.C54_converges",
    "Stag.C54_default",
    "Stag.C54_random_start",
    "Stag.C54_rayleigh_increases",
    "Stag.C54_graph_ranges"
   ],
   "note": ""
  },
  {
   "property": "C55",
   "status": "proved",
   "theorems": [
    "Stag.KMeans.C55_result",
    "Stag.KMeans.C55_monotone",
    "Stag.KMeans.C55_terminates",
    "Stag.KMeans.C55_local_optimum",
    "Stag.KMeans.C55_weighted_choice",
    "Stag.KMeans.C55_seeding",
    "Stag.KMeans.C55_exact",
    "Stag.MT.C55_generator",
    "Stag.MT.C55_seed42"
   ],
   "note": ""
  },
  {
   "property": "C56",
   "status": "proved",
   "theorems": [
    "Stag.Pool.C56_at_most_once",
    "Stag.Pool.C56_get_waits",
    "Stag.Pool.C56_stop_waits",
    "Stag.Pool.C56_future_value",
    "Stag.Pool.C56_no_deadlock",
    "Stag.Pool.C56_terminates",
    "Stag.Pool.C56_completes",
    "Stag.Pool.C56_atomic_tasks",
    "Stag.Pool.C56_commuting",
    "Stag.Pool.C56_no_workers",
    "Stag.Pool.C56_stop_false_may_drop",
    "Stag.Pool.C56_library_usage"
   ],
   "note": ""
  },
  {
   "property": "C57",
   "status": "proved",
   "theorems": [
    "Stag.C57_line",
    "Stag.C57_line_last",
    "Stag.C57_load",
    "Stag.C57_load_empty",
    "Stag.C57_ragged",
    "Stag.C57_round_trip",
    "Stag.C57_bad_field_escapes"
   ],
   "note": ""
  },
  {
   "property": "C58",
   "status": "proved",
   "theorems": [
    "Stag.C58_row",
    "Stag.C58_view",
    "Stag.C58_matrix_to_datapoints",
    "Stag.C58_vector",
    "Stag.C58_empty_vector",
    "Stag.C58_out_of_range"
   ],
   "note": ""
  },
  {
   "property": "C59",
   "status": "proved",
   "theorems": [
    "Stag.C59_arguments",
    "Stag.C59_labels",
    "Stag.C59_embedding",
    "Stag.C59_components",
    "Stag.C59_components_counterexample"
   ],
   "note": ""
  },
  {
   "property": "C60",
   "status": "proved",
   "theorems": [
    "Stag.C60_overlap",
    "Stag.C60_same_draw"
   ],
   "note": ""
  },
  {
   "property": "C61",
   "status": "proved",
   "theorems": [
    "Stag.C61_upper_bound",
    "Stag.C61_lower_bound",
    "Stag.C61_connected",
    "Stag.C61_labels",
    "Stag.C61_cheeger",
    "Stag.C61_disconnected_counterexample"
   ],
   "note": ""
  },
  {
   "property": "C62",
   "status": "proved",
   "theorems": [
    "Stag.C62_zero_multiplicity"
   ],
   "note": ""
  },
  {
   "property": "C63",
   "status": "proved",
   "theorems": [
    "Stag.C63_save",
    "Stag.C63_sort_done",
    "Stag.C63_sort_crash",
    "Stag.C63_sort_window",
    "Stag.C63_sort_malformed",
    "Stag.C63_save_truncated"
   ],
   "note": ""
  },
  {
   "property": "C64",
   "status": "proved",
   "theorems": [
    "Stag.C64_adjacencylist_done",
    "Stag.C64_adjacencylist_malformed",
    "Stag.C64_adjacencylist_missing",
    "Stag.C64_adjacencylist_inPlace",
    "Stag.C64_edgelist_missing",
    "Stag.C64_edgelist_malformed",
    "Stag.C64_copy",
    "Stag.C64_copy_in_place",
    "Stag.C64_edgelist_done",
    "Stag.C64_edgelist_crash"
   ],
   "note": ""
  },
  {
   "property": "C65",
   "status": "proved",
   "theorems": [
    "Stag.C65_disjoint",
    "Stag.C65_sorts",
    "Stag.C65_collision",
    "Stag.C65_same_name"
   ],
   "note": ""
  },
  {
   "property": "C66",
   "status": "proved",
   "theorems": [
    "Stag.C66_edges",
    "Stag.C66_sbm_distribution",
    "Stag.C66_sbm",
    "Stag.C66_erdos_renyi"
   ],
   "note": ""
  },
  {
   "property": "C67",
   "status": "proved",
   "theorems": [
    "Stag.C67_one_copy",
    "Stag.C67_overestimate",
    "Stag.C67_answer",
    "Stag.C67_relative_error",
    "Stag.C67_identical",
    "Stag.C67_identical_default",
    "Stag.C67_outer_ring",
    "Stag.C67_collision",
    "Stag.C67_functions",
    "Stag.C67_range"
   ],
   "note": ""
  },
  {
   "property": "C68",
   "status": "proved",
   "theorems": [
    "Stag.C68_function",
    "Stag.C68_table",
    "Stag.C68_independent",
    "Stag.C68_recall",
    "Stag.C68_documented"
   ],
   "note": ""
  },
  {
   "property": "C69",
   "status": "proved",
   "theorems": [
    "Stag.C69_possible",
    "Stag.C69_draws",
    "Stag.C69_accuracy",
    "Stag.C69_expected_weight",
    "Stag.C69_expected_weight_leaf",
    "Stag.C69_expected_weight_accurate"
   ],
   "note": ""
  },
  {
   "property": "C70",
   "status": "proved",
   "theorems": [
    "Stag.C70_terminates",
    "Stag.C70_sbm_terminates",
    "Stag.C70_law",
    "Stag.C70_expected_weight_direct",
    "Stag.C70_expected_weight_empty",
    "Stag.C70_expected_weight_approx",
    "Stag.C70_expected_weight_near",
    "Stag.C70_example_args",
    "Stag.C70_example"
   ],
   "note": ""
  },
  {
   "property": "C71",
   "status": "proved",
   "theorems": [
    "Stag.WCache.C71_transparent",
    "Stag.WCache.C71_mutual_exclusion",
    "Stag.WCache.C71_no_deadlock",
    "Stag.WCache.C71_terminates",
    "Stag.WCache.C71_completes",
    "Stag.WCache.C71_estimate_weights",
    "Stag.WCache.C71_library",
    "Stag.WCache.C71_stale"
   ],
   "note": ""
  },
  {
   "property": "C72",
   "status": "proved",
   "theorems": [
    "Stag.KMeans.C72_seeding_law",
    "Stag.KMeans.C72_guarantee",
    "Stag.KMeans.C72_markov",
    "Stag.KMeans.C72_perfect",
    "Stag.KMeans.C72_half",
    "Stag.KMeans.C72_random_hangs",
    "Stag.KMeans.C72_random_no_data",
    "Stag.KMeans.C72_random_law"
   ],
   "note": ""
  },
  {
   "property": "C73",
   "status": "proved",
   "theorems": [
    "Stag.C73_mixing",
    "Stag.C73_good_seeds",
    "Stag.C73_guarantee",
    "Stag.C73_conductance",
    "Stag.C73_local_cluster",
    "Stag.C73_default_error"
   ],
   "note": ""
  },
  {
   "property": "C74",
   "status": "proved",
   "theorems": [
    "Stag.C74_usage",
    "Stag.C74_missing",
    "Stag.C74_edge2adj",
    "Stag.C74_adj2edge",
    "Stag.C74_adj2edge_in_place",
    "Stag.C74_round_trip",
    "Stag.C74_sbm",
    "Stag.C74_sbm_documented",
    "Stag.C74_sbm_bad"
   ],
   "note": ""
  },
  {
   "property": "C75",
   "status": "proved",
   "theorems": [
    "Stag.C75_add_vectors",
    "Stag.C75_add_comm",
    "Stag.C75_edge_equality",
    "Stag.C75_to_vector",
    "Stag.C75_to_vector_defined",
    "Stag.C75_graph_inequality"
   ],
   "note": ""
  },
  {
   "property": "C76",
   "status": "proved",
   "theorems": [
    "Stag.C76_exact",
    "Stag.C76_progress",
    "Stag.C76_invariants",
    "Stag.C76_rounding_error",
    "Stag.C76_residual",
    "Stag.C76_accuracy",
    "Stag.C76_work",
    "Stag.C76_terminates",
    "Stag.C76_summary",
    "Stag.C76_degree_sum",
    "Stag.C76_binary",
    "Stag.C76_tiny_alpha_never_returns",
    "Stag.C76_double_never_returns"
   ],
   "note": ""
  },
  {
   "property": "C77",
   "status": "proved",
   "theorems": [
    "Stag.C77_exact",
    "Stag.C77_conductance_value",
    "Stag.C77_conductance",
    "Stag.C77_sweep",
    "Stag.C77_unit_local",
    "Stag.C77_degree",
    "Stag.C77_unit_graph",
    "Stag.C77_binary_units",
    "Stag.C77_local_cluster",
    "Stag.C77_whole_set"
   ],
   "note": ""
  },
  {
   "property": "C78",
   "status": "proved",
   "theorems": [
    "Stag.C78_printed",
    "Stag.C78_characters",
    "Stag.C78_read_back",
    "Stag.C78_survives_iff",
    "Stag.C78_integers",
    "Stag.C78_edgelist",
    "Stag.C78_edge_lost",
    "Stag.C78_edgelist_again",
    "Stag.C78_adjacencylist",
    "Stag.C78_matrix",
    "Stag.C78_changes",
    "Stag.C78_smallest"
   ],
   "note": ""
  },
  {
   "property": "C79",
   "status": "proved",
   "theorems": [
    "Stag.C79_exact",
    "Stag.C79_round_trip",
    "Stag.C79_error",
    "Stag.C79_recovered",
    "Stag.C79_unit",
    "Stag.C79_rejected",
    "Stag.C79_spurious_loop"
   ],
   "note": ""
  },
  {
   "property": "C80",
   "status": "proved",
   "theorems": [
    "Stag.C80_snapshot",
    "Stag.C80_stable",
    "Stag.C80_degree_refreshed",
    "Stag.C80_succeeds"
   ],
   "note": ""
  },
  {
   "property": "C81",
   "status": "proved",
   "theorems": [
    "Stag.C81_errors",
    "Stag.C81_overflow",
    "Stag.C81_safe",
    "Stag.C81_symmetric",
    "Stag.C81_exact",
    "Stag.C81_error",
    "Stag.C81_self",
    "Stag.C81_undefined",
    "Stag.C81_single_small",
    "Stag.C81_single_large",
    "Stag.C81_overflow_at_77937"
   ],
   "note": ""
  },
  {
   "property": "C82",
   "status": "proved",
   "theorems": [
    "Stag.C82_distance",
    "Stag.C82_distance_zero",
    "Stag.C82_distance_symmetric",
    "Stag.C82_at_most",
    "Stag.C82_kernel",
    "Stag.C82_kernel_relative",
    "Stag.C82_kernel_self",
    "Stag.C82_kernel_symmetric",
    "Stag.C82_kde",
    "Stag.C82_kde_range",
    "Stag.C82_kde_copies",
    "Stag.C82_kde_double",
    "Stag.C82_partition",
    "Stag.C82_shell_of_point",
    "Stag.C82_shell_exact",
    "Stag.C82_unit",
    "Stag.C82_unit_error",
    "Stag.C82_exact_distance",
    "Stag.C82_exact_kde"
   ],
   "note": ""
  },
  {
   "property": "C83",
   "status": "proved",
   "theorems": [
    "Stag.C83_defined",
    "Stag.C83_near_neighbors",
    "Stag.C83_contains_self",
    "Stag.C83_safe",
    "Stag.C83_overflow",
    "Stag.C83_function",
    "Stag.C83_combined"
   ],
   "note": ""
  },
  {
   "property": "C84",
   "status": "proved",
   "theorems": [
    "Stag.C84_embedding",
    "Stag.C84_agreement",
    "Stag.C84_matching",
    "Stag.C84_exact",
    "Stag.C84_regular",
    "Stag.C84_gap",
    "Stag.KMeans.C84_probability",
    "Stag.C84_square"
   ],
   "note": ""
  },
  {
   "property": "C85",
   "status": "proved",
   "theorems": [
    "Stag.C85_embedding",
    "Stag.C85_agreement",
    "Stag.C85_matching",
    "Stag.C85_equitable",
    "Stag.C85_points",
    "Stag.C85_gap",
    "Stag.KMeans.C85_probability",
    "Stag.KMeans.C85_almost_surely",
    "Stag.C85_square"
   ],
   "note": ""
  },
  {
   "property": "C86",
   "status": "proved",
   "theorems": [
    "Stag.C86_typical",
    "Stag.C86_agreement",
    "Stag.KMeans.C86_kmeans",
    "Stag.C86_recovery",
    "Stag.C86_consistent"
   ],
   "note": ""
  },
  {
   "property": "C87",
   "status": "proved",
   "theorems": [
    "Stag.C87_cuts",
    "Stag.C87_degrees",
    "Stag.C87_edges",
    "Stag.C87_connected",
    "Stag.C87_erdos_renyi_connected"
   ],
   "note": ""
  },
  {
   "property": "C88",
   "status": "proved",
   "theorems": [
    "Stag.C88_division",
    "Stag.C88_division_large",
    "Stag.C88_chunks",
    "Stag.C88_chunks_exact",
    "Stag.C88_sbm_sizes",
    "Stag.C88_genrand",
    "Stag.C88_randint",
    "Stag.C88_grown_rows",
    "Stag.C88_samples",
    "Stag.C88_samples_outer",
    "Stag.C88_outer_empty",
    "Stag.C88_outer_power",
    "Stag.C88_unit",
    "Stag.C88_far_points_ignored",
    "Stag.C88_default_min_log"
   ],
   "note": ""
  },
  {
   "property": "C89",
   "status": "proved",
   "theorems": [
    "Stag.C89_iterations",
    "Stag.C89_default",
    "Stag.C89_largest_eigenvalue",
    "Stag.C89_laplacian",
    "Stag.C89_indefinite"
   ],
   "note": ""
  },
  {
   "property": "C90",
   "status": "proved",
   "theorems": [
    "Stag.C90_laplacians",
    "Stag.C90_random_walk",
    "Stag.C90_normalised",
    "Stag.C90_not_symmetric",
    "Stag.C90_exact",
    "Stag.C90_add",
    "Stag.C90_add_comm",
    "Stag.C90_scale",
    "Stag.C90_negative_scale",
    "Stag.C90_add_not_assoc",
    "Stag.C90_history",
    "Stag.C90_history_error",
    "Stag.C90_order_matters"
   ],
   "note": ""
  },
  {
   "property": "C91",
   "status": "proved",
   "theorems": [
    "Stag.C91_compare",
    "Stag.C91_adjacency",
    "Stag.C91_laplacian",
    "Stag.C91_constructed",
    "Stag.C91_edges",
    "Stag.C91_edges_special",
    "Stag.C91_laplacian_round_trip",
    "Stag.C91_conservative",
    "Stag.C91_example",
    "Stag.C91_history",
    "Stag.C91_nan_stays",
    "Stag.C91_equality",
    "Stag.C91_sum",
    "Stag.C91_scale"
   ],
   "note": ""
  },
  {
   "property": "C92",
   "status": "proved",
   "theorems": [
    "Stag.C92_graph",
    "Stag.C92_embedding",
    "Stag.C92_matching",
    "Stag.C92_probability",
    "Stag.C92_components",
    "Stag.C92_four_points"
   ],
   "note": ""
  },
  {
   "property": "C93",
   "status": "proved",
   "theorems": [
    "Stag.C93_pagerank",
    "Stag.C93_sweep",
    "Stag.C93_conductance",
    "Stag.C93_local_cluster_acl",
    "Stag.C93_graphs",
    "Stag.C93_far_history"
   ],
   "note": ""
  },
  {
   "property": "C94",
   "status": "proved",
   "theorems": [
    "Stag.C94_schedule",
    "Stag.C94_graph",
    "Stag.C94_accuracy",
    "Stag.C94_double",
    "Stag.C94_grouped",
    "Stag.C94_matching",
    "Stag.C94_components",
    "Stag.C94_four_doubles",
    "Stag.C94_exact"
   ],
   "note": ""
  },
  {
   "property": "C95",
   "status": "proved",
   "theorems": [
    "Stag.KMeans.C95_result",
    "Stag.KMeans.C95_monotone",
    "Stag.KMeans.C95_stops",
    "Stag.KMeans.C95_seeding",
    "Stag.KMeans.C95_exact",
    "Stag.KMeans.C95_double",
    "Stag.KMeans.C95_mean_inexact"
   ],
   "note": ""
  },
  {
   "property": "C96",
   "status": "proved",
   "theorems": [
    "Stag.C96_any_vector",
    "Stag.C96_residual",
    "Stag.C96_nearly_optimal",
    "Stag.C96_embedding",
    "Stag.C96_agreement",
    "Stag.C96_matching",
    "Stag.C96_exact",
    "Stag.C96_exact_solver",
    "Stag.KMeans.C96_probability",
    "Stag.C96_near_exact",
    "Stag.C96_off",
    "Stag.C96_square"
   ],
   "note": ""
  },
  {
   "property": "C97",
   "status": "proved",
   "theorems": [
    "Stag.C97_cuts",
    "Stag.C97_similarity",
    "Stag.C97_runs",
    "Stag.C97_conductance"
   ],
   "note": ""
  },
  {
   "property": "C98",
   "status": "proved",
   "theorems": [
    "Stag.C98_components",
    "Stag.C98_clusters"
   ],
   "note": ""
  },
  {
   "property": "C99",
   "status": "proved",
   "theorems": [
    "Stag.KMeans.C99_coupling",
    "Stag.KMeans.C99_markov",
    "Stag.KMeans.C99_perfect",
    "Stag.KMeans.C99_half"
   ],
   "note": ""
  },
  {
   "property": "C100",
   "status": "proved",
   "theorems": [
    "Stag.C100_draws",
    "Stag.C100_samples",
    "Stag.C100_graph",
    "Stag.C100_totals",
    "Stag.C100_degrees",
    "Stag.C100_underflow",
    "Stag.C100_double",
    "Stag.C100_exact"
   ],
   "note": ""
  },
  {
   "property": "C101",
   "status": "proved",
   "theorems": [
    "Stag.C101_samples",
    "Stag.C101_components",
    "Stag.C101_double"
   ],
   "note": ""
  },
  {
   "property": "C102",
   "status": "proved",
   "theorems": [
    "Stag.C102_matrix",
    "Stag.C102_residual",
    "Stag.C102_eigenvalues",
    "Stag.C102_double",
    "Stag.C102_system",
    "Stag.C102_exact_solver",
    "Stag.KMeans.C102_probability",
    "Stag.KMeans.C102_recovery",
    "Stag.KMeans.C102_components",
    "Stag.KMeans.C102_edges"
   ],
   "note": ""
  },
  {
   "property": "C103",
   "status": "proved",
   "theorems": [
    "Stag.C103_any_vector",
    "Stag.C103_residual",
    "Stag.KMeans.C103_guarantee",
    "Stag.KMeans.C103_square"
   ],
   "note": ""
  },
  {
   "property": "C104",
   "status": "proved",
   "theorems": [
    "Stag.C104_arguments",
    "Stag.C104_power",
    "Stag.C104_convergence",
    "Stag.C104_rayleigh",
    "Stag.C104_iterations",
    "Stag.C104_default",
    "Stag.C104_laplacian",
    "Stag.C104_complete"
   ],
   "note": ""
  },
  {
   "property": "C105",
   "status": "proved",
   "theorems": [
    "Stag.C105_information",
    "Stag.C105_errors",
    "Stag.C105_overflow",
    "Stag.C105_normalised",
    "Stag.C105_range",
    "Stag.C105_self",
    "Stag.C105_symmetric",
    "Stag.C105_single",
    "Stag.C105_satisfiable"
   ],
   "note": ""
  },
  {
   "property": "C106",
   "status": "proved",
   "theorems": [
    "Stag.C106_cuts",
    "Stag.C106_conductance",
    "Stag.C106_double"
   ],
   "note": ""
  },
  {
   "property": "C107",
   "status": "proved",
   "theorems": [
    "Stag.C107_eigenvalues",
    "Stag.KMeans.C107_probability",
    "Stag.KMeans.C107_end_to_end",
    "Stag.KMeans.C107_matching",
    "Stag.KMeans.C107_equitable",
    "Stag.KMeans.C107_rounded",
    "Stag.KMeans.C107_typical",
    "Stag.KMeans.C107_sbm",
    "Stag.KMeans.C107_million",
    "Stag.KMeans.C107_nonvacuous",
    "Stag.KMeans.C107_answers",
    "Stag.KMeans.C107_square"
   ],
   "note": ""
  },
  {
   "property": "C108",
   "status": "proved",
   "theorems": [
    "Stag.KMeans.C108_two_level",
    "Stag.KMeans.C108_points",
    "Stag.KMeans.C108_four_doubles"
   ],
   "note": ""
  },
  {
   "property": "C109",
   "status": "proved",
   "theorems": [
    "Stag.C109_guarantee",
    "Stag.C109_conductance",
    "Stag.C109_local_cluster",
    "Stag.C109_graph",
    "Stag.C109_nonvacuous"
   ],
   "note": ""
  },
  {
   "property": "C110",
   "status": "proved",
   "theorems": [
    "Stag.C110_coin",
    "Stag.C110_general_sbm",
    "Stag.C110_edgelist",
    "Stag.C110_sbm",
    "Stag.C110_erdos_renyi",
    "Stag.C110_distribution",
    "Stag.C110_recovery",
    "Stag.C110_coin_inexact"
   ],
   "note": ""
  },
  {
   "property": "C111",
   "status": "proved",
   "theorems": [
    "Stag.C111_samples",
    "Stag.C111_components",
    "Stag.C111_cuts",
    "Stag.C111_conductance"
   ],
   "note": ""
  },
  {
   "property": "C112",
   "status": "proved",
   "theorems": [
    "Stag.KMeans.C112_sbm",
    "Stag.KMeans.C112_million"
   ],
   "note": ""
  },
  {
   "property": "C113",
   "status": "proved",
   "theorems": [
    "Stag.C113_degree",
    "Stag.C113_answers",
    "Stag.C113_local_cluster",
    "Stag.C113_nonvacuous"
   ],
   "note": ""
  },
  {
   "property": "C114",
   "status": "proved",
   "theorems": [
    "Stag.C114_disk_local_cluster",
    "Stag.C114_disk_graph",
    "Stag.C114_disk_nonvacuous",
    "Stag.C114_degree",
    "Stag.C114_disk_degree",
    "Stag.C114_conductance",
    "Stag.C114_sweep",
    "Stag.C114_approximate_pagerank",
    "Stag.C114_local_cluster_acl",
    "Stag.C114_local_cluster",
    "Stag.C114_nonvacuous",
    "Stag.C114_differs"
   ],
   "note": ""
  },
  {
   "property": "C115",
   "status": "proved",
   "theorems": [
    "Stag.C115_laplacians",
    "Stag.C115_random_walk",
    "Stag.C115_normalised",
    "Stag.C115_accuracy",
    "Stag.C115_add",
    "Stag.C115_scale",
    "Stag.C115_history",
    "Stag.C115_nonvacuous"
   ],
   "note": ""
  }
 ]
}