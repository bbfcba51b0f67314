c("C01", "proved", ["Verif.UF.C01_find_eq_iff_together"], "All histories of find/merge on a fresh structure.")
c("C02", "proved", ["Verif.UF.C02_find_pure", "Verif.UF.C02_merge_representative"], "")
c("C03", "proved", ["Verif.UF.C03_find_log_steps"], "Fuel of the find loop is bounded by log2 of the class size plus one.")
c("C04", "proved", ["Verif.Sorting.C04_median_of_three", "Verif.Sorting.C04_median_short"])
c("C05", "proved", ["Verif.Sorting.C05_partition", "Verif.Sorting.C05_partition_float", "Verif.Sorting.C05_float_counterexample"], "Exact equality as claimed; for floating data the library's epsilon equality leaves a slack of at most epsilon, which the counterexample shows is real.")
c("C06", "proved", ["Verif.Sorting.C06_quickselect", "Verif.Sorting.C06_quickselect_order_statistic", "Verif.Sorting.C06_quickselect_float"])
c("C07", "proved", ["Verif.Sorting.C07_quicksort", "Verif.Sorting.C07_quicksort_float"])
c("C08", "proved", ["Verif.KDTree.C08_exactly_once", "Verif.KDTree.C08_exactly_once_float"])
c("C09", "proved", ["Verif.KDTree.C09_split_order", "Verif.KDTree.C09_split_order_float"], "Exact on integral data. On floating data the epsilon equality of the library weakens the order to a slack of 2*epsilon (C05_float_counterexample shows the slack is real).")
c("C10", "proved", ["Verif.KDTree.C10_node_bounds", "Verif.KDTree.C10_node_bounds_float"], "On floating data up to 2*epsilon.")
c("C11", "proved", ["Verif.KDTree.C11_limits", "Verif.KDTree.C11_limits_float", "Verif.KDTree.C11_default_depth_single_leaf"])
c("C12", "proved", ["Verif.Buffer.C12_keeps_k_nearest", "Verif.Buffer.C12_default_capacity_keeps_all"])
c("C13", "proved", ["Verif.Buffer.C13_extremes"])
c("C14", "partial", ["Verif.Search.C14_knn_signed", "Verif.Search.C14_unlimited_signed", "Verif.Search.C14_knn_float", "Verif.Search.C14_knn_unsigned_narrow", "Verif.Search.C14_unsigned_wide_counterexample", "Verif.Search.C14_default_options"], "Proved for every data type with the default options, which give a single leaf. With other options: proved for signed integral data, for unsigned types narrower than int, and up to 2*epsilon for floating data. False for 32/64-bit unsigned data because the pruning difference wraps (counterexample proved). Integers are unbounded here; C87 covers machine arithmetic.")
c("C15", "partial", ["Verif.Search.C15_radius_float", "Verif.Search.C15_radius_sound_partial", "Verif.Search.C15_signed_counterexample", "Verif.Search.C15_default_options"], "Proved for floating data, and for every data type with the default options, which give a single leaf. On integral data only soundness holds: infinity<int>() is 0 and an empty unlimited buffer prunes (counterexample proved).")
c("C16", "proved", ["Verif.Search.C16_memory_signed", "Verif.Search.C16_memory_float"], "Floating data up to 2*epsilon.")
c("C17", "proved", ["Verif.Search.C17_other_component", "Verif.Search.C17_other_component_float"], "Any capacity k >= 1, any merge history; floating data up to 2*epsilon.")
c("C18", "proved", ["Verif.Search.C18_each_sample_once"])
c("C22", "partial", ["Verif.KDTree.C22_tight_bound", "Verif.Bounds.C22_segment_partial", "Verif.Bounds.C22_segment_centre_float", "Verif.Bounds.C22_segment_centre_int", "Verif.Bounds.C22_segment_length_float", "Verif.Bounds.C22_tight_segment", "Verif.Bounds.C22_segment_length_int_partial", "Verif.Bounds.C22_segment_length_int_counterexample", "Verif.Bounds.C22_centre_counterexample"], "Tight bounds and floating segments proved. False for integral segments: LowerBoundAndLength does not contain its own upper bound, and the centre of a segment with negative even sum can lie outside (both proved).")
c("C56", "proved", ["Verif.Distances.C56_manhattan", "Verif.Distances.C56_unsigned_manhattan", "Verif.Distances.C56_euclidean", "Verif.Distances.C56_short_right_undefined"])
c("C57", "proved", ["Verif.Levenshtein.C57_edit_distance", "Verif.Levenshtein.C57_metric"])
c("C23", "proved", ["Verif.DBSCAN.C23_clusters", "Verif.DBSCAN.C23_abstract"], "Floating data end to end through the k-d tree; the abstract version holds for any exact symmetric radius query.")
c("C24", "partial", ["Verif.DBSCAN.C24_noise_partial", "Verif.DBSCAN.C24_noise_exact", "Verif.DBSCAN.C24_counterexample"], "False as stated: a border sample visited first stays noise if only a non-initial core sample reaches it (counterexample proved). C24_noise_exact is the criterion the code follows.")
c("C25", "proved", ["Verif.DBSCAN.C25_labels"])
c("C26", "proved", ["Verif.DBSCAN.C26_border"])
c("C21", "proved", ["Verif.Bounds.C21_segments", "Verif.Bounds.C21_boxes", "Verif.Bounds.C21_boxes_int", "Verif.Bounds.C21_balls"], "Attained for segments and floating boxes; integral boxes and balls admissible.")
c("C39", "proved", ["Verif.Matrix.C39_pairwise", "Verif.Matrix.C39_cells"], "Any schedule of the cells.")
c("C40", "proved", ["Verif.Matrix.C40_transpose", "Verif.Matrix.C40_involution", "Verif.Matrix.C40_blocked"])
c("C63", "partial", ["Verif.Bounds.C63_centre_partial", "Verif.Bounds.C63_counterexample"], "False for negative even sums of the bounds (counterexample proved); everything else holds.")
c("C67", "proved", ["Verif.Bounds.C67_box_membership", "Verif.Bounds.C67_box_diameter", "Verif.Bounds.C67_ball_diameter"])
c("C68", "partial", ["Verif.Bounds.C68_furthest_int_partial", "Verif.Bounds.C68_counterexamples"], "Only per coordinate and only for integral boxes; the distance claim is false, and floating boxes truncate the value to an integer (proved).")
c("C53", "proved", ["Verif.Random.C53_table", "Verif.Random.C53_probability", "Verif.Random.C53_zero_never_drawn"], "Exact table over any ordered field; probability as Lebesgue measure over the two uniform numbers; zero weights excluded pointwise.")
c("C54", "partial", ["Verif.Random.C54_select_partial", "Verif.Random.C54_tail_never_selected", "Verif.Random.C54_init_uniform_first_rows", "Verif.Random.C54_spatial_max_counterexample"], "Distinctness holds; the second half is false: only the first n elements of the range can ever be selected (proved), and all their arrangements are reachable.")
c("C58", "partial", ["Verif.Stats.C58_mean", "Verif.Stats.C58_variance", "Verif.Stats.C58_one_pass", "Verif.Stats.C58_masked_counterexample", "Verif.Stats.C58_masked_value", "Verif.Stats.C58_mean_int_partial", "Verif.Stats.C58_mean_int_counterexample"], "Proved for the plain and indexed overloads on fields. False for the masked variance (reads only the first sample) and for the mean of int data with negative sum (proved).")
c("C59", "partial", ["Verif.Stats.C59_extrema", "Verif.Stats.C59_second_max_partial", "Verif.Stats.C59_nth_smallest", "Verif.Stats.C59_min_left", "Verif.Stats.C59_argmin_narrow_counterexample", "Verif.Stats.C59_second_max_counterexample"], "argmin/argmax return the position in the value type (wraps on narrow types); the second maximum's position is wrong when all others are the lowest value (both proved).")
c("C60", "proved", ["Verif.Stats.C60_normalize", "Verif.Stats.C60_min_max", "Verif.Stats.C60_min_max_int"])
c("C62", "proved", ["Verif.Stats.C62_permutation", "Verif.Stats.C62_remap", "Verif.Stats.C62_containers_equal", "Verif.Stats.C62_count_matches"])
c("C64", "partial", ["Verif.Stats.C64_cycle", "Verif.Stats.C64_spread", "Verif.Stats.C64_spread_mask_partial", "Verif.Stats.C64_variance", "Verif.Stats.C64_mask_counterexample", "Verif.Stats.C64_variance_mask_partial", "Verif.Stats.C64_variance_mask_counterexample", "Verif.Stats.C64_variance_mask_order_counterexample"], "Without a mask everything holds; with a mask the axis can be outside the mask, and the highest-variance policy compares only the deviation of the first selected sample (proved).")
c("C19", "partial", ["Verif.ClosestPair.C19_shortest_edge", "Verif.ClosestPair.C19_integral_default_edge"], "Proved for floating data up to 2*epsilon. False for integral data: infinity<ValueType>() is 0 and the default edge (0, 0, 0) is always returned (proved for all inputs).")
c("C20", "proved", ["Verif.ClosestPair.C20_simple_shortest", "Verif.ClosestPair.C20_default_edge_integral"], "Holds for every initial edge; with the default initial edge on integral data the initial edge is always returned.")
c("C27", "partial", ["Verif.Boruvka.C27_spanning_tree", "Verif.Boruvka.C30_spanning", "Verif.Boruvka.C27_integral_never_ends", "Verif.Boruvka.C27_no_samples"], "Proved for floating data, every neighbour count and every iteration order of the hash maps. False for integral data: the loop never ends (proved for all inputs).")
c("C28", "proved", ["Verif.Boruvka.C28_minimal", "Verif.Boruvka.C28_minimal_exact"], "Against every spanning tree, every iteration order of the hash maps, ties included.")
c("C29", "proved", ["Verif.Boruvka.C29_rounds"])
c("C30", "partial", ["Verif.Boruvka.C30_spanning", "Verif.Boruvka.C30_minimal_three", "Verif.Boruvka.C30_minimal_three_exact", "Verif.Boruvka.C30_not_minimal"], "Spanning for every k, minimal for k = 2 and k = 3. Minimality is false for k = 4 (counterexample proved): the nearest sample outside of the component need not be the nearest for the mutual reachability distance.")
c("C31", "proved", ["Verif.Boruvka.C31_core_distances", "Verif.Boruvka.C31_core_distances_signed"], "Floating data up to 2*epsilon; for k > n the largest distance.")
c("C32", "proved", ["Verif.Dendrogram.C32_structure"], "For every order std::sort may give equal weights.")
c("C33", "proved", ["Verif.Dendrogram.C33_levels"])
c("C34", "partial", ["Verif.Dendrogram.C34_linked_partial", "Verif.Dendrogram.C34_labels", "Verif.Dendrogram.C34_merges_clusters"], "Samples linked below the cut share a label and the exact label is characterised. The converse is false (counterexample proved): the label is taken from the lowest node at or above the cut, which merges clusters.")
c("C35", "proved", ["Verif.Dendrogram.C35_clusters"])
c("C36", "proved", ["Verif.Dendrogram.C36_labels"])
c("C37", "proved", ["Verif.Dendrogram.C37_optimal", "Verif.Dendrogram.C37_any_stabilities"])
c("C38", "proved", ["Verif.Dendrogram.C38_no_single_cluster"])
c("C66", "partial", ["Verif.HDBSCAN.C66_predict_partial", "Verif.HDBSCAN.C66_small_data_set"], "Floating data, all options, iteration orders and sorts. False when there are fewer samples than min_cluster_size: all are labelled 1 (counterexample proved).")
c("C69", "proved", ["Verif.Dendrogram.C69_stability", "Verif.Dendrogram.C69_duplicates"], "For clusters of more than one sample. C69_duplicates: division(1, 0) is 0, which makes clusters of duplicates negatively stable.")
c("C41", "partial", ["Verif.KMeans.C41_predict_partial", "Verif.KMeans.C41_integral", "Verif.KMeans.C41_integral_counterexample"], "Floating data. False for integral data: every sample goes to centroid 0 (proved for all data).")
c("C42", "proved", ["Verif.KMeans.C42_lloyd_step", "Verif.KMeans.C42_lloyd_run", "Verif.KMeans.C42_reported_loss_increases", "Verif.KMeans.C42_empty_cluster_to_origin"], "Any number of steps, any finite data. The loss reported by the code is another quantity and may increase (witness).")
c("C43", "partial", ["Verif.KMeans.C43_hamerly_partial", "Verif.KMeans.C43_objective_partial", "Verif.KMeans.C43_ties_counterexample", "Verif.KMeans.C43_reported_loss_stale"], "Any metric and number of steps, when no sample has two (almost) equally near initial centroids; false otherwise (witness).")
c("C44", "proved", ["Verif.KMeans.C44_early_stopping", "Verif.KMeans.C44_all_iterations", "Verif.KMeans.C44_best", "Verif.KMeans.C44_no_candidate", "Verif.KMeans.C44_warm_start", "Verif.KMeans.C44_lloyd"], "For any algorithm with a step function; KMeans::fit and the two KMedoids::fit are the same loop. n_init 0 is undefined.")
c("C55", "partial", ["Verif.KMeans.C55_distinct_partial", "Verif.KMeans.C55_integral_weights", "Verif.KMeans.C55_from_previous_repeats"], "Floating data, all generator outcomes. For integral data all weights are 0.")
c("C45", "partial", ["Verif.KMedoids.C45_nth_partial", "Verif.KMedoids.C45_predict", "Verif.KMedoids.C45_rejected", "Verif.KMedoids.C45_ties", "Verif.KMedoids.C45_ties_counterexample"], "Second and third nearest as claimed only without ties. With ties and exact comparison the result is characterised completely: the n-th smallest of the different distances at its first position, and the greatest value of the type at position 0 when there are fewer different distances.")
c("C46", "proved", ["Verif.KMedoids.C46_swap_gain", "Verif.KMedoids.C46_ties_counterexample"], "For every state with right buffers; buffers are not right when the constructor meets ties (witness).")
c("C47", "proved", ["Verif.KMedoids.C47_consistent", "Verif.KMedoids.C47_from_scratch", "Verif.KMedoids.C47_ties_counterexample", "Verif.KMedoids.C47_single_medoid"], "Any number of steps. The absence of ties is necessary (witness). A single medoid is rejected.")
c("C48", "partial", ["Verif.KMedoids.C48_exchange_partial", "Verif.KMedoids.C48_steps_partial", "Verif.KMedoids.C48_never_worse_than_start", "Verif.KMedoids.C48_terminates", "Verif.KMedoids.C48_ties_counterexample", "Verif.KMedoids.C48_duplicate_counterexample"], "Proved for all tables and starts: any number of steps is defined, the medoids are never worse than the start, the reported deviation strictly decreases with every exchange, the run stops. Exact per-exchange decrease and distinct medoids only from medoids without ties; with ties an exchange can make the clustering worse than before it, and medoids can be repeated (witnesses).")
c("C49", "partial", ["Verif.KMedoids.C49_local_optimum_partial", "Verif.KMedoids.C49_from_k_partial", "Verif.KMedoids.C49_skipped_counterexample"], "For all candidates that are tried, in particular all with index at least the number of medoids. The guard compares a sample index with a medoid position, so some samples are never tried (witness).")
c("C50", "proved", ["Verif.KMedoids.C50_swap_gain", "Verif.KMedoids.C50_start"], "For every state with right buffers, which construction without ties gives.")
c("C51", "partial", ["Verif.KMedoids.C51_swap_buffers_partial", "Verif.KMedoids.C51_nearest_partial", "Verif.KMedoids.C51_two_medoids_partial", "Verif.KMedoids.C51_counterexample", "Verif.KMedoids.C51_two_medoids_counterexample"], "False when the third nearest medoid is at position 0 (infinity of size_t is 0) and, for two medoids, for the new medoid itself (witnesses).")
c("C52", "partial", ["Verif.KMedoids.C52_first_partial", "Verif.KMedoids.C52_round", "Verif.KMedoids.C52_build_partial", "Verif.KMedoids.C52_not_greedy_counterexample", "Verif.KMedoids.C52_deviation_counterexample", "Verif.KMedoids.C52_integral_counterexample"], "False: later rounds add the candidate with the smallest reduction and add it to the deviation (witnesses; exact behaviour proved). True: first medoid optimal, k distinct medoids, right nearest distances.")
c("C70", "partial", ["Verif.KMedoids.C70_start", "Verif.KMedoids.C71_exchange_partial", "Verif.KMedoids.C70_counterexample", "Verif.KMedoids.C51_two_medoids_partial"], "False after construction: the sum of the distances is reported (proved for all tables without ties). True after an exchange on right buffers.")
c("C71", "partial", ["Verif.KMedoids.C71_exchange_partial", "Verif.KMedoids.C50_two_medoids_partial", "Verif.KMedoids.C71_worse_counterexample", "Verif.KMedoids.C71_duplicate_counterexample", "Verif.KMedoids.C71_two_medoids_counterexample"], "Three or more medoids and right buffers. False in general: wrong buffers, duplicate medoids, two medoids (witnesses).")
c("C61", "partial", ["Verif.Silhouette.C61_sizes", "Verif.Silhouette.C61_scores_partial", "Verif.Silhouette.C61_range", "Verif.Silhouette.C61_one_cluster", "Verif.Silhouette.C61_singleton", "Verif.Silhouette.C61_average", "Verif.Silhouette.C61_integral", "Verif.Silhouette.C61_singleton_counterexample", "Verif.Silhouette.C61_sizes_counterexample", "Verif.Silhouette.C61_integral_counterexample"], "Formula and range proved for floating data. False: singletons get 1, counters have the label type and wrap, integral data gives -1 or 0 only (proved for all integral inputs).")
c("C65", "partial", ["Verif.DualTree.C65_shortest", "Verif.DualTree.C65_float", "Verif.DualTree.C65_exact", "Verif.DualTree.C65_union_find", "Verif.DualTree.C65_admissible", "Verif.DualTree.C65_roots_pruned", "Verif.DualTree.C65_default_capacity", "Verif.DualTree.C65_two_neighbours_counterexample", "Verif.DualTree.C65_integral_counterexample"], "Proved for one neighbour per query: any trees, bounds and filters (C65_shortest); end to end for floating data with plain and union-find buffers, exact when the comparisons of the tree are exact, otherwise within 4*eps*sqrt(n_features). False for integral data (infinity is 0, separated sets are pruned at the roots), for the default capacity (0, the queue stays empty) and for more than one neighbour (neither the shortest nor the k-th shortest edge): all proved.")
c("C72", "partial", ["Verif.Boruvka.C72_spanning_tree", "Verif.Boruvka.C72_minimal", "Verif.Boruvka.C72_no_samples", "Verif.Boruvka.C72_query_trees_are_leaves", "Verif.Boruvka.C72_default_counterexample", "Verif.Boruvka.C72_integral_counterexample", "Verif.Boruvka.C72_zero_neighbours"], "Spanning tree, weights and termination within log2(n) rounds: proved for all floating data and all k from 1. Minimality with one neighbour: proved, exact when the comparisons of the tree are exact (eps = 0), otherwise within (n-1)*4*eps*sqrt(n_features). False for the default of three neighbours (tree of weight 19 where 10 is possible), for integral data (infinity is 0, 18 instead of 15) and undefined for no neighbours: all proved with witnesses. The trees over the components are single leaves because the default max_depth is 0.")
c("C73", "partial", ["Verif.KMedoids.C73_never_worse_than_start", "Verif.KMedoids.C73_never_worse_than_given", "Verif.KMedoids.C73_fit_partial", "Verif.KMedoids.C73_given_partial", "Verif.KMedoids.C73_same_start", "Verif.KMedoids.C73_single_cluster", "Verif.KMedoids.C73_centroids"], "Proved for all tables, options and generator outcomes: k sample indices, never worse than the start. Distinct medoids and local optimality (for samples from index k on, with max_iter large enough) without ties at the start. All candidates start from the first k samples; one cluster is rejected.")
c("C74", "partial", ["Verif.KDTree.C74_left_half", "Verif.KDTree.C74_left_half_float", "Verif.KDTree.C74_balanced_partial", "Verif.KDTree.C74_balanced_float_partial", "Verif.KDTree.C74_duplicates", "Verif.KDTree.C74_duplicates_float", "Verif.KDTree.C74_duplicates_counterexample"], "When samples differ on every axis (by more than epsilon on floating data). The left child never has more than half of the samples, without assumption. False with repeated samples: n equal samples give height n - bucket_size (proved for all n).")
c("C75", "proved", ["Verif.Search.C75_batch", "Verif.Search.C75_batch_signed", "Verif.Search.C75_batch_float", "Verif.Search.C75_chain_signed", "Verif.Search.C75_chain_float", "Verif.Search.C75_same_tree_twice"], "Capacity at least 1; signed integral data exactly, floating data up to 2*epsilon whatever the number of trees. The same tree twice gives the same samples twice (witness).")
c("C76", "proved", ["Verif.DBSCAN.C76_labels", "Verif.DBSCAN.C76_same_labels", "Verif.DBSCAN.C76_reorder_cores", "Verif.DBSCAN.C76_labels_abstract", "Verif.DBSCAN.C76_same_abstract", "Verif.DBSCAN.C76_reorder_counterexample"], "Labels of non-core samples can change when the samples are reordered (witness proved).")
c("C77", "proved", ["Verif.Rounding.C77_distance_error", "Verif.Rounding.C77_knn_separated", "Verif.Rounding.C77_knn", "Verif.Rounding.C77_knn_true", "Verif.Rounding.C77_radius", "Verif.Rounding.C77_dbscan"], "Radix 2, any precision, any symmetric tie rule, any order of summation, fused multiply-add in any places. Unbounded exponent; C122 has the same statements with overflow and gradual underflow.")
c("C78", "proved", ["Verif.Rounding.C78_spanning_tree", "Verif.Rounding.C78_minimal_separated", "Verif.Rounding.C78_true", "Verif.Rounding.C78_core", "Verif.Rounding.C78_core_separated"], "One neighbour per sample for the spanning tree; same number format as C77.")
c("C79", "partial", ["Verif.HDBSCAN.C79_threshold", "Verif.HDBSCAN.C79_weights", "Verif.HDBSCAN.C79_dendrogram", "Verif.HDBSCAN.C79_single_linkage", "Verif.HDBSCAN.C79_rounded", "Verif.HDBSCAN.C79_options", "Verif.HDBSCAN.C79_four_neighbours_counterexample"], "Up to three neighbours with exact comparisons; rounded distances for separated coordinates and one neighbour. False from four neighbours on, where the tree is not minimal (witness).")
c("C80", "partial", ["Verif.HDBSCAN.C80_same_clusters_partial", "Verif.HDBSCAN.C80_distinct_distances", "Verif.HDBSCAN.C80_ties"], "When the weights of the spanning tree are distinct, up to three neighbours, exact comparisons. False with equal weights, which mutual reachability distances produce routinely: a sample between two groups joins either, depending on std::sort (witness).")
c("C81", "partial", ["Verif.Distances.C81_euclidean_origin", "Verif.Distances.C81_squared_origin", "Verif.Distances.C81_manhattan_origin_partial", "Verif.Distances.C81_translate", "Verif.Distances.C81_translate_manhattan_partial", "Verif.Distances.C81_unsigned_origin_partial", "Verif.Distances.C81_unsigned_counterexample"], "False of unsigned_manhattan_distance_from_origin: its static_assert accepts only signed types and it sums the raw values, possibly negative (witness). The two integral functions return a reference to a destroyed temporary (T&&), so for integral data only the computed value is covered.")
c("C82", "partial", ["Verif.Distances.C82_range", "Verif.Distances.C82_symmetric", "Verif.Distances.C82_parallel", "Verif.Distances.C82_opposite", "Verif.Distances.C82_scale_partial", "Verif.Distances.C82_small_counterexample"], "Exact arithmetic. False when the product of the magnitudes is at most epsilon: infinity is returned for non-zero vectors (proved for every epsilon), so scaling changes the outcome.")
c("C83", "proved", ["Verif.Search.C83_signed", "Verif.Search.C83_more_neighbours", "Verif.Search.C83_more_samples", "Verif.Search.C83_unsigned_narrow", "Verif.Search.C83_float", "Verif.Search.C83_rounded", "Verif.Search.C83_ties_counterexample"], "Capacity at least 1. Floating data: up to 2*epsilon at every rank; exactly, with rounded distances, when the coordinates are separated. With equal distances the samples depend on the tree (witness).")
c("C84", "partial", ["Verif.HDBSCAN.C84_tree", "Verif.HDBSCAN.C84_cut", "Verif.HDBSCAN.C84_four_neighbours_counterexample"], "k from 1 to 3, k at most the number of samples, exact comparisons. False from four neighbours on, where the tree is not minimal (witness).")
c("C85", "partial", ["Verif.Serialize.C85_float", "Verif.Serialize.C85_integral_partial", "Verif.Serialize.C85_link_float", "Verif.Serialize.C85_link_integral_partial", "Verif.Serialize.C85_unsigned_counterexample", "Verif.Serialize.C85_copy", "Verif.Serialize.C85_moved_counterexample", "Verif.Serialize.C85_n_samples_counterexample"], "Finite values that fit in int64_t, sizes below 2^63; rapidjson itself is trusted. False of uint64_t values from 2^63 on (written as negative numbers) and of move-constructed trees (n_samples_ is uninitialised); n_samples() can differ from the n_samples of the file (witnesses).")
c("C86", "partial", ["Verif.BoxSearch.C86_box_float", "Verif.BoxSearch.C86_box_nearest_float", "Verif.BoxSearch.C86_box_nearest_signed", "Verif.BoxSearch.C86_box_signed_partial", "Verif.BoxSearch.C86_centre_signed", "Verif.BoxSearch.C86_ball_nearest_signed", "Verif.BoxSearch.C86_ball_signed_partial", "Verif.BoxSearch.C86_ball_nearest_float", "Verif.BoxSearch.C86_box_counterexample", "Verif.BoxSearch.C86_short_box_counterexample"], "Exact real arithmetic on floating data. Complete on floating data with unlimited capacity and on signed integral data with any explicit capacity; false on integral data with the default capacity (infinity<int>() is 0) and undefined for a box with fewer segments than features (witnesses).")
c("C87", "partial", ["Verif.MachineInt.C87_knn", "Verif.MachineInt.C87_ball", "Verif.MachineInt.C87_fits_of_interval", "Verif.MachineInt.C87_int8_counterexample", "Verif.MachineInt.C87_uint8_counterexample", "Verif.MachineInt.C87_int_counterexample", "Verif.MachineInt.C87_defined", "Verif.MachineInt.C87_gap_defined", "Verif.MachineInt.C87_wraps"], "Exact in machine arithmetic as long as the distances fit in the data type (k nearest) or in int (radius search with a capacity); signed types of any width and unsigned types narrower than int. False when they do not fit (witnesses for int8_t, uint8_t, int). Exactly when a distance is defined, and its value modulo 2^bits for wide unsigned types, is proved for all rows.")
c("C88", "partial", ["Verif.KMeans.C88_lloyd", "Verif.KMeans.C88_no_improvement", "Verif.KMeans.C88_stopped", "Verif.KMeans.C88_fit", "Verif.KMeans.C88_hamerly_partial", "Verif.KMeans.C88_hamerly_bound_partial", "Verif.KMeans.C88_hamerly_stopped_partial", "Verif.KMeans.C88_hamerly_fit_partial", "Verif.KMeans.C88_ties_counterexample"], "Exact real arithmetic, Euclidean distance, floating data. Complete for Lloyd; for Hamerly (the default algorithm) the same bound and the same statements about fit, without ties among the initial nearest centroids (hypothesis GoodStart). With an initial tie Hamerly can stop for good at a point that is no local optimum (witness).")
c("C89", "partial", ["Verif.DBSCAN.C89_nested_partial", "Verif.DBSCAN.C89_noise_counterexample"], "Proved for core samples, with different trees, orders and options in the two runs. False for labelled samples that are not core: they can become noise when radius grows or min_samples shrinks (counterexamples on four samples), because whether a sample that is not core is labelled depends on the sample its cluster is started from (C24, C76).")
c("C90", "proved", ["Verif.DBSCAN.C90_pairs", "Verif.DBSCAN.C90_affine"], "")
c("C91", "partial", ["Verif.HDBSCAN.C91_geometry_partial", "Verif.HDBSCAN.C91_reorder_partial", "Verif.HDBSCAN.C91_affine_partial", "Verif.HDBSCAN.C91_small_counterexample"], "Proved for at most three neighbours and distinct weights of the spanning tree (as C80, whose counterexamples for ties apply), and for distances above the tolerance of common::division before and after scaling. Below the tolerance (about 1.2e-7 for float) it is false: every lambda becomes 0 and other clusters are returned.")
c("C92", "partial", ["Verif.KMeans.C92_lloyd_linear", "Verif.KMeans.C92_lloyd_partial", "Verif.KMeans.C92_lloyd_counterexample", "Verif.KMeans.C92_hamerly", "Verif.KMeans.C92_plus_plus", "Verif.KMeans.C92_hamerly_fit", "Verif.KMeans.C92_labels"], "Exact arithmetic. Proved without restriction for Hamerly (steps and fit), k-means++, predict and for Lloyd with linear maps; for Lloyd with a translation only while no cluster is empty, since the centroid of an empty cluster is put at the origin (counterexample).")
c("C93", "proved", ["Verif.KMeans.C93_lloyd", "Verif.KMeans.C93_hamerly", "Verif.KMeans.C93_lloyd_fit", "Verif.KMeans.C93_hamerly_fit", "Verif.KMeans.C93_labels"], "Exact arithmetic: rounded sums depend on the order.")
c("C94", "proved", ["Verif.Parallel.C94_progress", "Verif.Parallel.C94_ends", "Verif.Parallel.C94_transpose", "Verif.Parallel.C94_pairwise", "Verif.Parallel.C94_fit", "Verif.Parallel.C94_kmedoids"], "Every loop iteration is a thread of reads and writes of shared locations; arbitrary interleavings include every OpenMP schedule. Accesses are sequentially consistent, which C++ guarantees for race-free programs.")
c("C95", "partial", ["Verif.Parallel.C95_find_race_counterexample", "Verif.Parallel.C95_find_interleaved_partial"], "False: for every history two concurrent calls with a sample that is not its own representative reach a data race. Proved instead: if the accesses were atomic (sequentially consistent), any number of concurrent calls would return the right representatives and keep the sets. Missing: freedom from races, which does not hold.")
c("C96", "partial", ["Verif.Seed.C96_first_seed_partial", "Verif.Seed.C96_later_seed_counterexample", "Verif.Seed.C96_same_seed_counterexample"], "False of the code: the engine is a static thread_local object, so only the seed of the first seeded call in a thread is used and later seeds are ignored (proved for every engine). Proved: the seeded calls of a thread give the stream of its first seed plus thread offset, independently of other threads and of unseeded calls. Distributions are taken to keep no state of their own.")
c("C97", "partial", ["Verif.Lifetime.C97_reference", "Verif.Lifetime.C97_owned_partial", "Verif.Lifetime.C97_owned_counterexample", "Verif.Lifetime.C97_visited_returned_counterexample"], "False of the code for a set that the buffer owns: the searcher moves the buffer, the reference member stays bound to the moved-from set of the source, so nothing is left out when that set is empty, and after the call the reference dangles. Proved for a set of the caller (with C16 for the search itself) and for an owned set before any move.")
c("C98", "proved", ["Verif.NonFinite.C98_partition", "Verif.NonFinite.C98_quickselect", "Verif.NonFinite.C98_quicksort", "Verif.NonFinite.C98_tree", "Verif.NonFinite.C98_knn", "Verif.NonFinite.C98_radius", "Verif.NonFinite.C98_dbscan"], "The models only use < and <=, and are instantiated with floating values including NaN. Safety is proved for every irreflexive < and every equality test in which a value equal to something is equal to itself.")
c("C99", "partial", ["Verif.NonFinite.C99_knn_partial", "Verif.NonFinite.C99_radius_partial", "Verif.NonFinite.C99_nan_knn_counterexample", "Verif.NonFinite.C99_neg_inf_knn_counterexample", "Verif.NonFinite.C99_neg_inf_partition_counterexample", "Verif.NonFinite.C99_nan_dbscan_counterexample", "Verif.NonFinite.C99_neg_inf_dbscan_counterexample"], "False of the code for NaN and for -infinity (concrete data with wrong nearest neighbours and lost clusters). Proved for data with +infinity coordinates and finite queries: k-nearest up to 2 eps and exact radius search.")
c("C100", "partial", ["Verif.Search.C100_own", "Verif.Search.C100_disjoint", "Verif.Search.C100_two", "Verif.Search.C100_radius", "Verif.Search.C100_knn_signed_partial", "Verif.Search.C100_knn_float_partial", "Verif.Search.C100_axis_counterexample", "Verif.Search.C100_ties_counterexample"], "Disjoint ranges and radius searches proved in full. Trees over the same range: k-NN proved when samples differ on every axis (by more than epsilon on floating data) and the axis policy is the same; false when a later tree cuts along other axes, and false with the same options when coordinates are equal (both counterexamples proved).")
c("C101", "partial", ["Verif.Degenerate.C101_tree_empty", "Verif.Degenerate.C101_search_empty", "Verif.Degenerate.C101_dbscan_empty", "Verif.Degenerate.C101_kmeans_predict_empty", "Verif.Degenerate.C101_tree_single", "Verif.Degenerate.C101_dbscan_single", "Verif.Degenerate.C101_hdbscan_single", "Verif.Degenerate.C101_spanning_tree_empty_counterexample", "Verif.Degenerate.C101_kmeans_init_empty_counterexample", "Verif.Degenerate.C101_lloyd_empty_counterexample", "Verif.Degenerate.C101_kmedoids_init_empty_counterexample", "Verif.Degenerate.C101_silhouette_empty_counterexample"], "Trees, searches, DBSCAN and the k-means labels have the stated answers on no samples, and the single-sample part holds for all options. The rest of the statement is false of the code: the spanning tree and HDBSCAN throw on no samples, the k-means++ and random medoid initialisers and the silhouette access elements that do not exist, and a step of Lloyd moves stored centroids to the origin.")
c("C102", "proved", ["Verif.DBSCAN.C102_queries", "Verif.DBSCAN.C102_abstract", "Verif.DBSCAN.predictT_fst"], "The loops are written a second time with a record of the queries and of the iterations; `predictT_fst` shows that the labels are those of the model without the record.")
c("C103", "partial", ["ClosestPair.C103_dual_set", "ClosestPair.C103_dual_set_distance", "ClosestPair.C103_sequential", "ClosestPair.C103_agree", "ClosestPair.C103_common_point_counterexample", "ClosestPair.C103_no_arguments_counterexample"], "Proved for one neighbour per query, sets without a common point, exact real arithmetic. Partial because the functions disagree on sets with a common point and dual_set_shortest_edge without buffer arguments is undefined; both are proved.")
c("C104", "partial", ["Verif.RefCount.C104_kdtree", "Verif.RefCount.C104_single_linkage_counterexample", "Verif.RefCount.C104_single_sample_partial", "Verif.RefCount.C104_predict_counterexample", "Verif.RefCount.C104_calls_counterexample"], "True of the k-d tree; false of the two cluster trees, with the exact number of nodes that are left.")
c("C105", "proved", ["Verif.UF.C105_labels_find", "Verif.UF.C105_representative_stable", "Verif.UF.C105_find_steps", "Verif.UF.C105_contrast_counterexample"], "The counterexample lists what the constructor loses against a fresh union-find; the main statements hold in full.")
c("C106", "partial", ["Verif.Bounds.C106_lower_and_rise", "Verif.Bounds.C106_tight_iff", "Verif.Bounds.C106_machine_partial", "Verif.Bounds.C106_overflow_counterexample", "Verif.Bounds.C106_not_tight_counterexample", "Verif.Bounds.C106_updates"], "The expected claim (the segment is tight for both classes) is false; the exact condition is proved. Machine arithmetic is shown exact under the stated range condition only.")
c("C107", "partial", ["Verif.DBSCAN.C107_subset_partial", "Verif.DBSCAN.C107_outside", "Verif.DBSCAN.C107_merge_counterexample"], "The labels of the range are right when every sample outside of it has at most min_samples samples of the range within the radius. In general false: the vector is as long as the data set, and samples outside of the range start clusters, which can merge two clusters of the range (witness). What happens to samples outside is characterised for all inputs.")
c("C108", "proved", ["Verif.DBSCAN.C108_any_options", "Verif.DBSCAN.C108_signed", "Verif.DBSCAN.C108_default_options", "Verif.DBSCAN.C108_sound"], "DBSCAN queries only around samples of the tree: the search meets that sample on the way down, and an unlimited buffer that is not empty never prunes. Distances are exact; machine arithmetic of distances is in C87.")
c("C109", "proved", ["Verif.Equality.C109_le", "Verif.Equality.C109_lt", "Verif.Equality.C109_ieee", "Verif.Equality.C109_equality", "Verif.Equality.C109_self", "Verif.Equality.C109_symm", "Verif.Equality.C109_chain", "Verif.Equality.C109_chain_sharp", "Verif.Equality.C109_coarse", "Verif.Equality.C109_small", "Verif.Equality.C109_is_element_in", "Verif.Equality.C109_is_element_not_in", "Verif.Equality.C109_is_element_in_first", "Verif.Equality.C109_is_element_not_in_first", "Verif.Equality.C109_membership_counterexample", "Verif.Equality.C109_integral", "Verif.Equality.C109_integral_same", "Verif.Equality.C109_integral_mixed", "Verif.Equality.C109_inequality", "Verif.Equality.C109_mixed_counterexample"], "Floating subtraction is exact in this model; a mixed floating and integral comparison (the integer is converted first) is not modelled.")
c("C110", "proved", ["Verif.Sorting.C110_partition", "Verif.Sorting.C110_quickselect", "Verif.Sorting.C110_quicksort", "Verif.Sorting.C110_quickselect_equal", "Verif.Sorting.C110_kdtree_equal", "Verif.Sorting.C110_quicksort_equal"], "Counted are the tests of the two scan loops of the partition; the comparisons of the median of three and the at most two equality tests per round are not counted.")
c("C111", "proved", ["Verif.Units.C111_tree", "Verif.Units.C111_search", "Verif.Units.C111_factor", "Verif.Units.C111_cycle", "Verif.Units.C111_spread", "Verif.Units.C111_tolerance_counterexample"], "False for floating data (C111_tolerance_counterexample). Overflow of the scaled values is excluded by the range hypothesis.")
c("C112", "partial", ["Verif.Fitted.C112_initialiser_unused", "Verif.Fitted.C112_lloyd", "Verif.Fitted.C112_predict", "Verif.Fitted.C112_fit_again", "Verif.Fitted.C112_history_counterexample", "Verif.Fitted.C112_medoids_predict", "Verif.Fitted.C112_medoids_outside", "Verif.Fitted.C112_medoids", "Verif.Fitted.C112_medoids_counterexample"], "Sequences, objective, convergence and the labels of KMeans proved (Lloyd, exact arithmetic); total deviation of KMedoids with FasterPAM for any table. False: a second fit starts from the stored centroids, so its result depends on earlier calls and its initialiser and n_init are ignored (proved for every algorithm); KMedoids keeps sample indices, so predict on other samples measures to unrelated samples or reads outside of them.")
c("C113", "proved", ["Verif.KMeansR.C113_predict", "Verif.KMeansR.C113_predict_separated", "Verif.KMeansR.C113_medoids_predict", "Verif.KMeansR.C113_means", "Verif.KMeansR.C113_step", "Verif.KMeansR.C113_run", "Verif.KMeansR.C113_predict_counterexample"], "Overflow, underflow and NaN are outside of the rounding model; the loss reported by the object is not covered. Hamerly's variant, whose incremental sums accumulate rounding errors, is not covered.")
c("C114", "proved", ["Verif.KDTree.C114_build", "Verif.KDTree.C114_build_float", "Verif.KDTree.C114_distinct", "Verif.KDTree.C114_equal", "Verif.KDTree.C114_equal_float"], "Counted are the tests of the scan loops of the partition and of the shift of the median; the axis policy and the initial bound are not counted.")
c("C115", "partial", ["Verif.Scale.C115_labels", "Verif.Scale.C115_lloyd", "Verif.Scale.C115_lloyd_fit", "Verif.Scale.C115_hamerly_partial", "Verif.Scale.C115_plus_plus", "Verif.Scale.C115_medoids_labels", "Verif.Scale.C115_medoids_partial", "Verif.Scale.C115_medoids_fit_partial", "Verif.Scale.C115_silhouette", "Verif.Scale.C115_medoids_counterexample", "Verif.Scale.C115_tolerance_counterexample"], "Exact arithmetic. Without restriction for labels, Lloyd (steps, and fit with the tolerance in the same unit, in particular the default 0), k-means++ and the silhouette. Hamerly with numeric_limits max and lowest in the new unit as well; FasterPAM for two or more medoids without ties among the initial medoids in both units. False of FasterPAM when small distances become equal for the absolute tolerance of common::equality, and of k-means with a positive tolerance that is not converted (witnesses).")
c("C116", "partial", ["Verif.KMedoids.C116_fit", "Verif.KMedoids.C116_given", "Verif.KMedoids.C116_single_cluster", "Verif.KMedoids.C116_two_medoids", "Verif.KMedoids.C116_best_counterexample", "Verif.KMedoids.C116_unit_counterexample", "Verif.KMedoids.C116_cycle_counterexample"], "Totality and range of the result proved for every table; convergence proved for two clusters whatever the buffers hold. That the best candidate is returned, that the result is no worse than the start and that it does not depend on the unit of length are false (concrete witnesses). Convergence with three or more clusters is false as well: on a metric table of twelve samples every step changes the medoids for ever, and fit returns one of three sets of medoids according to max_iter modulo 3.")
c("C117", "proved", ["Verif.Parallel.C117_searches", "Verif.Parallel.C117_constructed", "Verif.Parallel.C117_others", "Verif.Parallel.C117_swap_race", "Verif.Parallel.C117_rebuild_counterexample"], "Sequentially consistent interleavings of the accesses, which C++ grants to race-free programs. Buffers share nothing; WithUnionFind buffers on one union-find structure do share it and race (C95).")
c("C118", "partial", ["Verif.Boruvka.C118_spanning", "Verif.Boruvka.C118_labels", "Verif.Boruvka.C118_single_counterexample", "Verif.Boruvka.C118_two_counterexample", "Verif.Boruvka.C118_bridge_counterexample", "Verif.Boruvka.C118_minimal_counterexample", "Verif.Boruvka.C118_clusters_counterexample"], "The result on a tree over part of the indices is described completely as to shape; that it is about the samples of the tree only is false, with witnesses.")
c("C119", "partial", ["Verif.Random.C119_distribution", "Verif.Random.C119_zero_never_drawn_partial", "Verif.Random.C119_kmeanspp_distinct_partial", "Verif.Random.C119_zero_drawn_counterexample", "Verif.Random.C119_kmeanspp_counterexample", "Verif.Random.aliasInitR_id"], "The distribution bound is proved for 2 (n + 2) <= 2^p. Zero weights and distinct centroids are proved for 2 n (n + 2) < 2^p (2895 floats, 67108862 doubles) and are false in general: on 16384 floats an index of weight zero is drawn and k-means++ returns the same sample twice. Overflow, underflow and contraction are not modelled.")
c("C120", "proved", ["Verif.Silhouette.C120_range", "Verif.Silhouette.C120_error", "Verif.Silhouette.C120_one_cluster", "Verif.Silhouette.C120_average"], "The distances are the given numbers of the format; overflow, underflow and NaN are not modelled.")
c("C121", "proved", ["Verif.Bounds.C121_centre_narrow", "Verif.Bounds.C121_centre_signed", "Verif.Bounds.C121_centre_unsigned", "Verif.Bounds.C121_size_narrow", "Verif.Bounds.C121_size_signed", "Verif.Bounds.C121_size_unsigned", "Verif.Bounds.C121_length_narrow", "Verif.Bounds.C121_length_unsigned", "Verif.Bounds.C121_length_signed", "Verif.Bounds.C121_empty_counterexample", "Verif.Bounds.C121_counterexamples"], "The size of a wide unsigned segment is stated for sums of the bounds that fit. The counterexamples show what happens at the ends of the types.")
c("C122", "proved", ["Verif.Rounding.C122_distance_error", "Verif.Rounding.C122_agree", "Verif.Rounding.C122_knn_separated", "Verif.Rounding.C122_knn", "Verif.Rounding.C122_radius", "Verif.Rounding.C122_dbscan", "Verif.Rounding.C122_underflow_counterexample", "Verif.Rounding.C122_overflow_counterexample"], "awayE constructs such a rounding, so the hypotheses are met. The two counterexamples state what underflow and overflow do in double precision; the positive statements hold as written. Not modelled: flushing of subnormal numbers to zero, other rounding modes, NaN (C98 and C99 treat non-finite data).")
c("C123", "proved", ["Verif.Rounding.C123_spanning_tree", "Verif.Rounding.C123_minimal_separated", "Verif.Rounding.C123_never_ends", "Verif.Rounding.C123_rounds", "Verif.Rounding.C123_core_separated", "Verif.Rounding.C123_core", "Verif.Rounding.C123_overflow_counterexample"], "Euclidean distance; the buffers start from infinity. Unconditional minimality and termination are false: C123_overflow_counterexample (two doubles 2^600 apart, whose distance is representable, make the loop endless).")
c("C124", "proved", ["Verif.MachineInt.C124_mask", "Verif.MachineInt.C124_mask_counterexamples", "Verif.MachineInt.C124_interval", "Verif.MachineInt.C124_interval_defined", "Verif.MachineInt.C124_interval_counterexample", "Verif.MachineInt.C124_union_find", "Verif.MachineInt.C124_union_find_sets", "Verif.MachineInt.C124_union_find_counterexample", "Verif.MachineInt.C124_union_find_signed_counterexample", "Verif.MachineInt.C124_edit_distance", "Verif.MachineInt.C124_edit_distance_counterexample"], "Proved with the promotions, overflows and conversions of C++; the counterexamples show what happens outside the conditions (257 samples with 8 bit indices, 2^31 features with int).")
c("C125", "proved", ["Verif.KMeansE.C125_predict", "Verif.KMeansE.C125_means", "Verif.KMeansE.C125_no_nan", "Verif.KMeansE.C125_step", "Verif.KMeansE.C125_run", "Verif.KMeansE.C125_predict_counterexample", "Verif.KMeansE.C125_means_counterexample"], "The counterexamples show that the exact claims of C41 and C42 fail by any factor once squares overflow or underflow, and that a centroid can go to infinity and stay there although the mean of its samples is in range.")
c("C126", "proved", ["Verif.Dendrogram.C126_labels", "Verif.Dendrogram.C126_stability", "Verif.Dendrogram.C126_near_optimal", "Verif.Dendrogram.C126_separated", "Verif.Dendrogram.C126_error", "Verif.Dendrogram.C126_exact", "Verif.Dendrogram.C126_tiny", "Verif.Dendrogram.C126_selection_counterexample", "Verif.Dendrogram.C126_scale_counterexample"], "The result of an operation that overflows is left arbitrary, so the theorems show that none does. Levels are the computed ones (C123 is about them). The last theorems show that the selection itself does change under rounding and that levels up to epsilon count as 0, so that the clusters depend on the unit of length.")
c("C127", "proved", ["Verif.Rounding.C127_spanning_tree", "Verif.Rounding.C127_never_ends", "Verif.Rounding.C127_ends_iff", "Verif.Rounding.C127_three_counterexample"], "Extends C123 (k <= 1) to core distances. Near-minimality is claimed for k = 2 only; k = 3 is treated in exact arithmetic (C30) and for larger k the tree need not be minimal. C127_three_counterexample: the doubles 0, 2^511, 2^512 have a tree for k = 2 and an endless loop for k = 3.")
c("C128", "proved", ["Verif.HDBSCAN.C128_predict", "Verif.HDBSCAN.C128_ends_iff", "Verif.HDBSCAN.C128_bounded", "Verif.HDBSCAN.C128_three_counterexample"], "Combines C123, C127 and C126. The inverse distances are those of common::division, 0 for distances up to epsilon, and are always at most 2^(p-1), so that a valid L exists for all data.")
c("C129", "proved", ["Verif.KMedoids.C129_consistent", "Verif.KMedoids.C129_gain", "Verif.KMedoids.C129_exchange", "Verif.KMedoids.C129_never_much_worse", "Verif.KMedoids.C129_whole", "Verif.KMedoids.C129_worse_counterexample"], "Extends C46 to C49 to rounded sums. The total deviation is that of the distances as the code computes or looks them up. Overflow is not modelled. Ties at the start break the buffers already in exact arithmetic (C47).")
c("C130", "proved", ["Verif.KMedoids.C130_fit", "Verif.KMedoids.C130_given", "Verif.KMedoids.C130_whole", "Verif.KMedoids.C130_samples"], "Extends C73 to rounded sums on top of C129. Overflow is not modelled. That the result is a local optimum is claimed only where the run is exact (C130_whole with C73).")
c("C131", "proved", ["Verif.KMedoids.C131_first", "Verif.KMedoids.C131_round", "Verif.KMedoids.C131_build", "Verif.KMedoids.C131_whole", "Verif.KMedoids.C131_first_counterexample"], "Extends C52 to rounded sums. The deviations are those of the distances as the code computes them. Overflow is not modelled.")
c("C132", "proved", ["Verif.KMedoids.C132_signed", "Verif.KMedoids.C132_signed_given", "Verif.KMedoids.C132_samples", "Verif.KMedoids.C132_unsigned_step", "Verif.KMedoids.C132_unsigned_given", "Verif.KMedoids.C132_unsigned", "Verif.KMedoids.C132_unsigned_counterexample", "Verif.KMedoids.C132_overflow_counterexample"], "Extends C73 to machine integers. No ties among the distances of a sample to the medoids of the start, as in C73. An undefined overflow gives an arbitrary value in the model.")
c("C133", "proved", ["Verif.KMedoids.C133_no_exchange", "Verif.KMedoids.C133_counterexample"], "Companion of C132 for FasterMSC. Overflow is not modelled; two medoids and unsigned types are not covered.")
