{"id": "C01", "title": "Union-find equivalence", "statement": "For a UnionFind built from n samples, after any sequence of find and merge calls on valid indices, find(a) == find(b) exactly when a and b are connected through the pairs that were merged.", "quantifier": "every n, every finite sequence of find/merge calls with arguments < n, every pair a,b < n", "why_tests_cant": "Depends on the whole history of earlier calls; the number of histories is unbounded.", "anchors": ["include/ffcl/datastruct/UnionFind.hpp UnionFind::find", "include/ffcl/datastruct/UnionFind.hpp UnionFind::merge"]}
{"id": "C02", "title": "find is observationally pure; merge returns the representative", "statement": "Calling find never changes the answer of any later find although it rewrites the parent array; the representative is a member of its own set; merge(a,b) returns the value that find(a) and find(b) both return afterwards and leaves the representatives of all other sets unchanged.", "quantifier": "every reachable union-find state, every pair of indices", "why_tests_cant": "Depends on the whole history of earlier calls; the number of histories is unbounded.", "anchors": ["include/ffcl/datastruct/UnionFind.hpp UnionFind::find", "include/ffcl/datastruct/UnionFind.hpp UnionFind::merge"]}
{"id": "C03", "title": "Union-find calls terminate in logarithmically many steps", "statement": "Starting from the identity constructor, find and merge never read out of range and the loop inside find stops after at most log2(size of the set) iterations, where the set is the one that holds the argument.", "quantifier": "every reachable state, every valid index", "why_tests_cant": "Termination and cost hold for all histories, tests only exercise a few.", "anchors": ["include/ffcl/datastruct/UnionFind.hpp UnionFind::find"]}
{"id": "C04", "title": "median_index_of_three", "statement": "For a range of at least three indices it returns one of the positions 0, (n-1)/2, n-1 and the value there is the median of the three values; for shorter ranges it returns 0.", "quantifier": "every index range, data set, feature", "why_tests_cant": "Ranges over every input of every size, including adversarial ties and duplicates.", "anchors": ["include/ffcl/common/algorithms/Sorting.hpp median_index_of_three"]}
{"id": "C05", "title": "partition_around_pivot_index", "statement": "It terminates without reading outside the range, only permutes the indices, and returns a position p holding the initial pivot value with every value before p <= pivot and every value after p >= pivot; exactly on integral data, up to epsilon on floating-point data.", "quantifier": "every non-empty range, every pivot position, every integral or floating-point data set", "why_tests_cant": "Ranges over every input of every size, including adversarial ties and duplicates.", "anchors": ["include/ffcl/common/algorithms/Sorting.hpp partition_around_pivot_index"]}
{"id": "C06", "title": "quickselect", "statement": "quickselect terminates, only permutes the indices, and leaves at position k a value with no larger value before it and no smaller value after it (so it is the k-th order statistic); exactly on integral data, up to epsilon on floating-point data.", "quantifier": "every non-empty range, every k < n", "why_tests_cant": "Ranges over every input of every size, including adversarial ties and duplicates.", "anchors": ["include/ffcl/common/algorithms/Sorting.hpp quickselect"]}
{"id": "C07", "title": "quicksort", "statement": "quicksort terminates, only permutes the indices and leaves the indexed values in non-decreasing order; exactly on integral data, each value up to epsilon on floating-point data.", "quantifier": "every non-empty range, every initial pivot position", "why_tests_cant": "Ranges over every input of every size, including adversarial ties and duplicates.", "anchors": ["include/ffcl/common/algorithms/Sorting.hpp quicksort"]}
{"id": "C08", "title": "KDTree holds every sample exactly once", "statement": "Building a KDTree permutes the index range; the node ranges (leaf buckets and one-element pivots) tile it, so each sample is stored in exactly one node.", "quantifier": "every data set, every bucket size, depth limit and axis-selection policy", "why_tests_cant": "Ranges over every input of every size, including adversarial ties and duplicates.", "anchors": ["include/ffcl/datastruct/tree/kdtree/KDTree.hpp KDTree::build", "include/ffcl/datastruct/tree/kdtree/KDTreeAlgorithms.hpp quickselect_median"]}
{"id": "C09", "title": "KDTree split order", "statement": "At each inner node, every sample of the left subtree is strictly smaller than the pivot on the cut axis and every sample of the right subtree is at least the pivot, even with duplicate coordinates; exactly on integral data, up to 2*epsilon on floating-point data.", "quantifier": "every data set and option set, every inner node", "why_tests_cant": "Duplicates and adversarial orders are unbounded.", "anchors": ["include/ffcl/datastruct/tree/kdtree/KDTreeAlgorithms.hpp shift_median_to_leftmost_equal_value", "include/ffcl/datastruct/tree/kdtree/KDTreeAlgorithms.hpp quickselect_median"]}
{"id": "C10", "title": "KDTree node bounds", "statement": "The bounding box stored in each node contains every sample stored in the subtree of that node, and the box of a child is inside the box of its parent; exactly on integral data, up to 2*epsilon on floating-point data.", "quantifier": "every data set and option set, every node", "why_tests_cant": "Ranges over every input of every size, including adversarial ties and duplicates.", "anchors": ["include/ffcl/datastruct/tree/kdtree/KDTree.hpp KDTree::build", "include/ffcl/datastruct/Interval.hpp make_tight_bound"]}
{"id": "C11", "title": "KDTree bucket and depth limits", "statement": "No node is deeper than max_depth, a node with more than bucket_size samples is split unless it is at max_depth, and a node with at most bucket_size samples is never split; construction terminates. With the default options (max_depth = infinity<size_t>() = 0) the tree is one leaf.", "quantifier": "every data set and option set", "why_tests_cant": "Ranges over every input of every size, including adversarial ties and duplicates.", "anchors": ["include/ffcl/datastruct/tree/kdtree/KDTree.hpp KDTree::Options", "include/ffcl/datastruct/tree/kdtree/KDTree.hpp KDTree::build"]}
{"id": "C12", "title": "Neighbour buffer keeps the k nearest", "statement": "After any sequence of candidate updates, a buffer with capacity k holds min(k, number offered) of the offered candidates and no candidate left out is closer than one kept.", "quantifier": "every finite sequence of (index, distance) updates, every k >= 1", "why_tests_cant": "Depends on the whole history of earlier calls; the number of histories is unbounded.", "anchors": ["include/ffcl/search/buffer/StaticBuffer.hpp update_static_buffers"]}
{"id": "C13", "title": "Neighbour buffer extremes", "statement": "closest_distance() and furthest_distance() are the minimum and maximum of the kept distances and closest_index()/furthest_index() are indices kept with these distances.", "quantifier": "every finite non-empty sequence of updates, every k >= 1", "why_tests_cant": "Depends on the whole history of earlier calls; the number of histories is unbounded.", "anchors": ["include/ffcl/search/buffer/StaticBuffer.hpp update_static_buffers"]}
{"id": "C14", "title": "k-nearest-neighbour search is exact", "statement": "Searching a KDTree for the k nearest neighbours of any query returns min(k, n) distinct samples and no sample left out is closer than a sample returned, i.e. the same distances as a brute force scan.", "quantifier": "every data set, tree, query point and k >= 1, with the distance the library uses (Manhattan on integral, Euclidean on floating-point data)", "why_tests_cant": "Pruning correctness is a statement about all geometric configurations.", "anchors": ["include/ffcl/search/TreeTraverser.hpp single_tree_traversal", "include/ffcl/datastruct/tree/kdtree/KDNodeView.hpp select_sibling_node"]}
{"id": "C15", "title": "Radius search is exact", "statement": "Searching with a ball bound and unlimited capacity returns exactly the samples at distance strictly less than the radius, each once.", "quantifier": "every data set, tree, centre and radius", "why_tests_cant": "Same as C14.", "anchors": ["include/ffcl/search/TreeTraverser.hpp single_tree_traversal", "include/ffcl/datastruct/bounds/Ball.hpp BallView"]}
{"id": "C16", "title": "Search with memory excludes visited samples", "statement": "A search with a WithMemory buffer returns the k nearest among the samples not in the visited set.", "quantifier": "every signed integral or floating-point data set, tree, query, k and visited set", "why_tests_cant": "Same as C14 with an arbitrary exclusion set.", "anchors": ["include/ffcl/search/buffer/WithMemory.hpp"]}
{"id": "C17", "title": "Search with union-find returns the nearest sample of another component", "statement": "A capacity-1 search with a WithUnionFind buffer returns a nearest sample among those whose representative differs from the query component, for any component structure.", "quantifier": "every signed integral or floating-point data set, tree, query, component structure", "why_tests_cant": "Same as C14 with an arbitrary partition.", "anchors": ["include/ffcl/search/buffer/WithUnionFind.hpp"]}
{"id": "C18", "title": "Tree search visits each node at most once and terminates", "statement": "The traversal offers each sample to the buffer at most once and terminates for every tree.", "quantifier": "every tree, query and buffer", "why_tests_cant": "Ranges over every input of every size, including adversarial ties and duplicates.", "anchors": ["include/ffcl/search/TreeTraverser.hpp get_parent_node_after_sibling_traversal"]}
{"id": "C19", "title": "Shortest edge between two sets of samples", "statement": "sequential_dual_set_shortest_edge returns an edge whose weight is the minimum distance between a query sample and a sample of a different component.", "quantifier": "every two index sets, data set and component structure", "why_tests_cant": "Ranges over every input of every size, including adversarial ties and duplicates.", "anchors": ["include/ffcl/search/ClosestPairOfSamples.hpp sequential_dual_set_shortest_edge"]}
{"id": "C20", "title": "Brute-force closest pair", "statement": "simple_dual_set_shortest_edge returns a pair at the minimum distance among the pairs at positive distance that are closer than the initial edge, or the initial edge if there is none; pairs of identical points are ignored.", "quantifier": "every two index sets, data set and initial edge", "why_tests_cant": "Ranges over every input of every size, including adversarial ties and duplicates.", "anchors": ["include/ffcl/search/ClosestPairOfSamples.hpp simple_dual_set_shortest_edge"]}
{"id": "C21", "title": "Bound-to-bound minimum distance is admissible and tight", "statement": "min_distance between two segments, boxes or balls never exceeds the distance between any two points inside them; for segments and boxes it is attained.", "quantifier": "every pair of bounds, every pair of points inside", "why_tests_cant": "Ranges over every input of every size, including adversarial ties and duplicates.", "anchors": ["include/ffcl/datastruct/bounds/segment/distances/MinDistance.hpp", "include/ffcl/datastruct/bounds/distances/MinDistance.hpp"]}
{"id": "C22", "title": "Segment containment and tight boxes", "statement": "make_tight_bound returns the smallest box that contains all samples, and a segment contains its own bounds and centre.", "quantifier": "every non-empty data set, every segment", "why_tests_cant": "Ranges over every input of every size, including adversarial ties and duplicates.", "anchors": ["include/ffcl/datastruct/Interval.hpp make_tight_bound", "include/ffcl/datastruct/bounds/segment/LowerBoundAndUpperBound.hpp", "include/ffcl/datastruct/bounds/segment/LowerBoundAndLength.hpp"]}
{"id": "C23", "title": "DBSCAN clusters are density-connected components", "statement": "Two core samples get the same label exactly when a chain of core samples, each within the radius of the next, links them.", "quantifier": "every floating-point data set, radius and min_samples (integral data: C108)", "why_tests_cant": "Reachability closure over all data sets.", "anchors": ["include/ffcl/dbscan/DBSCAN.hpp predict"]}
{"id": "C24", "title": "DBSCAN noise", "statement": "A sample is labelled 0 exactly when it is neither a core sample nor within the radius of a core sample.", "quantifier": "every floating-point data set, radius and min_samples (integral data: C108)", "why_tests_cant": "Ranges over every input of every size, including adversarial ties and duplicates.", "anchors": ["include/ffcl/dbscan/DBSCAN.hpp predict"]}
{"id": "C25", "title": "DBSCAN labels and termination", "statement": "predict terminates, returns one label per sample and the non-noise labels are exactly 1..K where K is the number of clusters.", "quantifier": "every floating-point data set, radius and min_samples (integral data: C108)", "why_tests_cant": "Ranges over every input of every size, including adversarial ties and duplicates.", "anchors": ["include/ffcl/dbscan/DBSCAN.hpp predict"]}
{"id": "C26", "title": "DBSCAN border samples", "statement": "A non-core sample with a non-zero label has the label of a core sample within the radius.", "quantifier": "every floating-point data set, radius and min_samples (integral data: C108)", "why_tests_cant": "Ranges over every input of every size, including adversarial ties and duplicates.", "anchors": ["include/ffcl/dbscan/DBSCAN.hpp predict_inner"]}
{"id": "C27", "title": "Boruvka returns a spanning tree", "statement": "make_tree returns n-1 edges between distinct components that connect all n samples without a cycle.", "quantifier": "every data set with n >= 1 samples, every neighbour count", "why_tests_cant": "Ranges over every input of every size, including adversarial ties and duplicates.", "anchors": ["include/ffcl/datastruct/graph/spanning_tree/BoruvkasAlgorithm.hpp make_tree"]}
{"id": "C28", "title": "Boruvka tree is minimal", "statement": "Without core distances, the total weight of the returned tree is at most the total weight of any other spanning tree, ties included, up to twice the tolerance with which the k-d tree compares floating values per edge (exactly when that tolerance is 0).", "quantifier": "every floating-point data set, every competing spanning tree", "why_tests_cant": "Quantifies over all spanning trees of all data sets.", "anchors": ["include/ffcl/datastruct/graph/spanning_tree/BoruvkasAlgorithm.hpp step_sequential"]}
{"id": "C29", "title": "Boruvka terminates in logarithmically many rounds", "statement": "Each round at least halves the number of components, so the main loop stops after at most log2(n) rounds.", "quantifier": "every floating-point data set (integral data: see C27)", "why_tests_cant": "Ranges over every input of every size, including adversarial ties and duplicates.", "anchors": ["include/ffcl/datastruct/graph/spanning_tree/BoruvkasAlgorithm.hpp make_tree"]}
{"id": "C30", "title": "Boruvka with core distances", "statement": "With k_nearest_neighbors > 1 the returned tree spans all samples and is minimal for the mutual reachability distance.", "quantifier": "every data set and k", "why_tests_cant": "Quantifies over all spanning trees of all data sets.", "anchors": ["include/ffcl/datastruct/graph/spanning_tree/BoruvkasAlgorithm.hpp step_sequential", "include/ffcl/datastruct/graph/spanning_tree/CoreDistances.hpp"]}
{"id": "C31", "title": "Core distances", "statement": "The core distance of a sample is the k-th smallest distance from it to the samples (itself included).", "quantifier": "every signed integral or floating-point data set, every k <= n", "why_tests_cant": "Ranges over every input of every size, including adversarial ties and duplicates.", "anchors": ["include/ffcl/datastruct/graph/spanning_tree/CoreDistances.hpp make_static_core_distances"]}
{"id": "C32", "title": "Dendrogram structure", "statement": "The single linkage tree built from any spanning tree of n samples is a binary tree whose leaves are the n samples, each once, and size() of each node is its number of leaves; the root has size n.", "quantifier": "every n, every spanning tree", "why_tests_cant": "Ranges over every input of every size, including adversarial ties and duplicates.", "anchors": ["include/ffcl/datastruct/tree/single_linkage_cluster_tree/SingleLinkageClusterTree.hpp build"]}
{"id": "C33", "title": "Dendrogram levels", "statement": "The level of a node is at least the level of its children, and two samples lie under a common node of level <= t exactly when the spanning tree links them by edges of weight <= t.", "quantifier": "every spanning tree, every threshold, every pair of samples", "why_tests_cant": "Ranges over every input of every size, including adversarial ties and duplicates.", "anchors": ["include/ffcl/datastruct/tree/single_linkage_cluster_tree/SingleLinkageClusterTree.hpp build"]}
{"id": "C34", "title": "Flat clusters by cut level", "statement": "extract_flat_clusters gives two samples the same label exactly when they are linked by edges of weight below the cut level (for clusters of at least min_cluster_size).", "quantifier": "every spanning tree, cut level and min_cluster_size", "why_tests_cant": "Ranges over every input of every size, including adversarial ties and duplicates.", "anchors": ["include/ffcl/datastruct/tree/single_linkage_cluster_tree/SingleLinkageClusterTree.hpp preorder_traversal_single_linkage_clustering"]}
{"id": "C35", "title": "Condensed tree clusters", "statement": "Every non-root cluster of the condensed tree has at least min_cluster_size samples, sibling clusters are disjoint and contained in their parent.", "quantifier": "every dendrogram, every min_cluster_size", "why_tests_cant": "Ranges over every input of every size, including adversarial ties and duplicates.", "anchors": ["include/ffcl/datastruct/tree/condensed_cluster_tree/CondensedClusterTree.hpp preorder_traversal_build"]}
{"id": "C36", "title": "Flat extraction labels", "statement": "extract_flat_clusters labels every sample, with 0 for noise and contiguous labels 1..K; two samples share a positive label exactly when they lie in the same selected cluster; selected clusters are disjoint.", "quantifier": "every condensed tree", "why_tests_cant": "Ranges over every input of every size, including adversarial ties and duplicates.", "anchors": ["include/ffcl/datastruct/tree/condensed_cluster_tree/CondensedClusterTree.hpp extract_flat_clusters"]}
{"id": "C37", "title": "Excess-of-mass optimality", "statement": "The set of clusters selected has the largest total stability among all sets of pairwise disjoint clusters that cover every leaf cluster (root excluded unless a single cluster is allowed).", "quantifier": "every condensed tree with any stabilities", "why_tests_cant": "Quantifies over all antichains of all trees.", "anchors": ["include/ffcl/datastruct/tree/condensed_cluster_tree/CondensedClusterTree.hpp select_subtree"]}
{"id": "C38", "title": "allow_single_cluster", "statement": "When a single cluster is not allowed and the tree has more than one cluster, the root is never selected.", "quantifier": "every condensed tree", "why_tests_cant": "Ranges over every input of every size, including adversarial ties and duplicates.", "anchors": ["include/ffcl/datastruct/tree/condensed_cluster_tree/CondensedClusterTree.hpp"]}
{"id": "C39", "title": "Pairwise distance matrix", "statement": "matrix(i,j) equals the distance between samples i and j for every i,j, whatever the order in which the rows were filled; it is symmetric with zero diagonal.", "quantifier": "every data set, every i,j < n, every row schedule", "why_tests_cant": "All thread schedules and sizes.", "anchors": ["include/ffcl/datastruct/matrix/PairwiseDistanceMatrix.hpp", "include/ffcl/datastruct/matrix/PairwiseDistanceMatrixDynamic.hpp"]}
{"id": "C40", "title": "Transpose", "statement": "transpose puts element (i,j) at (j,i), is an involution, and the blocked parallel version writes each cell exactly once and gives the same result for every block size and schedule.", "quantifier": "every matrix shape, every block size and schedule", "why_tests_cant": "All sizes and thread schedules.", "anchors": ["include/ffcl/common/math/linear_algebra/Transpose.hpp"]}
{"id": "C41", "title": "Nearest centroid prediction", "statement": "KMeans predict assigns each sample to a centroid at the minimum distance (lowest index on ties) and forward returns that distance.", "quantifier": "every data set and centroid set", "why_tests_cant": "Ranges over every input of every size, including adversarial ties and duplicates.", "anchors": ["include/ffcl/kmeans/KMeansUtils.hpp samples_to_nearest_centroid_indices"]}
{"id": "C42", "title": "Lloyd step never increases the k-means objective", "statement": "One Lloyd step does not increase the sum of squared Euclidean distances to the nearest centroid.", "quantifier": "every data set and centroid set, every number of steps", "why_tests_cant": "Ranges over every input of every size, including adversarial ties and duplicates.", "anchors": ["include/ffcl/kmeans/Lloyd.hpp step"]}
{"id": "C43", "title": "Hamerly keeps exact assignments", "statement": "After every Hamerly step each sample is assigned to a nearest centroid although most distance computations are skipped; upper bounds are never below and lower bounds never above the true distances; sizes and sums match the assignment.", "quantifier": "every data set, initial centroids and number of steps", "why_tests_cant": "Bounds accumulate over the whole history of steps.", "anchors": ["include/ffcl/kmeans/Hamerly.hpp swap_bounds", "include/ffcl/kmeans/Hamerly.hpp update_bounds"]}
{"id": "C44", "title": "Best candidate and early stopping", "statement": "fit keeps the candidate with the smallest reported loss among n_init runs, each run makes at most max_iter steps, and stops early only after patience + 1 consecutive steps that left the centroids (medoids) unchanged up to the tolerance.", "quantifier": "every sequence of losses, every option set", "why_tests_cant": "All loss histories.", "anchors": ["include/ffcl/kmeans/KMeans.hpp fit", "include/ffcl/kmedoids/KMedoids.hpp fit"]}
{"id": "C45", "title": "n-th nearest medoid", "statement": "samples_to_nearest/second/third nearest medoid helpers return the first, second and third smallest distances to the medoids with matching positions.", "quantifier": "every distance table and medoid list", "why_tests_cant": "Ranges over every input of every size, including adversarial ties and duplicates.", "anchors": ["include/ffcl/kmedoids/PAMUtils.hpp"]}
{"id": "C46", "title": "FasterPAM swap gain is exact", "statement": "The gain computed by find_best_swap for a candidate equals the true change of the total deviation for the best medoid to remove, and the best medoid is indeed the best.", "quantifier": "every distance table, medoid set and candidate with consistent buffers", "why_tests_cant": "Ranges over every input of every size, including adversarial ties and duplicates.", "anchors": ["include/ffcl/kmedoids/FasterPAM.hpp find_best_swap"]}
{"id": "C47", "title": "FasterPAM buffers and loss stay consistent", "statement": "After any number of steps the cached nearest and second nearest medoids and the reported total deviation equal those recomputed from scratch.", "quantifier": "every distance table without ties at the start, every number of steps", "why_tests_cant": "Incremental updates over the whole history.", "anchors": ["include/ffcl/kmedoids/FasterPAM.hpp swap_buffers"]}
{"id": "C48", "title": "FasterPAM never makes the clustering worse", "statement": "A step never increases the total deviation, each accepted swap strictly decreases it, medoids stay distinct sample indices, so only finitely many swaps occur.", "quantifier": "every distance table and initial medoids", "why_tests_cant": "Whole histories of swaps.", "anchors": ["include/ffcl/kmedoids/FasterPAM.hpp step"]}
{"id": "C49", "title": "FasterPAM convergence is a local optimum", "statement": "When a full pass makes no swap, no single medoid/non-medoid exchange lowers the total deviation.", "quantifier": "every distance table and medoid set", "why_tests_cant": "Ranges over every input of every size, including adversarial ties and duplicates.", "anchors": ["include/ffcl/kmedoids/FasterPAM.hpp step"]}
{"id": "C50", "title": "FasterMSC swap gain is exact", "statement": "With three or more medoids the gain computed for a candidate equals the true change of the sum of d1/d2 ratios.", "quantifier": "every distance table, medoid set and candidate with consistent buffers", "why_tests_cant": "Ranges over every input of every size, including adversarial ties and duplicates.", "anchors": ["include/ffcl/kmedoids/FasterMSC.hpp find_best_swap"]}
{"id": "C51", "title": "FasterMSC buffers stay consistent", "statement": "After a swap the cached three nearest medoids equal those recomputed from scratch.", "quantifier": "every distance table, medoid set and swap", "why_tests_cant": "Ranges over every input of every size, including adversarial ties and duplicates.", "anchors": ["include/ffcl/kmedoids/FasterMSC.hpp swap_buffers"]}
{"id": "C52", "title": "PAM BUILD is greedy", "statement": "Each BUILD round adds the candidate with the largest reduction of the total deviation and reports the deviation after adding it.", "quantifier": "every distance table and number of medoids", "why_tests_cant": "Ranges over every input of every size, including adversarial ties and duplicates.", "anchors": ["include/ffcl/kmedoids/PAMBuild.hpp build"]}
{"id": "C53", "title": "Alias method reproduces the weights", "statement": "For non-negative weights with positive sum the probability that the alias table yields index i is exactly weight i divided by the sum of the weights; zero-weight indices are never drawn.", "quantifier": "every weight vector", "why_tests_cant": "A test can only sample; exact probabilities for all weights need proof.", "anchors": ["include/ffcl/common/math/random/VosesAliasMethod.hpp"]}
{"id": "C54", "title": "Random selection without replacement", "statement": "select_n_elements returns n distinct elements of the range for every outcome of the generator, and every element can be selected.", "quantifier": "every range, n and generator outcome", "why_tests_cant": "Quantifies over all generator outcomes.", "anchors": ["include/ffcl/common/math/random/Sampling.hpp select_n_elements"]}
{"id": "C55", "title": "k-means++ never picks a chosen centroid again", "statement": "When the data has more distinct points than centroids drawn so far, k-means++ draws a sample that differs from all centroids already drawn.", "quantifier": "every data set and generator outcome", "why_tests_cant": "Quantifies over all generator outcomes.", "anchors": ["include/ffcl/kmeans/KMeansPlusPlus.hpp make_centroids"]}
{"id": "C56", "title": "Distances are metrics", "statement": "manhattan, unsigned manhattan and Euclidean distances are symmetric, zero exactly on equal points, satisfy the triangle inequality and are at least the coordinate difference on every axis (the fact tree pruning relies on).", "quantifier": "every pair/triple of feature vectors of equal length", "why_tests_cant": "Ranges over every input of every size, including adversarial ties and duplicates.", "anchors": ["include/ffcl/common/math/heuristics/Distances.hpp"]}
{"id": "C57", "title": "Levenshtein distance", "statement": "levenshtein_distance equals the minimum number of insertions, deletions and substitutions that turn one sequence into the other; it is a metric.", "quantifier": "every two sequences over any alphabet with equality", "why_tests_cant": "Minimum over all edit scripts of all sequences.", "anchors": ["include/ffcl/common/math/heuristics/Distances.hpp levenshtein_distance"]}
{"id": "C58", "title": "Mean and variance", "statement": "The mean/variance helpers return the arithmetic mean and the unbiased sample variance per feature; the one-pass variance equals the two-pass one; the indexed overloads agree with the plain one.", "quantifier": "every data set with at least two samples, every index subset", "why_tests_cant": "Ranges over every input of every size, including adversarial ties and duplicates.", "anchors": ["include/ffcl/common/math/statistics/Statistics.hpp compute_mean_per_feature", "include/ffcl/common/math/statistics/Statistics.hpp compute_variance_per_feature"]}
{"id": "C59", "title": "Order statistics helpers", "statement": "argmin/argmax return the first extremal position; get_second_max_index_value_pair returns a largest element among the others; find_nth_smallest_index_and_element returns the n-th smallest element with a matching index.", "quantifier": "every non-empty range", "why_tests_cant": "Ranges over every input of every size, including adversarial ties and duplicates.", "anchors": ["include/ffcl/common/math/statistics/Statistics.hpp"]}
{"id": "C60", "title": "Normalisation", "statement": "normalize returns non-negative values that sum to one; normalize_min_max maps into [0,1].", "quantifier": "every range with positive sum / non-constant", "why_tests_cant": "Ranges over every input of every size, including adversarial ties and duplicates.", "anchors": ["include/ffcl/common/math/statistics/Statistics.hpp normalize"]}
{"id": "C61", "title": "Silhouette scores", "statement": "Silhouette scores are in [-1,1], match the definition (b-a)/max(a,b), are 0 for singleton clusters, and cluster sizes add up to the number of samples.", "quantifier": "every distance table and labelling", "why_tests_cant": "Ranges over every input of every size, including adversarial ties and duplicates.", "anchors": ["include/ffcl/common/math/heuristics/SilhouetteMethod.hpp"]}
{"id": "C62", "title": "Index permutation helpers", "statement": "permutation_from_indices places element indices[i] at i; remap_ranges_from_indices copies exactly the addressed rows in order.", "quantifier": "every data set and index list", "why_tests_cant": "Ranges over every input of every size, including adversarial ties and duplicates.", "anchors": ["include/ffcl/common/Utils.hpp permutation_from_indices", "include/ffcl/common/Utils.hpp remap_ranges_from_indices"]}
{"id": "C63", "title": "Left rounding centre", "statement": "For integer bounds the centre computed with left rounding is the largest integer not above the midpoint, lies in the segment, and the size computed from it covers the segment.", "quantifier": "every pair of integer bounds", "why_tests_cant": "Ranges over every input of every size, including adversarial ties and duplicates.", "anchors": ["include/ffcl/common/Utils.hpp compute_center_with_left_rounding", "include/ffcl/common/Utils.hpp compute_size_from_center_with_left_rounding"]}
{"id": "C64", "title": "Split axis selection", "statement": "Every axis policy returns a valid feature index; the maximum spread policy returns an axis of maximum extent; with a feature mask the axis belongs to the mask.", "quantifier": "every data set, mask and depth", "why_tests_cant": "Ranges over every input of every size, including adversarial ties and duplicates.", "anchors": ["include/ffcl/datastruct/tree/kdtree/policy/AxisSelectionPolicy.hpp", "include/ffcl/datastruct/tree/kdtree/KDTreeAlgorithms.hpp select_longest_axis"]}
{"id": "C65", "title": "Dual-tree shortest edge", "statement": "dual_tree_shortest_edge with one neighbour per query returns the minimum distance over all query/reference pairs.", "quantifier": "every pair of trees", "why_tests_cant": "Pruning over all geometric configurations.", "anchors": ["include/ffcl/search/TreeTraverser.hpp dual_tree_shortest_edge", "include/ffcl/search/buffer/IndicesToBuffersMap.hpp"]}
{"id": "C66", "title": "HDBSCAN end to end", "statement": "predict terminates and returns one label per sample; labels are 0 or 1..K and every positive label is carried by at least min_cluster_size samples.", "quantifier": "every data set and option set", "why_tests_cant": "Ranges over every input of every size, including adversarial ties and duplicates.", "anchors": ["include/ffcl/hdbscan/HDBSCAN.hpp predict"]}
{"id": "C67", "title": "Membership and diameter of bounds", "statement": "is_in_bounds of a box is membership in every segment; diameter of a box is the largest Euclidean distance of two points inside; two points inside a ball are closer than its diameter.", "quantifier": "every box, ball and pair of points", "why_tests_cant": "Ranges over every input of every size, including adversarial ties and duplicates.", "anchors": ["include/ffcl/datastruct/bounds/AABB.hpp diameter_impl", "include/ffcl/datastruct/bounds/Ball.hpp is_in_bounds_impl"]}
{"id": "C68", "title": "Furthest bound distance", "statement": "centroid_to_furthest_bound_distance of a box bounds the distance of every point inside from the centroid.", "quantifier": "every box and point inside", "why_tests_cant": "Ranges over every input of every size, including adversarial ties and duplicates.", "anchors": ["include/ffcl/datastruct/bounds/AABBWithCentroid.hpp centroid_to_furthest_bound_distance_impl"]}
{"id": "C69", "title": "Cluster stability", "statement": "The stability of a cluster of the condensed tree is the sum over its samples of lambda(p) - lambda_birth, where lambda(p) is the inverse of the distance at which the sample leaves the cluster and lambda_birth that at which the cluster splits off its parent.", "quantifier": "every dendrogram, every min_cluster_size, every cluster", "why_tests_cant": "Ranges over every input of every size, including adversarial ties and duplicates.", "anchors": ["include/ffcl/datastruct/tree/condensed_cluster_tree/CondensedClusterNode.hpp add_excess_of_mass", "include/ffcl/datastruct/tree/condensed_cluster_tree/CondensedClusterTree.hpp preorder_traversal_build"]}
{"id": "C70", "title": "FasterMSC reports its objective", "statement": "The total deviation reported by FasterMSC is, after construction and after every exchange, the sum over the samples of the ratio of the distances to the nearest and second nearest medoid.", "quantifier": "every distance table and medoid set", "why_tests_cant": "Ranges over every input of every size, including adversarial ties and duplicates.", "anchors": ["include/ffcl/kmedoids/FasterMSC.hpp FasterMSC, total_deviation, swap_buffers"]}
{"id": "C71", "title": "FasterMSC never makes the clustering worse", "statement": "An accepted exchange strictly lowers the sum of the ratios and the medoids stay distinct.", "quantifier": "every distance table, medoid set and candidate", "why_tests_cant": "Ranges over every input of every size, including adversarial ties and duplicates.", "anchors": ["include/ffcl/kmedoids/FasterMSC.hpp step"]}
{"id": "C72", "title": "Boruvka with the dual-tree search builds a spanning tree", "statement": "make_tree_2 terminates and returns n_samples - 1 edges connecting all samples, each weighted with the distance of its end points, whatever the number of neighbours; with one neighbour the tree is a minimum spanning tree.", "quantifier": "all non-empty floating datasets, trees, hash-map iteration orders and neighbour counts from 1", "why_tests_cant": "Termination and minimality are statements about all executions; the function is not called from any test.", "anchors": ["include/ffcl/datastruct/graph/spanning_tree/BoruvkasAlgorithm.hpp:464-586", "include/ffcl/search/TreeTraverser.hpp:275-398"]}
{"id": "C73", "title": "KMedoids::fit returns good medoids", "statement": "fit returns k distinct sample indices whose total deviation is at most that of every start it tried, and, when max_iter is large enough, that no exchange of one medoid lowers; medoids_to_centroids returns the samples at these indices.", "quantifier": "every distance table, options, given or drawn medoids and outcome of the random generator", "why_tests_cant": "Depends on whole histories of exchanges and on random outcomes.", "anchors": ["include/ffcl/kmedoids/KMedoids.hpp:144-316", "include/ffcl/kmedoids/PAMUtils.hpp:774-795", "include/ffcl/common/math/random/Sampling.hpp:13-43"]}
{"id": "C74", "title": "The k-d tree is balanced", "statement": "A tree over n samples has height at most log2(n) + 1: every inner node leaves about half of its samples to each child.", "quantifier": "every data set, axis policy, bucket size and maximum depth", "why_tests_cant": "The height depends on the whole history of splits; no finite set of data shows the bound.", "anchors": ["include/ffcl/datastruct/tree/kdtree/KDTreeAlgorithms.hpp:198-274", "include/ffcl/datastruct/tree/kdtree/KDTree.hpp:302-382"]}
{"id": "C75", "title": "Searching batches of buffers and several trees", "statement": "Handing a batch of buffers to a searcher returns them in the same order, each as a search with this buffer alone would leave it, i.e. with the k nearest samples of its query. Handing one buffer to the searchers of several parts of a data set in turn leaves in it the k nearest samples of all parts together.", "quantifier": "every data set, batch, number of parts and trees over them", "why_tests_cant": "Ranges over every input of every size, including adversarial ties and duplicates.", "anchors": ["include/ffcl/search/Search.hpp:137-159", "include/ffcl/search/TreeTraverser.hpp:191-218"]}
{"id": "C76", "title": "DBSCAN labels do not depend on the index structure", "statement": "Two searchers over the same samples, whatever their tree options and the order of their indices, give the same label list: clusters are numbered by their first core sample in sample order and a sample goes to the first cluster that can take it. Reordering the samples does not change which core samples share a label.", "quantifier": "every floating-point data set, radius, min_samples, pair of trees and reordering", "why_tests_cant": "Ranges over every input of every size, including adversarial ties and duplicates.", "anchors": ["include/ffcl/dbscan/DBSCAN.hpp predict", "include/ffcl/dbscan/DBSCAN.hpp predict_inner"]}
{"id": "C77", "title": "Searches and DBSCAN under floating-point rounding", "statement": "With every difference, square, sum and square root rounded to nearest, a computed Euclidean distance is within a small factor of the true one; a k-nearest search returns samples that are nearest for the computed distances (exactly, when coordinates are equal or differ by more than epsilon; otherwise up to a small factor and 2*epsilon); a radius search returns exactly the samples whose computed distance is below the radius; DBSCAN labels meet their specification for the computed distances.", "quantifier": "every precision, tie rule, order of summation (with fused multiply-add in any places), data set, query and tree", "why_tests_cant": "Rounding errors depend on the data; a plane that is skipped because of one wrong last bit shows on no chosen input.", "anchors": ["include/ffcl/common/math/heuristics/Distances.hpp:34-76", "include/ffcl/common/Utils.hpp:402-430", "include/ffcl/search/TreeTraverser.hpp:113-189", "include/ffcl/dbscan/DBSCAN.hpp predict"]}
{"id": "C78", "title": "Spanning trees and core distances under floating-point rounding", "statement": "With every operation rounded to nearest, Boruvka's algorithm still stops within log2(n) rounds with a spanning tree weighted with the computed distances, of minimum total weight up to a small factor and 2*epsilon per edge (exactly minimal when coordinates are equal or differ by more than epsilon), and core distances are k-th smallest computed distances.", "quantifier": "every precision, tie rule, order of summation, data set, tree and hash order", "why_tests_cant": "Rounding could make two components choose each other inconsistently on inputs no test contains.", "anchors": ["include/ffcl/datastruct/graph/spanning_tree/BoruvkasAlgorithm.hpp make_tree", "include/ffcl/common/math/heuristics/Distances.hpp:34-76"]}
{"id": "C79", "title": "The dendrogram is the single linkage clustering of the samples", "statement": "The spanning tree and the dendrogram built from it describe the data and not the run: two samples are below a common node of level at most c exactly when a chain of samples links them, each step of (mutual reachability) distance at most c, and the weights of the tree are the same for all tree options and hash orders.", "quantifier": "every data set, threshold, tree option, hash order, sort and number of neighbours", "why_tests_cant": "A test compares with one expected dendrogram; it cannot tell that a chain through arbitrary samples is never missed.", "anchors": ["include/ffcl/datastruct/graph/spanning_tree/BoruvkasAlgorithm.hpp make_tree", "include/ffcl/datastruct/tree/single_linkage_cluster_tree/SingleLinkageClusterTree.hpp:178-221"]}
{"id": "C80", "title": "HDBSCAN clusters do not depend on implementation choices", "statement": "Running HDBSCAN on the same data with other k-d tree options, other iteration orders of the hash containers or another order of equal elements in std::sort gives the same clusters and the same noise, up to the numbers of the clusters.", "quantifier": "every data set, option, hash order and sort", "why_tests_cant": "Hash orders and the order of equal elements are fixed for one standard library; tests on one platform always see the same choice.", "anchors": ["include/ffcl/hdbscan/HDBSCAN.hpp:93-116", "include/ffcl/datastruct/graph/spanning_tree/MinimumSpanningTree.hpp:30-38"]}
{"id": "C81", "title": "Distances from the origin and translation agree with the distances", "statement": "The distance of a vector from the origin is its distance to the zero vector, for each of the three distances; and measuring from the origin after translate_right_range_to_origin(l, r) gives the distance between l and r.", "quantifier": "every vector of every length", "why_tests_cant": "Ranges over every input of every size, including adversarial ties and duplicates.", "anchors": ["include/ffcl/common/math/heuristics/Distances.hpp:15-31", "include/ffcl/common/math/heuristics/Distances.hpp:61-92", "include/ffcl/common/math/heuristics/Distances.hpp:119-133", "include/ffcl/common/math/linear_algebra/Translation.hpp:10-30"]}
{"id": "C82", "title": "cosine_similarity is a similarity", "statement": "cosine_similarity returns infinity only for vectors without direction, otherwise a value in [-1, 1]; it is symmetric, does not change when a vector is scaled by a positive factor, is 1 exactly for vectors of the same direction and -1 exactly for opposite ones.", "quantifier": "every pair of vectors of equal length and every scale", "why_tests_cant": "Scale invariance is a statement about all magnitudes; small vectors are exactly those a test does not try.", "anchors": ["include/ffcl/common/math/heuristics/Distances.hpp:160-193", "include/ffcl/common/Utils.hpp:430-440"]}
{"id": "C83", "title": "The neighbour distances do not depend on the tree", "statement": "The sorted distances returned by a k nearest neighbour search are the k smallest distances to the query: they do not depend on the order of the samples, the split policy, the bucket size or the depth of the tree; asking for more neighbours only appends larger distances; adding samples never increases the distance at a given rank; without equal distances the samples returned are the same too.", "quantifier": "every data set, query, order of the samples, tree option and k", "why_tests_cant": "Ranges over every input of every size, including adversarial ties and duplicates.", "anchors": ["include/ffcl/search/TreeTraverser.hpp", "include/ffcl/search/buffer/StaticBuffer.hpp", "include/ffcl/datastruct/tree/kdtree/KDTree.hpp"]}
{"id": "C84", "title": "Cutting the HDBSCAN dendrogram at a radius gives the DBSCAN clusters", "statement": "HDBSCAN with k nearest neighbours and DBSCAN with min_samples = k - 1 on the same data: two samples are joined in the dendrogram at a level below the radius exactly when both are core samples of DBSCAN and get the same label.", "quantifier": "every floating-point data set, radius, k, tree option, hash order and sort", "why_tests_cant": "It relates two algorithms on all data and all radii at once; a test can compare them on a few cuts only.", "anchors": ["include/ffcl/hdbscan/HDBSCAN.hpp:93-116", "include/ffcl/dbscan/DBSCAN.hpp:103-193", "include/ffcl/datastruct/graph/spanning_tree/BoruvkasAlgorithm.hpp make_tree"]}
{"id": "C85", "title": "A serialised tree describes the tree and its samples completely", "statement": "The file written by KDTree::serialize is one well-formed JSON document; reading it back gives the number of points, the options, the rows of exactly the samples of the index range, cuts that separate them and the tight bounding box; a copy of the tree writes the same file. The file written by SingleLinkageClusterTree::serialize reads back as exactly the tree that was built.", "quantifier": "every data set, index range, option and axis policy; every spanning tree", "why_tests_cant": "Nesting and content of the file depend on the shape of the tree, which is unbounded; a test compares a few files.", "anchors": ["include/ffcl/datastruct/tree/kdtree/KDTree.hpp:107-119,383-465", "include/ffcl/datastruct/tree/kdtree/KDNodeView.hpp:274-301", "include/ffcl/datastruct/tree/single_linkage_cluster_tree/SingleLinkageClusterTree.hpp:239-285", "include/ffcl/datastruct/tree/single_linkage_cluster_tree/SingleLinkageClusterNode.hpp:68-86"]}
{"id": "C86", "title": "Searches bounded by a box or a ball return the samples inside", "statement": "A search whose buffer carries an AABBWithCentroid returns exactly the samples in the closed box with their distances to the centre of the box, and with a capacity k the k of them nearest to the centre; a search with a ball and a capacity k returns the k nearest samples strictly inside the radius. The result does not depend on bucket size, depth limit or axis policy.", "quantifier": "every data set, box, ball, capacity, option and axis policy", "why_tests_cant": "Ranges over every input of every size, including adversarial ties and duplicates.", "anchors": ["include/ffcl/datastruct/bounds/AABBWithCentroid.hpp:68-96,124-161", "include/ffcl/search/buffer/Unsorted.hpp:29-61", "include/ffcl/datastruct/tree/kdtree/KDNodeView.hpp:209-246"]}
{"id": "C87", "title": "Searches on integral data are exact in machine arithmetic", "statement": "On data of any integral type, with integral promotion, overflow and the conversion of distances to the data type taken into account, a search with a capacity returns the nearest samples (within the radius, if one is given) and no operation overflows.", "quantifier": "every integral type, data set, query, capacity, radius, option and axis policy", "why_tests_cant": "Ranges over every input of every size, including adversarial ties and duplicates.", "anchors": ["include/ffcl/common/math/heuristics/Distances.hpp:94-158,271-302", "include/ffcl/datastruct/bounds/UnboundedBall.hpp:84-92,189-197", "include/ffcl/datastruct/bounds/Ball.hpp:88-97,207-216", "include/ffcl/datastruct/tree/kdtree/KDNodeView.hpp:222-242"]}
{"id": "C88", "title": "k-means iterations reach a fixed point", "statement": "From any initial centroids the centroids stop moving after at most k^n steps for n samples and k clusters; at that point every sample is assigned to a nearest centroid, every centroid with samples is the mean of its samples, and neither other centroids for the same assignment nor another assignment for the same centroids has a smaller sum of squared distances. fit with the default tolerance 0 returns such a fixed point whenever it stops before max_iter steps or max_iter is at least k^n, for every patience, with or without early stopping.", "quantifier": "every data set, initial centroids, number of clusters, n_init, patience and stored centroids", "why_tests_cant": "Termination of an iteration over all data sets is not observable by running it on some; a cycle between assignments would show only on the input that has it.", "anchors": ["include/ffcl/kmeans/Lloyd.hpp:91-166", "include/ffcl/kmeans/Hamerly.hpp:94-292", "include/ffcl/kmeans/KMeans.hpp:155-230"]}
{"id": "C89", "title": "DBSCAN clusters grow and merge as the radius grows", "statement": "When DBSCAN::predict is run again on the same data with a larger radius or a smaller min_samples, samples that were core stay core and labelled, and core samples that shared a label still share one; clusters never split and no labelled sample becomes noise.", "quantifier": "all floating-point data sets, radii, min_samples, k-d trees and index orders", "why_tests_cant": "Ranges over every input of every size, including adversarial ties and duplicates.", "anchors": ["include/ffcl/dbscan/DBSCAN.hpp"]}
{"id": "C90", "title": "DBSCAN labels depend only on which pairs are within the radius", "statement": "The labels returned by DBSCAN::predict are a function of min_samples and of the relation 'distance below the radius' between samples: data sets of any dimensions with the same relation get identical labels. In particular translating the data, or scaling data and radius by the same positive factor, changes nothing.", "quantifier": "all pairs of floating-point data sets, radii, k-d trees and index orders", "why_tests_cant": "Ranges over every input of every size, including adversarial ties and duplicates.", "anchors": ["include/ffcl/dbscan/DBSCAN.hpp"]}
{"id": "C91", "title": "HDBSCAN clusters depend only on distances, up to a factor and the order of samples", "statement": "HDBSCAN::predict finds the same clusters and the same noise when the samples are given in another order, when the data is replaced by other data with the same pairwise distances (translation, rotation, other dimensions), and when all distances are multiplied by a positive factor.", "quantifier": "all pairs of data sets related by a permutation and a factor, all k-d trees, hash map orders, sorts and options", "why_tests_cant": "Ranges over every input of every size, including adversarial ties and duplicates.", "anchors": ["include/ffcl/hdbscan/HDBSCAN.hpp", "include/ffcl/datastruct/tree/condensed_cluster_tree/CondensedClusterTree.hpp", "include/ffcl/common/Utils.hpp"]}
{"id": "C92", "title": "k-means follows rigid motions of the data", "statement": "When samples and initial centroids are moved by the same distance-preserving affine map (translation, rotation, reflection, reordered features), k-means returns the moved centroids and the same labels and loss: for Lloyd and for Hamerly after any number of steps, for k-means++ with the same random outcomes, and for fit.", "quantifier": "all samples, initial centroids, motions, numbers of steps, tolerances and options, including ties and empty clusters", "why_tests_cant": "Compares two runs on different inputs for every motion; a test fixes one data set and one motion.", "anchors": ["include/ffcl/kmeans/Lloyd.hpp", "include/ffcl/kmeans/Hamerly.hpp", "include/ffcl/kmeans/KMeans.hpp", "include/ffcl/kmeans/KMeansPlusPlus.hpp", "include/ffcl/kmeans/KMeansUtils.hpp"]}
{"id": "C93", "title": "k-means does not depend on the order of the samples", "statement": "For the same initial centroids, Lloyd and Hamerly give the same centroids, cluster sizes and loss after any number of steps when the samples are given in another order, fit returns the same centroids, and every sample gets the same label wherever it stands in the data set.", "quantifier": "all data sets, permutations, initial centroids, numbers of steps, options and equality tests, including ties and empty clusters", "why_tests_cant": "Quantifies over all permutations of all data sets; Hamerly keeps running sums, sizes and bounds, so an order dependence would show only on particular move sequences.", "anchors": ["include/ffcl/kmeans/Lloyd.hpp", "include/ffcl/kmeans/Hamerly.hpp", "include/ffcl/kmeans/KMeans.hpp", "include/ffcl/kmeans/KMeansUtils.hpp"]}
{"id": "C94", "title": "OpenMP loops have no data races and one result", "statement": "The parallel loops of KMeans::fit, KMedoids::fit, the pairwise distance matrix and the transposition never have two threads at conflicting accesses, stay inside their arrays, always end, and leave exactly the result of the sequential loop, for every number of threads and every interleaving of their memory accesses.", "quantifier": "all data, sizes, block sizes, numbers of candidates, options, algorithms, and all interleavings of the accesses of the iterations", "why_tests_cant": "A test sees the few interleavings that one machine happens to produce; races show up rarely and not under a debugger.", "anchors": ["include/ffcl/kmeans/KMeans.hpp:155-230", "include/ffcl/kmedoids/KMedoids.hpp:144-317", "include/ffcl/datastruct/matrix/PairwiseDistanceMatrix.hpp:96-118", "include/ffcl/common/math/linear_algebra/Transpose.hpp:46-67"]}
{"id": "C95", "title": "Concurrent calls of the const method find", "statement": "UnionFind::find is const, so concurrent calls on one structure are free of data races and return what they return alone.", "quantifier": "all histories of merges and finds, all numbers of concurrent calls, all interleavings", "why_tests_cant": "The method writes parents_ through a const pointer; the outcome of the race depends on the schedule and the compiler.", "anchors": ["include/ffcl/datastruct/UnionFind.hpp:46-56", "include/ffcl/datastruct/graph/spanning_tree/BoruvkasAlgorithm.hpp:509-562"]}
{"id": "C96", "title": "A seed determines the random numbers", "statement": "Calling a uniform or normal distribution with a seed gives numbers that depend on the seed: the same seed gives the same number, and another seed starts another stream.", "quantifier": "all engines, distributions, programs of seeded and unseeded calls, threads and seeds", "why_tests_cant": "Depends on the whole history of calls in the thread; a test program that makes its first call with the seed sees the expected number.", "anchors": ["include/ffcl/common/math/random/Distributions.hpp:16-34", "include/ffcl/common/math/random/Distributions.hpp:47-53", "include/ffcl/common/math/random/Distributions.hpp:81-87"]}
{"id": "C97", "title": "Visited samples are left out whichever way the buffer gets its set", "statement": "A search with a WithMemory buffer never returns a visited sample, whether the set of visited indices is given by reference, moved in or given as a range, and the returned buffer can be used after the call.", "quantifier": "all data sets, trees, queries, visited sets, with and without elision of the returned object, whatever a moved-from set keeps", "why_tests_cant": "The failure comes from a reference into an object that was moved from and then destroyed; what a test observes depends on the standard library and the optimiser.", "anchors": ["include/ffcl/search/buffer/WithMemory.hpp:34-98", "include/ffcl/search/buffer/WithMemory.hpp:122-125", "include/ffcl/search/TreeTraverser.hpp:191-203", "include/ffcl/search/Search.hpp:145-152"]}
{"id": "C98", "title": "NaN and infinite coordinates are memory safe", "statement": "Whatever the coordinates are, NaN and infinities included: partition, quickselect and quicksort stay inside the range, end and permute it; a k-d tree with any options is built, ends and holds every sample exactly as often as supplied within bucket size and depth; a k-nearest search returns min(k, n) of the samples without duplicates; a radius search returns only samples whose computed distance is below the radius; DBSCAN::predict returns one label per sample.", "quantifier": "all floating data (NaN, infinities, finite values), queries, distances, axis policies, bucket sizes, depths, k, radii, min_samples", "why_tests_cant": "NaN makes the comparisons neither total nor transitive, the positions of NaN in the data decide which loop bound stops an index; no finite set of placements covers all partitions.", "anchors": ["include/ffcl/common/algorithms/Sorting.hpp:37-153", "include/ffcl/datastruct/tree/kdtree/KDTree.hpp", "include/ffcl/search/Searcher.hpp", "include/ffcl/search/buffer/StaticBuffer.hpp:143-182", "include/ffcl/dbscan/DBSCAN.hpp"]}
{"id": "C99", "title": "Non-finite samples do not disturb the answers about the other samples", "statement": "If some samples have non-finite coordinates, a k-nearest search and a radius search around a finite query still return the right samples with respect to the computed distances, and DBSCAN still finds the clusters of the finite samples.", "quantifier": "all data with non-finite coordinates, finite queries, k, radii, tree options", "why_tests_cant": "Ranges over every input of every size, including adversarial ties and duplicates.", "anchors": ["include/ffcl/common/algorithms/Sorting.hpp:37-153", "include/ffcl/datastruct/tree/kdtree/KDNodeView.hpp:222-242", "include/ffcl/search/buffer/StaticBuffer.hpp:143-182", "include/ffcl/dbscan/DBSCAN.hpp", "include/ffcl/common/Utils.hpp:411-421"]}
{"id": "C100", "title": "Trees that share one index array do not disturb each other", "statement": "A KDTree reorders the index range it is built on and keeps iterators into it. It reorders nothing outside of its range; trees over disjoint ranges of one array, and any other change outside of the range of a tree, leave the searches of that tree as they were; a radius search on floating data stays exact after any reordering of the range of its tree; and the k-NN searches of a tree stay right after further trees are built on the same range with the same axis policy, whatever their bucket sizes and depths.", "quantifier": "All data, index arrays, ranges, axis policies, bucket sizes, depths, queries, k and numbers of later constructions.", "why_tests_cant": "Ranges over every input of every size, including adversarial ties and duplicates.", "anchors": ["include/ffcl/datastruct/tree/kdtree/KDTree.hpp", "include/ffcl/datastruct/tree/kdtree/KDNodeView.hpp", "include/ffcl/datastruct/tree/kdtree/KDTreeAlgorithms.hpp", "include/ffcl/common/algorithms/Sorting.hpp", "include/ffcl/search/TreeTraverser.hpp"]}
{"id": "C101", "title": "Empty data sets and single samples", "statement": "Calling the library on an empty data set gives an empty answer (an empty tree, no neighbours, no labels, no edges) and never fails; on a data set of one sample DBSCAN labels it 1 exactly when min_samples is 0 and the radius is positive, and HDBSCAN puts it into cluster 1 with every option.", "quantifier": "all data types, metrics, axis policies, bucket sizes, depths, radii, min_samples, k, cluster options and random outcomes", "why_tests_cant": "Ranges over every input of every size, including adversarial ties and duplicates.", "anchors": ["include/ffcl/datastruct/tree/kdtree/KDTree.hpp", "include/ffcl/search/TreeTraverser.hpp", "include/ffcl/dbscan/DBSCAN.hpp", "include/ffcl/datastruct/graph/spanning_tree/BoruvkasAlgorithm.hpp", "include/ffcl/hdbscan/HDBSCAN.hpp", "include/ffcl/kmeans/KMeansPlusPlus.hpp", "include/ffcl/kmeans/Lloyd.hpp", "include/ffcl/common/math/random/Sampling.hpp", "include/ffcl/common/math/heuristics/SilhouetteMethod.hpp"]}
{"id": "C102", "title": "DBSCAN makes one radius query for each sample", "statement": "DBSCAN::predict searches the indexer exactly once around every sample, in some order, and its inner loop makes no more iterations than there are ordered pairs of samples within the radius, so that the running time is n queries plus the size of their answers.", "quantifier": "all data sets, radii, min_samples, tree options and axis policies", "why_tests_cant": "the number of queries is not observable in the labels, and a test cannot bound it for all inputs", "anchors": ["include/ffcl/dbscan/DBSCAN.hpp"]}
{"id": "C103", "title": "The three closest-pair functions agree", "statement": "For two sets of samples without a common point, simple_dual_set_shortest_edge, dual_set_shortest_edge (one neighbour per query) and sequential_dual_set_shortest_edge (references not connected with the queries) return edges of the same length, the distance between the two sets; dual_set_shortest_distance returns that distance. Each returned pair is a closest pair.", "quantifier": "All data, index sets, tolerances of the floating comparisons, axis policies and histories of the union-find structure.", "why_tests_cant": "Ranges over every input of every size, including adversarial ties and duplicates.", "anchors": ["include/ffcl/search/ClosestPairOfSamples.hpp"]}
{"id": "C104", "title": "The nodes of a tree are destroyed with the tree", "statement": "When the last object that owns a tree is destroyed, all nodes of the tree are destroyed, and none before. This holds for KDTree and its copies. It fails for SingleLinkageClusterTree and CondensedClusterTree, whose nodes own their parents: every call of HDBSCAN::predict leaves the 2n-1 nodes of the single linkage tree allocated for ever, and the nodes of a condensed tree of more than one node.", "quantifier": "All k-d trees and numbers of copies; all spanning trees, minimal cluster sizes, heaps before the call and later destructions.", "why_tests_cant": "A leak is not visible in the results of the functions, and a test cannot show for all inputs that nothing is left or that something always is.", "anchors": ["include/ffcl/datastruct/tree/kdtree/KDTree.hpp", "include/ffcl/datastruct/tree/kdtree/KDNodeView.hpp", "include/ffcl/datastruct/tree/single_linkage_cluster_tree/SingleLinkageClusterTree.hpp", "include/ffcl/datastruct/tree/single_linkage_cluster_tree/SingleLinkageClusterNode.hpp", "include/ffcl/datastruct/tree/condensed_cluster_tree/CondensedClusterTree.hpp", "include/ffcl/datastruct/tree/condensed_cluster_tree/CondensedClusterNode.hpp", "include/ffcl/hdbscan/HDBSCAN.hpp"]}
{"id": "C105", "title": "A union-find built from any in-range labels, cyclic ones included, behaves as the closure of labels and merges", "statement": "Build a UnionFind from an array of labels that are sample indices; the labels may form chains and cycles. Then any history of find and merge calls with valid arguments terminates without an access outside the arrays, two find calls agree exactly when the two samples are connected through labels and merged pairs, the value returned by find or merge is a member of its set, and from then on it is the answer for every member of that set. A single find makes fewer than twice as many iterations as there are samples. Unlike a fresh union-find, the representative of a cycle depends on which sample is asked first, a find may walk a whole chain, and a label that is no sample index is undefined behaviour.", "quantifier": "all sizes, all in-range label arrays, all histories of valid calls", "why_tests_cant": "Path halving on a cyclic array looks like an endless loop; that it always unwinds the cycle needs an argument over all arrays, and a test only sees a few of them.", "anchors": ["include/ffcl/datastruct/UnionFind.hpp:18", "include/ffcl/datastruct/UnionFind.hpp:41-45", "include/ffcl/datastruct/UnionFind.hpp:47-79"]}
{"id": "C106", "title": "The tight segment computed with a lower bound and a length", "statement": "make_tight_segment takes the segment class as a template parameter. With LowerBoundAndLength the result for a non-empty sequence of values has the least value as lower bound and the greatest rise of the sequence (greatest difference of a value to an earlier one) as length. It therefore reaches all values exactly when a least value comes at or before a greatest value, and is never too long; update_lower_bound of this class moves the upper bound along. For signed types of at least 32 bits a negative first value is signed overflow; otherwise, when all differences fit the type, machine arithmetic gives the same segment.", "quantifier": "all sequences of values, both segment classes, all integral types (exact values for floating types)", "why_tests_cant": "Ranges over every input of every size, including adversarial ties and duplicates.", "anchors": ["include/ffcl/datastruct/Interval.hpp", "include/ffcl/datastruct/bounds/segment/LowerBoundAndLength.hpp", "include/ffcl/datastruct/bounds/segment/LowerBoundAndUpperBound.hpp"]}
{"id": "C107", "title": "DBSCAN on part of the indices of a data set", "statement": "The comment of DBSCAN::predict lets the caller index only part of a data set: the samples of the range get the labels that DBSCAN gives to these samples alone, in a vector as long as the range of indices.", "quantifier": "for all floating data sets, ranges of distinct indices in any order, radii, min_samples and tree options", "why_tests_cant": "Ranges over every input of every size, including adversarial ties and duplicates.", "anchors": ["include/ffcl/dbscan/DBSCAN.hpp:66-77", "include/ffcl/dbscan/DBSCAN.hpp:103-149", "include/ffcl/datastruct/tree/kdtree/KDTree.hpp:252-254"]}
{"id": "C108", "title": "DBSCAN is exact on integral data", "statement": "The labels of DBSCAN are right on data of any type, integral types included, although a radius search around an arbitrary point is not complete there (C15).", "quantifier": "for all data sets whose coordinates are compared exactly, symmetric distances smallest from a sample to itself, radii, min_samples, tree options, index orders, values of infinity and pruning distances", "why_tests_cant": "Ranges over every input of every size, including adversarial ties and duplicates.", "anchors": ["include/ffcl/dbscan/DBSCAN.hpp:103-193", "include/ffcl/search/TreeTraverser.hpp:219-271", "include/ffcl/search/buffer/StaticBuffer.hpp:93-95", "include/ffcl/datastruct/tree/kdtree/KDNodeView.hpp:222-244"]}
{"id": "C109", "title": "common::equality and the membership tests", "statement": "common::equality on floating values is true exactly when both are finite and at most epsilon apart: symmetric, reflexive on finite values only (an infinity or NaN is not equal to itself), not transitive (a chain of n equal values spans up to n epsilons and that is attained), exact from magnitude 2 on and true for all values below half an epsilon. On integral values it is equality of the values whenever the common type is signed or neither value is negative; a negative value equals the unsigned value that is 2^bits larger. is_element_in finds exactly the elements other than NaN; is_element_in_first finds exactly the finite values within epsilon of a finite first component; the _not_ forms are the opposites. The comparisons <=, < and == are those of the ordered set with two infinities and false on NaN.", "quantifier": "all values (finite, infinite, NaN) over any ordered field, all integral types and values in their range, all ranges", "why_tests_cant": "Ranges over every input of every size, including adversarial ties and duplicates.", "anchors": ["include/ffcl/common/Utils.hpp:397-428", "include/ffcl/common/Utils.hpp:624-683"]}
{"id": "C110", "title": "Work done by selection and sorting", "statement": "partition_around_pivot_index makes at most 4n+2 scan tests, quickselect and quicksort at most n(4n+2), and quicksort nests at most n calls. The quadratic case is reached when all values are equal: quickselect of position k takes exactly (k+1)(2n-k) tests, quicksort takes n(n+1)-2 tests and needs exactly n nested calls, and splitting a k-d tree node of n samples along a feature in which they agree takes at least 3n^2/4 tests.", "quantifier": "all index ranges, keys in any linear order, pivots and positions, exact equality or equality with tolerance", "why_tests_cant": "Ranges over every input of every size, including adversarial ties and duplicates.", "anchors": ["include/ffcl/common/algorithms/Sorting.hpp:48-255", "include/ffcl/datastruct/tree/kdtree/KDTreeAlgorithms.hpp:225-274"]}
{"id": "C111", "title": "Trees and searches follow a change of units", "statement": "On integral data any strictly increasing conversion of the coordinates gives the same permutation of the indices and the same k-d tree with converted bounds. Multiplying all coordinates, the query and the radius by a positive integer gives the same neighbours in the same order with the distances multiplied. On floating data this fails, since values are compared with an absolute tolerance.", "quantifier": "all data sets in the range of the types, queries, capacities, radii, bucket sizes and depths, axis policies that follow the conversion (cycling, maximum spread)", "why_tests_cant": "Ranges over every input of every size, including adversarial ties and duplicates.", "anchors": ["include/ffcl/datastruct/tree/kdtree/KDTree.hpp:193-382", "include/ffcl/common/algorithms/Sorting.hpp:48-195", "include/ffcl/search/TreeTraverser.hpp:60-245", "include/ffcl/datastruct/Interval.hpp:113-142"]}
{"id": "C112", "title": "Sequences of calls on one KMeans or KMedoids object", "statement": "Any sequence of calls of set_options, fit, predict and forward on one object is defined, keeps the number of centroids (medoids), and as long as fit is given the same samples never makes the stored clustering worse; once fit has converged, fitting the same samples again changes nothing, whatever the options; predict assigns each sample to the nearest of the centroids (medoids) found by fit; the result of fit depends only on its arguments, the options and the random draws.", "quantifier": "all sequences of calls, samples, options, initialisers and generator outcomes", "why_tests_cant": "Ranges over every input of every size, including adversarial ties and duplicates.", "anchors": ["include/ffcl/kmeans/KMeans.hpp:116-283", "include/ffcl/kmedoids/KMedoids.hpp:112-370"]}
{"id": "C113", "title": "k-means and k-medoids in floating arithmetic", "statement": "With every subtraction, product, sum, quotient and square root rounded to nearest (unit roundoff u) and the distances summed in any order, predict of KMeans assigns each sample a centroid whose true distance is at most (1 + u)^(nf + 5) times that of any other, exactly the nearest one if that is nearer by more than this factor, and forward reports that distance up to the square root of the factor; the labels of KMedoids predict satisfy the same. A step of Lloyd's algorithm moves every centroid with n samples to within ((1 + u)^(n + 1) - 1) times the mean absolute coordinate of their mean, and any number of steps keeps the k-means objective below its initial value up to explicit factors and an additive error from these two bounds.", "quantifier": "all precisions, symmetric rounding rules for ties, orders of summation, data sets of at most 2^p samples, initial centroids and numbers of steps", "why_tests_cant": "Rounding errors depend on the data and on the order of summation; tests compare a few results with a tolerance and cannot bound the error for all inputs.", "anchors": ["include/ffcl/kmeans/KMeansUtils.hpp:9-162", "include/ffcl/kmeans/Lloyd.hpp:91-166", "include/ffcl/kmeans/KMeans.hpp", "include/ffcl/common/math/heuristics/Distances.hpp:50-76"]}
{"id": "C114", "title": "Work done by the construction of a k-d tree", "statement": "For any data, axis policy, bucket size and depth limit, the construction of a k-d tree over n samples makes at most 4 n + 3 tests on coordinates for each sample and each level of the tree, hence at most n^2 (4 n + 3); at most (log2 n + 1) n (4 n + 3) when the samples differ on every axis. When all samples are equal the number of tests is given by an exact formula and is at least (n - bucket_size)^3 / 4 unless the depth limit stops the construction: duplicates are the cubic case.", "quantifier": "all data sets, index ranges, axis policies, bucket sizes, depth limits, exact and epsilon equality", "why_tests_cant": "Ranges over every input of every size, including adversarial ties and duplicates.", "anchors": ["include/ffcl/datastruct/tree/kdtree/KDTree.hpp:193-222", "include/ffcl/datastruct/tree/kdtree/KDTree.hpp:302-382", "include/ffcl/datastruct/tree/kdtree/KDTreeAlgorithms.hpp:198-274", "include/ffcl/common/algorithms/Sorting.hpp:48-195"]}
{"id": "C115", "title": "A change of the unit of length does not change k-means, k-medoids and silhouette results", "statement": "Measuring the data in another unit (multiplying all coordinates by a positive factor) multiplies the centroids of k-means by the factor and leaves the labels, the samples drawn by k-means++, the medoids and labels of k-medoids and the silhouette scores unchanged; losses are multiplied by the factor.", "quantifier": "all samples, initial centroids or medoids, labellings, positive factors, numbers of steps, options and generator outcomes", "why_tests_cant": "Ranges over every input of every size, including adversarial ties and duplicates.", "anchors": ["include/ffcl/kmeans/KMeans.hpp", "include/ffcl/kmeans/Lloyd.hpp", "include/ffcl/kmeans/Hamerly.hpp", "include/ffcl/kmeans/KMeansPlusPlus.hpp", "include/ffcl/common/math/random/VosesAliasMethod.hpp", "include/ffcl/kmedoids/FasterPAM.hpp", "include/ffcl/kmedoids/KMedoids.hpp", "include/ffcl/common/math/heuristics/SilhouetteMethod.hpp"]}
{"id": "C116", "title": "fit with FasterMSC: total, and what the result means", "statement": "KMedoids::fit with the algorithm FasterMSC returns as many sample indices as there are clusters, without any access outside a vector, for every table of distances (ties included), every option and every outcome of the generator; a single cluster is rejected. With two clusters every step changes nothing or strictly lowers the reported loss, so it converges; with more clusters it converges (false). The returned medoids are the best of the candidates (false), never worse than the start (false), and independent of the unit of length (false).", "quantifier": "all tables, numbers of samples and clusters, options, generator outcomes", "why_tests_cant": "Ranges over every input of every size, including adversarial ties and duplicates.", "anchors": ["include/ffcl/kmedoids/KMedoids.hpp:144-316", "include/ffcl/kmedoids/FasterMSC.hpp:102-506", "include/ffcl/kmedoids/PAMUtils.hpp:677-708"]}
{"id": "C117", "title": "Searches of one tree at the same time", "statement": "Any number of threads may call a Searcher (operator() const), or several Searchers whose trees share one index array and data set, at the same time, each with its own buffer: no schedule has a data race, every access is to an existing element of the index array or to a sample it names, all calls end, each returns exactly what it returns alone, and nothing shared is changed. The same holds while other threads write elsewhere, for instance construct trees over other ranges of the index array. It does not hold while a tree is constructed over the same range: the construction swaps elements that every search reads.", "quantifier": "all data, index arrays, trees (any options), numbers of threads, queries and buffers, all interleavings of the accesses", "why_tests_cant": "Ranges over every input of every size, including adversarial ties and duplicates.", "anchors": ["include/ffcl/search/Search.hpp:137-142", "include/ffcl/search/TreeTraverser.hpp:191-269", "include/ffcl/datastruct/tree/kdtree/KDNodeView.hpp:209-272", "include/ffcl/common/algorithms/Sorting.hpp:113-139"]}
{"id": "C118", "title": "Spanning tree and HDBSCAN on a k-d tree over part of the indices", "statement": "When the k-d tree of the indexer was built on part of the indices of the data set, make_tree and HDBSCAN::predict are about the samples of the tree. Of the code this is false: the forest has all samples of the data set. With two samples or more in the tree, make_tree ends after at most log2 n rounds and returns a spanning tree of all n samples, every edge of which ends at a sample of the tree, with every sample outside joined to a nearest sample of the tree (up to twice the equality tolerance), weights being distances or mutual reachability distances with core distances among the samples of the tree; predict returns a label for each of the n samples. With one sample in the tree and three or more in the data set, no call is defined.", "quantifier": "all floating data sets (exact real arithmetic), ranges of distinct indices, trees, iteration orders of the hash maps, neighbour counts, sorting routines, options", "why_tests_cant": "Ranges over every input of every size, including adversarial ties and duplicates.", "anchors": ["include/ffcl/datastruct/graph/spanning_tree/BoruvkasAlgorithm.hpp:422-460", "include/ffcl/datastruct/graph/spanning_tree/CoreDistances.hpp:40-54", "include/ffcl/datastruct/tree/kdtree/KDTree.hpp:252-254", "include/ffcl/hdbscan/HDBSCAN.hpp:93-116"]}
{"id": "C119", "title": "Alias method and k-means++ with rounded arithmetic", "statement": "With the rounding of the floating type taken into account (precision p, nearest, any rule for ties, unbounded exponent): VosesAliasMethod on n non-negative weights, not all zero, builds a table whose probabilities differ from w_i / sum(w) by at most 8 (n + 2) / 2^p in total; the index computed from the first uniform number is in range; an index of weight zero is never drawn, and k-means++ draws k pairwise different samples when there are k distinct ones.", "quantifier": "all precisions, roundings and tie rules, all lists of weights, all data sets, orders of summation and outcomes of the generator", "why_tests_cant": "Ranges over every input of every size, including adversarial ties and duplicates.", "anchors": ["include/ffcl/common/math/random/VosesAliasMethod.hpp:56-109", "include/ffcl/kmeans/KMeansPlusPlus.hpp:40-65"]}
{"id": "C120", "title": "Silhouette scores with rounded arithmetic", "statement": "On floating samples, with every addition, subtraction and division of silhouette() rounded: the call returns one score per sample, every score is in [-1, 1] exactly, a score differs from the score of the same distances computed without rounding by at most (4n+6)/2^p for n samples and p bits of precision, it has the sign of (separation - cohesion) whenever these differ by the relative amount 4(n+1)/2^p, every score is 1 when there is one cluster; and get_average_silhouette of n scores is in [-1, 1] exactly and within (n+3)/2^(p+1) of their mean.", "quantifier": "all labellings, all nonnegative distances of the format, all precisions p and every round-to-nearest rule, n up to 2^p (2^p/4 for the error)", "why_tests_cant": "Ranges over every input of every size, including adversarial ties and duplicates.", "anchors": ["include/ffcl/common/math/heuristics/SilhouetteMethod.hpp"]}
{"id": "C121", "title": "Centre and size of a segment in machine arithmetic", "statement": "centroid() and to_bound() of a segment of integers, computed in the machine type with integral promotion, overflow and conversion, give the exact values of C63 whenever the sum of the bounds (and for the size 1 + upper and the size itself) fits; outside that range signed types of 32 bits and more give undefined behaviour, 8 and 16 bit types a size reduced to a negative number, and wide unsigned types a centre that is off by 2^(bits-1). For LowerBoundAndLength of 8 and 16 bit types membership, centre and size are always exact; for wide unsigned types membership is exact unless the upper bound is 0, for wide signed types unless the upper bound or one less is no value of the type.", "quantifier": "every integral type width and signedness, every segment of values of the type", "why_tests_cant": "Overflow occurs at a few values near the ends of a type, which differ for each type; a test on one type sees none of them.", "anchors": ["include/ffcl/common/Utils.hpp:443-472", "include/ffcl/datastruct/bounds/segment/LowerBoundAndUpperBound.hpp:64-78", "include/ffcl/datastruct/bounds/segment/LowerBoundAndLength.hpp:44-95"]}
{"id": "C122", "title": "Searches and DBSCAN in single or double precision with underflow and overflow", "statement": "In an IEEE format (radix 2, p bits, largest exponent emax, subnormal numbers, results of 2^emax or more become infinite) with every operation of the Euclidean distance, the gap to a splitting plane and common::equality rounded to nearest: (a) a finite computed distance D of two rows of the format and the true distance T satisfy D^2 <= (1+u)^(nf+5) (T^2 + (nf+1) 2^(emin-1)) and T^2 <= (1+u)^(nf+5) (D^2 + (nf+1) 2^(emin-1)), and a computed distance is infinite only if (1+u)^(nf+5) (T^2 + (nf+1) 2^(emin-1)) >= 2^emax; away from underflow and overflow it is the distance of C77. (b) When coordinates on an axis are equal or not equal for common::equality, the k-nearest-neighbour search through a tree built with any options returns k nearest samples for the computed distances, exactly, though distances may underflow to 0 or overflow to infinity. (c) On any data of the format it returns min(k, n) samples, and no sample left out at a finite computed distance D lets a returned one be farther than (1+u)^2 (max(D, 2^(1-emax/2)) + 2 eps). (d) A radius search returns exactly the samples whose computed distance is below the radius, also when gaps to splitting planes overflow, and DBSCAN meets all guarantees of C23-C26 and C76 for the computed distances. Two rows that differ can be at the computed distance 0, and rows at a true distance of about 2^(emax/2) or more are at an infinite one and are found by no radius search.", "quantifier": "all precisions p >= 1 and even emax > p (emax >= 4 for (c), 6 for (d); double is 53 and 1024), all roundings to nearest with a symmetric rule for ties, all orders of summation with fused multiply-add in any places, all data and queries of the format ((b): any), all split policies, bucket sizes, depths, k and radii, 0 <= eps <= 1 ((b): eps >= 0)", "why_tests_cant": "Ranges over every input of every size, including adversarial ties and duplicates.", "anchors": ["include/ffcl/common/math/heuristics/Distances.hpp", "include/ffcl/common/Utils.hpp", "include/ffcl/search/TreeTraverser.hpp:113-189", "include/ffcl/search/buffer/Unsorted.hpp", "include/ffcl/search/buffer/StaticBuffer.hpp", "include/ffcl/dbscan/DBSCAN.hpp"]}
{"id": "C123", "title": "Spanning trees and core distances with overflow and underflow", "statement": "In single or double precision, where squares may underflow and differences, squares and sums may overflow to infinity: when the samples are joined by pairs at a finite computed distance, BoruvkasAlgorithm::make_tree (one nearest neighbour) ends within log2 n rounds with a spanning tree of finite computed distances, minimal for the computed distances on data whose coordinates differ by more than the equality tolerance, nearly minimal otherwise. When they are not so joined, make_tree never ends. The core distances are the k-th smallest computed distances, which may be zero or infinite.", "quantifier": "all data of the format, all precisions p >= 1 and even exponent ranges emax >= max(p + 1, 4), all correctly rounded arithmetics, all orders of summation with or without fused multiply-add, all tree options, all iteration orders of the hash maps, all neighbour counts", "why_tests_cant": "Ranges over every input of every size, including adversarial ties and duplicates.", "anchors": ["include/ffcl/datastruct/graph/spanning_tree/BoruvkasAlgorithm.hpp", "include/ffcl/datastruct/graph/spanning_tree/CoreDistances.hpp", "include/ffcl/common/math/heuristics/Distances.hpp", "include/ffcl/search/Search.hpp"]}
{"id": "C124", "title": "Counting in an index type chosen by the caller", "statement": "For every integral type T, FeaturesMask<T>(n) holds 0, 1, ..., n-1 exactly when n is at most the number of nonnegative values of T and, for int and wider signed types, at most the greatest value. Under the same condition on Index, UnionFind<Index>(n) and every history of find and merge with arguments below n is defined, no index or rank wraps, and all returned values are those of a union-find on unbounded integers, so two finds agree exactly when the samples are connected by merges. make_n_elements_from_interval draws from all the values first..second-1 exactly when second - first fits the promoted type and is undefined otherwise. levenshtein_distance returns the edit distance whenever one more than the longer length fits the promoted type of the elements.", "quantifier": "every integral type, every n, every history of calls, every interval, every pair of sequences", "why_tests_cant": "Ranges over every input of every size, including adversarial ties and duplicates.", "anchors": ["include/ffcl/datastruct/vector/FeaturesMask.hpp:23-24", "include/ffcl/datastruct/vector/FeaturesMask.hpp:97-101", "include/ffcl/datastruct/UnionFind.hpp:32-79", "include/ffcl/common/math/random/Sampling.hpp:29-43", "include/ffcl/common/math/heuristics/Distances.hpp:195-237"]}
{"id": "C125", "title": "k-means in a floating format with overflow and gradual underflow", "statement": "For samples of float or double and centroids that may hold infinities or NaN, predict returns a label in range: the first centroid at the least computed distance, which has finite coordinates and is, up to rounding and underflow, the nearest finite centroid; if every computed distance overflows, the label is 0 and the distance infinity. A step of Lloyd's algorithm never fails and never produces NaN from finite samples; a coordinate of a non-empty cluster is the mean up to rounding and half of the smallest number, or an infinity, and then the sum of the absolute values was at the overflow threshold. When neither sums nor distances can overflow, every centroid stays finite over any number of steps and the objective stays below that of the initial centroids up to accumulated rounding and underflow.", "quantifier": "every precision and even exponent range, every rounding to nearest, every order of summation with or without fused operations, all rows including infinities and NaN, any number of steps", "why_tests_cant": "Ranges over every input of every size, including adversarial ties and duplicates.", "anchors": ["include/ffcl/kmeans/KMeansUtils.hpp:9-75", "include/ffcl/kmeans/KMeansUtils.hpp:119-162", "include/ffcl/kmeans/Lloyd.hpp:91-166", "include/ffcl/common/math/heuristics/Distances.hpp:50-76"]}
{"id": "C126", "title": "HDBSCAN selects nearly the most stable clusters when stabilities are computed in floating arithmetic", "statement": "CondensedClusterTree computes the stability of every cluster and selects clusters in the floating type of the data. Whatever that arithmetic gives (rounding, contraction, overflow, not-a-number), predict returns labels that describe clusters of the hierarchy which do not overlap and have every leaf cluster below one of them, the leaf clusters when they are asked for, and not the whole data set alone unless allow_single_cluster. In an IEEE format no operation overflows for up to 2^p samples whatever the distances are, each computed stability of a cluster with k samples is within ((1+u)^(k+3)-1) * 2*L*k of the exact one, where L bounds 1/level and u is the unit roundoff, and the selected clusters are as stable as any allowed choice of clusters up to 2*((1+u)^(2n+3)-1) * 2*L*n. A choice that is better than all others by more than that is the one that is returned, with the labels of exact arithmetic.", "quantifier": "all dendrograms with up to 2^p samples, all levels, minimum cluster sizes and options, all formats with precision p >= 2 and 2p+6 <= emax (float, double), every rounding to nearest, with and without fused multiply-add", "why_tests_cant": "Ranges over every input of every size, including adversarial ties and duplicates.", "anchors": ["include/ffcl/datastruct/tree/condensed_cluster_tree/CondensedClusterTree.hpp:113-131", "include/ffcl/datastruct/tree/condensed_cluster_tree/CondensedClusterTree.hpp:144-220", "include/ffcl/datastruct/tree/condensed_cluster_tree/CondensedClusterTree.hpp:264-288", "include/ffcl/datastruct/tree/condensed_cluster_tree/CondensedClusterNode.hpp:84-88", "include/ffcl/common/Utils.hpp:431-440"]}
{"id": "C127", "title": "In floating arithmetic the mutual reachability tree is found exactly when every sample has k samples within a finite computed distance", "statement": "With float or double data, make_tree with k > 1 neighbours returns, within log2(n) rounds, a spanning tree weighted with max(core distance, core distance, distance), all finite, when the samples are joined by pairs at a finite computed distance and every sample has min(k, n) samples, itself included, at a finite computed distance. Each core distance is one of the computed distances of its sample, with min(k, n) of them at most equal to it and fewer certainly below it. With k = 2 the weight of the tree exceeds that of any connecting set of edges by at most the factor (1+u)^4 and 4 eps + 2^(2-emax/2) per edge. In all other cases, for two samples or more, make_tree never ends.", "quantifier": "all data of the format, split policies, bucket sizes, depths, summation orders with or without fused multiply-add, iteration orders of the hash maps, all k below 2^64, all formats with p+1 <= emax, every rounding to nearest", "why_tests_cant": "Ranges over every input of every size, including adversarial ties and duplicates.", "anchors": ["include/ffcl/datastruct/graph/spanning_tree/BoruvkasAlgorithm.hpp:280-325", "include/ffcl/datastruct/graph/spanning_tree/BoruvkasAlgorithm.hpp:380-460", "include/ffcl/datastruct/graph/spanning_tree/CoreDistances.hpp:40-54"]}
{"id": "C128", "title": "HDBSCAN from samples to labels in floating arithmetic: ends on data in range, with nearly the most stable clusters", "statement": "HDBSCAN::predict on float or double data, with every distance, comparison, division, stability and sum computed in that type, returns labels if and only if the samples are joined by finite computed distances and every sample has min(k, n) samples at a finite computed distance (two samples or more); coordinates bounded so that no sum of squares overflows are enough. The labels then describe clusters of the hierarchy of the dendrogram of a spanning tree of the data: two samples are below a common node of level at most c exactly when tree edges of weight at most c link them; clusters do not overlap, label 0 is the rest, each label 1, ..., K is on at least min_cluster_size samples (or on all), the clusters are the leaves when asked for, and otherwise no allowed choice of clusters has a total stability that exceeds the one of the selected clusters by more than 4*((1+u)^(2n+3)-1)*L*n, where L bounds the inverse distances.", "quantifier": "all data of the format with up to 2^p samples, all options, neighbour counts, split policies, iteration and summation orders, sorts that sort by weight, all formats with p >= 2 and 2p+6 <= emax, every rounding to nearest", "why_tests_cant": "Ranges over every input of every size, including adversarial ties and duplicates.", "anchors": ["include/ffcl/hdbscan/HDBSCAN.hpp:93-116", "include/ffcl/datastruct/graph/spanning_tree/BoruvkasAlgorithm.hpp:422-460", "include/ffcl/datastruct/tree/condensed_cluster_tree/CondensedClusterTree.hpp:113-220"]}
{"id": "C129", "title": "In floating arithmetic FasterPAM keeps exact nearest medoids, and an exchange it accepts is worse by no more than the rounding error", "statement": "With every sum and difference of losses rounded, from medoids without ties and after any number of steps (also in the middle of one), no access is out of bounds, the medoids stay distinct samples and their number stays. For every sample the cached two nearest medoids and distances are exactly right, and total_deviation() is the total deviation up to the factor (1+u)^n. The gain that find_best_swap returns is within E = ((1+u)^(2n+2)-1) 2nD of the change of the total deviation, D being the largest distance, and no other position is better by more than 2E. A candidate is rejected only if no exchange with it gains more than E (or the guard of the step skips it), and accepted only if the total deviation grows by less than E. If the distances are whole numbers and 4nD <= 2^p, the run is the run of exact arithmetic. In single precision an accepted exchange can make the clustering worse.", "quantifier": "all tables of distances, all starting medoids without ties, all numbers of steps, all precisions, every rounding to nearest", "why_tests_cant": "Ranges over every input of every size, including adversarial ties and duplicates.", "anchors": ["include/ffcl/kmedoids/FasterPAM.hpp:93-130", "include/ffcl/kmedoids/FasterPAM.hpp:137-157", "include/ffcl/kmedoids/FasterPAM.hpp:159-201", "include/ffcl/kmedoids/FasterPAM.hpp:203-308", "include/ffcl/kmedoids/PAMUtils.hpp:656-675"]}
{"id": "C130", "title": "KMedoids::fit in floating arithmetic returns k distinct samples, no worse than the start but for the rounding", "statement": "With every sum and difference of losses rounded, whatever the options and the outcomes of the generator, fit with FasterPAM returns k distinct sample indices, if the distances of each sample to the first k samples (or to the given medoids) are all different. Their total deviation TD satisfies (2-(1+u)^n) TD <= (1+u)^n (TD0 + max_iter n E), TD0 being that of the first k samples and E = ((1+u)^(2n+2)-1) 2nD the error of a gain; with given medoids TD <= TD0 + max_iter n E. If the distances are whole numbers and 4nD <= 2^p, fit returns what it returns in exact arithmetic. From samples of nf features with computed Euclidean distances, the same holds of the true total deviations with the factor of the distances, sqrt((1+u)^(nf+5)), twice.", "quantifier": "all tables of distances and all samples, all options, all outcomes of the generator, all precisions, every rounding to nearest, all orders of summation of the distances", "why_tests_cant": "Ranges over every input of every size, including adversarial ties and duplicates.", "anchors": ["include/ffcl/kmedoids/KMedoids.hpp:144-316", "include/ffcl/kmedoids/FasterPAM.hpp:93-157", "include/ffcl/common/Utils.hpp:504-540"]}
{"id": "C131", "title": "PAM BUILD in floating arithmetic returns k distinct samples, chosen as in exact arithmetic up to the error of the sums", "statement": "With every sum and difference of distances rounded, build returns k distinct samples and for every sample exactly the distance to the nearest of them, if no computed sum reaches infinity. The first sample m is the best single medoid up to (2-(1+u)^n) TD(m) <= (1+u)^n TD(c) for every c, and first_medoid_td_index_pair returns its total deviation up to the factor (1+u)^n. Each later round adds a sample whose reduction of the total deviation is the smallest (the wrong way round, see C52) up to the same inequality with n+1. If the distances are whole numbers of at most D and k n D <= 2^p, build returns what it returns in exact arithmetic. In single precision the first medoid need not be the best one.", "quantifier": "all tables of distances, all numbers of samples and medoids, all precisions, every rounding to nearest", "why_tests_cant": "Ranges over every input of every size, including adversarial ties and duplicates.", "anchors": ["include/ffcl/kmedoids/PAMBuild.hpp:12-82", "include/ffcl/kmedoids/PAMUtils.hpp:710-772"]}
{"id": "C132", "title": "KMedoids::fit on integral data: signed types are exact below the overflow bound, unsigned types never move a medoid", "statement": "On data of a signed integral type, if the Manhattan distances are at most D and 4 n D is at most the greatest value of the type, fit with FasterPAM computes all distances and sums without overflow: it returns k distinct samples whose total deviation is at most that of the start, and a local optimum for a large enough max_iter. On data of an unsigned type a step never exchanges a medoid, because the change of the total deviation is an unsigned value compared with 0: fit returns the given medoids, or the first k samples in some order, whatever the data. Without the bound on D the stored losses wrap and fit can return the same sample twice with a larger total deviation than the start.", "quantifier": "all integral types, all samples, numbers of medoids, options and outcomes of the generator, whatever value an undefined overflow gives", "why_tests_cant": "Ranges over every input of every size, including adversarial ties and duplicates.", "anchors": ["include/ffcl/kmedoids/FasterPAM.hpp:93-308", "include/ffcl/kmedoids/PAMUtils.hpp:430-500", "include/ffcl/kmedoids/PAMUtils.hpp:656-675", "include/ffcl/kmedoids/KMedoids.hpp:151-316", "include/ffcl/common/math/heuristics/Distances.hpp:262-300"]}
{"id": "C133", "title": "FasterMSC on signed integral data never exchanges a medoid", "statement": "On data of a signed integral type with at least three medoids, if no sample has two equal distances to the medoids of the start, FasterMSC makes no exchange in any number of steps: the ratios of distances are integer divisions, so that no candidate has a positive gain. The medoids stay those of the start, whatever the data; with exact ratios they move.", "quantifier": "all tables of whole distances, all numbers of samples and of medoids from three on, any number of steps", "why_tests_cant": "Ranges over every input of every size, including adversarial ties and duplicates.", "anchors": ["include/ffcl/kmedoids/FasterMSC.hpp:102-245", "include/ffcl/kmedoids/PAMUtils.hpp:677-708", "include/ffcl/common/Utils.hpp:430-440"]}
