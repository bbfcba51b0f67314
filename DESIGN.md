# FFCL formal model: design and trusted base

Source modelled: `/repo/include/ffcl` (header-only C++ clustering library). All
line numbers in Lean comments are relative to `/repo/include/ffcl` unless a
longer path is given. Property list: `properties.jsonl`; status per property:
`MANIFEST.json`; mutation experiments: `seeded/LOG.jsonl`.

## Trusted base

* Lean 4.33.0 kernel, and the three standard axioms `propext`,
  `Classical.choice`, `Quot.sound`. No other axiom, no `sorry`, no
  `native_decide`, no `bv_decide`.  Checked with `#print axioms` (`tools/axioms.py`).
* The transcription of the C++ code into Lean definitions. Each definition
  carries a comment with the file and lines it transcribes, and every
  simplification is stated there.

## Modelling conventions

* **Numbers.** Feature values and distances live in an abstract linearly
  ordered type (`[LinearOrder K]`, or an ordered field when the code divides).
  `float`/`double` are read as exact reals/rationals, except in C77, C78,
  C113, C119, C120, C129 to C131 (and the `_rounded` theorems of others), where every
  operation is rounded to nearest with an unbounded exponent, and in C122,
  C123 and C125 to C128, where results also underflow gradually and overflow.  The sums
  of squares of the distances may use fused multiply-add in any places.  NaN
  and the infinities are modelled in C98, C99 and C125
  (`Flt F`: NaN, an infinity or an exact finite value; the tree, search and
  DBSCAN models only need `<` and `<=` and are instantiated with it).
  Elsewhere overflow and underflow are not modelled, except integral
  promotion, overflow and conversion in C87, C121, C124 and C132.
  `common::infinity<T>()` (`common/Utils.hpp:393`) is a parameter where it
  matters, because it is `0` for integral `T` and `+inf` for floating `T`.
  Index arithmetic is exact on `Nat` except `remaining_capacity()`, where the
  unsigned wrap-around is observable and is modelled, and in C124 (index types
  chosen by the caller).
* **Distances.** Search, clustering and graph code is parametrised by a
  distance table `dist : Nat -> Nat -> K`. Facts about the concrete distances
  (`auto_distance`) are proved separately (C56) and instantiate the hypotheses.
* **Undefined behaviour / non-termination.** Out-of-range reads are a distinct
  outcome (`none`), and a loop that does not stop within its fuel is also
  `none`; theorems prove that the outcome is `some _`. Where a `while(true)` is
  modelled with fuel, the theorem gives the fuel that always suffices.
* **Randomness and schedules** are explicit arguments (lists of outcomes,
  permutations of work items) and theorems quantify over all of them.
* **Freedom of the standard library** (arrangement of a heap with equal
  elements, iteration order of hash tables, order of equal elements after
  `std::sort`) is a parameter with the laws the standard gives, and theorems
  quantify over it.
* **Positive and negative results.** When the property as a user would state it
  is false of the code, the file contains a `..._counterexample` theorem with a
  concrete witness run of the model, and a `..._partial` theorem with the part
  that does hold.

## Layout

* `Verif/Model/*.lean`  transcription of the code, no proofs.
* `Verif/Spec/*.lean`   small specifications that do not mention the model.
* `Verif/Lemmas/*.lean` helper lemmas and invariants.
* `Verif/Props/*.lean`  the property theorems, with a non-vacuity example each.

## Plan per property

| id | what is modelled | how it is proved |
|---|---|---|
| C01-C03 | `UnionFind` as parent/rank arrays, `find` loop with path splitting, `merge` by rank | invariant (ranks increase along parents, 2^rank <= class size) over all call histories; refinement to the equivalence closure of merged pairs |
| C04-C07 | `Sorting.hpp` on an index array and a key function | loop invariants of the Hoare-style partition, fuel bound, induction |
| C08-C11 | `KDTree::build` with the quickselect median rule and arbitrary axis policy | structural induction on the built tree |
| C12-C13 | `StaticBuffer` state machine | invariant over all update sequences |
| C14-C18 | `TreeTraverser` single tree traversal on the built tree | induction on the tree with the pruning lemma |
| C19-C20 | `ClosestPairOfSamples.hpp` | fold invariants, C17 |
| C21-C22 | segments, boxes, balls, tight bounds | algebra over ordered fields / reals |
| C23-C26 | `DBSCAN::predict` with an arbitrary neighbour query | loop invariant of the expansion |
| C27-C31 | `BoruvkasAlgorithm` step and main loop | for every threshold s, chosen edges of weight >= s are independent modulo the pairs closer than s; counting argument against any connecting edge set; components halve each round |
| C32-C34 | `SingleLinkageClusterTree` build and cut | forest invariant over the sorted edges |
| C35-C38 | `CondensedClusterTree` build and selection | structural induction |
| C39-C40 | triangular matrix, transpose | index bijections, schedule independence |
| C41-C44 | `KMeans*`, Lloyd, Hamerly, fit loop | fold invariants, mean minimises squares, bound invariants |
| C45-C52, C70, C71 | `PAMUtils`, FasterPAM, FasterMSC, BUILD | buffer invariant, sum decomposition; with ties, the loop keeps the three smallest entries of the sorted list of different distances |
| C53-C55 | alias method, sampling, k-means++ | invariant of the two work lists; all generator outcomes quantified |
| C56-C57 | distances, Levenshtein two-row DP | metric axioms, minimum over edit scripts |
| C58-C61 | statistics and silhouette | algebra over ordered fields |
| C62-C64 | utils, axis policies | list lemmas |
| C67-C68 | box and ball membership, diameters | algebra over reals |
| C69 | stability of condensed clusters | induction over the dendrogram, exit nodes specified separately |
| C65 | dual tree traversal, buffers per query, queue of edges | invariant of the traversal: every pair of nodes already visited or pruned is covered by the best edge |
| C66 | HDBSCAN pipeline | composition of the above |
| C72 | `make_tree_2`, `step_dual_tree_sequential` on top of C65's search and C27's forest | the loop invariant of C27 (`mergeEdges_spec`) with the edges of the dual-tree search; union-find state threaded through the buffers; fuel `log2 n + 1` shown sufficient |
| C73 | `KMedoids::fit` (FasterPAM), `medoids_to_centroids` | C44's loop over C48's steps; with ties the weaker record invariant `WRec`: cached loss >= total deviation, prediction >= new cached loss; termination since the loss takes finitely many values |
| C74 | sizes of the two sides of a split, height of the built tree | induction over the construction with an inversion lemma; the left side is the prefix before the first value equal to the median |
| C75 | batch `operator()`, one buffer through several trees | the traversal invariant of C14 started from any buffer state |
| C76 | the same DBSCAN model | exact description of what the inner loop visits (`Reach`), invariant of the outer loop in terms of the specification `IsLabel`, which has one solution; invariance of cores and chains under a permutation |
| C77 | rounding to nearest in radix 2 with `p` bits and unbounded exponent (`Rounding`: any symmetric tie rule, so ties-to-even is one); rounded equality, gap and Euclidean distance with any order of summation | monotonicity and relative error of rounding; the rounded square root of the rounded square of `d` is at least `d`, so a gap never exceeds a distance behind it; the traversal and construction theorems are generic in equality, gap and distance; a concrete rounding is constructed |
| C78 | the same arithmetic in Boruvka's algorithm and the core distances | C27's invariant with the loss per distance that C77 gives; counting argument with a factor |
| C79 | no new code; specifications `IsMinimum` and `Reach` | exchange argument (a heavier edge on the path could be replaced), counting of components for the multiset of weights, C33 for the dendrogram |
| C80 | the whole pipeline of C66 | two dendrograms with the same thresholds and strictly increasing levels are equal up to the order of children (`Iso`); condensation, selection and labels respect `Iso` |
| C81 | `Model/Origin.lean`: `transform_reduce` over one range, `translate` | sums; unsigned variant refuted |
| C82 | `Model/Origin.lean`: `cosine` with `infinity` as `⊤` and the epsilon test of `division` | inner product space of Mathlib (Cauchy-Schwarz and its equality cases); scale invariance refuted for small vectors |
| C83 | the search of C14/C77 | the sorted distances of any `IsKNearest` selection are the first k of all sorted distances; counting argument for the slack |
| C84 | HDBSCAN tree (C79) and DBSCAN (C23) together | core distance below r iff k samples within r; chains of mutual reachability distance are chains of core samples |
| C85 | writer calls of the two serialisers as tokens; a JSON reader and readers of the documents as specification | reader after writer is the identity, by induction on the tree |
| C86 | `boxOffer`, `boxOps`: box filter, cached centre, pruning with the buffer | a box search is a search with a filtered candidate function; search theorems of C14/C15 for any filter |
| C87 | promotion, overflow, conversion of integral types in distance, pruning difference and buffer | under the fitting hypothesis every operation returns the exact value; then the search theorems of C14/C15 |
| C88 | Lloyd and Hamerly steps of C42/C43, `fit` of C44 with `are_containers_equal` at tolerance 0 | the cost after a move is a function of the assignment, decreasing, with finitely many values; the mean is the unique minimiser, so at constant cost no centroid with samples moves; the bound by the pigeonhole principle on assignments; for Hamerly an assignment changes only when the sample's centroid is no longer nearest, so a repeated state stays |
| C89 | two runs of predictTree with radius1 <= radius2 and min_samples2 <= min_samples1 | monotonicity of degrees, core samples and density connection in the relation 'within the radius', applied to the guarantees of C23-C25 |
| C90 | two runs of predictTree on different data | both queries are correct for the same relation, so C76_same_abstract gives equal labels; euclidean distances scale with the data |
| C91 | two runs of predict on data sets related by a permutation and a factor | renaming of minimum spanning trees, dendrograms (iso_of_under) and condensed trees; lambdas and stabilities scale by the inverse factor |
| C92 | Lloyd, Hamerly, `fit`, k-means++ as for C42–C45, on data mapped by `x ↦ L x + v` | each loop commutes with the map; position sums change by size times `v`; homomorphism lemma for `fit`; counterexample for empty clusters |
| C93 | as C92 | the new entries of a sample are a function of the sample alone (`swapOne`); sizes and sums are the tally of the assignment, which is invariant under permutations; relational lemma for `fit` |
| C94 | small-step interleaving semantics of threads of reads and writes; the loops of `fit`, the distance matrix and the transposition as threads | footprints: threads whose writes are apart from the accesses of the others keep `view = own writes + initial memory` invariant, so each ends with its sequential result; accesses add up to a fixed number |
| C95 | `find` as a thread (C94's semantics) | the race is exhibited for every history; otherwise the rank invariant of C01 with stale reads: a written grandparent is in the same set with larger rank |
| C96 | both thread_local engines by thread, abstract engine and distributions, programs as sequences of calls | induction over the calls; the engine of a thread is fixed by its first seeded call |
| C97 | addresses of live sets, reference member, constructors, implicit move constructor, destructor, and the moves of the searcher | the search equals the search of C16 with the set that the reference is bound to; a destroyed set is undefined behaviour |
| C98 | `Model/NonFinite.lean`: values NaN/-inf/finite/+inf with IEEE comparisons and subtraction, plugged in the models of sorting, tree, search and DBSCAN | induction over the loops for any irreflexive comparison (`Lemmas/AnyOrder*.lean`) |
| C99 | the same values; finite values and +inf are `WithTop` | partition, tree and search are natural in order embeddings (`Lemmas/Embed.lean`), so the run on +inf data is the run on `WithTop`, where the split and pruning lemmas hold with 2 eps; witnesses for NaN and -inf by `decide` |
| C100 | Nodes with positions of a shared array instead of lists of indices; construction reorders the range in place; a search reads through the positions | view of a fresh tree is the tree; views depend on the range only; quickselect on a range that is split already at its median swaps nothing, so that later constructions keep pivots and leaf sets; counterexamples by evaluation |
| C101 | every entry point on n = 0 and n = 1: `make`, `search`, `DBSCAN.predictTree`, `makeTree`, `HDBSCAN.predict`, `nearestIndices`, `plusPlus`, `lloydStep`, `fromInterval`, `silhouette` | a tree with one index is a leaf or a node with two empty leaves, so a search offers the sample once whatever is pruned; the rest by computation for arbitrary parameters |
| C102 | `predictT`: the loops of DBSCAN with the queries made and the iterations counted | erasing the record gives `predict`; invariant: the queries made are those of the visited samples, without repetition, and iterations made plus neighbours waiting are at most the sum of the answers |
| C103 | dual_set_shortest_edge and dual_set_shortest_distance over the model of the dual traversal | each tree is one leaf because the default depth limit is 0 (C11), so no pruning takes place and the tolerance has no effect; then the results for the traversal (C65) and for the restricted searches (C19, C20) |
| C104 | A heap of reference-counted objects (std::shared_ptr) with the operations of the three constructors and destructors | Counts equal the numbers of owners (invariant of every operation); objects that own each other are never destroyed; a minimal live node of the k-d tree would have a live owner before it |
| C105 | The constructor taking labels, with find and merge as in C01 | From any index the parents form a tail leading into a cycle; a step of find either shortens the tail or takes one element out of the cycle, so tail length plus twice the cycle length decreases. Each step keeps the connected components and the fixed points, and a component has at most one fixed point |
| C106 | make_tight_segment with LowerBoundAndLength, exact and with the arithmetic of the integral types | invariant over the prefix of the sequence (least value, greatest rise); the machine version is shown equal step by step |
| C107 | predictTree on a tree built on any list of distinct indices, loop over n_samples() of the whole data set | labels of the range: the queries of samples outside can be replaced by empty ones, then the label specification of C76 is transported along the increasing enumeration of the range; samples outside: invariant of the outer loop for samples nothing points at |
| C108 | predictTree with infinity 0, any gap function | induction over the tree: an unlimited buffer holding a sample has remaining capacity, the query's own sample lies on the descent path of an ordered tree, so every sample is offered; then the label specification of C76. For arbitrary trees: soundness invariant with the starting sample of every cluster |
| C109 | Floating values with NaN and infinities, integral types with the usual arithmetic conversions, std::find_if | case analysis against a specification by an embedding into WithBot (WithTop F); ranges of types for the conversions |
| C110 | The sorting functions with a counter, proved to return the results of the model when the counter is dropped | telescoping bound of the scans per partition, induction over the rounds; closed form for equal values by induction |
| C111 | The construction and search models over two ordered types | simulation of every comparison through an order embedding (Lemmas/Embed); the bounds do not depend on the limits of the type |
| C112 | KMeans and KMedoids objects as state machines over lists of calls, with Lloyd, Hamerly and FasterPAM as algorithms | induction over the calls with the stored centroids as state; fixed points from C88, deviation from C73, labels from C41 and C45; counterexamples by evaluation |
| C113 | the loops of Model/KMeans.lean instantiated with rounded distances, rounded row addition and rounded quotients | error of left-to-right summation by induction, C77 for distances, cost of an assignment near the nearest and of centroids near the means |
| C114 | the construction with a count of tests, shown to erase to the construction | induction over the recursion with the size and height lemmas of C74 and the selection bounds of C110 |
| C115 | the existing models of k-means, alias method, FasterPAM and silhouette | every loop commutes with multiplication of all distances (`Lemmas/Scale`), composed with the motions of C92; FasterPAM without ties does not depend on the sentinel and comparison, since the nearest two are unique; silhouette from its specification |
| C116 | `fitMSC` = the loop of `fit` with the constructor and step of FasterMSC | invariant on the shape of the members (positions below k, lengths) over constructor, exchange and step; with two medoids the new loss equals the predicted one term by term, and the losses form a finite set; witnesses by evaluation, the cycle by evaluation of seven steps and induction |
| C117 | `Job.prog` (the accesses of a call to the index array and to samples; buffer local), `searchMem` | threads that only read keep the memory and their own result (invariant over executions); induction over descent and way up shows that the program reads what the sequential search uses and returns its result; for other writers the general theorem on separate footprints |
| C118 | make_tree and predict as for C27-C31 and C66, on make applied to a list of distinct indices | the main loop with the invariant that every component has a sample of the tree, which the first round establishes; a component that holds all samples of the tree makes the query read an empty buffer |
| C119 | VosesAliasMethod with every operation rounded (Model/AliasRounded.lean; without rounding it is the model of C53, aliasInitR_id), k-means++ on top of it with rounded distances | invariant of the main loop: the surplus of the open cells and the credit of every index drift by at most u (1 + M) at each pairing, fake probabilities only decrease, aliases are indices that were at least 1; sum, quotient and products bounded by powers of 1 + u; counterexample by exact evaluation of the rounded sum for every rounding |
| C120 | the functions of Model/Silhouette.lean over a value type whose operations round (Model/SilhouetteRounding.lean): sums left to right, quotients, differences, the count converted to the type | relative bounds of the computed means; the least of the computed means is near the least mean; the score is Lipschitz in the logarithm of the ratio; a quotient of two numbers of the format, smaller by larger, never rounds to 1; partial sums of scores are bounded by integers, which are numbers of the format |
| C121 | `centerMachine`, `sizeMachine` and the member functions of both segment classes with `IntType.result` (overflow as `none` or reduction) and `IntType.convert` | case analysis on the sign of the sum and the range of each intermediate value |
| C122 | Magnitudes as extended reals, rounding to the format with subnormal numbers, overflow to infinity, for every operation of the distance, the gap and the equality test (Model/RoundingRange) | A format rounding agrees with an unbounded one above 2^(2-emax) and on sums and differences (Lemmas/RoundingRange); a computed square root survives squaring and taking the root again although the square may underflow (parity of emax), so pruning with a computed distance loses nothing; the search invariant with the bound restricted to distances of samples (PruneOkAt, GapBelowOr in Lemmas/Search) |
| C123 | `Model/RoundingRange` (rounding with overflow and gradual underflow) in the searches of `Model/Boruvka`; `rounds` executes the loop body a given number of times | the union-find search lemmas take a pruning hypothesis on achieved distances only (`PruneOkAt`); a component of joined samples has an exit at a finite distance, so its chosen edge is finite; counting argument over `WithTop ℝ`; otherwise every chosen edge is below infinity or the default edge, so the loop condition stays true |
| C124 | std::iota, FeaturesMask, UnionFind, the pool of an interval and the edit distance with the arithmetic of the C++ types (Model/MachineIndex) | iota by induction (exact condition); refinement of the models on naturals, ranks bounded by the size of the sets, costs bounded by the position in the matrix |
| C125 | The loops of Model/KMeans with coordinates that are NaN, infinite or finite and every operation rounded to a bounded format (Model/KMeansRange) | distances by C122, sums by induction (finite while the absolute values stay below the threshold, infinite ones never cancel because the samples are finite), the objective as in C113 with additive terms for underflow |
| C126 | the construction and selection of the condensed tree with the operations on stabilities as a parameter, instantiated with rounded operations of unknown result beyond overflow | simulation between the computed and the exact tree with a relation on stabilities; error terms of the form ((1+u)^j-1)*A closed under rounding, sums and multiples; induction on the tree for the selection |
| C127 | make_tree with mutual reachability weights over numbers or infinity, distances rounded with overflow and underflow | Borůvka rounds with any weight that is finite wherever the distance is; a core distance is finite iff enough distances are; the edges below infinity of a finished run join all samples |
| C128 | predict composed of make_tree over numbers or infinity, the dendrogram of its finite weights and the condensed tree in floating arithmetic | composition of the theorems on the parts: the weights of the tree are finite computed distances, the levels of the dendrogram are those weights, the labels are those of a cut |
| C129 | FasterPAM with a rounding function after every sum and difference | the buffers only compare and copy, so C47 carries over; error of the interleaved sums by counting roundings against the sum of absolute values; a medoid offered as candidate can only be exchanged with itself; integers below 2^p are not rounded |
| C130 | `KMedoids::fit` around the rounded FasterPAM | run of C129 through the iterations of C44; the choice compares losses with the error of a sum of n terms; runs with whole distances coincide step by step; total deviations scale with the factor of C77 |
| C131 | PAM BUILD with a rounding function after every sum and difference | all terms of a sum have the same sign, so its error is relative; the loops take a minimum of computed numbers; integers below 2^p are not rounded |
| C132 | FasterPAM and fit over the integers with the stored value of every sum and difference | all sums are integers of at most 4 n D in absolute value, so the run is the exact one; a value of an unsigned type is not negative |
| C133 | FasterMSC with integer division | the ratio of two different distances, smaller by larger, is 0, and the remaining terms of each gain are not positive; invariant of the loop over the samples |

## Findings: properties that are false of the code

Each is a theorem with a concrete witness.

* C05 (floating): elements equal to the pivot up to epsilon may be on the wrong side (`C05_float_counterexample`).
* C14 (32/64-bit unsigned data): the pruning difference wraps, nearest neighbours are missed.
* C15 (signed integral data): `infinity<int>()` is 0, so the unlimited radius buffer prunes and misses neighbours.
* C22: an integral `LowerBoundAndLength` never contains its own `upper_bound()`; the centre of a negative segment can lie outside it.
* C24: `DBSCAN` leaves a border sample as noise if it is visited first and only a non-initial core sample reaches it. The exact criterion is `C24_noise_exact`.
* C63: left rounding is one too low for negative even sums.
* C68: `centroid_to_furthest_bound_distance` is truncated to `int` for floats and is per-axis only for integers.
* C54: `select_n_elements(first, last, n)` only permutes the first `n` elements, so `init_uniform`, random medoids and the variance sample are always the first samples.
* C58: the masked variance overloads read only the first index; the mean of negative `int` data divides by `size_t`.
* C59: `argmin`/`argmax` return a position converted to the value type; the second maximum's position can be the maximum's.
* C64: with a feature mask the chosen axis can be outside the mask, and the highest-variance policy
  picks the feature on which the first selected sample is farthest from the mean, not the one with
  the highest variance.
* C19/C20/C27 (integral data): `infinity<ValueType>()` is 0, so the default edge (0, 0, 0) always wins; `make_tree` never ends with two samples or more.
* C30: with core distances the tree is not minimal for the mutual reachability distance (witness with k = 4; k = 2 and k = 3 are minimal).
* C34: `extract_flat_clusters` takes the label of the lowest node at or above the cut level, so clusters separated by more than the cut share a label (samples 0, 1, 10, 11 cut at 5).
* C66: with fewer than `min_cluster_size` samples all are labelled 1.
* C69: `common::division(1, 0)` is 0, so clusters of duplicates have a negative stability and are not selected.
* C41 (integral data): `infinity<int>()` is 0, so every sample is predicted to centroid 0 at distance 0 (for all data, `C41_integral`).
* C42: the reported loss is the sum of unsquared distances and can grow; a centroid without samples is moved to the origin.
* C43: a sample with two equally near initial centroids gets an infinite lower bound and is never reassigned; the reported loss ignores centroid moves.
* C44: `n_init` 0 reads an empty range; a second `fit` ignores the initializer and `n_init`.
* C55 (integral data): all weights are 0. `make_centroids_from_previous_centroid` can draw a centroid twice.
* C45: with ties the second (third) nearest distance is the greatest value of the type and the position 0.
* C46-C48: with ties at construction FasterPAM works on wrong buffers: wrong gains, wrong reported deviation, exchanges that make the clustering worse than before them (never worse than the start), repeated medoids. A single medoid is rejected by the constructor.  With an unsigned data type `delta < 0` never holds and FasterPAM never exchanges (not formalised).
* C49: the step skips candidate `c` when `c` equals the *position* of its nearest medoid, so improving exchanges are missed.
* C50/C51/C71 (two medoids): the constructor stores distances by nearness, `find_best_swap_k2`/`swap_buffers_k2` read them by position; the new medoid gets both distances 0.
* C51: `index_third == infinity<size_t>()` is `index_third == 0`, so a medoid at position 0 that is third nearest is lost.
* C52: BUILD adds the candidate with the smallest reduction and adds the reduction to the deviation; integral data types always take the first sample first.  `pam::build` also names functions of `pam::utils` unqualified and its matrix overload applies `std::get` to a matrix; neither is instantiated in the repository.
* C70: FasterMSC reports the sum of distances before the first exchange and the sum of ratios afterwards, so `KMedoids::fit` compares unlike quantities.
* C71: FasterMSC can hold the same medoid twice, since the guard of C49 lets medoids be candidates.
* C61: a singleton gets score 1 instead of 0, and so does every sample when there is one cluster; integral data gives only -1 and 0 since `common::infinity` is 0; cluster sizes are counted in the label type and wrap; empty labels dereference the end.
* C65: integral data (infinity is 0) prunes the roots of separated sets; the default capacity is 0 and leaves the queue empty; with two or more neighbours the result is neither the shortest nor the k-th shortest edge.  Not formalised: an iterator into an `unordered_map` is kept across an insertion; rvalue `buffer_args` are forwarded once per query, so a `WithMemory` set given as an rvalue is empty after the first query.
* C72: `make_tree_2` with the default three neighbours returns a tree that is not minimal (samples 0, 1, 10: 19 instead of 10), because the top of a maximum heap is taken as the shortest edge; integral data is not minimal either; the core distances are computed and ignored; the tree over each component is a single leaf (the default `max_depth` is `infinity<size_t>()`, which is 0).  `step_dual_tree_parallel` is never called; its calls of `find` write the shared parents from several threads (C95).
* C73: `KMedoids::fit` draws its candidates with `make_n_elements_from_interval`, which permutes the first k indices only, so all `n_init` candidates start from the first k samples in different orders; with k = 1 the constructor throws.
* C74: the split index is moved to the first sample equal to the median, so samples that repeat a coordinate all go right. With n equal samples the tree degenerates to a list of height n - bucket_size; recursion in the construction and in the search is then linearly deep.
* C79: from four neighbours on the tree is not minimal (C30), so two samples can be joined at a higher level than their mutual reachability distance.
* C80: mutual reachability distances tie whenever a core distance dominates. Samples 0, 1, 2, 4, 7, 8, 9 with three neighbours and min_cluster_size 3: the sample 4 joins either group, depending on how std::sort orders two equal weights.
* C81: `unsigned_manhattan_distance_from_origin` static_asserts a *signed* value type (so `auto_distance_from_origin` cannot be compiled for unsigned data) and sums the values without absolute value: `{-3, 3}` is at distance 0 of the origin. Not formalised: `manhattan_distance_from_origin` and its unsigned variant are declared `-> decltype(std::declval<T>())`, which is `T&&`, and return a reference to a destroyed temporary.
* C82: `cosine_similarity` returns infinity whenever the product of the magnitudes is at most epsilon, although the comment promises it for zero only: two equal small vectors have similarity infinity, their multiples 1.
* C83: with equal distances, the *samples* returned depend on bucket size and order (the distances do not).
* C84: with four neighbours, the dendrogram joins core samples of one DBSCAN cluster only above the radius.
* C85: `uint64_t` values from 2^63 on are written through `Int64` as negative numbers; the move constructor of `KDTree` leaves `n_samples_` uninitialised, which `serialize` reads; `KDTree::n_samples()` counts the whole array, the file counts the index range. Not formalised: rapidjson refuses to write NaN and infinities, the buffer is then not JSON and the file holds `null`.
* C86: a box or ball search on integral data with the default capacity can miss samples (as C15), any explicit capacity that is large enough finds them; a box with fewer segments than features is read out of range.
* C87: the bounds return `std::optional<ValueType>(distance)`, so on `int8_t`, `uint8_t`, `int16_t` and `uint16_t` data the distance, computed as `int`, is reduced to the data type: `int8_t` samples -100 and 50, query 100, give distance -56 to the first sample, which wins.
* C88: with an initial tie Hamerly's iteration can stop for good with a sample in the wrong cluster: samples 0, -7, 1 and centroids -1, 1 (see C43).
* C89: raising the radius or lowering min_samples can turn a labelled sample into noise (samples 0, 6, 3, 4 on a line, radius 4, min_samples 3 then 2).
* C91: data whose distances are below the epsilon of its type (about 1.2e-7 for float) is clustered differently from the same data in another unit, because common::division replaces the inverse of the level by 0.
* C92: Lloyd puts the centroid of an empty cluster at the origin, so its result depends on where the data lies: the samples 10, 11 with centroids 10, 50 end with one empty cluster, the samples 0, 1 with centroids 0, 40 end with one sample in each cluster.
* C95: C95: `UnionFind::find` is `const` but compresses paths, so concurrent calls on the same structure are a data race (undefined behaviour) as soon as a sample is not its own representative; `step_dual_tree_parallel` (never called) does this.  With atomic parents the results would be right.
* C96: `thread_local_mersenne_engine(seed)` makes a `static thread_local` engine, so every seed but the first one used in a thread is silently ignored, and repeating a call with the same seed continues the stream.
* C97: a `WithMemory` buffer that owns its visited set (rvalue or iterator-range constructor) loses it when handed to a searcher: the implicit move constructor keeps `visited_indices_const_reference_` bound to the moved-from set of the source, so visited samples are returned, and the returned buffer holds a dangling reference.
* C99: `equality(inf, inf)` is false because `inf - inf` is NaN, and NaN compares false with everything; a partition around such a pivot leaves values on the wrong side. One NaN or `-inf` sample makes a k-nearest search miss the nearest finite sample (data `0, NaN`, query `0` gives the NaN sample) and makes DBSCAN turn a cluster of finite samples into noise. `+inf` is harmless for finite queries.
* C100: the constructor reorders the index array of the caller and the nodes keep iterators into it: building a second tree on the same indices silently breaks the first one (its nearest-neighbour searches return wrong samples), already when the options are the same but some coordinates are equal.
* C101: on no samples `Forest` reserves 2^64 - 1 edges and throws, so that `make_tree` and `HDBSCAN::predict` fail; k-means++ and the random medoids read rows that do not exist; `Lloyd::step` moves stored centroids to the origin; the silhouette dereferences the end of an empty range.
* C103: with a point in both sets simple_dual_set_shortest_edge skips the pair at distance 0 and the two others return it; dual_set_shortest_edge without buffer arguments uses buffers of capacity 0 and takes the top of an empty queue.
* C104: `SingleLinkageClusterNode::parent_` and `CondensedClusterNode::parent_` are `std::shared_ptr`, so parent and child own each other. Every call of `HDBSCAN::predict` on n ≥ 2 samples leaks 2n-1 single linkage nodes, and the condensed nodes too when there is more than one.
* C106: update_lower_bound of LowerBoundAndLength leaves the length unchanged, so make_tight_segment with that class loses values whenever a new minimum comes after the maximum (1, 3, 0 gives [0, 2]); a negative first value of type int is signed overflow.
* C107: DBSCAN::predict on a tree over part of the indices labels all samples of the data set: a sample outside of the range is used as an entry point and can merge clusters of the range; the documented length of the result is wrong.
* C109: is_element_in and is_element_in_first disagree: the first finds an infinity, the second never does; common::equality(-1, size_t max) is true.
* C110: On equal values quickselect is quadratic and quicksort recurses n deep (one stack frame for each element): building a k-d tree on data with a constant feature or many duplicates takes quadratic time.
* C111: The shape of a k-d tree on floating data depends on the unit of the data, because common::equality has an absolute tolerance.
* C112: KMedoids::predict and forward use the stored indices in the samples of the argument, not the samples that fit selected: labels of new data are unrelated to the fit, and the call reads out of bounds when the new data is shorter. KMeans::fit and KMedoids::fit on an object that was fitted before ignore n_init and the initialiser and start from the old centroids, even for other data.
* C113: in floating arithmetic of any precision predict can name a centroid that is not the nearest: a sample at 2^p, centroids at -3/8 and -1/4.
* C114: building a k-d tree over n equal samples takes at least (n - bucket_size)^3 / 4 tests on coordinates (with the default bucket size 40 and no depth limit).
* C115: `common::equality` has an absolute tolerance, so FasterPAM depends on the unit: samples 3..8 with initial medoids 0 and 1 give total deviation 4, but 5 when the unit is 10000 times larger (tolerance 1/100).
* C116: `KMedoids::fit` with FasterMSC compares losses in different units: the constructor sets the sum of distances, an exchange a sum of ratios. With two clusters in a small unit of length no exchange is ever made (the start is returned), and among several candidates a worse one can be returned. With three or more clusters the third nearest medoid at position 0 is taken for no medoid (`index_3 == infinity<size_t>()`, which is 0), the buffers become wrong and an exchange can make the loss larger than predicted: on a metric table of twelve samples with seven clusters FasterMSC cycles through three sets of medoids for ever.
* C117: a search and a construction over the same index range at the same time are a data race (`C117_swap_race`, `C117_rebuild_counterexample`)
* C118: make_tree and HDBSCAN::predict on a k-d tree built over part of the indices run over all samples of the data set: samples outside of the tree are clustered too, link clusters of the tree to each other, and count towards min_cluster_size; with a single sample in the tree an element of an empty buffer is read.
* C119: with float the alias method can draw an index of weight 0 (16384 weights: 8191 of 2050, 8192 of 1.25, one of 0): the sum is computed too large, the normalised weights sum to less than n - 1, and the index is left in `small`, whose members get probability 1. k-means++ then returns the same sample as two centroids although other samples are at positive distance.
* C121: the empty LowerBoundAndLength(0, 0) of an unsigned type of 32 bits or more contains every value, because lower + length - 1 wraps around; the centre of the int8_t segment [-128, -128] is 127 and the size of [-128, 127] is -127.
* C122: in double precision rows that differ by less than about 2^-538 in every coordinate are at the computed distance 0, and rows farther apart than 2^512 at an infinite one, which no radius search reaches (witnesses `C122_underflow_counterexample`, `C122_overflow_counterexample`).
* C123: two samples whose computed distance overflows (above about 2^512 in double precision) make `make_tree` run forever: `distance < infinity` fails, the default edge (0, 0) is merged over and over (`C123_overflow_counterexample`).
* C124: outside these conditions the code is silently wrong or undefined: with 8 bit indices and 257 samples the samples 0 and 256 are in one set from the start; FeaturesMask<int>(2^31) is undefined although every index fits; FeaturesMask{3} with braces is the mask with the single index 3.
* C125: in double precision the sample 0 is assigned to a centroid at 2^1000 rather than to one at 2^600, and to one at 2^-540 rather than to one at 2^-600 (`C125_predict_counterexample`); two samples at 2^1023 send their centroid to infinity, where it stays for all later steps (`C125_means_counterexample`).
* C126: `common::division` takes levels up to epsilon for 0, so data whose distances are all that small have stability 0 everywhere and get one cluster, or the two children of the root: dividing all distances by 2^60 changes the labels (`C126_tiny`, `C126_scale_counterexample`).
* C127: with k neighbours, one sample with fewer than k samples within the square root of the largest finite number makes make_tree, and HDBSCAN, run forever, even if the samples are joined by finite distances: its core distance is infinite and no edge to it ever replaces the default edge (`C127_never_ends`, `C127_three_counterexample`).
* C129: `step` tests the rounded gain against 0. In single precision it can accept an exchange that raises the total deviation: the small losses of many samples are absorbed by the large removal loss they are added to (`C129_worse_counterexample`, computed change -8, change +4).
* C131: The sums of single-precision distances of different candidates can round to the same number; `first_medoid_td_index_pair` then keeps the first one, whose total deviation can be larger (`C131_first_counterexample`, five samples).
* C132: On unsigned data `FasterPAM::step` never exchanges a medoid: `best_swap_delta_td < 0` compares an unsigned value (FasterPAM.hpp:147), so `fit` returns its start (`C132_unsigned_counterexample`: total deviation 300 instead of 3). On 8-bit data the loss of removing a medoid wraps, and `fit` returns the same sample twice (`C132_overflow_counterexample`).
* C133: On integral data the ratios of distances in FasterMSC are integer divisions, nearly all 0, and no exchange is ever made: on the samples 0, 1, 3, 100, 200, 202 the medoids 0, 1, 3 stay, and move to 100, 1, 200 with exact ratios (`C133_counterexample`).

## Not modelled

The text layer of rapidjson, printing, timers, CRTP forwarding layers, iterator
type plumbing, memory management, floating point rounding outside the properties listed under Numbers, weak memory orders (C94
proves that the OpenMP loops have no data race, so there are none), threads
inside the standard library, benchmark and test code.
