import Verif.Model.Search

/-
Model of search/ClosestPairOfSamples.hpp.

`dist q i` is the distance between query sample `q` and reference sample `i`, `inf` the value of
`common::infinity<ValueType>()` (common/Utils.hpp:393): larger than every distance for floating
types and `0` for integral types.  `common::infinity<std::size_t>()` is `0`.
-/

namespace Verif.ClosestPair

open Verif.KDTree Verif.Buffer Verif.Search

variable {K : Type} [LinearOrder K] {D : Type} [LinearOrder D]

/-- `Edge` (datastruct/graph/spanning_tree/MinimumSpanningTree.hpp:14). -/
abbrev Edge (D : Type) := Nat × Nat × D

/-- `make_default_edge` (datastruct/graph/spanning_tree/MinimumSpanningTree.hpp:25-27). -/
def defaultEdge (inf : D) : Edge D := (0, 0, inf)

/-- The body of the inner loop of `simple_dual_set_shortest_edge`
(search/ClosestPairOfSamples.hpp:47-57). -/
def simpleStep [Zero D] (dist : Nat → Nat → D) (i : Nat) (edge : Edge D) (j : Nat) : Edge D :=
  if dist i j > 0 ∧ dist i j < edge.2.2 then (i, j, dist i j) else edge

/-- `simple_dual_set_shortest_edge` (search/ClosestPairOfSamples.hpp:23-60). -/
def simpleDualSet [Zero D] (dist : Nat → Nat → D) (indices others : List Nat) (initial : Edge D) :
    Edge D :=
  indices.foldl (fun edge i => others.foldl (simpleStep dist i) edge) initial

/-- One nearest-neighbour query restricted to other components: the call of the searcher with a
`WithUnionFind` buffer of capacity 1 followed by `furthest_index()` and `furthest_distance()`
(search/ClosestPairOfSamples.hpp:193-202, BoruvkasAlgorithm.hpp:253-261). `furthest_index()` on an
empty buffer reads out of range (search/buffer/StaticBuffer.hpp:109-111): `none`.
`x` are the reference samples and `y` the query samples. -/
def nearestOther (x y : Nat → Nat → K) (gap : K → K → D) (dist : Nat → Nat → D) (inf : D)
    (t : KDTree.Tree K) (rep : Nat) (u : UF.State) (q : Nat) : Option (UF.State × Nat × D) := do
  let (u, b) ← search x (y q) (ufOps x (y q) gap (candAll (dist q)) rep) t (u, Buffer.mk inf 1)
  let i ← b.indices[b.furthestPos]?
  some (u, i, b.furthestDistance)

/-- The loop over the queries of one component (search/ClosestPairOfSamples.hpp:190-213,
BoruvkasAlgorithm.hpp:249-271, 290-317, 346-364, 389-415). `weight q i d` is the weight given to
the edge from `q` to its nearest neighbour `i` at distance `d`. -/
def shortestFrom (x y : Nat → Nat → K) (gap : K → K → D) (dist : Nat → Nat → D)
    (weight : Nat → Nat → D → Option D) (inf : D) (t : KDTree.Tree K) (rep : Nat) :
    List Nat → UF.State → Edge D → Option (UF.State × Edge D)
  | [], u, edge => some (u, edge)
  | q :: qs, u, edge => do
    let (u, i, d) ← nearestOther x y gap dist inf t rep u q
    let w ← weight q i d
    shortestFrom x y gap dist weight inf t rep qs u (if w < edge.2.2 then (q, i, w) else edge)

/-- The plain edge weight. -/
def plainWeight : Nat → Nat → D → Option D := fun _ _ d => some d

/-- `sequential_dual_set_shortest_edge` (search/ClosestPairOfSamples.hpp:148-215).  The bucket size
`std::max(40, (int)std::sqrt(n))` and the depth limit are left open, as is the axis policy. -/
def sequentialDualSet (eqv : K → K → Bool) (x y : Nat → Nat → K) (gap : K → K → D)
    (dist : Nat → Nat → D) (inf : D) (policy : List Nat → Nat → Box K → Nat)
    (bucketSize maxDepth nFeatures : Nat) (vmax vlowest : K) (queries others : List Nat)
    (u : UF.State) (rep : Nat) : Option (UF.State × Edge D) := do
  let (_, t) ← make eqv x policy bucketSize maxDepth nFeatures vmax vlowest others
  shortestFrom x y gap dist plainWeight inf t rep queries u (defaultEdge inf)

end Verif.ClosestPair
