import Verif.Model.Sorting
import Verif.Model.Statistics
import Mathlib.Algebra.Module.Defs
import Mathlib.Algebra.BigOperators.Group.List.Basic

/-
Model of kmeans/KMeansUtils.hpp, kmeans/Lloyd.hpp, kmeans/Hamerly.hpp, kmeans/KMeans.hpp and
kmeans/KMeansPlusPlus.hpp.

A row of `n_features` elements is a vector of `V`, the element-wise `std::transform` loops are vector
operations (`V` is instantiated with `Fin n_features → ℝ` in the properties).  `dist` is
`auto_distance`; `inf` is `common::infinity<DataType>()`, which is 0 for integral types.  An access
out of a vector is `none`.  Arithmetic is exact.
-/

namespace Verif.KMeans

/-! ### KMeansUtils.hpp -/

section Utils

variable {V K : Type} [LinearOrder K]

/-- Inner loop of `samples_to_nearest_centroid_indices` (KMeansUtils.hpp:27-39): `j` is
`centroid_index`, then `min_index` and `min_distance`. -/
def nearestLoop (dist : V → V → K) (x : V) : Nat → List V → Nat × K → Nat × K
  | _, [], acc => acc
  | j, c :: cs, (mi, md) =>
    if dist x c < md then nearestLoop dist x (j + 1) cs (j, dist x c)
    else nearestLoop dist x (j + 1) cs (mi, md)

/-- `samples_to_nearest_centroid_indices` (KMeansUtils.hpp:9-42). -/
def nearestIndices (inf : K) (dist : V → V → K) (xs cs : List V) : List Nat :=
  xs.map fun x => (nearestLoop dist x 0 cs (0, inf)).1

/-- Inner loop of `samples_to_nearest_centroid_distances` (KMeansUtils.hpp:59-71). -/
def minLoop (dist : V → V → K) (x : V) : List V → K → K
  | [], md => md
  | c :: cs, md => minLoop dist x cs (if dist x c < md then dist x c else md)

/-- `samples_to_nearest_centroid_distances` (KMeansUtils.hpp:45-75). -/
def nearestDistances (inf : K) (dist : V → V → K) (xs cs : List V) : List K :=
  xs.map fun x => minLoop dist x cs inf

/-- Inner loop of `samples_to_second_nearest_centroid_distances` (KMeansUtils.hpp:92-112); `eq` is
`common::equality`, the accumulator is `first_min_distance` and `second_min_distance`. -/
def secondLoop (eq : K → K → Bool) (dist : V → V → K) (x : V) : List V → K × K → K × K
  | [], acc => acc
  | c :: cs, (f, s) =>
    let v := dist x c
    if v < f then secondLoop eq dist x cs (v, f)
    else if v < s && !eq v f then secondLoop eq dist x cs (f, v)
    else secondLoop eq dist x cs (f, s)

/-- `samples_to_second_nearest_centroid_distances` (KMeansUtils.hpp:78-116); `vmax` is
`std::numeric_limits<DataType>::max()`. -/
def secondDistances (vmax : K) (eq : K → K → Bool) (dist : V → V → K) (xs cs : List V) : List K :=
  xs.map fun x => (secondLoop eq dist x cs (vmax, vmax)).2

/-- Loop of `compute_cluster_sizes` (KMeansUtils.hpp:128-132). -/
def sizesLoop : List Nat → List Nat → Option (List Nat)
  | s, [] => some s
  | s, j :: a => do
    let n ← s[j]?
    sizesLoop (s.set j (n + 1)) a

/-- `compute_cluster_sizes` (KMeansUtils.hpp:119-134). -/
def clusterSizes (k : Nat) (a : List Nat) : Option (List Nat) := sizesLoop (List.replicate k 0) a

/-- Loop of `compute_cluster_positions_sum` (KMeansUtils.hpp:152-160) over the samples with their
assigned centroids. -/
def sumsLoop [Add V] : List V → List (V × Nat) → Option (List V)
  | s, [] => some s
  | s, (x, j) :: ps => do
    let v ← s[j]?
    sumsLoop (s.set j (v + x)) ps

/-- `compute_cluster_positions_sum` (KMeansUtils.hpp:137-162). -/
def clusterSums [Add V] [Zero V] (k : Nat) (xs : List V) (a : List Nat) : Option (List V) :=
  sumsLoop (List.replicate k 0) (xs.zip a)

/-- Inner loop of `nearest_neighbor_distances` (KMeansUtils.hpp:180-191) for the row `c` with index
`i`. -/
def neighborLoop (dist : V → V → K) (i : Nat) (c : V) : Nat → List V → K → K
  | _, [], md => md
  | j, o :: os, md =>
    if i ≠ j ∧ dist c o < md then neighborLoop dist i c (j + 1) os (dist c o)
    else neighborLoop dist i c (j + 1) os md

/-- `nearest_neighbor_distances` (KMeansUtils.hpp:165-195). -/
def neighborDistances (inf : K) (dist : V → V → K) (cs : List V) : List K :=
  cs.zipIdx.map fun (c, i) => neighborLoop dist i c 0 cs inf

end Utils

/-! ### Lloyd.hpp -/

variable {V K : Type} [AddCommGroup V] [Field K] [LinearOrder K] [Module K V]

/-- State of `Lloyd`; the cluster sizes and sums are recomputed at the start of every step and are
not part of it. -/
structure LState (V K : Type) where
  centroids : List V
  assigned : List Nat
  distances : List K
  loss : K

/-- `Lloyd::Lloyd` (Lloyd.hpp:66-83) with `Buffers::Buffers` (168-182); `update_buffers` (132-149)
computes the same from the current centroids. -/
def lloydInit (inf : K) (dist : V → V → K) (xs cs : List V) : LState V K :=
  { centroids := cs, assigned := nearestIndices inf dist xs cs,
    distances := nearestDistances inf dist xs cs, loss := (nearestDistances inf dist xs cs).sum }

/-- One centroid of `Lloyd::update_centroids` (Lloyd.hpp:114-127); the division by the size is
element-wise. -/
def lloydCentroid (size : Nat) (sum : V) : V :=
  if size = 0 then sum else (size : K)⁻¹ • sum

/-- `Lloyd::step` (Lloyd.hpp:91-99): `update_clusters` (152-166), `update_centroids` (102-129),
`update_buffers` (132-149).  The three vectors have one entry for each centroid. -/
def lloydStep (inf : K) (dist : V → V → K) (xs : List V) (s : LState V K) : Option (LState V K) := do
  let sizes ← clusterSizes s.centroids.length s.assigned
  let sums ← clusterSums s.centroids.length xs s.assigned
  some (lloydInit inf dist xs (List.zipWith (lloydCentroid (K := K)) sizes sums))

/-! ### Hamerly.hpp -/

/-- The entries of one sample in `samples_to_nearest_centroid_indices_`,
`samples_to_nearest_centroid_distances_` (upper bound) and
`samples_to_second_nearest_centroid_distances_` (lower bound), Hamerly.hpp:50-52. -/
structure Cached (K : Type) where
  assigned : Nat
  upper : K
  lower : K

/-- State of `Hamerly` (Hamerly.hpp:40-60, 66-70); `centroid_velocities_` is overwritten before it is
read and is not part of it. -/
structure HState (V K : Type) where
  centroids : List V
  cached : List (Cached K)
  near : List K
  sizes : List Nat
  sums : List V
  loss : K

/-- `Hamerly::Hamerly` (Hamerly.hpp:72-92) with `Buffers::Buffers` (295-323). -/
def hamerlyInit (inf vmax : K) (eq : K → K → Bool) (dist : V → V → K) (xs cs : List V) :
    Option (HState V K) := do
  let a := nearestIndices inf dist xs cs
  let u := nearestDistances inf dist xs cs
  let l := secondDistances vmax eq dist xs cs
  let sizes ← clusterSizes cs.length a
  let sums ← clusterSums cs.length xs a
  some { centroids := cs,
         cached := List.zipWith (fun a (ul : K × K) => ⟨a, ul.1, ul.2⟩) a (u.zip l),
         near := neighborDistances inf dist cs, sizes := sizes, sums := sums, loss := u.sum }

/-- The loop over the other centroids in `Hamerly::swap_bounds` (Hamerly.hpp:158-182); the
accumulator is `assigned_centroid_index`, `upper_bound`, `lower_bound`. -/
def scanLoop (dist : V → V → K) (x : V) : Nat → List V → Nat × K × K → Nat × K × K
  | _, [], acc => acc
  | j, c :: cs, (a, u, l) =>
    if j ≠ a then
      if dist x c < u then scanLoop dist x (j + 1) cs (j, dist x c, u)
      else if dist x c < l then scanLoop dist x (j + 1) cs (a, u, dist x c)
      else scanLoop dist x (j + 1) cs (a, u, l)
    else scanLoop dist x (j + 1) cs (a, u, l)

/-- `--cluster_sizes[from]; ++cluster_sizes[to]` (Hamerly.hpp:191-192); a decrement of 0 wraps around
and is `none`. -/
def moveSize (sizes : List Nat) (src dst : Nat) : Option (List Nat) := do
  let n ← sizes[src]?
  if n = 0 then none
  else do
    let sizes := sizes.set src (n - 1)
    let m ← sizes[dst]?
    some (sizes.set dst (m + 1))

/-- Subtract the sample from one position sum and add it to another (Hamerly.hpp:196-209). -/
def moveSum (sums : List V) (x : V) (src dst : Nat) : Option (List V) := do
  let v ← sums[src]?
  let sums := sums.set src (v - x)
  let w ← sums[dst]?
  some (sums.set dst (w + x))

/-- The body of the loop of `Hamerly::swap_bounds` (Hamerly.hpp:136-214) for the sample `x`. -/
def swapSample (inf : K) (dist : V → V → K) (cs : List V) (near : List K) (x : V) (s : Cached K)
    (sizes : List Nat) (sums : List V) (loss : K) : Option (Cached K × List Nat × List V × K) := do
  let na ← near[s.assigned]?
  let bound := max (na / 2) s.lower
  if s.upper > bound then do
    let c ← cs[s.assigned]?
    let u := dist x c
    if u > bound then
      let r := scanLoop dist x 0 cs (s.assigned, u, inf)
      if s.assigned ≠ r.1 then do
        let sizes ← moveSize sizes s.assigned r.1
        let sums ← moveSum sums x s.assigned r.1
        some (⟨r.1, r.2.1, r.2.2⟩, sizes, sums, loss - s.upper + r.2.1)
      else some (⟨s.assigned, u, r.2.2⟩, sizes, sums, loss)
    else some (⟨s.assigned, u, s.lower⟩, sizes, sums, loss)
  else some (s, sizes, sums, loss)

/-- The loop of `Hamerly::swap_bounds` (Hamerly.hpp:119-216). -/
def swapLoop (inf : K) (dist : V → V → K) (cs : List V) (near : List K) :
    List (V × Cached K) → List Nat → List V → K →
      Option (List (Cached K) × List Nat × List V × K)
  | [], sizes, sums, loss => some ([], sizes, sums, loss)
  | (x, s) :: ps, sizes, sums, loss => do
    let r ← swapSample inf dist cs near x s sizes sums loss
    let rest ← swapLoop inf dist cs near ps r.2.1 r.2.2.1 r.2.2.2
    some (r.1 :: rest.1, rest.2)

/-- One centroid of `Hamerly::update_centroids` (Hamerly.hpp:230-239). -/
def hamerlyCentroid (c : V) (size : Nat) (sum : V) : V :=
  if size ≠ 0 then (size : K)⁻¹ • sum else c

/-- `Hamerly::update_centroids` (Hamerly.hpp:219-241). -/
def updateCentroids (cs : List V) (sizes : List Nat) (sums : List V) : List V :=
  List.zipWith (fun c (p : Nat × V) => hamerlyCentroid (K := K) c p.1 p.2) cs (sizes.zip sums)

/-- `Hamerly::update_bounds` (Hamerly.hpp:261-292) without the neighbour distances; `vel` are the
velocities, `lowest` is `std::numeric_limits<DataType>::lowest()`. -/
def updateBounds (lowest : K) (vel : List K) (cached : List (Cached K)) : Option (List (Cached K)) := do
  let furthest ← Stats.maxPair vel
  let second ← Stats.secondMaxPair lowest vel
  cached.mapM fun s => do
    let v ← vel[s.assigned]?
    some ⟨s.assigned, s.upper + v,
      s.lower - (if s.assigned = furthest.1 then second.2 else furthest.2)⟩

/-- `Hamerly::step` (Hamerly.hpp:99-116). -/
def hamerlyStep (inf lowest : K) (dist : V → V → K) (xs : List V) (s : HState V K) :
    Option (HState V K) := do
  let r ← swapLoop inf dist s.centroids s.near (xs.zip s.cached) s.sizes s.sums s.loss
  let cs := updateCentroids (K := K) s.centroids r.2.1 r.2.2.1
  let vel := List.zipWith dist s.centroids cs
  let cached ← updateBounds lowest vel r.1
  some { centroids := cs, cached := cached, near := neighborDistances inf dist cs,
         sizes := r.2.1, sums := r.2.2.1, loss := r.2.2.2 }

/-! ### KMeans.hpp -/

/-- `KMeans::Options` (KMeans.hpp:29-69); the tolerance is part of `same` below. -/
structure Options where
  maxIter : Nat := 100
  earlyStopping : Bool := true
  patience : Nat := 0
  nInit : Nat := 1

/-- `are_containers_equal` (Utils.hpp:504-540) for floating values: equal sizes and every difference
within the tolerance. -/
def containersEqual (tol : K) (l r : List K) : Bool :=
  decide (l.length = r.length) && (List.zipWith (fun a b => decide (|a - b| ≤ tol)) l r).all id

/-- The loop over the iterations in `KMeans::fit` (KMeans.hpp:189-214): `iter` iterations are left,
`cand` and `prev` are the entries of `centroids_candidates` and `centroids_candidates_prev`, `pat` is
`patience_iteration`; `same` is `are_containers_equal` with the tolerance. -/
def iterate {S C : Type} (step : S → Option S) (cent : S → C) (same : C → C → Bool) (o : Options) :
    Nat → S → C → C → Nat → Option (S × C)
  | 0, s, cand, _, _ => some (s, cand)
  | iter + 1, s, _, prev, pat => do
    let s' ← step s
    let cand := cent s'
    if o.earlyStopping && same cand prev then
      if pat = o.patience then some (s', cand)
      else iterate step cent same o iter s' cand cand (pat + 1)
    else iterate step cent same o iter s' cand cand 0

/-- `KMeans::fit` (KMeans.hpp:155-230): `init` constructs the algorithm from a candidate, `drawn` are
the successive results of the initializer, `stored` is `centroids_`, `none'` the empty container that
`centroids_candidates_prev` starts with; the result is also the new `centroids_`. -/
def fit {S C K : Type} [LinearOrder K] (init : C → Option S) (step : S → Option S) (cent : S → C) (loss : S → K)
    (same : C → C → Bool) (isEmpty : C → Bool) (none' : C) (o : Options) (stored : C)
    (drawn : Nat → C) : Option C := do
  let cands := if isEmpty stored then (List.range o.nInit).map drawn else [stored]
  let runs ← cands.mapM fun c => do
    let s ← init c
    iterate step cent same o o.maxIter s c none' 0
  let i ← Stats.argmin none (runs.map fun r => loss r.1)
  let r ← runs[i]?
  some r.2

/-! ### KMeansPlusPlus.hpp -/

/-- The loop of `make_centroids` (KMeansPlusPlus.hpp:50-63) for `k` more centroids; `draw` is one
construction and call of `VosesAliasMethod`, with the outcomes of the generator at that iteration. -/
def plusPlusLoop (inf : K) (dist : V → V → K) (draw : Nat → List K → Option Nat) (xs : List V) :
    Nat → List V → Option (List V)
  | 0, cs => some cs
  | k + 1, cs => do
    let i ← draw k (nearestDistances inf dist xs cs)
    let x ← xs[i]?
    plusPlusLoop inf dist draw xs k (cs ++ [x])

/-- `make_centroids` (KMeansPlusPlus.hpp:41-65); `first` is the index drawn by
`select_random_sample`. -/
def plusPlus (inf : K) (dist : V → V → K) (draw : Nat → List K → Option Nat) (first : Nat)
    (xs : List V) (k : Nat) : Option (List V) := do
  let x ← xs[first]?
  plusPlusLoop inf dist draw xs (k - 1) [x]

/-- The loop of `make_centroids_from_previous_centroid` (KMeansPlusPlus.hpp:95-110). -/
def fromPreviousLoop (inf : K) (dist : V → V → K) (draw : Nat → List K → Option Nat) (xs : List V) :
    Nat → V → List V → Option (List V)
  | 0, _, cs => some cs
  | k + 1, prev, cs => do
    let i ← draw k (nearestDistances inf dist xs [prev])
    let x ← xs[i]?
    fromPreviousLoop inf dist draw xs k x (cs ++ [x])

/-- `make_centroids_from_previous_centroid` (KMeansPlusPlus.hpp:83-112). -/
def fromPrevious (inf : K) (dist : V → V → K) (draw : Nat → List K → Option Nat) (first : Nat)
    (xs : List V) (k : Nat) : Option (List V) := do
  let x ← xs[first]?
  fromPreviousLoop inf dist draw xs (k - 1) x [x]

end Verif.KMeans
