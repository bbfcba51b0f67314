import Verif.Model.Bounds
import Verif.Model.KDTree
import Verif.Model.Random
import Mathlib.Data.List.Sort
import Mathlib.Algebra.Order.Field.Basic

/-
Model of common/math/statistics/Statistics.hpp, of the container helpers of common/Utils.hpp and of
the axis policies of datastruct/tree/kdtree/policy/AxisSelectionPolicy.hpp with
datastruct/tree/kdtree/KDTreeAlgorithms.hpp:17-156.

Samples are `x : sample index → feature → K` as in the k-d tree model.
-/

namespace Verif.Stats

/-! ### extrema -/

/-- The loop of `std::max_element` / `std::min_element`: `better a b` says that the new element `a`
replaces the current best `b`. -/
def bestLoop {α : Type} (better : α → α → Bool) : List α → Nat → Nat → α → Nat × α
  | [], _, bestPos, best => (bestPos, best)
  | a :: l, pos, bestPos, best =>
    if better a best then bestLoop better l (pos + 1) pos a
    else bestLoop better l (pos + 1) bestPos best

/-- Position and value of the best element; the end iterator of an empty range is dereferenced by
all callers: `none`. -/
def best {α : Type} (better : α → α → Bool) : List α → Option (Nat × α)
  | [] => none
  | a :: l => some (bestLoop better l 1 0 a)

variable {K : Type} [LinearOrder K]

/-- `get_min_index_value_pair` (Statistics.hpp:63-73). -/
def minPair (l : List K) : Option (Nat × K) := best (fun a b => decide (a < b)) l

/-- `get_max_index_value_pair` (Statistics.hpp:75-85). -/
def maxPair (l : List K) : Option (Nat × K) := best (fun a b => decide (b < a)) l

/-- Conversion of a position to the value type of the range, which is the return type of `argmin`
and `argmax`: for an unsigned type of `bits` bits the position is reduced, `none` stands for a type
that holds every position (a floating type up to its precision, `std::size_t`). -/
def asValueType (bits : Option Nat) (pos : Nat) : Nat :=
  match bits with
  | none => pos
  | some b => pos % 2 ^ b

/-- `argmin` (Statistics.hpp:51-55). -/
def argmin (bits : Option Nat) (l : List K) : Option Nat := (minPair l).map (asValueType bits ·.1)

/-- `argmax` (Statistics.hpp:57-61). -/
def argmax (bits : Option Nat) (l : List K) : Option Nat := (maxPair l).map (asValueType bits ·.1)

/-- `get_second_max_index_value_pair` (Statistics.hpp:87-112): the maximum is overwritten with
`lowest`, the maximum of the rest is taken, the maximum is restored. -/
def secondMaxPair (lowest : K) (l : List K) : Option (Nat × K) := do
  let (i, v) ← maxPair l
  if l.length < 2 then some (i, v) else maxPair (l.set i lowest)

/-- `find_nth_smallest_index_and_element` (Statistics.hpp:114-134); `n = 0` throws (`at(n - 1)`).
`std::sort` is any sorting algorithm: on a linear order the sorted list is unique. -/
def nthSmallest (l : List K) (n : Nat) : Option (Nat × K) := do
  if n = 0 then none
  let v ← (l.insertionSort (· ≤ ·))[n - 1]?
  some (l.findIdx (fun a => decide (a = v)), v)

/-- `min_container_inplace_left` (Statistics.hpp:41-49): `std::transform` reads one element of the
right container per element of the left one. -/
def minLeft : List K → List K → Option (List K)
  | [], _ => some []
  | _ :: _, [] => none
  | a :: l, b :: r => do
    let t ← minLeft l r
    some ((if b < a then b else a) :: t)

/-! ### normalisation -/

section Field

variable {F : Type} [Field F] [LinearOrder F]

/-- `normalize_min_max` (Statistics.hpp:12-27) on floating input. -/
def normalizeMinMax (l : List F) : Option (List F) := do
  let (_, lo) ← minPair l
  let (_, hi) ← maxPair l
  if lo = hi then some (List.replicate l.length (1 / l.length))
  else some (l.map (fun d => 1 - (d - lo) / (hi - lo)))

/-- `normalize_min_max` (Statistics.hpp:12-27) on integral input with floating result: the quotient
is an integer division. -/
def normalizeMinMaxInt (l : List ℤ) : Option (List ℚ) := do
  let (_, lo) ← minPair l
  let (_, hi) ← maxPair l
  if lo = hi then some (List.replicate l.length (1 / l.length))
  else some (l.map (fun d => 1 - (((d - lo).tdiv (hi - lo) : ℤ) : ℚ)))

/-- `normalize` (Statistics.hpp:29-39). -/
def normalize (l : List F) : List F := l.map (· / l.sum)

/-! ### mean and variance -/

/-- Sum of the selected features over the samples (the loops of `compute_mean_per_feature`,
Statistics.hpp:147-154, 174-178, 200-205). -/
def sumRows (x : Nat → Nat → F) (idx feats : List Nat) : List F :=
  idx.foldl (fun acc i => List.zipWith (· + ·) acc (feats.map (x i))) (List.replicate feats.length 0)

/-- `compute_mean_per_feature` with indices and feature mask (Statistics.hpp:188-214). -/
def meanMasked (x : Nat → Nat → F) (idx feats : List Nat) : List F :=
  (sumRows x idx feats).map (· / idx.length)

/-- `compute_mean_per_feature` with indices (Statistics.hpp:162-186). -/
def meanIndexed (x : Nat → Nat → F) (nf : Nat) (idx : List Nat) : List F :=
  meanMasked x idx (List.range nf)

/-- `compute_mean_per_feature` on all samples (Statistics.hpp:136-160). -/
def meanAll (x : Nat → Nat → F) (nf n : Nat) : List F := meanIndexed x nf (List.range n)

/-- Sums of squared differences to the mean (Statistics.hpp:227-245 and 270-288). -/
def sqSums (x : Nat → Nat → F) (nf : Nat) (idx : List Nat) : List F :=
  let mean := meanIndexed x nf idx
  idx.foldl (fun acc i => List.zipWith (· + ·)
      (List.zipWith (fun v m => (v - m) * (v - m)) ((List.range nf).map (x i)) mean) acc)
    (List.replicate nf 0)

/-- `compute_variance_per_feature` with indices (Statistics.hpp:253-293). -/
def varianceIndexed (x : Nat → Nat → F) (nf : Nat) (idx : List Nat) : List F :=
  (sqSums x nf idx).map (· / (idx.length - 1))

/-- `compute_variance_per_feature` on all samples (Statistics.hpp:216-251). -/
def varianceAll (x : Nat → Nat → F) (nf n : Nat) : List F := varianceIndexed x nf (List.range n)

/-- Sums of squares of the masked overloads (Statistics.hpp:313-322 and 414-423): in each round the
sample read is `*indices_range_first`, which is never advanced. -/
def sqSumsMasked (x : Nat → Nat → F) (idx feats : List Nat) : Option (List F) :=
  match idx with
  | [] => some (List.replicate feats.length 0)
  | i0 :: _ =>
    let mean := meanMasked x idx feats
    some (idx.foldl (fun acc _ => List.zipWith (· + ·) acc
        (List.zipWith (fun f m => (x i0 f - m) * (x i0 f - m)) feats mean))
      (List.replicate feats.length 0))

/-- `compute_variance_per_feature` with indices and feature mask (Statistics.hpp:295-329). -/
def varianceMasked (x : Nat → Nat → F) (idx feats : List Nat) : Option (List F) :=
  (sqSumsMasked x idx feats).map (·.map (· / (idx.length - 1)))

/-- `argmax_variance_per_feature` with indices (Statistics.hpp:365-396; 331-363 on all samples): the
position is converted to the data type and back. -/
def argmaxVariance (bits : Option Nat) (x : Nat → Nat → F) (nf : Nat) (idx : List Nat) : Option Nat :=
  argmax bits (sqSums x nf idx)

/-- `argmax_variance_per_feature` with indices and feature mask (Statistics.hpp:398-427). -/
def argmaxVarianceMasked (bits : Option Nat) (x : Nat → Nat → F) (idx feats : List Nat) :
    Option Nat := do
  let s ← sqSumsMasked x idx feats
  let m ← argmax bits s
  feats[m]?

/-- `compute_variance` (Statistics.hpp:429-444), one pass. -/
def variance (l : List F) : F :=
  ((l.map (fun v => v * v)).sum - l.sum * l.sum / l.length) / (l.length - 1)

end Field

/-- The division `feature / n_samples` of `compute_mean_per_feature` (Statistics.hpp:155-158) for
`int` data: the divisor is a `std::size_t`, so the sum is converted to 64-bit unsigned, and the
quotient is converted back to a 32-bit `int`. -/
def meanInt32 (sum : ℤ) (n : Nat) : ℤ := Int.bmod ((sum % 2 ^ 64) / n) (2 ^ 32)

/-! ### container helpers (common/Utils.hpp) -/

/-- `permutation_from_indices` (Utils.hpp:573-584); sizes that differ throw. -/
def permutationFromIndices {α : Type} (indices : List Nat) (input : List α) : Option (List α) :=
  if input.length ≠ indices.length then none else indices.mapM (fun i => input[i]?)

/-- `std::copy` of `n_features` elements from row `src` of `m` to row `dst` of `out`. -/
def copyRow {α : Type} (nf : Nat) (m : List α) (src dst : Nat) (out : List α) : Option (List α) :=
  if src * nf + nf ≤ m.length ∧ dst * nf + nf ≤ out.length then
    some (out.take (dst * nf) ++ ((m.drop (src * nf)).take nf ++ out.drop (dst * nf + nf)))
  else none

/-- Loop of `remap_ranges_from_indices` (Utils.hpp:601-608), from row `i`. -/
def remapLoop {α : Type} (nf : Nat) (m : List α) : Nat → List Nat → List α → Option (List α)
  | _, [], out => some out
  | i, s :: rest, out => do
    let out ← if s ≠ i then copyRow nf m s i out else some out
    remapLoop nf m (i + 1) rest out

/-- `remap_ranges_from_indices` (Utils.hpp:586-610). -/
def remapRanges {α : Type} (indices : List Nat) (m : List α) (nf : Nat) : Option (List α) :=
  if m.length / nf ≠ indices.length then none else remapLoop nf m 0 indices m

/-- `are_containers_equal` on iterators (Utils.hpp:504-527): `differ a b` is the comparison of the
element type. -/
def rangesEqual {α : Type} (differ : α → α → Bool) : List α → List α → Option Bool
  | [], _ => some true
  | _ :: _, [] => none
  | a :: l, b :: r => if differ a b then some false else rangesEqual differ l r

/-- `are_containers_equal` on containers (Utils.hpp:529-540). -/
def containersEqual {α : Type} (differ : α → α → Bool) (l r : List α) : Option Bool :=
  if l.length ≠ r.length then some false else rangesEqual differ l r

/-- `count_matches` (Utils.hpp:542-554). -/
def countMatches {α : Type} [DecidableEq α] : List α → List α → Nat → Option Nat
  | [], _, c => some c
  | _ :: _, [], _ => none
  | a :: l, b :: r, c => countMatches l r (if a = b then c + 1 else c)

/-- `count_matches_for_value` (Utils.hpp:556-571). -/
def countMatchesFor {α : Type} [DecidableEq α] (v : α) : List α → List α → Nat → Option Nat
  | [], _, c => some c
  | _ :: _, [], _ => none
  | a :: l, b :: r, c => countMatchesFor v l r (if b = v ∧ a = b then c + 1 else c)

/-! ### split axis -/

/-- `CycleThroughAxesBuild` (AxisSelectionPolicy.hpp:141-160). -/
def cycleAxis (mask : List Nat) (nf depth : Nat) : Option Nat :=
  if mask.isEmpty then some (depth % nf) else mask[depth % mask.length]?

section Axis

variable {F : Type} [Field F] [LinearOrder F]

/-- `select_longest_axis` (KDTreeAlgorithms.hpp:17-24). -/
def longestAxis (box : List (F × F)) : Option Nat :=
  (best (fun a b => decide (|b.1 - b.2| < |a.1 - a.2|)) box).map (·.1)

/-- Loop of `select_longest_axis` with a mask (KDTreeAlgorithms.hpp:36-45). -/
def longestAxisLoop (box : List (F × F)) : List Nat → Nat → F → Option Nat
  | [], axis, _ => some axis
  | f :: mask, axis, range => do
    let s ← box[f]?
    if |s.2 - s.1| > range then longestAxisLoop box mask f |s.2 - s.1|
    else longestAxisLoop box mask axis range

/-- `select_longest_axis` with a mask (KDTreeAlgorithms.hpp:26-47). -/
def longestAxisMasked (box : List (F × F)) (mask : List Nat) : Option Nat :=
  longestAxisLoop box mask 0 0

/-- `MaximumSpreadBuild` (AxisSelectionPolicy.hpp:197-216). -/
def spreadAxis (mask : List Nat) (box : List (F × F)) : Option Nat :=
  if mask.isEmpty then longestAxis box else longestAxisMasked box mask

/-- `HighestVarianceBuild` and `select_largest_variance_axis` (AxisSelectionPolicy.hpp:162-195,
KDTreeAlgorithms.hpp:49-156).  `nChoices` is the fraction of the samples, `outcome` and `draw` the
outcomes of the generator, `nAll` the number of samples of the whole data set: with two samples in
the node the bound is computed from all samples, not from the two. -/
def varianceAxis (x : Nat → Nat → F) (nf nAll : Nat) (vmax vlowest : F) (nChoices : Nat)
    (outcome : Nat → Nat) (draw : Nat) (mask : List Nat) (idx : List Nat) : Option Nat := do
  let byVariance (sel : List Nat) : Option Nat :=
    if mask.isEmpty then argmaxVariance none x nf sel else argmaxVarianceMasked none x sel mask
  if nChoices > 2 then
    let sel ← Random.selectN outcome idx nChoices
    byVariance sel
  else if idx.length > 2 then
    let sel ← Random.selectN outcome idx 3
    byVariance sel
  else if idx.length = 2 then
    let box := KDTree.tightBound x nf vmax vlowest (List.range nAll)
    if mask.isEmpty then longestAxis box else longestAxisMasked box mask
  else some draw

end Axis

end Verif.Stats
