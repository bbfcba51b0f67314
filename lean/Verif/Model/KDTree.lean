import Verif.Model.Sorting

/-
Model of the k-d tree construction: datastruct/tree/kdtree/KDTree.hpp,
KDTreeAlgorithms.hpp and datastruct/Interval.hpp.

Sample coordinates are a function `x : sample index → feature → K`; reads of the flat sample array
`samples[i * n_features + f]` become `x i f` (the caller must supply indices of existing samples;
the construction only ever reads samples whose index is in the given index range, with the feature
returned by the axis policy).  The index array is modified in place by the C++ code; here the
permuted range is returned.  `none` is an out-of-range access, an empty `quickselect`, or missing
fuel.
-/

namespace Verif.KDTree

open Verif.Sorting

variable {K : Type} [LT K] [DecidableLT K]

/-- The segments of a node bound (`bounds::AABBWithCentroid` of `LowerBoundAndUpperBound`,
datastruct/bounds/AABBWithCentroid.hpp:63-64, segment/LowerBoundAndUpperBound.hpp:33). The cached
centroid is not modelled here. -/
abbrev Box (K : Type) := List (K × K)

/-- `KDNodeView` (datastruct/tree/kdtree/KDNodeView.hpp): a leaf holds its index bucket, an inner
node the one-element pivot range, the cut axis and two children.  Parent pointers are implicit. -/
inductive Tree (K : Type) where
  | leaf (idx : List Nat) (box : Box K)
  | node (pivot axis : Nat) (box : Box K) (left right : Tree K)
deriving DecidableEq, Repr

/-- `segment_at(axis).update_upper_bound(v)` (segment/LowerBoundAndUpperBound.hpp:60-62). -/
def updUpper (box : Box K) (axis : Nat) (v : K) : Option (Box K) := do
  let seg ← box[axis]?
  some (box.set axis (seg.1, v))

/-- `segment_at(axis).update_lower_bound(v)` (segment/LowerBoundAndUpperBound.hpp:50-52). -/
def updLower (box : Box K) (axis : Nat) (v : K) : Option (Box K) := do
  let seg ← box[axis]?
  some (box.set axis (v, seg.2))

/-- One sample of `make_tight_bound` (datastruct/Interval.hpp:128-140): each feature's segment is
widened to the sample. -/
def tightStep (x : Nat → Nat → K) (box : Box K) (i : Nat) : Box K :=
  box.mapIdx fun f seg =>
    let v := x i f
    let seg := if v < seg.1 then (v, seg.2) else seg
    if v > seg.2 then (seg.1, v) else seg

/-- `make_tight_bound` on an index range (datastruct/Interval.hpp:113-142); `vmax` and `vlowest`
are `numeric_limits<DataType>::max()` and `lowest()`. -/
def tightBound (x : Nat → Nat → K) (nFeatures : Nat) (vmax vlowest : K) (idx : List Nat) : Box K :=
  idx.foldl (tightStep x) (List.replicate nFeatures (vmax, vlowest))

/-- The `while` loop of `shift_median_to_leftmost_equal_value`
(datastruct/tree/kdtree/KDTreeAlgorithms.hpp:198-216): `j` is the position of the median; the
position before it is tested while there is one.  When every value to the left is equal the C++ iterator is
decremented once past the start of the range and compared with it, never dereferenced; with the whole vector as
the range this forms an iterator before its beginning, which the standard leaves undefined and which is taken
to compare as smaller. -/
def shiftLeft (eqv : K → K → Bool) (key : Nat → K) (cut : K) (idx : List Nat) : Nat → Option Nat
  | 0 => some 0
  | j + 1 => do
    let y ← idx[j]?
    if eqv (key y) cut then shiftLeft eqv key cut idx j else some (j + 1)

/-- `quickselect_median` (datastruct/tree/kdtree/KDTreeAlgorithms.hpp:225-274): the left range, the
pivot index and the right range, as sub-ranges of the permuted range. -/
def quickselectMedian (eqv : K → K → Bool) (key : Nat → K) (idx : List Nat) :
    Option (List Nat × Nat × List Nat) := do
  let medianIndex := (idx.length - 1) / 2
  let (idx', first, _) ← quickselect eqv key idx medianIndex
  let m ← idx'[first]?
  let j ← shiftLeft eqv key (key m) idx' medianIndex
  let p ← idx'[j]?
  some (idx'.take j, p, idx'.drop (j + 1))

/-- `KDTree::build` (datastruct/tree/kdtree/KDTree.hpp:302-382).  Returns the permuted index range,
the subtree and the bound that is threaded by reference.  `policy` is the axis-selection policy: any
function of the index range, the depth and the bound.  Fuel bounds the recursion depth. -/
def build (eqv : K → K → Bool) (x : Nat → Nat → K)
    (policy : List Nat → Nat → Box K → Nat) (bucketSize maxDepth : Nat) :
    Nat → List Nat → Nat → Box K → Option (List Nat × Tree K × Box K)
  | 0, _, _, _ => none
  | fuel + 1, idx, depth, box =>
    if depth < maxDepth ∧ idx.length > bucketSize then do
      let axis := policy idx depth box
      let (l, p, r) ← quickselectMedian eqv (fun i => x i axis) idx
      let cut := x p axis
      let nodeBox := box
      let box ← updUpper box axis cut
      let (l', tl, box) ← build eqv x policy bucketSize maxDepth fuel l (depth + 1) box
      let seg ← nodeBox[axis]?
      let box ← updUpper box axis seg.2
      let box ← updLower box axis cut
      let (r', tr, box) ← build eqv x policy bucketSize maxDepth fuel r (depth + 1) box
      let box ← updLower box axis seg.1
      some (l' ++ p :: r', .node p axis nodeBox tl tr, box)
    else
      some (idx, .leaf idx box, box)

/-- Constructor (datastruct/tree/kdtree/KDTree.hpp:193-222): the tight bound of the samples, then
`build` from depth 0.  Fuel `n + 1` (shown sufficient in C11). The result of the extra call of the
axis policy in the initialiser list is never used. -/
def make (eqv : K → K → Bool) (x : Nat → Nat → K)
    (policy : List Nat → Nat → Box K → Nat) (bucketSize maxDepth nFeatures : Nat)
    (vmax vlowest : K) (idx : List Nat) : Option (List Nat × Tree K) := do
  let (idx', t, _) ← build eqv x policy bucketSize maxDepth (idx.length + 1) idx 0
    (tightBound x nFeatures vmax vlowest idx)
  some (idx', t)

end Verif.KDTree
