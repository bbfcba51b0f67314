import Verif.Model.SortCost

/-
The construction of the k-d tree (datastruct/tree/kdtree/KDTree.hpp, KDTreeAlgorithms.hpp) with a count of
the tests on coordinates: those of the selection as in `Verif.Model.SortCost`, and the calls of
`common::equality` in `shift_median_to_leftmost_equal_value`.  Each definition is the one of
`Verif.Model.KDTree` that also returns the count; that the rest is unchanged is `erase` in
`Verif.Lemmas.BuildCost`.  The work of the axis policy and of the initial bound is not counted.
-/

namespace Verif.KDTree

open Verif.Sorting

variable {K : Type} [LT K] [DecidableLT K]

/-- `shiftLeft` (datastruct/tree/kdtree/KDTreeAlgorithms.hpp:198-216) with the number of tests. -/
def shiftLeftC (eqv : K → K → Bool) (key : Nat → K) (cut : K) (idx : List Nat) : Nat → Option (Nat × Nat)
  | 0 => some (0, 0)
  | j + 1 => do
    let y ← idx[j]?
    if eqv (key y) cut then
      let (r, c) ← shiftLeftC eqv key cut idx j
      some (r, c + 1)
    else some (j + 1, 1)

/-- `quickselect_median` (datastruct/tree/kdtree/KDTreeAlgorithms.hpp:225-274) with the number of
tests. -/
def quickselectMedianC (eqv : K → K → Bool) (key : Nat → K) (idx : List Nat) :
    Option ((List Nat × Nat × List Nat) × Nat) := do
  let medianIndex := (idx.length - 1) / 2
  let ((idx', first, _), c) ← quickselectC eqv key idx medianIndex
  let m ← idx'[first]?
  let (j, c') ← shiftLeftC eqv key (key m) idx' medianIndex
  let p ← idx'[j]?
  some ((idx'.take j, p, idx'.drop (j + 1)), c + c')

/-- `KDTree::build` (datastruct/tree/kdtree/KDTree.hpp:302-382) with the number of tests of the subtree. -/
def buildC (eqv : K → K → Bool) (x : Nat → Nat → K)
    (policy : List Nat → Nat → Box K → Nat) (bucketSize maxDepth : Nat) :
    Nat → List Nat → Nat → Box K → Option ((List Nat × Tree K × Box K) × Nat)
  | 0, _, _, _ => none
  | fuel + 1, idx, depth, box =>
    if depth < maxDepth ∧ idx.length > bucketSize then do
      let axis := policy idx depth box
      let ((l, p, r), c) ← quickselectMedianC eqv (fun i => x i axis) idx
      let cut := x p axis
      let nodeBox := box
      let box ← updUpper box axis cut
      let ((l', tl, box), cl) ← buildC eqv x policy bucketSize maxDepth fuel l (depth + 1) box
      let seg ← nodeBox[axis]?
      let box ← updUpper box axis seg.2
      let box ← updLower box axis cut
      let ((r', tr, box), cr) ← buildC eqv x policy bucketSize maxDepth fuel r (depth + 1) box
      let box ← updLower box axis seg.1
      some ((l' ++ p :: r', .node p axis nodeBox tl tr, box), c + cl + cr)
    else
      some ((idx, .leaf idx box, box), 0)

/-- Constructor (datastruct/tree/kdtree/KDTree.hpp:193-222) with the number of tests. -/
def makeC (eqv : K → K → Bool) (x : Nat → Nat → K)
    (policy : List Nat → Nat → Box K → Nat) (bucketSize maxDepth nFeatures : Nat)
    (vmax vlowest : K) (idx : List Nat) : Option ((List Nat × Tree K) × Nat) := do
  let ((idx', t, _), c) ← buildC eqv x policy bucketSize maxDepth (idx.length + 1) idx 0
    (tightBound x nFeatures vmax vlowest idx)
  some ((idx', t), c)

end Verif.KDTree
