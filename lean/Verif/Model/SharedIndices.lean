import Verif.Model.Search

/-
The nodes of a k-d tree do not own sample indices: they hold iterators into the index array of the
caller, which the construction reorders in place.  Here a node holds positions of that array, so that
several trees over the same array, and the caller's own changes of it, can be described.
-/

namespace Verif.KDTree

variable {K : Type}

/-- `KDNodeView` with `indices_range_` as positions of the index array
(datastruct/tree/kdtree/KDNodeView.hpp:80-82, 129-157): a leaf holds a range, an inner node the position
of its pivot. -/
inductive Shape (K : Type) where
  | leaf (first last : Nat) (box : Box K)
  | node (pivot axis : Nat) (box : Box K) (left right : Shape K)
deriving DecidableEq, Repr

/-- `std::distance` of the range of a subtree. -/
def Tree.size : Tree K → Nat
  | .leaf idx _ => idx.length
  | .node _ _ _ l r => l.size + 1 + r.size

/-- The ranges `build` hands to the nodes (datastruct/tree/kdtree/KDTree.hpp:331-357, 377-379), for a tree
over the range that starts at `first`: the left range, then the pivot, then the right range. -/
def Tree.shape : Nat → Tree K → Shape K
  | first, .leaf idx box => .leaf first (first + idx.length) box
  | first, .node _ axis box l r =>
    let size := l.size
    .node (first + size) axis box (l.shape first) (r.shape (first + size + 1))

/-- What a traversal reads through the iterators of the nodes (`partial_search` on `indices_range_`,
search/TreeTraverser.hpp:237-241, and `indices_range_.first[0]`, KDNodeView.hpp:222-226, 262-265) when the
array holds `arr`.  `none` is a read outside of the array. -/
def Shape.view (arr : List Nat) : Shape K → Option (Tree K)
  | .leaf first last box =>
    if last ≤ arr.length then some (.leaf ((arr.drop first).take (last - first)) box) else none
  | .node pivot axis box l r => do
    let p ← arr[pivot]?
    let l ← l.view arr
    let r ← r.view arr
    some (.node p axis box l r)

variable [LT K] [DecidableLT K]

/-- The constructor of `KDTree` over the range `[first, last)` of the index array `arr`
(datastruct/tree/kdtree/KDTree.hpp:193-222): the range is reordered in place, the nodes point into it. -/
def construct (eqv : K → K → Bool) (x : Nat → Nat → K) (policy : List Nat → Nat → Box K → Nat)
    (bucketSize maxDepth nFeatures : Nat) (vmax vlowest : K) (first last : Nat) (arr : List Nat) :
    Option (List Nat × Shape K) :=
  if first ≤ last ∧ last ≤ arr.length then do
    let (range, t) ← make eqv x policy bucketSize maxDepth nFeatures vmax vlowest
      ((arr.drop first).take (last - first))
    some (arr.take first ++ range ++ arr.drop last, t.shape first)
  else none

end Verif.KDTree

namespace Verif.Search

open Verif.KDTree

variable {K : Type} [LT K] [DecidableLT K]

/-- `Searcher::operator()` (search/Search.hpp:137-142) when the index array of its tree holds `arr`. -/
def searchShared {B : Type} (x : Nat → Nat → K) (q : Nat → K) (ops : BufferOps B) (arr : List Nat)
    (s : Shape K) (b : B) : Option B := do
  let t ← s.view arr
  search x q ops t b

end Verif.Search
