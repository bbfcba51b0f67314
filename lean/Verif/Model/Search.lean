import Verif.Model.KDTree
import Verif.Model.Buffer
import Verif.Model.UnionFind

/-
Model of the single-tree search: search/TreeTraverser.hpp and the child/sibling selection of
datastruct/tree/kdtree/KDNodeView.hpp.

The traversal is generic in the buffer: `offer` processes one sample of a node
(`partial_search` calls it for each sample of the node), `visit isLeft pivot axis` is the test
that decides whether the sibling of a child of the node with the given pivot and axis is searched.
`none` is undefined behaviour inside the buffer or missing fuel.
-/

namespace Verif.Search

open Verif.KDTree Verif.Buffer

variable {K : Type} [LT K] [DecidableLT K]

/-- The operations of a search buffer used by the traversal. -/
structure BufferOps (B : Type) where
  offer : B → Nat → Option B
  visit : B → Bool → Nat → Nat → Bool

/-- One step from a child up to its parent: the parent's pivot and axis, whether the child is the
left one, and the sibling. -/
structure Frame (K : Type) where
  pivot : Nat
  axis : Nat
  isLeft : Bool
  sibling : Tree K

/-- `partial_search` on the range of a node (search/buffer/Unsorted.hpp:42-61). -/
def offerAll {B : Type} (ops : BufferOps B) (b : B) (idx : List Nat) : Option B :=
  idx.foldlM ops.offer b

/-- `recursive_search_to_leaf_node` (search/TreeTraverser.hpp:234-252) with `select_closest_child`
(KDNodeView.hpp:250-272).  Instead of the leaf pointer the frames from the leaf up to the start node
are returned, nearest first: they are what the parent pointers give. -/
def descend {B : Type} (x : Nat → Nat → K) (q : Nat → K) (ops : BufferOps B) :
    Tree K → B → Option (B × List (Frame K))
  | .leaf idx _, b => do
    let b ← offerAll ops b idx
    some (b, [])
  | .node p a _ l r, b => do
    let b ← offerAll ops b [p]
    if q a < x p a then do
      let (b, fs) ← descend x q ops l b
      some (b, fs ++ [⟨p, a, true, r⟩])
    else do
      let (b, fs) ← descend x q ops r b
      some (b, fs ++ [⟨p, a, false, l⟩])

/-- `single_tree_traversal` (search/TreeTraverser.hpp:220-230): go down to the closest leaf, then
climb back to the start node with `get_parent_node_after_sibling_traversal`
(search/TreeTraverser.hpp:256-269), searching the sibling first when `select_sibling_node`
(KDNodeView.hpp:209-246) returns it. -/
def traverse {B : Type} (x : Nat → Nat → K) (q : Nat → K) (ops : BufferOps B) :
    Nat → Tree K → B → Option B
  | 0, _, _ => none
  | fuel + 1, t, b => do
    let (b, frames) ← descend x q ops t b
    frames.foldlM (fun b f =>
      if ops.visit b f.isLeft f.pivot f.axis then traverse x q ops fuel f.sibling b
      else some b) b

/-- Number of nodes. -/
def nodeCount : Tree K → Nat
  | .leaf _ _ => 1
  | .node _ _ _ l r => nodeCount l + nodeCount r + 1

/-- `TreeTraverser::operator()` for one buffer (search/TreeTraverser.hpp:191-203). -/
def search {B : Type} (x : Nat → Nat → K) (q : Nat → K) (ops : BufferOps B) (t : Tree K) (b : B) :
    Option B :=
  traverse x q ops (nodeCount t) t b

/-- `Searcher::operator()` and `TreeTraverser::operator()` for an iterable of buffers
(search/Search.hpp:147-159, search/TreeTraverser.hpp:205-218): every buffer, which carries its own
query, is replaced by the result of the search with it, from first to last. -/
def searchBatch {B : Type} (x : Nat → Nat → K) (ops : (Nat → K) → BufferOps B) (t : Tree K) :
    List ((Nat → K) × B) → Option (List ((Nat → K) × B))
  | [] => some []
  | (q, b) :: rest => do
    let b ← search x q (ops q) t b
    let rest ← searchBatch x ops t rest
    some ((q, b) :: rest)

/-- One buffer handed to several searchers in turn: `buffer = searcher(std::move(buffer))`
(search/Search.hpp:137-142), for trees over index ranges of the same data set. -/
def searchChain {B : Type} (x : Nat → Nat → K) (q : Nat → K) (ops : BufferOps B)
    (ts : List (Tree K)) (b : B) : Option B :=
  ts.foldlM (fun b t => search x q ops t b) b

variable {D : Type} [LT D] [DecidableLT D] [LE D] [DecidableLE D]

/-- The sibling test of `select_sibling_node` (KDNodeView.hpp:222-242) for a buffer derived from
`StaticBuffer`: `gap p q` is `common::abs(pivot_split_value - query_split_value)`. -/
def visitSibling (x : Nat → Nat → K) (q : Nat → K) (gap : K → K → D) (b : Buf D) (isLeft : Bool)
    (p a : Nat) : Bool :=
  b.remaining ≠ 0 ||
    (if isLeft then decide (gap (x p a) (q a) ≤ b.furthestDistance)
     else decide (gap (x p a) (q a) < b.furthestDistance))

/-- Buffers whose acceptance of a sample does not depend on state: `Unsorted` and `WithMemory`
(the latter with `cand` false on visited samples). -/
def staticOps (x : Nat → Nat → K) (q : Nat → K) (gap : K → K → D) (cand : Nat → Option D) :
    BufferOps (Buf D) where
  offer := Buf.offer cand
  visit := visitSibling x q gap

/-- `UnboundedBallView::compute_distance_to_centroid_if_within_bounds`
(datastruct/bounds/UnboundedBall.hpp:197-204): always the distance. -/
def candAll (dist : Nat → D) : Nat → Option D := fun i => some (dist i)

/-- `BallView::compute_distance_to_centroid_if_within_bounds` (datastruct/bounds/Ball.hpp:207-215):
the distance when it is strictly below the radius. -/
def candBall (dist : Nat → D) (radius : D) : Nat → Option D :=
  fun i => if dist i < radius then some (dist i) else none

/-- `WithMemory::update_impl` (search/buffer/WithMemory.hpp:90-98): visited samples are ignored. -/
def candUnvisited (visited : List Nat) (cand : Nat → Option D) : Nat → Option D :=
  fun i => match cand i with
    | none => none
    | some d => if i ∈ visited then none else some d

/-- `WithUnionFind` (search/buffer/WithUnionFind.hpp:47-77): the union-find structure is shared and
its `find` rewrites parents, so it is part of the state.  `rep` is `query_representative_`. -/
def ufOffer (cand : Nat → Option D) (rep : Nat) (s : UF.State × Buf D) (i : Nat) :
    Option (UF.State × Buf D) :=
  match cand i with
  | none => some s
  | some d => do
    let (u, r1) ← UF.find s.1 rep
    let (u, r2) ← UF.find u i
    if r1 = r2 then some (u, s.2)
    else do
      let b ← s.2.update i d
      some (u, b)

/-- Buffer operations of `WithUnionFind`. -/
def ufOps (x : Nat → Nat → K) (q : Nat → K) (gap : K → K → D) (cand : Nat → Option D) (rep : Nat) :
    BufferOps (UF.State × Buf D) where
  offer := ufOffer cand rep
  visit := fun s => visitSibling x q gap s.2

end Verif.Search
