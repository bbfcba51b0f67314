import Verif.Model.Search
import Verif.Spec.KDTree

/-
Model of the dual-tree search: search/buffer/IndicesToBuffersMap.hpp and the dual-tree part of
search/TreeTraverser.hpp.

A node is identified by the path from the root of its tree (`false` left, `true` right), which stands
for its address in the hash maps and sets.  `K` is the data type, `D` the distance type.  `S` is the
state shared by all buffers (the union-find structure of `WithUnionFind`, nothing otherwise).
`none` is undefined behaviour or missing fuel.  `dual_tree_traversal_with_core_distances`
(search/TreeTraverser.hpp:443-521) is the same code as `dual_tree_traversal`, and the
model stands for both.  An iterator into `query_nodes_to_bounds_limits_map_` is kept across an insertion
(IndicesToBuffersMap.hpp:342-359), which the standard does not allow when the table is rehashed; it is
taken to go on designating its element.
-/

namespace Verif.DualTree

open Verif.KDTree Verif.Buffer

/-- A node address. -/
abbrev Path := List Bool

/-- `BoundsLimits` (IndicesToBuffersMap.hpp:139-161). -/
structure Limits (D : Type) where
  closest : D
  furthest : D
deriving DecidableEq, Repr

/-- An edge: query, reference, distance. -/
abbrev Edge (D : Type) := Nat × Nat × D

/-- `std::priority_queue` with `kth_shortest_edge_less_than_comparator_`
(IndicesToBuffersMap.hpp:178-187): the elements as a list whose first element is `top()`.  `push` and
`pop` may put the elements in any order as long as the first is a longest edge, so that nothing is assumed
on edges of the same length.  (A real heap keeps the laws only on the arrangements it produces; on other
lists, which do not occur, any function with the laws will do.) -/
structure Heap (D : Type) [LE D] where
  push : Edge D → List (Edge D) → List (Edge D)
  pop : List (Edge D) → List (Edge D)
  push_perm : ∀ e l, (push e l).Perm (e :: l)
  pop_perm : ∀ l, (pop l).Perm l.tail
  push_top : ∀ e l t r, push e l = t :: r → ∀ f ∈ r, f.2.2 ≤ t.2.2
  pop_top : ∀ l t r, pop l = t :: r → ∀ f ∈ r, f.2.2 ≤ t.2.2

/-- Everything the traversal does not change: the constants and operations of the distance type, the
bounds of the nodes, the priority queue, the capacity of the buffers, and how a buffer takes a sample
(`partial_search` on one sample). -/
structure Env (K D S : Type) [LE D] where
  inf : D
  zero : D
  add : D → D → D
  sub : D → D → D
  minDist : Tree K → Tree K → D
  diam : Tree K → D
  heap : Heap D
  capacity : Nat
  offer : Nat → S → Buf D → Nat → Option (S × Buf D)

/-- Data members of `IndicesToBuffersMap` (IndicesToBuffersMap.hpp:205-222) and the shared state.  The
maximum heap `kth_closest_edge_priority_queue_` is a list, its top first. -/
structure State (D S : Type) where
  shared : S
  bufs : Nat → Option (Buf D)
  visited : List (Path × Path)
  limits : Path → Option (Limits D)
  pq : List (Edge D)
  inPq : List (Nat × Nat)

section

variable {K D S : Type} [LinearOrder K] [LinearOrder D] (env : Env K D S)

/-- `BoundsLimits{}` (IndicesToBuffersMap.hpp:159-160). -/
def limits0 : Limits D := ⟨env.inf, env.zero⟩

/-- `compute_adjusted_bound` (IndicesToBuffersMap.hpp:153-157). -/
def adjustedBound (l : Limits D) (diameter : D) : D :=
  if l.closest < env.sub env.inf diameter then min l.furthest (env.add l.closest diameter) else env.inf

/-- One sample in `update_bounds_limits` (IndicesToBuffersMap.hpp:372-389). -/
def limitStep (bufs : Nat → Option (Buf D)) (l : Limits D) (q : Nat) : Limits D :=
  match bufs q with
  | none => { l with furthest := env.inf }
  | some b =>
    if b.remaining ≠ 0 then { l with furthest := env.inf }
    else ⟨min l.closest b.furthestDistance, max l.furthest b.furthestDistance⟩

/-- `update_bounds_limits` (IndicesToBuffersMap.hpp:365-391), without storing. -/
def updateBoundsLimits (st : State D S) (p : Path) (t : Tree K) : Limits D :=
  t.own.foldl (limitStep env st.bufs) ((st.limits p).getD (limits0 env))

/-- One child in `query_node_furthest_bound` (IndicesToBuffersMap.hpp:344-358). -/
def childStep (s : (Path → Option (Limits D)) × Limits D) (child : Path) :
    (Path → Option (Limits D)) × Limits D :=
  match s.1 child with
  | none => (fun p => if p = child then some (limits0 env) else s.1 p, s.2)
  | some c => (s.1, ⟨min s.2.closest c.closest, max s.2.furthest c.furthest⟩)

/-- `query_node_furthest_bound` (IndicesToBuffersMap.hpp:339-362). -/
def furthestBound (st : State D S) (p : Path) (t : Tree K) : State D S × D :=
  let l := updateBoundsLimits env st p t
  let s := match t with
    | .leaf _ _ => (st.limits, l)
    | .node _ _ _ _ _ => childStep env (childStep env (st.limits, l) (p ++ [false])) (p ++ [true])
  ({ st with limits := fun r => if r = p then some s.2 else s.1 r }, adjustedBound env s.2 (env.diam t))

/-- `update_cost` (IndicesToBuffersMap.hpp:284-289): `none` prunes. -/
def updateCost (st : State D S) (p : Path) (tq : Tree K) (cost : D) : State D S × Option D :=
  let (st, b) := furthestBound env st p tq
  (st, if b < cost then none else some cost)

/-- `cost` (IndicesToBuffersMap.hpp:275-281). -/
def cost (st : State D S) (p : Path) (tq tr : Tree K) : State D S × Option D :=
  updateCost env st p tq (env.minDist tq tr)

/-! ### The priority queue of edges -/

/-- The queue and the set of the pairs it holds
(`priority_queue_visited_combinations_set_`). -/
abbrev Queue (D : Type) := List (Edge D) × List (Nat × Nat)

/-- Erase the top from the set and pop it (IndicesToBuffersMap.hpp:402-404, 450-453). -/
def popTop : Queue D → Queue D
  | ([], s) => ([], s)
  | (e :: l, s) => (env.heap.pop (e :: l), s.erase (e.1, e.2.1))

/-- `while (pq.size() > max_capacity)` (IndicesToBuffersMap.hpp:400-405). -/
def shrink (capacity : Nat) : Nat → Queue D → Queue D
  | 0, w => w
  | fuel + 1, w => if capacity < w.1.length then shrink capacity fuel (popTop env w) else w

/-- Emplace an edge unless its pair is in the set (IndicesToBuffersMap.hpp:417-421, 445-446). -/
def insertNew (e : Edge D) (w : Queue D) : Queue D × Bool :=
  if (e.1, e.2.1) ∈ w.2 then (w, false) else ((env.heap.push e w.1, (e.1, e.2.1) :: w.2), true)

/-- Distance of the top, infinity if there is none (IndicesToBuffersMap.hpp:434-436, 442-444). -/
def topDistance (w : Queue D) : D :=
  match w.1 with
  | [] => env.inf
  | e :: _ => e.2.2

/-- One element of the buffer in the second loop (IndicesToBuffersMap.hpp:438-456). -/
def replaceStep (capacity q : Nat) (w : Queue D) (c : Nat × D) : Queue D :=
  if c.2 < topDistance env w then
    match insertNew env (q, c.1, c.2) w with
    | (w, true) => if capacity < w.1.length then popTop env w else w
    | (w, false) => w
  else w

/-- `update_priority_queue` (IndicesToBuffersMap.hpp:394-459). -/
def updateQueue (w : Queue D) (q : Nat) (b : Buf D) : Queue D :=
  let w := shrink env b.maxCapacity w.1.length w
  let elems := List.zip b.indices b.distances
  let w := if w.1.length + b.indices.length ≤ b.maxCapacity then
      elems.foldl (fun w c => (insertNew env (q, c.1, c.2) w).1) w
    else w
  if b.closestDistance < topDistance env w then elems.foldl (replaceStep env b.maxCapacity q) w else w

/-! ### Traversal -/

/-- `partial_search` of one buffer (search/buffer/Unsorted.hpp:42-61). -/
def searchBuffer (q : Nat) : List Nat → S → Buf D → Option (S × Buf D)
  | [], s, b => some (s, b)
  | i :: is, s, b => do
    let (s, b) ← env.offer q s b i
    searchBuffer q is s b

/-- One query of `partial_search_for_each_query` (IndicesToBuffersMap.hpp:255-270) with
`find_or_emplace_buffer` (IndicesToBuffersMap.hpp:309-328). -/
def searchQuery (st : State D S) (refs : List Nat) (q : Nat) : Option (State D S) := do
  let (s, b) ← searchBuffer env q refs st.shared ((st.bufs q).getD (mk env.inf env.capacity))
  let (pq, inPq) := updateQueue env (st.pq, st.inPq) q b
  some { st with shared := s, bufs := fun r => if r = q then some b else st.bufs r, pq := pq, inPq := inPq }

/-- `partial_search_for_each_query` (IndicesToBuffersMap.hpp:247-272). -/
def searchQueries (st : State D S) (refs queries : List Nat) : Option (State D S) :=
  queries.foldlM (fun st q => searchQuery env st refs q) st

/-- The two children of a reference node in the order in which the minimum heap gives them
(search/TreeTraverser.hpp:358-368): pruned ones are left out. -/
def childQueue (l r : Bool × Tree K) (cl cr : Option D) : List (Bool × Tree K × D) :=
  match cl, cr with
  | none, none => []
  | some c, none => [(l.1, l.2, c)]
  | none, some c => [(r.1, r.2, c)]
  | some c, some c' => if c' < c then [(r.1, r.2, c'), (l.1, l.2, c)] else [(l.1, l.2, c), (r.1, r.2, c')]

/-- The recursive call: the two nodes, the cost to update and the bypass flag. -/
abbrev Call (K D S : Type) :=
  State D S → Path → Tree K → Path → Tree K → Option D → Bool → Option (State D S)

/-- The cost of the pair (search/TreeTraverser.hpp:327-337): `none` prunes. -/
def pairCost (st : State D S) (p : Path) (tq tr : Tree K) (optCost : Option D) (bypass : Bool) :
    State D S × Option D :=
  if bypass then (st, some env.zero) else
    match optCost with
    | some c => updateCost env st p tq c
    | none => cost env st p tq tr

/-- The children of the query node (search/TreeTraverser.hpp:346-355). -/
def queryChildren (call : Call K D S) (st : State D S) (p : Path) (tq : Tree K) (p' : Path)
    (tr : Tree K) : Option (State D S) :=
  match tq with
  | .leaf _ _ => some st
  | .node _ _ _ l r => do
    let st ← call st (p ++ [false]) l p' tr none false
    call st (p ++ [true]) r p' tr none false

/-- The loop over the queue of reference children (search/TreeTraverser.hpp:370-395). -/
def processQueue (call : Call K D S) (st : State D S) (p : Path) (tq : Tree K) (p' : Path) :
    List (Bool × Tree K × D) → Option (State D S)
  | [] => some st
  | (d, t, _) :: rest => do
    let st ← call st p tq (p' ++ [d]) t none true
    rest.foldlM (fun st e => call st p tq (p' ++ [e.1]) e.2.1 (some e.2.2) false) st

/-- The children of the reference node (search/TreeTraverser.hpp:357-397). -/
def refChildren (call : Call K D S) (st : State D S) (p : Path) (tq : Tree K) (p' : Path)
    (tr : Tree K) : Option (State D S) :=
  match tr with
  | .leaf _ _ => some st
  | .node _ _ _ l r =>
    let (st, cl) := cost env st p tq l
    let (st, cr) := cost env st p tq r
    processQueue call st p tq p' (childQueue (false, l) (true, r) cl cr)

/-- `dual_tree_traversal` (search/TreeTraverser.hpp:313-398) with
`emplace_nodes_combination_if_not_found` (IndicesToBuffersMap.hpp:292-304). -/
def traverse : Nat → Call K D S
  | 0, _, _, _, _, _, _, _ => none
  | fuel + 1, st, p, tq, p', tr, optCost, bypass =>
    if (p, p') ∈ st.visited then some st
    else
      match pairCost env { st with visited := (p, p') :: st.visited } p tq tr optCost bypass with
      | (st, none) => some st
      | (st, some _) => do
        let st ← searchQueries env st tr.own tq.own
        let st ← queryChildren (traverse fuel) st p tq p' tr
        refChildren env (traverse fuel) st p tq p' tr

/-- The state at the start. -/
def start (s : S) : State D S :=
  { shared := s, bufs := fun _ => none, visited := [], limits := fun _ => none, pq := [], inPq := [] }

/-- `dual_tree_shortest_edge` (search/TreeTraverser.hpp:275-300): the traversal from the roots and
`tightest_edge` (IndicesToBuffersMap.hpp:241), which is undefined on an empty queue.  The shared state is
returned as well. -/
def dualSearch (s : S) (tq tr : Tree K) : Option (S × Edge D) := do
  let st ← traverse env (Search.nodeCount tq + Search.nodeCount tr) (start s) [] tq [] tr none false
  let e ← st.pq.head?
  some (st.shared, e)

/-- What the caller of `dual_tree_shortest_edge` (search/TreeTraverser.hpp:275-300) gets. -/
def shortestEdge (s : S) (tq tr : Tree K) : Option (Edge D) := (dualSearch env s tq tr).map Prod.snd

end

end Verif.DualTree
