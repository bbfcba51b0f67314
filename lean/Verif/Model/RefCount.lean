import Verif.Model.Dendrogram

/-
Model of the ownership of the nodes of the three trees by `std::shared_ptr`:
datastruct/tree/kdtree/{KDNodeView,KDTree}.hpp,
datastruct/tree/single_linkage_cluster_tree/{SingleLinkageClusterNode,SingleLinkageClusterTree}.hpp,
datastruct/tree/condensed_cluster_tree/{CondensedClusterNode,CondensedClusterTree}.hpp.

Only what `std::shared_ptr` counts is on the heap: the number of owners of an object and the owning
pointers that the object holds itself.  The other members of the nodes stay in a tree that also carries
the addresses.  Addresses are not used twice.  `std::weak_ptr` does not own and is left out.  Copies of a
pointer that are made for a parameter and dropped at the end of the call are left out.
-/

namespace Verif.RefCount

open Verif.Dendrogram
open Verif.ClosestPair (Edge)

/-- An object owned by `std::shared_ptr`: the number of its owners and the owning pointers among its
members (the null pointers are left out). -/
structure Cell where
  count : Nat
  strong : List Nat
deriving DecidableEq, Repr

/-- The objects by address; `none` is an object that was destroyed. -/
abbrev Heap := List (Option Cell)

/-- The object at an address. -/
def cell (h : Heap) (a : Nat) : Option Cell := (h[a]?).join

/-- The number of objects that are not destroyed. -/
def alive (h : Heap) : Nat := h.countP Option.isSome

/-- `std::make_shared`: a new object with one owner and its address. -/
def makeShared (h : Heap) : Heap × Nat := (h ++ [some ⟨1, []⟩], h.length)

/-- A copy of a pointer to `a`. -/
def retain (h : Heap) (a : Nat) : Option Heap := do
  let c ← cell h a
  some (h.set a (some { c with count := c.count + 1 }))

/-- A null member of the object `a` is set to a pointer to `b` that is moved. -/
def store (h : Heap) (a b : Nat) : Option Heap := do
  let c ← cell h a
  some (h.set a (some { c with strong := b :: c.strong }))

/-- A null member of the object `a` is set to a copy of a pointer to `b`. -/
def assign (h : Heap) (a b : Nat) : Option Heap := do
  let h ← retain h b
  store h a b

/-- Destruction of the pointers in the list: the object of a last owner is destroyed, and its members
after it.  Each unit of fuel is one pointer. -/
def releaseLoop : Nat → List Nat → Heap → Option Heap
  | _, [], h => some h
  | 0, _ :: _, _ => none
  | fuel + 1, a :: w, h => do
    let c ← cell h a
    if c.count ≤ 1 then releaseLoop fuel (c.strong ++ w) (h.set a none)
    else releaseLoop fuel w (h.set a (some { c with count := c.count - 1 }))

/-- The pointers held by the objects. -/
def refs (h : Heap) : List Nat := h.flatMap (fun o => match o with | some c => c.strong | none => [])

/-- Destruction of one pointer. -/
def release (h : Heap) (a : Nat) : Option Heap := releaseLoop ((refs h).length + 1) [a] h

/-- Destruction of several pointers one after the other. -/
def releaseAll (h : Heap) (as : List Nat) : Option Heap := as.foldlM release h

/-! ### k-d tree -/

/-- `KDTree::build` (KDTree.hpp:301-381): the node is made, then its left and its right subtree; the
children hold a `std::weak_ptr` to it (KDNodeView.hpp:96-101).  The address of the root is returned. -/
def kdBuild {K : Type} : Heap → KDTree.Tree K → Option (Heap × Nat)
  | h, .leaf _ _ => some (makeShared h)
  | h, .node _ _ _ l r => do
    let (h, a) := makeShared h
    let (h, b) ← kdBuild h l
    let h ← store h a b
    let (h, b) ← kdBuild h r
    let h ← store h a b
    some (h, a)

/-- A copy of the tree (KDTree.hpp:233-240) for each element of `copies`, then the destruction of as
many of the objects as `destroyed`: all of them own the same root. -/
def kdCopies (h : Heap) (root copies destroyed : Nat) : Option Heap := do
  let h ← (List.replicate copies root).foldlM retain h
  releaseAll h (List.replicate destroyed root)

/-! ### single linkage tree -/

/-- `SingleLinkageClusterNode` with the address of the node. -/
inductive PTree (D : Type) where
  | leaf (addr representative : Nat)
  | node (addr representative : Nat) (level : D) (size : Nat) (left right : PTree D)
deriving DecidableEq, Repr

variable {D : Type}

/-- The address of the root. -/
def PTree.addr : PTree D → Nat
  | .leaf a _ => a
  | .node a _ _ _ _ _ => a

/-- `size()` (SingleLinkageClusterNode.hpp:62-65). -/
def PTree.size : PTree D → Nat
  | .leaf _ _ => 1
  | .node _ _ _ s _ _ => s

/-- `nodes[key]` of SingleLinkageClusterTree.hpp:185-217. -/
def find (nodes : List (Nat × PTree D)) (k : Nat) : Option (PTree D) :=
  (nodes.find? (fun p => p.1 == k)).map Prod.snd

/-- The body of the loop of `build` (SingleLinkageClusterTree.hpp:191-219).  Both children get an owning
pointer to the new node (lines 206-207), to which the pointers of the map are moved (lines 210-211). -/
def linkStep (st : UF.State × List (Nat × PTree D) × Heap) (e : Edge D) :
    Option (UF.State × List (Nat × PTree D) × Heap) := do
  let (u, nodes, h) := st
  let (u, r1) ← UF.find u e.1
  let (u, r2) ← UF.find u e.2.1
  let (u, common) ← UF.merge u e.1 e.2.1
  if common ≠ r1 ∨ common ≠ r2 then do
    let t1 ← find nodes r1
    let t2 ← find nodes r2
    let (h, c) := makeShared h
    let h ← assign h t1.addr c
    let h ← assign h t2.addr c
    let h ← store h c t1.addr
    let h ← store h c t2.addr
    some (u, (common, PTree.node c common e.2.2 (t1.size + t2.size) t1 t2) ::
      nodes.filter (fun p => p.1 != r1 && p.1 != r2), h)
  else some (u, nodes, h)

/-- The nodes made before the loop (SingleLinkageClusterTree.hpp:188-190). -/
def makeLeaves (n : Nat) (h : Heap) : List (Nat × PTree D) × Heap :=
  ((List.range n).map (fun i => (i, PTree.leaf (h.length + i) i)), h ++ List.replicate n (some ⟨1, []⟩))

/-- `build` (SingleLinkageClusterTree.hpp:178-221): at the end the pointer to the first node of the map is
copied and the map is destroyed. -/
def linkTree (h : Heap) (edges : List (Edge D)) : Option (Heap × PTree D) := do
  let n := edges.length + 1
  let (nodes, h) := makeLeaves n h
  let (_, nodes, h) ← edges.foldlM linkStep (UF.init n, nodes, h)
  let p ← nodes.head?
  let h ← retain h p.2.addr
  let h ← releaseAll h (nodes.map (fun p => p.2.addr))
  some (h, p.2)

/-! ### condensed tree -/

/-- A new `CondensedClusterNode` (CondensedClusterNode.hpp:53-61), which owns a single linkage node. -/
def makeCondensed (h : Heap) (slink : PTree D) : Option (Heap × Nat) := do
  let (h, a) := makeShared h
  let h ← assign h a slink.addr
  some (h, a)

/-- `preorder_traversal_build` (CondensedClusterTree.hpp:144-220): the new child is owned by the node
(lines 165, 176) and owns it as its parent (lines 168, 179). -/
def condenseHeap (minSize : Nat) : Heap → Nat → PTree D → Option Heap
  | h, _, .leaf _ _ => some h
  | h, c, .node _ _ _ _ l r =>
    if minSize ≤ l.size ∧ minSize ≤ r.size then do
      let (h, cl) ← makeCondensed h l
      let h ← store h c cl
      let h ← assign h cl c
      let h ← condenseHeap minSize h cl l
      let (h, cr) ← makeCondensed h r
      let h ← store h c cr
      let h ← assign h cr c
      condenseHeap minSize h cr r
    else if minSize ≤ l.size then condenseHeap minSize h c l
    else if minSize ≤ r.size then condenseHeap minSize h c r
    else some h

/-- Constructor of `CondensedClusterTree` (CondensedClusterTree.hpp:113-141); the selection changes no
pointer. -/
def condensedHeap (minSize : Nat) (h : Heap) (root : PTree D) : Option (Heap × Nat) := do
  let (h, c) ← makeCondensed h root
  let h ← condenseHeap minSize h c root
  some (h, c)

/-- `HDBSCAN::predict` (hdbscan/HDBSCAN.hpp:93-116) from the sorted edges of the spanning tree: the local
variables that own nodes are the single linkage tree, the copy of its root and the condensed tree; they
are destroyed in the reverse order. -/
def predictHeap (minSize : Nat) (h : Heap) (edges : List (Edge D)) : Option Heap := do
  let (h, root) ← linkTree h edges
  let h ← retain h root.addr
  let (h, c) ← condensedHeap minSize h root
  releaseAll h [c, root.addr, root.addr]

end Verif.RefCount
