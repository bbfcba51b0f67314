import Verif.Model.ClosestPair

/-
Model of datastruct/tree/single_linkage_cluster_tree/{SingleLinkageClusterNode,
SingleLinkageClusterTree}.hpp and datastruct/tree/condensed_cluster_tree/{CondensedClusterNode,
CondensedClusterTree}.hpp.

Nodes are values of an inductive type instead of shared pointers; the parent pointer of a node is
replaced by the argument `lambdaMin` (the only use of the parent is its level).  Serialisation is in
Model/Serialize.lean; printing is left out.
-/

namespace Verif.Dendrogram

open Verif.ClosestPair (Edge)

/-- `SingleLinkageClusterNode` (SingleLinkageClusterNode.hpp:14-53): a leaf has level 0 and size 1. -/
inductive STree (D : Type) where
  | leaf (representative : Nat)
  | node (representative : Nat) (level : D) (size : Nat) (left right : STree D)
deriving DecidableEq, Repr

variable {D : Type}

/-- `size()` (SingleLinkageClusterNode.hpp:62-65): the stored size. -/
def STree.size : STree D → Nat
  | .leaf _ => 1
  | .node _ _ s _ _ => s

/-- `representative_` (SingleLinkageClusterNode.hpp:34). -/
def STree.representative : STree D → Nat
  | .leaf r => r
  | .node r _ _ _ _ => r

/-- `level_` (SingleLinkageClusterNode.hpp:36). -/
def STree.level [Zero D] : STree D → D
  | .leaf _ => 0
  | .node _ l _ _ _ => l

/-- `nodes[key]` of SingleLinkageClusterTree.hpp:185-217; a missing key would create a null pointer
that is dereferenced. -/
def lookup (nodes : List (Nat × STree D)) (k : Nat) : Option (STree D) :=
  (nodes.find? (fun p => p.1 == k)).map Prod.snd

/-- The body of the loop of `build` (SingleLinkageClusterTree.hpp:191-219). -/
def buildStep (st : UF.State × List (Nat × STree D)) (e : Edge D) :
    Option (UF.State × List (Nat × STree D)) := do
  let (u, nodes) := st
  let (u, r1) ← UF.find u e.1
  let (u, r2) ← UF.find u e.2.1
  let (u, common) ← UF.merge u e.1 e.2.1
  if common ≠ r1 ∨ common ≠ r2 then do
    let t1 ← lookup nodes r1
    let t2 ← lookup nodes r2
    let n := STree.node common e.2.2 (t1.size + t2.size) t1 t2
    some (u, (common, n) :: nodes.filter (fun p => p.1 != r1 && p.1 != r2))
  else some (u, nodes)

/-- `build` (SingleLinkageClusterTree.hpp:178-221) for the sorted edges; `n_samples` is the number of
edges plus one.  `nodes.begin()` of the unordered map is the head of the list (for a spanning tree
exactly one node remains, see C32). -/
def build (edges : List (Edge D)) : Option (STree D) := do
  let n := edges.length + 1
  let (_, nodes) ← edges.foldlM buildStep
    (UF.init n, (List.range n).map (fun i => (i, STree.leaf i)))
  let p ← nodes.head?
  some p.2

/-- `preorder_traversal_single_linkage_clustering` (SingleLinkageClusterTree.hpp:152-175). -/
def preorderCut [LinearOrder D] [Zero D] (cut : D) (minSize : Nat) :
    Nat → STree D → List Nat → Option (List Nat)
  | label, t, flat =>
    let label := if cut ≤ t.level then (if t.size < minSize then 0 else t.representative) else label
    match t with
    | .node _ _ _ l r => do
      let flat ← preorderCut cut minSize label l flat
      preorderCut cut minSize label r flat
    | .leaf i => if i < flat.length then some (flat.set i label) else none

/-- `extract_flat_clusters` (SingleLinkageClusterTree.hpp:138-144). -/
def cutClusters [LinearOrder D] [Zero D] (cut : D) (minSize : Nat) (root : STree D) :
    Option (List Nat) :=
  preorderCut cut minSize root.representative root (List.replicate root.size 0)

/-! ### condensed tree -/

/-- The value members of `CondensedClusterNode` (CondensedClusterNode.hpp:37-48). -/
structure CNode (D : Type) where
  slink : STree D
  lambdaMin : D
  stability : D
  selected : Bool

/-- `CondensedClusterNode` (CondensedClusterNode.hpp:12-51). -/
inductive CTree (D : Type) where
  | leaf (n : CNode D)
  | split (n : CNode D) (left right : CTree D)

/-- The value members of the root of the tree. -/
def CTree.root : CTree D → CNode D
  | .leaf n => n
  | .split n _ _ => n

/-- `is_leaf()` (CondensedClusterNode.hpp:64-66). -/
def CTree.isLeaf : CTree D → Bool
  | .leaf _ => true
  | .split _ _ _ => false

section Condensed

variable [Ring D]

/-- `add_excess_of_mass` (CondensedClusterNode.hpp:84-88). -/
def CNode.addMass (n : CNode D) (size : Nat) (lambda : D) : CNode D :=
  { n with stability := n.stability + size * (lambda - n.lambdaMin) }

/-- `preorder_traversal_build` (CondensedClusterTree.hpp:144-220).  `inv` is
`common::division(1, _)` (common/Utils.hpp:431-440).  The node passed by pointer is the argument `n`;
its final value is the root of the result. -/
def condense (inv : D → D) (minSize : Nat) : CNode D → STree D → CTree D
  | n, .leaf _ => .leaf { n with selected := true }
  | n, .node _ level size l r =>
    if minSize ≤ l.size ∧ minSize ≤ r.size then
      .split (n.addMass size (inv level))
        (condense inv minSize ⟨l, inv level, 0, false⟩ l)
        (condense inv minSize ⟨r, inv level, 0, false⟩ r)
    else if minSize ≤ l.size then condense inv minSize (n.addMass r.size (inv level)) l
    else if minSize ≤ r.size then condense inv minSize (n.addMass l.size (inv level)) r
    else .leaf { n.addMass size (inv level) with selected := true }

/-- `build` (CondensedClusterTree.hpp:134-141): the root has no parent, its `lambda_min_` is 0. -/
def condenseRoot (inv : D → D) (minSize : Nat) (root : STree D) : CTree D :=
  condense inv minSize ⟨root, 0, 0, false⟩ root

/-- `select_subtree` (CondensedClusterTree.hpp:264-288): the tree with its marks and the returned
stability. -/
def select [LinearOrder D] : CTree D → CTree D × D
  | .leaf n => (.leaf n, n.stability)
  | .split n l r =>
    let (l', sl) := select l
    let (r', sr) := select r
    if sl + sr > n.stability then (.split n l' r', sl + sr)
    else (.split { n with selected := true } l' r', n.stability)

/-- `root_->is_selected() = false`. -/
def CTree.unselectRoot : CTree D → CTree D
  | .leaf n => .leaf { n with selected := false }
  | .split n l r => .split { n with selected := false } l r

/-- Constructor of `CondensedClusterTree` (CondensedClusterTree.hpp:113-131). -/
def condensedTree [LinearOrder D] (inv : D → D) (minSize : Nat) (allowSingle returnLeaves : Bool)
    (root : STree D) : CTree D :=
  let t := condenseRoot inv minSize root
  if returnLeaves then t
  else
    let t := (select t).1
    if !allowSingle && !t.isLeaf then t.unselectRoot else t

/-- `preorder_traversal_fill_shallowest_selected_nodes` (CondensedClusterTree.hpp:300-315); the null
children of an unselected leaf are dereferenced: `none`. -/
def shallowest : CTree D → Option (List (CNode D))
  | .leaf n => if n.selected then some [n] else none
  | .split n l r =>
    if n.selected then some [n]
    else do
      let a ← shallowest l
      let b ← shallowest r
      some (a ++ b)

/-- `preorder_traversal_single_linkage_clustering` (CondensedClusterTree.hpp:244-262). -/
def writeLabel (label : Nat) : STree D → List Nat → Option (List Nat)
  | .node _ _ _ l r, flat => do
    let flat ← writeLabel label l flat
    writeLabel label r flat
  | .leaf i, flat => if i < flat.length then some (flat.set i label) else none

/-- The loop of `extract_flat_clusters` (CondensedClusterTree.hpp:229-235). -/
def writeLabels : Nat → List (CNode D) → List Nat → Option (List Nat)
  | _, [], flat => some flat
  | label, n :: ns, flat => do
    let flat ← writeLabel label n.slink flat
    writeLabels (label + 1) ns flat

/-- `extract_flat_clusters` (CondensedClusterTree.hpp:222-237). -/
def extractFlat (t : CTree D) : Option (List Nat) := do
  let sel ← shallowest t
  writeLabels 1 sel (List.replicate t.root.slink.size 0)

end Condensed

end Verif.Dendrogram
