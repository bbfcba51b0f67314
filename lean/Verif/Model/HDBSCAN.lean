import Verif.Model.Boruvka
import Verif.Model.Dendrogram

/-
Model of hdbscan/HDBSCAN.hpp.
-/

namespace Verif.HDBSCAN

open Verif.ClosestPair (Edge)

variable {K D : Type} [LinearOrder K] [Ring D] [LinearOrder D]

/-- `HDBSCAN::predict` (hdbscan/HDBSCAN.hpp:93-116): spanning tree, single linkage tree of the sorted
edges (`sort` is `mst::sort`, MinimumSpanningTree.hpp:30-38, called by the constructor of
SingleLinkageClusterTree), condensed tree, labels.  `inv` is `common::division(1, _)`. -/
def predict (x : Nat → Nat → K) (gap : K → K → D) (dist : Nat → Nat → D) (inf : D)
    (t : KDTree.Tree K) (ord : Boruvka.Orders D) (sort : List (Edge D) → List (Edge D)) (inv : D → D)
    (n k minSize : Nat) (allowSingle returnLeaves : Bool) (fuel : Nat) : Option (List Nat) := do
  let mst ← Boruvka.makeTree x gap dist inf t ord n k fuel
  let root ← Dendrogram.build (sort mst)
  Dendrogram.extractFlat (Dendrogram.condensedTree inv minSize allowSingle returnLeaves root)

end Verif.HDBSCAN
