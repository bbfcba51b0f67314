import Verif.Model.Boruvka
import Verif.Model.CondensedRounding

/-
Model of HDBSCAN::predict (hdbscan/HDBSCAN.hpp) in floating arithmetic with overflow and underflow.
-/

namespace Verif.HDBSCAN

open Verif.ClosestPair (Edge)
open Verif.Rounding

/-- An edge of the spanning tree with its weight as a number.  The edges of the tree have weights below
`infinity` (only those replace the default edge, BoruvkasAlgorithm.hpp:312-315, 411-413, and the default edge joins
nothing), so that the value for an infinite weight is not used: the theorems show that there is none. -/
def finiteEdge (e : Edge (WithTop ℝ)) : Edge ℝ := (e.1, e.2.1, e.2.2.untopD 0)

/-- `HDBSCAN::predict` (hdbscan/HDBSCAN.hpp:93-116) in a floating format: spanning tree of distances that may be
infinite (`gap`, `dist`), single linkage tree of the sorted edges (`sort` is `mst::sort`,
MinimumSpanningTree.hpp:30-38, called by the constructor of SingleLinkageClusterTree), condensed tree with the
stabilities rounded by `fl`, labels.  `eps` is the tolerance of `common::equality` in `common::division`. -/
noncomputable def predictF (fl : ℝ → ℝ) (fused : Bool) (eps : ℝ) (x : Nat → Nat → ℝ)
    (gap : ℝ → ℝ → WithTop ℝ) (dist : Nat → Nat → WithTop ℝ)
    (t : KDTree.Tree ℝ) (ord : Boruvka.Orders (WithTop ℝ)) (sort : List (Edge ℝ) → List (Edge ℝ))
    (n k minSize : Nat) (allowSingle returnLeaves : Bool) (fuel : Nat) : Option (List Nat) := do
  let mst ← Boruvka.makeTree x gap dist ⊤ t ord n k fuel
  let root ← Dendrogram.build (sort (mst.map finiteEdge))
  Dendrogram.extractFlat (Dendrogram.condensedTreeF fl fused eps minSize allowSingle returnLeaves root)

end Verif.HDBSCAN
