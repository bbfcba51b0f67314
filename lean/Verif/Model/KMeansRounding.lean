import Verif.Model.KMeans
import Verif.Model.Rounding
import Mathlib.Algebra.Module.Pi
import Mathlib.Data.Real.Basic

/-
k-means on floating data with rounded arithmetic: `predict`, `forward` and the step of Lloyd.hpp,
with the format of Model/Rounding.lean.  The loops are those of Model/KMeans.lean, instantiated with
rounded distances, sums and quotients.
-/

namespace Verif.KMeansR

open Verif.KMeans (nearestIndices nearestDistances clusterSizes clusterSums)
open Verif.Rounding (Rounding Order distR)

variable {p nf : Nat}

/-- A row of `nf` elements as the sequence Model/Rounding.lean computes with. -/
def ext (v : Fin nf → ℝ) (k : Nat) : ℝ := if h : k < nf then v ⟨k, h⟩ else 0

/-- `common::euclidean_distance` (Distances.hpp:67-76) between a sample and a centroid in rounded
arithmetic (KMeansUtils.hpp:28-32, 62-66).  The order of summation may differ from pair to pair. -/
noncomputable def rdist (R : Rounding p) (ord : (Fin nf → ℝ) → (Fin nf → ℝ) → Order)
    (x c : Fin nf → ℝ) : ℝ := distR R (ord x c) (ext x) (ext c)

/-- A row whose `+` is the element-wise rounded sum, as `std::plus<>` on floating elements. -/
structure Row (R : Rounding p) (nf : Nat) where
  val : Fin nf → ℝ

variable {R : Rounding p}

/-- `std::transform(..., std::plus<>())` over one row (KMeansUtils.hpp:155-159). -/
noncomputable instance : Add (Row R nf) := ⟨fun a b => ⟨fun f => R.rnd (a.val f + b.val f)⟩⟩

/-- The value-initialised row (KMeansUtils.hpp:149-150). -/
instance : Zero (Row R nf) := ⟨⟨0⟩⟩

/-- One centroid of `Lloyd::update_centroids` (Lloyd.hpp:114-127): the size is converted to the data
type and every element is divided by it. -/
noncomputable def centroid (size : Nat) (sum : Row R nf) : Fin nf → ℝ :=
  if size = 0 then sum.val else fun f => R.rnd (sum.val f / R.rnd size)

/-- The centroids after `Lloyd::step` (Lloyd.hpp:91-99) when the buffers are those of the centroids
`cs`: `update_clusters` (152-166), `update_centroids` (102-129).  `update_buffers` (132-149) then
computes assignment and distances for the new centroids.  The loss is not modelled. -/
noncomputable def step (R : Rounding p) (inf : ℝ) (ord : (Fin nf → ℝ) → (Fin nf → ℝ) → Order)
    (xs cs : List (Fin nf → ℝ)) : Option (List (Fin nf → ℝ)) := do
  let assigned := nearestIndices inf (rdist R ord) xs cs
  let sizes ← clusterSizes cs.length assigned
  let sums ← clusterSums cs.length (xs.map (fun x => (⟨x⟩ : Row R nf))) assigned
  some (List.zipWith centroid sizes sums)

end Verif.KMeansR
