import Verif.Model.KMeans
import Verif.Model.NonFinite
import Verif.Model.RoundingRange

/-
k-means on floating data in a format of bounded range (Model/RoundingRange.lean): `predict`, `forward` and
the step of Lloyd.hpp with gradual underflow and overflow to infinity.  The loops are those of
Model/KMeans.lean; coordinates are NaN, an infinity or a finite number.
-/

namespace Verif.KMeansE

open Verif.KMeans (nearestIndices nearestDistances clusterSizes clusterSums)
open Verif.Rounding Verif.NonFinite

variable {p nf : Nat} {emax : ℤ}

/-- The result of an operation whose exact result is `y`. -/
noncomputable def roundF (R : RoundingE p emax) (y : ℝ) : Flt ℝ :=
  if |R.rnd y| < (2 : ℝ) ^ emax then .fin (R.rnd y) else if 0 < y then .pos else .neg

/-- `a + b`: NaN when either side is NaN and for infinities of different signs. -/
noncomputable def addF (R : RoundingE p emax) : Flt ℝ → Flt ℝ → Flt ℝ
  | .fin a, .fin b => roundF R (a + b)
  | .pos, .fin _ => .pos
  | .fin _, .pos => .pos
  | .pos, .pos => .pos
  | .neg, .fin _ => .neg
  | .fin _, .neg => .neg
  | .neg, .neg => .neg
  | _, _ => .nan

/-- Division by a number of samples that is not 0 (Lloyd.hpp:119-125): the number is converted to the data
type, in which it is finite (less than 2^64). -/
noncomputable def divF (R : RoundingE p emax) (a : Flt ℝ) (n : Nat) : Flt ℝ :=
  match a with
  | .fin a => roundF R (a / R.rnd n)
  | .pos => .pos
  | .neg => .neg
  | .nan => .nan

/-- The magnitude of `a - b`.  When a side is not finite the difference is infinite or NaN; both are written
as infinity: a distance is only used in `distance < minimum` (KMeansUtils.hpp:34, 68), which is false for
NaN as it is for infinity. -/
noncomputable def magF (R : RoundingE p emax) : Flt ℝ → Flt ℝ → WithTop ℝ
  | .fin a, .fin b => subE R a b
  | _, _ => ⊤

/-- A row of `nf` elements; `+` is the element-wise sum of the format. -/
structure RowE (R : RoundingE p emax) (nf : Nat) where
  val : Fin nf → Flt ℝ

variable {R : RoundingE p emax}

/-- `std::transform(..., std::plus<>())` over one row (KMeansUtils.hpp:155-159). -/
noncomputable instance : Add (RowE R nf) := ⟨fun a b => ⟨fun f => addF R (a.val f) (b.val f)⟩⟩

/-- The value-initialised row (KMeansUtils.hpp:149-150). -/
noncomputable instance : Zero (RowE R nf) := ⟨⟨fun _ => .fin 0⟩⟩

/-- The differences of `squared_euclidean_distance` (Distances.hpp:50-58): number 0 stands for the initial
value, which is zero, number `k + 1` for feature `k`. -/
noncomputable def diffF (R : RoundingE p emax) (x c : Fin nf → Flt ℝ) : Nat → WithTop ℝ
  | 0 => (0 : ℝ)
  | k + 1 => if h : k < nf then magF R (x ⟨k, h⟩) (c ⟨k, h⟩) else (0 : ℝ)

/-- `common::euclidean_distance` (Distances.hpp:67-76) between a sample and a centroid
(KMeansUtils.hpp:28-32, 62-66).  The order of summation may differ from pair to pair. -/
noncomputable def fdist (R : RoundingE p emax) (ord : RowE R nf → RowE R nf → Order) (x c : RowE R nf) :
    WithTop ℝ :=
  sqrtE R ((ord x c).evalE R (diffF R x.val c.val))

/-- One centroid of `Lloyd::update_centroids` (Lloyd.hpp:114-127). -/
noncomputable def centroidE (size : Nat) (sum : RowE R nf) : RowE R nf :=
  if size = 0 then sum else ⟨fun f => divF R (sum.val f) size⟩

/-- The centroids after `Lloyd::step` (Lloyd.hpp:91-99) when the buffers are those of the centroids `cs`:
`update_clusters` (152-166), `update_centroids` (102-129).  `update_buffers` (132-149) then computes
assignment and distances for the new centroids.  The loss is not modelled. -/
noncomputable def stepE (R : RoundingE p emax) (ord : RowE R nf → RowE R nf → Order)
    (xs cs : List (RowE R nf)) : Option (List (RowE R nf)) := do
  let assigned := nearestIndices ⊤ (fdist R ord) xs cs
  let sizes ← clusterSizes cs.length assigned
  let sums ← clusterSums cs.length xs assigned
  some (List.zipWith centroidE sizes sums)

end Verif.KMeansE
