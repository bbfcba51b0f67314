import Mathlib.Algebra.Order.Group.Abs
import Mathlib.Algebra.Order.Group.Unbundled.Abs
import Mathlib.Algebra.Order.Field.Basic
import Mathlib.Analysis.Real.Sqrt

/-
Model of common/math/heuristics/Distances.hpp.

Feature ranges are lists.  The right range is read at the positions of the left range, so a right
range that is too short is an out-of-range read (`none`).  Arithmetic is exact: integer overflow and
floating rounding are not modelled.
-/

namespace Verif.Distances

/-- `std::transform_reduce` over two ranges with `std::plus` (Distances.hpp:50-58, 112-116, 153-157).
The library may regroup the sum; with exact addition the left-to-right order chosen here gives the
same value. -/
def transformReduce {K : Type} [Add K] (f : K → K → K) : List K → List K → K → Option K
  | [], _, acc => some acc
  | _ :: _, [], _ => none
  | a :: l, b :: r, acc => transformReduce f l r (acc + f a b)

/-- `manhattan_distance` (Distances.hpp:94-117). -/
def manhattan {K : Type} [Ring K] [LinearOrder K] (l r : List K) : Option K :=
  transformReduce (fun a b => |a - b|) l r 0

/-- `unsigned_manhattan_distance` (Distances.hpp:135-158); no wrap-around of the sum. -/
def unsignedManhattan (l r : List Nat) : Option Nat :=
  transformReduce (fun a b => if a > b then a - b else b - a) l r 0

/-- `squared_euclidean_distance` (Distances.hpp:33-59). -/
def squaredEuclidean {K : Type} [Ring K] (l r : List K) : Option K :=
  transformReduce (fun a b => (a - b) * (a - b)) l r 0

/-- `euclidean_distance` (Distances.hpp:67-76) over the reals. -/
noncomputable def euclidean (l r : List ℝ) : Option ℝ :=
  (squaredEuclidean l r).map Real.sqrt

end Verif.Distances
