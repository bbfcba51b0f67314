import Verif.Model.Sorting
import Verif.Model.Distances
import Mathlib.Order.WithBot

/-
Model of the remaining functions of common/math/heuristics/Distances.hpp (distances from the origin,
`cosine_similarity`), of `division` (common/Utils.hpp) and of
common/math/linear_algebra/Translation.hpp.

As in `Model/Distances.lean`, ranges are lists, reading past the end of a range is `none`, and
arithmetic is exact.
-/

namespace Verif.Distances

open Verif.Sorting

/-- `std::transform_reduce` over one range with `std::plus` (Distances.hpp:26-30, 87-91, 128-132). -/
def transformReduce1 {K : Type} [Add K] (f : K → K) : List K → K → K
  | [], acc => acc
  | a :: l, acc => transformReduce1 f l (acc + f a)

/-- `squared_euclidean_distance_from_origin` (Distances.hpp:15-31). -/
def squaredFromOrigin {K : Type} [Ring K] (l : List K) : K := transformReduce1 (fun a => a * a) l 0

/-- `euclidean_distance_from_origin` (Distances.hpp:61-65) over the reals. -/
noncomputable def euclideanFromOrigin (l : List ℝ) : ℝ := Real.sqrt (squaredFromOrigin l)

/-- `manhattan_distance_from_origin` (Distances.hpp:78-92): the value of the sum.  The function returns
a reference (`decltype(std::declval<T>())` is `T&&`) to the temporary holding it; the lifetime of the
temporary is not modelled. -/
def manhattanFromOrigin {K : Type} [Ring K] [LinearOrder K] (l : List K) : K :=
  transformReduce1 (fun a => |a|) l 0

/-- `unsigned_manhattan_distance_from_origin` (Distances.hpp:119-133).  Its `static_assert` accepts
only *signed* value types, and the values are summed as they are. -/
def unsignedFromOrigin {K : Type} [Ring K] (l : List K) : K := transformReduce1 (fun a => a) l 0

/-- `std::transform(right, right_last, left, out, std::minus)`, the body of
`translate_right_range_to_origin` (Translation.hpp:10-30): the loop runs over the right range, so a
shorter left range is read past its end. -/
def translate {K : Type} [Sub K] : List K → List K → Option (List K)
  | _, [] => some []
  | [], _ :: _ => none
  | a :: l, b :: r => do
    let t ← translate l r
    some ((b - a) :: t)

/-- `std::inner_product(left, left_last, right, 0)` (Distances.hpp:177-190). -/
def dot {K : Type} [Ring K] (l r : List K) : Option K := transformReduce (fun a b => a * b) l r 0

/-- `division` (common/Utils.hpp:430-440) of floating values with default `infinity`: a denominator
within `eps` of zero, in the sense of `equality` (Utils.hpp:410-423), gives the default. -/
noncomputable def divisionOrInfinity (eps a b : ℝ) : WithTop ℝ :=
  if eqEps eps b 0 then ⊤ else ((a / b : ℝ) : WithTop ℝ)

/-- `cosine_similarity` (Distances.hpp:160-193) over the reals; `⊤` is the value `infinity`. -/
noncomputable def cosine (eps : ℝ) (l r : List ℝ) : Option (WithTop ℝ) := do
  let d ← dot l r
  let m1 ← dot l l
  let m2 ← dot r r
  some (divisionOrInfinity eps d (Real.sqrt m1 * Real.sqrt m2))

end Verif.Distances
