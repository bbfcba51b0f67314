import Verif.Model.Distances

/-
Model of datastruct/bounds/segment/*.hpp, datastruct/bounds/segment/distances/MinDistance.hpp,
datastruct/bounds/distances/MinDistance.hpp, datastruct/bounds/AABB.hpp, AABBWithCentroid.hpp,
Ball.hpp, of `make_tight_segment` (datastruct/Interval.hpp) and of the centre computation in
common/Utils.hpp.

Integral values are unbounded integers (no overflow), floating values are reals.
-/

namespace Verif.Bounds

open Verif.Distances

/-! ### centres (common/Utils.hpp) -/

/-- `compute_center_with_left_rounding`, integral case (common/Utils.hpp:443-456).  C++ division
truncates towards zero. -/
def centerInt (lower upper : ℤ) : ℤ :=
  if lower + upper < 0 then (lower + upper).tdiv 2 - 1 else (lower + upper).tdiv 2

/-- `compute_center_with_left_rounding`, floating case (common/Utils.hpp:443-456). -/
noncomputable def centerReal (lower upper : ℝ) : ℝ := (lower + upper) / 2

/-- `compute_size_from_center_with_left_rounding`, integral case (common/Utils.hpp:459-472). -/
def sizeInt (lower upper : ℤ) : ℤ := 1 + upper - centerInt lower upper

/-- `compute_size_from_center_with_left_rounding`, floating case (common/Utils.hpp:459-472). -/
noncomputable def sizeReal (lower upper : ℝ) : ℝ := (upper - lower) / 2

/-! ### segments -/

/-- `LowerBoundAndUpperBound` (segment/LowerBoundAndUpperBound.hpp:9-29): the representation is the
pair of bounds; `lower_bound` and `upper_bound` are its fields (42-59). -/
structure Seg (K : Type) where
  lower : K
  upper : K
deriving DecidableEq, Repr

/-- `contains_value_impl` (LowerBoundAndUpperBound.hpp:74-76). -/
def Seg.contains {K : Type} [LinearOrder K] (s : Seg K) (v : K) : Bool :=
  !(decide (v < s.lower) || decide (s.upper < v))

/-- `update_lower_bound_impl` (LowerBoundAndUpperBound.hpp:46-49). -/
def Seg.updateLower {K : Type} (s : Seg K) (v : K) : Seg K := { s with lower := v }

/-- `update_upper_bound_impl` (LowerBoundAndUpperBound.hpp:56-59). -/
def Seg.updateUpper {K : Type} (s : Seg K) (v : K) : Seg K := { s with upper := v }

/-- `LowerBoundAndLength` (segment/LowerBoundAndLength.hpp:8-29). -/
structure SegLen (K : Type) where
  first : K
  length : K
deriving DecidableEq, Repr

/-- `lower_bound_impl` (LowerBoundAndLength.hpp:44-46). -/
def SegLen.lower {K : Type} (s : SegLen K) : K := s.first

/-- `upper_bound_impl` (LowerBoundAndLength.hpp:54-56). -/
def SegLen.upper {K : Type} [Add K] (s : SegLen K) : K := s.first + s.length

/-- `update_lower_bound_impl` (LowerBoundAndLength.hpp:49-51). -/
def SegLen.updateLower {K : Type} (s : SegLen K) (v : K) : SegLen K := { s with first := v }

/-- `update_upper_bound_impl` (LowerBoundAndLength.hpp:59-61). -/
def SegLen.updateUpper {K : Type} [Sub K] (s : SegLen K) (v : K) : SegLen K :=
  { s with length := v - s.first }

/-- `contains_value_impl`, integral case (LowerBoundAndLength.hpp:86-95). -/
def SegLen.containsInt (s : SegLen ℤ) (v : ℤ) : Bool :=
  !(decide (v < s.first) || decide (s.first + s.length - 1 < v))

/-- `contains_value_impl`, floating case (LowerBoundAndLength.hpp:86-95). -/
noncomputable def SegLen.containsReal (s : SegLen ℝ) (v : ℝ) : Bool :=
  !(decide (v < s.first) || decide (s.first + s.length < v))

/-- `centroid_impl`, integral case (LowerBoundAndLength.hpp:64-72). -/
def SegLen.centroidInt (s : SegLen ℤ) : ℤ := centerInt s.first (s.first + s.length - 1)

/-- `centroid_impl`, floating case (LowerBoundAndLength.hpp:64-72). -/
noncomputable def SegLen.centroidReal (s : SegLen ℝ) : ℝ := centerReal s.first (s.first + s.length)

/-- The bounds that `min_distance` reads from a `LowerBoundAndLength`. -/
def SegLen.toSeg {K : Type} [Add K] (s : SegLen K) : Seg K := ⟨s.lower, s.upper⟩

/-- `min_distance` of two segments (segment/distances/MinDistance.hpp:12-30). -/
def segMinDist {K : Type} [LinearOrder K] [Sub K] [Zero K] (a b : Seg K) : K :=
  if a.upper < b.lower then b.lower - a.upper
  else if b.upper < a.lower then a.lower - b.upper
  else 0

/-- `make_tight_segment` (datastruct/Interval.hpp:15-41 and 43-75): `vals` are the values of the
feature at the given samples, `vmax`/`vlowest` the limits of the data type. -/
def tightSegment {K : Type} [LinearOrder K] (vmax vlowest : K) (vals : List K) : Seg K :=
  vals.foldl (fun s v =>
    let s := if v < s.lower then s.updateLower v else s
    if s.upper < v then s.updateUpper v else s) ⟨vmax, vlowest⟩

/-! ### boxes -/

/-- Loop of `min_distance` of two boxes (bounds/distances/MinDistance.hpp:24-32 and 44-52): the loop
runs over the features of the second box, so a first box with fewer segments is read out of range. -/
def boxSqDist {K : Type} [LinearOrder K] [Ring K] : List (Seg K) → List (Seg K) → Option K
  | _, [] => some 0
  | [], _ :: _ => none
  | a :: as, b :: bs => do
    let r ← boxSqDist as bs
    some (segMinDist a b * segMinDist a b + r)

/-- `min_distance` of two boxes of reals (bounds/distances/MinDistance.hpp:16-53). -/
noncomputable def boxMinDist (a b : List (Seg ℝ)) : Option ℝ := (boxSqDist a b).map Real.sqrt

/-- `min_distance` of two boxes of integers: `std::sqrt` of the integer sum as a `double`
(bounds/distances/MinDistance.hpp:16-53). -/
noncomputable def boxMinDistInt (a b : List (Seg ℤ)) : Option ℝ :=
  (boxSqDist a b).map (fun s => Real.sqrt s)

/-- `is_in_bounds_impl` (AABB.hpp:69-82, AABBWithCentroid.hpp:126-139): loop over the features of
the point. -/
def boxContains {K : Type} [LinearOrder K] : List (Seg K) → List K → Option Bool
  | _, [] => some true
  | [], _ :: _ => none
  | s :: ss, v :: vs => if s.contains v then boxContains ss vs else some false

/-- Sum of `diameter_impl` (AABB.hpp:52-60, AABBWithCentroid.hpp:111-119). -/
def boxSqDiameter {K : Type} [Ring K] (b : List (Seg K)) : K :=
  (b.map (fun s => (s.upper - s.lower) * (s.upper - s.lower))).sum

/-- `diameter_impl` (AABB.hpp:52-60, AABBWithCentroid.hpp:111-119) for floating boxes. -/
noncomputable def boxDiameter (b : List (Seg ℝ)) : ℝ := Real.sqrt (boxSqDiameter b)

/-- `centroid_to_furthest_bound_distance_impl` (AABBWithCentroid.hpp:163-174), integral case. -/
def boxFurthestInt (b : List (Seg ℤ)) : ℤ :=
  b.foldl (fun f s => if sizeInt s.lower s.upper > f then sizeInt s.lower s.upper else f) 0

/-- `centroid_to_furthest_bound_distance_impl` (AABBWithCentroid.hpp:163-174), floating case: the
accumulator is declared `auto furthest_distance = 0`, an `int`, so every assignment truncates. -/
noncomputable def boxFurthestReal (b : List (Seg ℝ)) : ℤ :=
  b.foldl (fun f s => if sizeReal s.lower s.upper > (f : ℝ) then ⌊sizeReal s.lower s.upper⌋ else f) 0

/-! ### balls -/

/-- `Ball` / `BallView` (bounds/Ball.hpp:11-60, 126-170): a centre and a radius. -/
structure Ball (K : Type) where
  centre : List K
  radius : K

/-- `is_in_bounds_impl` (Ball.hpp:73-79), for the distance `d`. -/
def Ball.contains {K : Type} [LinearOrder K] (d : List K → List K → Option K) (b : Ball K)
    (p : List K) : Option Bool :=
  (d p b.centre).map (fun v => decide (v < b.radius))

/-- `diameter_impl` (Ball.hpp:62-64). -/
def Ball.diameter {K : Type} [Ring K] (b : Ball K) : K := 2 * b.radius

/-- `min_distance` of two balls (bounds/distances/MinDistance.hpp:55-87).  The end iterator of the
second range passed to `auto_distance` is its begin iterator, but the distances never use it. -/
def ballMinDist {K : Type} [LinearOrder K] [Ring K] (d : List K → List K → Option K) (a b : Ball K) :
    Option K :=
  (d a.centre b.centre).map (fun v => max 0 (v - (a.radius + b.radius)))

end Verif.Bounds
