import Verif.Model.Bounds
import Verif.Model.MachineInt

/-
Model of the centre and the size of a segment with the arithmetic of the C++ types
(see Model/MachineInt.lean for the arithmetic).
-/

namespace Verif.Bounds

open Verif.MachineInt

/-- `compute_center_with_left_rounding`, integral case (common/Utils.hpp:443-456): `t` is the type of
the bounds (the wider one of the two after promotion), `r` is the return type `std::common_type_t<T, U>`.
The sum has the promoted type; the quotient is converted to `r` when it is returned. -/
def centerMachine (t r : IntType) (lower upper : ℤ) : Option ℤ := do
  let s ← t.promoted.result (lower + upper)
  let c ← if s < 0 then t.promoted.result (s.tdiv 2 - 1) else some (s.tdiv 2)
  some (r.convert c)

/-- `compute_size_from_center_with_left_rounding`, integral case (common/Utils.hpp:459-472): `1 + upper`
and the difference have the promoted type. -/
def sizeMachine (t r : IntType) (lower upper : ℤ) : Option ℤ := do
  let m ← centerMachine t r lower upper
  let u ← t.promoted.result (1 + upper)
  let d ← t.promoted.result (u - m)
  some (r.convert d)

/-- `centroid_impl` of `LowerBoundAndUpperBound` (LowerBoundAndUpperBound.hpp:64-67). -/
def Seg.centroidMachine (t : IntType) (s : Seg ℤ) : Option ℤ := centerMachine t t s.lower s.upper

/-- `centroid_to_bound_distance_impl` of `LowerBoundAndUpperBound` (LowerBoundAndUpperBound.hpp:69-73). -/
def Seg.toBoundMachine (t : IntType) (s : Seg ℤ) : Option ℤ := sizeMachine t t s.lower s.upper

/-- The last value of a segment, `first + second - 1`, of the promoted type
(LowerBoundAndLength.hpp:66-67, 77-78, 88-89). -/
def SegLen.lastMachine (t : IntType) (s : SegLen ℤ) : Option ℤ := do
  let u ← t.promoted.result (s.first + s.length)
  t.promoted.result (u - 1)

/-- `centroid_impl` of `LowerBoundAndLength` (LowerBoundAndLength.hpp:64-72).  The second argument of
`compute_center_with_left_rounding` has the promoted type, so the return type is the promoted type. -/
def SegLen.centroidMachine (t : IntType) (s : SegLen ℤ) : Option ℤ := do
  let u ← s.lastMachine t
  centerMachine t t.promoted s.first u

/-- `centroid_to_bound_distance_impl` of `LowerBoundAndLength` (LowerBoundAndLength.hpp:74-83). -/
def SegLen.toBoundMachine (t : IntType) (s : SegLen ℤ) : Option ℤ := do
  let u ← s.lastMachine t
  sizeMachine t t.promoted s.first u

/-- `contains_value_impl` of `LowerBoundAndLength` (LowerBoundAndLength.hpp:85-95): the last value is
only computed when the value is not below the lower bound.  A value of an unsigned type narrower than
`int` is promoted to `int`. -/
def SegLen.containsMachine (t : IntType) (s : SegLen ℤ) (v : ℤ) : Option Bool :=
  if v < s.first then some false
  else do
    let u ← s.lastMachine t
    some (!decide (u < v))

end Verif.Bounds
