import Verif.Model.Bounds
import Verif.Model.MachineInt

/-
Model of `make_tight_segment` (datastruct/Interval.hpp) instantiated with
`bounds::segment::LowerBoundAndLength`, first with exact arithmetic and then with the arithmetic of the
integral types.
-/

namespace Verif.Bounds

/-- One value of `make_tight_segment` (datastruct/Interval.hpp:28-39, 58-73) with
`Segment = LowerBoundAndLength`. -/
def tightStepLen {K : Type} [LinearOrder K] [Add K] [Sub K] (s : SegLen K) (v : K) : SegLen K :=
  let s := if v < s.lower then s.updateLower v else s
  if v > s.upper then s.updateUpper v else s

/-- `make_tight_segment` (datastruct/Interval.hpp:15-41, 43-75) with `Segment = LowerBoundAndLength`: the
constructor takes the two limits for the lower bound and the length. -/
def tightLength {K : Type} [LinearOrder K] [Add K] [Sub K] (vmax vlowest : K) (vals : List K) : SegLen K :=
  vals.foldl tightStepLen ⟨vmax, vlowest⟩

/-- `upper_bound` of `LowerBoundAndLength` (segment/LowerBoundAndLength.hpp:51-54) with values of the type
`t`: the sum has the promoted type, which is the return type. -/
def upperMachine (t : MachineInt.IntType) (s : SegLen ℤ) : Option ℤ :=
  t.promoted.result (s.first + s.length)

/-- `tightStepLen` with values of the type `t` (segment/LowerBoundAndLength.hpp:46-59): `none` is a signed
overflow.  The comparison of the value with the upper bound is exact, both have the same signedness. -/
def tightStepMachine (t : MachineInt.IntType) (s : SegLen ℤ) (v : ℤ) : Option (SegLen ℤ) := do
  let s := if v < s.first then s.updateLower v else s
  let upper ← upperMachine t s
  if v > upper then do
    let length ← t.promoted.result (v - s.first)
    some ⟨s.first, t.convert length⟩
  else some s

/-- `tightLength` with values of the type `t` (datastruct/Interval.hpp:15-41, 43-75). -/
def tightMachine (t : MachineInt.IntType) (vals : List ℤ) : Option (SegLen ℤ) :=
  vals.foldlM (tightStepMachine t) ⟨t.max, t.min⟩

end Verif.Bounds
