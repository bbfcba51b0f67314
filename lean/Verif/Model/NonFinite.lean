import Verif.Model.DBSCAN
import Verif.Model.Distances

/-
Floating-point values with NaN and the two infinities.

The other models take coordinates in a linear order, which NaN is not part of.  Here a value is NaN,
an infinity or a finite value, with the comparisons, the subtraction and the absolute value of
IEEE-754 (which `std::numeric_limits<T>::is_iec559` guarantees for `float` and `double`).  The finite
part is exact: rounding and overflow of finite values are not modelled in this file.
-/

namespace Verif.NonFinite

/-- A `float` or a `double`: the sample type of the library (`SamplesIterator::value_type`,
datastruct/tree/kdtree/KDTree.hpp:27-36). -/
inductive Flt (F : Type) where
  | nan
  | neg
  | fin (v : F)
  | pos
deriving DecidableEq, Repr

variable {F : Type}

/-- `a < b` on floating values, as used by the comparisons of common/math/heuristics and
search/buffer/StaticBuffer.hpp:143-182: false when either side is NaN. -/
def Flt.lt [LT F] [DecidableLT F] : Flt F → Flt F → Bool
  | .neg, .fin _ => true
  | .neg, .pos => true
  | .fin a, .fin b => decide (a < b)
  | .fin _, .pos => true
  | _, _ => false

/-- `a <= b` on floating values (datastruct/tree/kdtree/KDNodeView.hpp:229): false when either side is
NaN. -/
def Flt.le [LE F] [DecidableLE F] : Flt F → Flt F → Bool
  | .nan, _ => false
  | _, .nan => false
  | .neg, _ => true
  | _, .pos => true
  | .fin a, .fin b => decide (a ≤ b)
  | _, _ => false

instance [LT F] [DecidableLT F] : LT (Flt F) := ⟨fun a b => a.lt b = true⟩
instance [LE F] [DecidableLE F] : LE (Flt F) := ⟨fun a b => a.le b = true⟩
instance [LT F] [DecidableLT F] : DecidableLT (Flt F) := fun a b => inferInstanceAs (Decidable (a.lt b = true))
instance [LE F] [DecidableLE F] : DecidableLE (Flt F) := fun a b => inferInstanceAs (Decidable (a.le b = true))

/-- `a - b`: NaN when either side is NaN and for `inf - inf`. -/
def Flt.sub [Sub F] : Flt F → Flt F → Flt F
  | .fin a, .fin b => .fin (a - b)
  | .fin _, .pos => .neg
  | .fin _, .neg => .pos
  | .pos, .fin _ => .pos
  | .pos, .neg => .pos
  | .neg, .fin _ => .neg
  | .neg, .pos => .neg
  | _, _ => .nan

/-- `common::abs` (common/Utils.hpp:398-409) and `std::fabs`. -/
def Flt.abs [Lattice F] [AddGroup F] : Flt F → Flt F
  | .nan => .nan
  | .fin a => .fin |a|
  | .neg => .pos
  | .pos => .pos

/-- `common::abs(a - b)`: the gap to a cutting plane (KDNodeView.hpp:222-242), and the Euclidean
distance of samples with one feature. -/
def Flt.gap [Lattice F] [AddGroup F] (a b : Flt F) : Flt F := (a.sub b).abs

/-- `a + b`: NaN when either side is NaN and for infinities of opposite sign. -/
def Flt.add [Add F] : Flt F → Flt F → Flt F
  | .fin a, .fin b => .fin (a + b)
  | .fin _, .pos => .pos
  | .fin _, .neg => .neg
  | .pos, .fin _ => .pos
  | .pos, .pos => .pos
  | .neg, .fin _ => .neg
  | .neg, .neg => .neg
  | _, _ => .nan

/-- `a * a`. -/
def Flt.sq [Mul F] : Flt F → Flt F
  | .nan => .nan
  | .fin a => .fin (a * a)
  | .neg => .pos
  | .pos => .pos

/-- `std::sqrt`: NaN below zero. -/
noncomputable def Flt.sqrt : Flt ℝ → Flt ℝ
  | .nan => .nan
  | .fin a => if a < 0 then .nan else .fin (Real.sqrt a)
  | .neg => .nan
  | .pos => .pos

/-- `euclidean_distance` (common/math/heuristics/Distances.hpp:33-59, 67-76) of two ranges of the same
length.  The library may regroup the sum of squares; no term is `-inf`, so every grouping of the
exact terms gives the same value. -/
noncomputable def euclideanFlt (l r : List (Flt ℝ)) : Flt ℝ :=
  ((List.zipWith (fun a b => (a.sub b).sq) l r).foldl Flt.add (.fin 0)).sqrt

/-- `common::equality` on floating values (common/Utils.hpp:416-417): `std::fabs(b - a) <= epsilon`.
An infinity is not equal to itself. -/
def eqFlt [Lattice F] [AddGroup F] [DecidableLE F] (eps : F) (a b : Flt F) : Bool :=
  decide (b.gap a ≤ .fin eps)

end Verif.NonFinite
