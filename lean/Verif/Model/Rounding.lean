import Mathlib.Analysis.Real.Sqrt
import Mathlib.Algebra.Order.Round

/-
Floating-point arithmetic with rounding, for the code paths whose properties are also proved for
rounded results: the distances of common/math/heuristics/Distances.hpp, `common::equality` and
`common::abs` of common/Utils.hpp.

The format has radix 2, `p` bits of precision and an unbounded exponent; every operation is rounded
to nearest with any symmetric rule for ties, as IEEE 754 prescribes.  The sums of squares may use fused
multiply-add in any places, as compilers do with the flags of CMakeLists.txt:18 (`-march=native`).  Not
modelled here: overflow, underflow (Model/RoundingRange.lean has both) and NaN.
-/

namespace Verif.Rounding

/-- The numbers of the format: `m * 2 ^ e` with `|m| <= 2 ^ p`. -/
def IsFloat (p : Nat) (x : ℝ) : Prop :=
  ∃ m e : ℤ, |m| ≤ 2 ^ p ∧ x = m * (2 : ℝ) ^ e

/-- Rounding to nearest with a symmetric rule for ties. -/
structure Rounding (p : Nat) where
  rnd : ℝ → ℝ
  isFloat : ∀ x, IsFloat p (rnd x)
  nearest : ∀ x y, IsFloat p y → |rnd x - x| ≤ |y - x|
  neg : ∀ x, rnd (-x) = -rnd x

/-- Unit roundoff. -/
noncomputable def unit (p : Nat) : ℝ := (2 : ℝ) ^ (-(p : ℤ))

/-- `numeric_limits<T>::epsilon()`: the distance from 1 to the next number. -/
noncomputable def epsilon (p : Nat) : ℝ := (2 : ℝ) ^ (1 - (p : ℤ))

variable {p : Nat}

/-- `common::equality` (common/Utils.hpp:416-417) on floats: the difference is rounded. -/
noncomputable def eqR (R : Rounding p) (eps : ℝ) (a b : ℝ) : Bool := decide (|R.rnd (b - a)| ≤ eps)

/-- `common::abs(pivot_split_value - query_split_value)` (KDNodeView.hpp:235-238) on floats. -/
noncomputable def gapR (R : Rounding p) (v w : ℝ) : ℝ := |R.rnd (v - w)|

/-- An order of summation: `std::transform_reduce` may group and permute the terms (and the initial
value) in any way, and the compiler may contract a product and the sum it is added to into one
operation (`fma`), which rounds only once. -/
inductive Order where
  | term : Nat → Order
  | add : Order → Order → Order
  | fma : Order → Nat → Order

/-- The terms of the sum. -/
def Order.terms : Order → List Nat
  | .term k => [k]
  | .add a b => a.terms ++ b.terms
  | .fma a k => a.terms ++ [k]

/-- The rounded sum of the products `t k`. -/
noncomputable def Order.eval (R : Rounding p) (t : Nat → ℝ) : Order → ℝ
  | .term k => R.rnd (t k)
  | .add a b => R.rnd (a.eval R t + b.eval R t)
  | .fma a k => R.rnd (a.eval R t + t k)

/-- One term of `squared_euclidean_distance` (Distances.hpp:50-58) before it is rounded: term 0 is the
initial value, term `k + 1` the square of the computed difference of feature `k`. -/
noncomputable def term (R : Rounding p) (u v : Nat → ℝ) : Nat → ℝ
  | 0 => 0
  | k + 1 => R.rnd (u k - v k) * R.rnd (u k - v k)

/-- `euclidean_distance` (Distances.hpp:67-76) on floats, with the order of summation `o`. -/
noncomputable def distR (R : Rounding p) (o : Order) (u v : Nat → ℝ) : ℝ :=
  R.rnd (Real.sqrt (o.eval R (term R u v)))

end Verif.Rounding
