import Verif.Model.Rounding
import Mathlib.Order.WithBot

/-
Floating-point arithmetic in a format of bounded range: gradual underflow and overflow to infinity, for the
distances of common/math/heuristics/Distances.hpp, `common::equality` and `common::abs`
(Model/Rounding.lean has the same operations with an unbounded exponent).

Formats as in IEEE 754: radix 2, `p` bits of precision, largest exponent `emax` (double: 53 and 1024, float:
24 and 128), numbers `m * 2 ^ e` with `|m| <= 2 ^ p` and `e >= 3 - emax - p`; a result that rounds to
`2 ^ emax` or more becomes infinite.  Every value below is the magnitude of a number that is not NaN:
differences of finite coordinates are finite or infinite, and squares, sums of squares and square roots of
those are never NaN.  Not modelled: flushing of subnormal numbers to zero and other rounding modes.
-/

namespace Verif.Rounding

/-- The least exponent of the format: -1074 for double, -149 for float. -/
def emin (p : Nat) (emax : ℤ) : ℤ := 3 - emax - p

/-- The numbers of the format, with no upper limit. -/
def IsFloatE (p : Nat) (emax : ℤ) (x : ℝ) : Prop :=
  ∃ m e : ℤ, |m| ≤ 2 ^ p ∧ emin p emax ≤ e ∧ x = m * (2 : ℝ) ^ e

/-- Rounding to nearest with a symmetric rule for ties, before overflow is looked at. -/
structure RoundingE (p : Nat) (emax : ℤ) where
  rnd : ℝ → ℝ
  isFloat : ∀ x, IsFloatE p emax (rnd x)
  nearest : ∀ x y, IsFloatE p emax y → |rnd x - x| ≤ |y - x|
  neg : ∀ x, rnd (-x) = -rnd x

variable {p : Nat} {emax : ℤ}

/-- Overflow of a magnitude. -/
noncomputable def clip (emax : ℤ) (y : ℝ) : WithTop ℝ := if y < (2 : ℝ) ^ emax then (y : WithTop ℝ) else ⊤

/-- The magnitude of `a - b`. -/
noncomputable def subE (R : RoundingE p emax) (a b : ℝ) : WithTop ℝ := clip emax |R.rnd (a - b)|

/-- The square of a number from its magnitude; the square of an infinity is infinity. -/
noncomputable def sqE (R : RoundingE p emax) : WithTop ℝ → WithTop ℝ
  | ⊤ => ⊤
  | (d : ℝ) => clip emax (R.rnd (d * d))

/-- The sum of two numbers that are not negative. -/
noncomputable def addE (R : RoundingE p emax) : WithTop ℝ → WithTop ℝ → WithTop ℝ
  | (a : ℝ), (b : ℝ) => clip emax (R.rnd (a + b))
  | _, _ => ⊤

/-- The square of a number from its magnitude, added to a number that is not negative in one operation. -/
noncomputable def fmaE (R : RoundingE p emax) : WithTop ℝ → WithTop ℝ → WithTop ℝ
  | (d : ℝ), (a : ℝ) => clip emax (R.rnd (a + d * d))
  | _, _ => ⊤

/-- `std::sqrt` of a number that is not negative. -/
noncomputable def sqrtE (R : RoundingE p emax) : WithTop ℝ → WithTop ℝ
  | ⊤ => ⊤
  | (s : ℝ) => clip emax (R.rnd (Real.sqrt s))

/-- `common::equality` (common/Utils.hpp:416-417). -/
noncomputable def eqE (R : RoundingE p emax) (eps : ℝ) (a b : ℝ) : Bool :=
  decide (subE R b a ≤ (eps : WithTop ℝ))

/-- `common::abs(pivot_split_value - query_split_value)` (KDNodeView.hpp:235-238). -/
noncomputable def gapE (R : RoundingE p emax) (v w : ℝ) : WithTop ℝ := subE R v w

/-- The sum of the squares of the differences `d` in the order `o`. -/
noncomputable def Order.evalE (R : RoundingE p emax) (d : Nat → WithTop ℝ) : Order → WithTop ℝ
  | .term k => sqE R (d k)
  | .add a b => addE R (a.evalE R d) (b.evalE R d)
  | .fma a k => fmaE R (d k) (a.evalE R d)

/-- One difference of `squared_euclidean_distance` (Distances.hpp:50-58): number 0 stands for the initial
value, which is zero, number `k + 1` for feature `k`. -/
noncomputable def diffE (R : RoundingE p emax) (u v : Nat → ℝ) : Nat → WithTop ℝ
  | 0 => (0 : ℝ)
  | k + 1 => subE R (u k) (v k)

/-- `euclidean_distance` (Distances.hpp:67-76), with the order of summation `o`. -/
noncomputable def distE (R : RoundingE p emax) (o : Order) (u v : Nat → ℝ) : WithTop ℝ :=
  sqrtE R (o.evalE R (diffE R u v))

end Verif.Rounding
