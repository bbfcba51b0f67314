import Verif.Model.KMedoidsFitRounding
import Verif.Model.MachineInt

/-
Model of FasterPAM and of `KMedoids::fit` on integral data (kmedoids/FasterPAM.hpp, kmedoids/KMedoids.hpp):
`DataType` is an integral type, and all sums and differences are those of the type.  The loops are those of
Model/FasterPAMRounding.lean, the function `fl` gives the value stored for an exact result.
-/

namespace Verif.KMedoids

open Verif.MachineInt

/-- Sums and differences stored in variables of the type `t` (`delta_td_mi`, `delta_td_xc`, `loss`;
FasterPAM.hpp:163-166, 187-193, 205, PAMUtils.hpp:665-673): a result in the range of the type is stored as it
is, and unsigned types reduce modulo `2 ^ bits`.  What a signed type stores for a result out of its range is
left open: the overflow is undefined from 32 bits on, and the conversion is modular below.  Simplification:
an undefined overflow gives some value here, and whatever is claimed of the result is claimed for every such
value.  For types narrower than `int` the sum of FasterPAM.hpp:200 is not converted back to the type; its sign,
which is all that is read (FasterPAM.hpp:147), is that of the stored value whenever both terms and their sum are
in the range, and never negative for unsigned types. -/
structure Stores (t : IntType) (fl : ℤ → ℤ) : Prop where
  keep : ∀ z, t.min ≤ z → z ≤ t.max → fl z = z
  wrap : t.signed = false → ∀ z, fl z = z % 2 ^ t.bits

/-- `common::equality` on integral types (common/Utils.hpp:412-414). -/
def eqInt (a b : ℤ) : Bool := decide (a = b)

/-- The distance of two samples as stored in a `DataType` (PAMUtils.hpp:438-443, PairwiseDistanceMatrix.hpp:102,
128): `auto_distance` gives a value of the promoted type; `ub` stands for the undefined ones. -/
def intDistance (t : IntType) (ub : Nat → Nat → ℤ) (x : Nat → List ℤ) (i j : Nat) : ℤ :=
  t.convert ((distance t (x i) (x j)).getD (ub i j))

/-- `KMedoids::fit` with FasterPAM on integral data (KMedoids.hpp:151-316): the initial minimum distances are
`std::numeric_limits<DataType>::max()` (PAMUtils.hpp:44, 76, 116-117, 158-159, 376, 407, 446-447, 483-484). -/
def fitInt (t : IntType) (fl : ℤ → ℤ) (d : Nat → Nat → ℤ) (n k : Nat) (o : KMeans.Options)
    (stored : List Nat) (outcome : Nat → Nat → Nat) : Option (List Nat) :=
  fitR fl t.max eqInt d n k o stored outcome

end Verif.KMedoids
