import Verif.Model.Rounding

/-
Specification for the properties under rounding: the distance in exact arithmetic and the error
factor, independent of how the library computes.
-/

namespace Verif.Rounding

/-- The Euclidean distance of the first `nf` coordinates in exact arithmetic. -/
noncomputable def trueDist (nf : Nat) (u v : Nat → ℝ) : ℝ :=
  Real.sqrt ((List.range nf).map (fun k => (u k - v k) ^ 2)).sum

/-- The factor by which a computed Euclidean distance may be off, either way. For `(nf + 5) * u` at
most a half it is at most `1 + (nf + 5) * u` (`relErr_le`). -/
noncomputable def relErr (p nf : Nat) : ℝ := Real.sqrt ((1 + unit p) ^ (nf + 5))

/-- `o` adds the initial value and the `nf` squared differences, each once. -/
def Order.Sums (nf : Nat) (o : Order) : Prop := o.terms.Perm (List.range (nf + 1))

end Verif.Rounding
