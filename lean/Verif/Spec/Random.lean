import Mathlib.Algebra.Order.Field.Basic
import Mathlib.Algebra.BigOperators.Group.Finset.Basic

/-
Specification for the random utilities.
-/

namespace Verif.Random

/-- Mass that an alias table gives to index `i`, out of a total of `n`: each cell `j` keeps `p j` for
itself and gives `1 - p j` to its alias. -/
def mass {K : Type} [Field K] (n : Nat) (p : Nat → K) (a : Nat → Nat) (i : Nat) : K :=
  ∑ j ∈ Finset.range n, ((if j = i then p j else 0) + (if a j = i then 1 - p j else 0))

/-- An outcome of the generator is valid for `select_n_elements` when draw `i` is in `[i, n-1]`. -/
def ValidOutcome (n : Nat) (outcome : Nat → Nat) : Prop :=
  ∀ i, i < n → i ≤ outcome i ∧ outcome i < n

end Verif.Random
