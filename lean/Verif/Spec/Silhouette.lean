import Mathlib.Order.Basic
import Mathlib.Algebra.Field.Basic
import Mathlib.Algebra.BigOperators.Group.List.Basic

/-
Specification of the silhouette score.  Independent of the model.
-/

namespace Verif.Silhouette.Spec

/-- The samples with label `c`. -/
def members (labels : List Nat) (c : Nat) : List Nat :=
  (List.range labels.length).filter fun j => decide (labels[j]? = some c)

variable {K : Type} [LinearOrder K] [Field K]

/-- Mean distance of the sample `i` to the samples `js` (0 if there are none). -/
def mean (d : Nat → Nat → K) (i : Nat) (js : List Nat) : K := (js.map (d i)).sum / js.length

/-- Mean distance of a sample to the others of its cluster. -/
def within (d : Nat → Nat → K) (labels : List Nat) (i c : Nat) : K :=
  mean d i ((members labels c).filter fun j => decide (i ≠ j))

/-- `b` is the least mean distance of the sample `i` to a cluster other than `c`. -/
def IsBetween (d : Nat → Nat → K) (labels : List Nat) (i c : Nat) (b : K) : Prop :=
  (∃ c', c' ≠ c ∧ members labels c' ≠ [] ∧ b = mean d i (members labels c')) ∧
    ∀ c', c' ≠ c → members labels c' ≠ [] → b ≤ mean d i (members labels c')

/-- The silhouette score. -/
def score (a b : K) : K := (b - a) / max a b

end Verif.Silhouette.Spec
