import Verif.Spec.Buffer
import Mathlib.Algebra.Order.Field.Basic

/-
Specification for the searches, independent of the model.
-/

namespace Verif.Search

/-- The feature vector of a sample: its first `nf` coordinates. -/
def row {K : Type} (nf : Nat) (v : Nat → K) : List K := (List.range nf).map v

/-- `kept` is a selection of `k` candidates of `all` that is nearest up to `slack`: no candidate
left out is closer than a kept one by more than `slack`. -/
def IsKNearestUpTo {F : Type} [Field F] [LinearOrder F] (slack : F) (k : Nat)
    (kept all : List (Nat × F)) : Prop :=
  (∃ rest, (kept ++ rest).Perm all ∧ ∀ a ∈ kept, ∀ b ∈ rest, a.2 ≤ b.2 + slack) ∧
    kept.length = min k all.length

end Verif.Search
