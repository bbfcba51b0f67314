import Mathlib.Logic.Relation
import Mathlib.Order.Defs.LinearOrder

/-
Specification for C123: samples joined by pairs at a distance below a bound.
-/

namespace Verif.Graph

/-- Any two of the samples `0, ..., n - 1` are joined by a chain of pairs whose distance is below `inf`. -/
def JoinedBelow {D : Type} [LT D] (n : Nat) (dist : Nat → Nat → D) (inf : D) : Prop :=
  ∀ a b, a < n → b < n →
    Relation.ReflTransGen (fun i j => i < n ∧ j < n ∧ dist i j < inf) a b

end Verif.Graph
