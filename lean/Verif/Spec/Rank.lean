import Mathlib.Algebra.Order.Ring.Defs

/-
Specification of order statistics by counting, independent of the model.
-/

namespace Verif.Rank

/-- `v` is a `k`-th smallest value of `l` (counting from 1, with multiplicity) up to `slack`: it is a
value of `l`, at least `k` values are at most `v`, and fewer than `k` values are below `v - slack`. -/
structure IsKthUpTo {F : Type} [Add F] [LinearOrder F] (slack : F) (k : Nat) (l : List F) (v : F) :
    Prop where
  mem : v ∈ l
  le : k ≤ (l.filter (fun a => a ≤ v)).length
  lt : (l.filter (fun a => a + slack < v)).length < k

/-- `v` is the `k`-th smallest value of `l`. -/
structure IsKth {F : Type} [LinearOrder F] (k : Nat) (l : List F) (v : F) : Prop where
  mem : v ∈ l
  le : k ≤ (l.filter (fun a => a ≤ v)).length
  lt : (l.filter (fun a => a < v)).length < k

end Verif.Rank
