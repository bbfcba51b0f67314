import Verif.Spec.KDTree

/-
Specification of the dual-tree search.  Independent of the model of the search.
-/

namespace Verif.DualTree.Spec

open Verif.KDTree

/-- All subtrees of a tree. -/
def nodes {K : Type} : Tree K → List (Tree K)
  | t@(.leaf _ _) => [t]
  | t@(.node _ _ _ l r) => t :: (nodes l ++ nodes r)

/-- `(q, i, d)` is a pair of a query of `qs` and a reference of `rs` which may be joined, `d` is its
distance, and no such pair is closer: `cand q i` is the distance of a pair which may be joined. -/
def IsShortest {D : Type} [LE D] (cand : Nat → Nat → Option D) (qs rs : List Nat) (e : Nat × Nat × D) :
    Prop :=
  e.1 ∈ qs ∧ e.2.1 ∈ rs ∧ cand e.1 e.2.1 = some e.2.2 ∧
    ∀ a ∈ qs, ∀ b ∈ rs, ∀ d, cand a b = some d → e.2.2 ≤ d

end Verif.DualTree.Spec
