import Verif.Spec.KDTree

/-
Specification of the shape of a k-d tree: height, left turns, sizes of the children.
-/

namespace Verif.KDTree

variable {K : Type}

/-- Largest number of steps from the root down to a leaf. -/
def Tree.height : Tree K → Nat
  | .leaf _ _ => 0
  | .node _ _ _ l r => max l.height r.height + 1

/-- Largest number of steps to a left child on the way from the root down to a leaf. -/
def Tree.leftTurns : Tree K → Nat
  | .leaf _ _ => 0
  | .node _ _ _ l r => max (l.leftTurns + 1) r.leftTurns

/-- `P n l r` holds at every inner node with `n` samples, `l` of them under the left child and `r`
under the right child. -/
def Tree.Sizes (P : Nat → Nat → Nat → Prop) : Tree K → Prop
  | .leaf _ _ => True
  | .node p a box l r =>
    P (Tree.node p a box l r).indices.length l.indices.length r.indices.length ∧
      l.Sizes P ∧ r.Sizes P

end Verif.KDTree
