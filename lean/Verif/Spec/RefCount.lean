import Verif.Model.RefCount

/-
Vocabulary for the ownership of the nodes of trees.
-/

namespace Verif.RefCount

/-- The owning pointers of an object. -/
def owned : Option Cell → List Nat
  | some c => c.strong
  | none => []

/-- The number of owners of an object. -/
def owners : Option Cell → Nat
  | some c => c.count
  | none => 0

/-- Every count is the number of owning pointers: those held by objects and those of the list. -/
def Acc (h : Heap) (hs : List Nat) : Prop :=
  ∀ a, owners (cell h a) = (refs h).count a + hs.count a

/-- Every object has an owner. -/
def Pos (h : Heap) : Prop := ∀ a c, cell h a = some c → 0 < c.count

/-- The number of nodes of a k-d tree. -/
def kdNodes {K : Type} : KDTree.Tree K → Nat
  | .leaf _ _ => 1
  | .node _ _ _ l r => 1 + kdNodes l + kdNodes r

end Verif.RefCount
