import Verif.Model.KDTree

/-
Specification of k-d trees: what a user may assume of a tree, by recursion on its shape.
-/

namespace Verif.KDTree

variable {K : Type}

/-- The samples of the tree, left to right. -/
def Tree.indices : Tree K → List Nat
  | .leaf idx _ => idx
  | .node p _ _ l r => l.indices ++ p :: r.indices

/-- The bound stored in the root node. -/
def Tree.box : Tree K → Box K
  | .leaf _ box => box
  | .node _ _ box _ _ => box

/-- The list of all (depth, subtree) pairs of a tree whose root is at depth `d`. -/
def Tree.subtrees : Nat → Tree K → List (Nat × Tree K)
  | d, t@(.leaf _ _) => [(d, t)]
  | d, t@(.node _ _ _ l r) => (d, t) :: (l.subtrees (d + 1) ++ r.subtrees (d + 1))

/-- Samples stored in the node itself. -/
def Tree.own : Tree K → List Nat
  | .leaf idx _ => idx
  | .node p _ _ _ _ => [p]

/-- Every inner node is split: `L axis i p` for the samples `i` of the left subtree, `R axis p i`
for those of the right subtree. -/
def Tree.SplitBy (L R : Nat → Nat → Nat → Prop) : Tree K → Prop
  | .leaf _ _ => True
  | .node p a _ l r =>
    (∀ i ∈ l.indices, L a i p) ∧ (∀ i ∈ r.indices, R a p i) ∧ l.SplitBy L R ∧ r.SplitBy L R

/-- Exact split order: strictly smaller on the left, at least the pivot on the right. -/
def Tree.Ordered [LinearOrder K] (x : Nat → Nat → K) (t : Tree K) : Prop :=
  t.SplitBy (fun a i p => x i a < x p a) (fun a p i => x p a ≤ x i a)

/-- Sample `i` is inside the box, where `le` compares coordinates. -/
def InBox (le : K → K → Prop) (x : Nat → Nat → K) (box : Box K) (i : Nat) : Prop :=
  ∀ f seg, box[f]? = some seg → le seg.1 (x i f) ∧ le (x i f) seg.2

/-- The box `b` is inside the box `c`. -/
def SubBox (le : K → K → Prop) (b c : Box K) : Prop :=
  b.length = c.length ∧
    ∀ (f : Nat) (s t : K × K), b[f]? = some s → c[f]? = some t → le t.1 s.1 ∧ le s.2 t.2

/-- Every node's box contains the samples of its subtree and the boxes of its children. -/
def Tree.BoxesOk (le : K → K → Prop) (x : Nat → Nat → K) : Tree K → Prop
  | .leaf idx box => ∀ i ∈ idx, InBox le x box i
  | t@(.node _ _ box l r) =>
    (∀ i ∈ t.indices, InBox le x box i) ∧ SubBox le l.box box ∧ SubBox le r.box box ∧
      l.BoxesOk le x ∧ r.BoxesOk le x

/-- Axes used by the tree. -/
def Tree.AxesLt (nf : Nat) : Tree K → Prop
  | .leaf _ _ => True
  | .node _ a _ l r => a < nf ∧ l.AxesLt nf ∧ r.AxesLt nf

/-- Bucket and depth limits of the subtree `t` located at depth `d`. -/
def NodeLimits (bucketSize maxDepth : Nat) (d : Nat) (t : Tree K) : Prop :=
  d ≤ maxDepth ∧
    match t with
    | .leaf idx _ => idx.length ≤ bucketSize ∨ d = maxDepth
    | .node _ _ _ _ _ => bucketSize < t.indices.length

end Verif.KDTree
