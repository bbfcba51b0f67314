import Verif.Model.SearchParallel

/-
What simultaneous searches of one data set may touch and what they return.
-/

namespace Verif.Parallel

open KDTree

/-- The positions of the index array that belong to a tree. -/
def positions {K : Type} : Shape K → List Nat
  | .leaf first last _ => List.range' first (last - first)
  | .node p _ _ l r => positions l ++ p :: positions r

/-- The operations of a buffer on the samples `x`. -/
def LocalOps.on {K B : Type} (ops : LocalOps K B) (x : Nat → Nat → K) : Search.BufferOps B where
  offer := fun b i => ops.offer b i (x i)
  visit := fun b isLeft p a => ops.visit b isLeft (x p) a

/-- What a call returns when nothing else is running. -/
def Job.alone {K : Type} [LT K] [DecidableLT K] {B : Type} (j : Job K B) (x : Nat → Nat → K) (arr : List Nat) :
    Option B :=
  Search.searchShared x j.ops.query (j.ops.on x) arr j.tree j.buffer

/-- The elements of the index array, and the samples it names. -/
def Existing (arr : List Nat) : SearchLoc → Prop
  | .index p => p < arr.length
  | .sample i => i ∈ arr

end Verif.Parallel
