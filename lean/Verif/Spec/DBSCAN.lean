import Mathlib.Logic.Relation

/-
Specification of density-based clustering, independent of the model: `N i j` means that `j` is
within the radius of `i`.
-/

namespace Verif.DBSCAN

/-- Number of samples within the radius of `i`, itself included when it is within its own radius. -/
def degree (n : Nat) (N : Nat → Nat → Bool) (i : Nat) : Nat :=
  ((List.range n).filter (N i)).length

/-- Core sample: more than `minSamples` samples within the radius. -/
def Core (n : Nat) (N : Nat → Nat → Bool) (minSamples i : Nat) : Prop :=
  i < n ∧ degree n N i > minSamples

/-- `i` and `j` are core samples linked by a chain of core samples each within the radius of the
next. -/
def DensityConnected (n : Nat) (N : Nat → Nat → Bool) (minSamples : Nat) (i j : Nat) : Prop :=
  Core n N minSamples i ∧ Core n N minSamples j ∧
    Relation.ReflTransGen (fun a b => Core n N minSamples a ∧ Core n N minSamples b ∧ N a b = true)
      i j

/-- `m` is the core sample with the smallest index of its cluster. -/
def First (n : Nat) (N : Nat → Nat → Bool) (minSamples m : Nat) : Prop :=
  Core n N minSamples m ∧ ∀ j, DensityConnected n N minSamples m j → m ≤ j

/-- The cluster of the first core sample `m` can take sample `i`: `i` is `m`, or is within the
radius of `m`, or comes after `m` and is within the radius of some core sample of the cluster. -/
def Takes (n : Nat) (N : Nat → Nat → Bool) (minSamples m i : Nat) : Prop :=
  First n N minSamples m ∧ i < n ∧
    (i = m ∨ N m i = true ∨ m < i ∧ ∃ k, DensityConnected n N minSamples m k ∧ N k i = true)

open Classical in
/-- Number of clusters whose first core sample is below `m`. -/
noncomputable def clustersBelow (n : Nat) (N : Nat → Nat → Bool) (minSamples m : Nat) : Nat :=
  ((List.range m).filter (fun j => First n N minSamples j)).length

/-- `l` is the label of sample `i`: 0 when no cluster can take it, else the number, counted from 1
in the order of the first core samples, of the first cluster that can take it. -/
def IsLabel (n : Nat) (N : Nat → Nat → Bool) (minSamples i l : Nat) : Prop :=
  (l = 0 ∧ ∀ m, ¬ Takes n N minSamples m i) ∨
    ∃ m, Takes n N minSamples m i ∧ (∀ m', Takes n N minSamples m' i → m ≤ m') ∧
      l = clustersBelow n N minSamples m + 1

end Verif.DBSCAN
