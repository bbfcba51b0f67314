import Mathlib.Algebra.Module.Defs
import Mathlib.Algebra.Order.Field.Basic
import Mathlib.Algebra.BigOperators.Group.Finset.Basic
import Mathlib.Algebra.BigOperators.Group.List.Basic
import Mathlib.Data.Fintype.Basic
import Mathlib.Data.Real.Basic
import Mathlib.Algebra.Module.Pi

/-
Specification vocabulary for k-means, independent of the model.
-/

namespace Verif.KMeans

/-- Centroid `i` is at the minimum distance from `x`. -/
def Nearest {V K : Type} [LE K] (dist : V → V → K) (cs : List V) (x : V) (i : Nat) : Prop :=
  ∃ c, cs[i]? = some c ∧ ∀ c' ∈ cs, dist x c ≤ dist x c'

/-- Centroid `i` is at the minimum distance from `x` and no earlier one is. -/
def FirstNearest {V K : Type} [LE K] [LT K] (dist : V → V → K) (cs : List V) (x : V) (i : Nat) :
    Prop :=
  ∃ c, cs[i]? = some c ∧ (∀ c' ∈ cs, dist x c ≤ dist x c') ∧
    ∀ (j : Nat) c', j < i → cs[j]? = some c' → dist x c < dist x c'

/-- The samples assigned to centroid `j`. -/
def members {V : Type} (ps : List (V × Nat)) (j : Nat) : List V :=
  (ps.filter (fun p => p.2 = j)).map Prod.fst

/-- Arithmetic mean of a non-empty list of rows. -/
def mean {V K : Type} [AddCommGroup V] [Field K] [Module K V] (l : List V) : V :=
  (l.length : K)⁻¹ • l.sum

/-- `sizes` and `sums` are the cluster sizes and position sums of the assignment `ps`. -/
def Tally {V : Type} [AddCommGroup V] (k : Nat) (ps : List (V × Nat)) (sizes : List Nat)
    (sums : List V) : Prop :=
  sizes = (List.range k).map (fun j => (members ps j).length) ∧
    sums = (List.range k).map (fun j => (members ps j).sum)

/-- What the distance has to satisfy for the bounds. -/
structure IsDist {V K : Type} [Add K] [Zero K] [LE K] (dist : V → V → K) : Prop where
  nonneg : ∀ a b, 0 ≤ dist a b
  symm : ∀ a b, dist a b = dist b a
  triangle : ∀ a b c, dist a c ≤ dist a b + dist b c

/-- Squared Euclidean distance. -/
def sq {nf : Nat} (x c : Fin nf → ℝ) : ℝ := ∑ f, (x f - c f) ^ 2

/-- The k-means objective: the sum of the squared distances to the nearest centroid. -/
noncomputable def objective {nf : Nat} (xs cs : List (Fin nf → ℝ)) : ℝ :=
  (xs.map fun x => ((cs.map (sq x)).min?).getD 0).sum

/-- A k-means solution that neither half of the iteration changes: every sample is assigned to a
centroid at minimal squared distance, and every centroid with samples is the mean of its samples. -/
def LocalOptimum {nf : Nat} (xs cs : List (Fin nf → ℝ)) (a : List Nat) : Prop :=
  a.length = xs.length ∧ (∀ p ∈ xs.zip a, Nearest sq cs p.1 p.2) ∧
    ∀ (j : Nat) c, cs[j]? = some c → members (xs.zip a) j ≠ [] → c = mean (K := ℝ) (members (xs.zip a) j)

/-- `n` successive steps. -/
def runN {S : Type} (step : S → Option S) : Nat → S → Option S
  | 0, s => some s
  | n + 1, s => (runN step n s).bind step

end Verif.KMeans
