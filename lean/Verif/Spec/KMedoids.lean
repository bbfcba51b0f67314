import Mathlib.Order.Basic
import Mathlib.Data.List.Sort
import Mathlib.Algebra.Ring.Defs
import Mathlib.Algebra.BigOperators.Group.List.Basic

/-
Specification of k-medoids: the nearest, second and third nearest of a list of distances, the total
deviation and the medoid silhouette.  Independent of the model.
-/

namespace Verif.KMedoids.Spec

variable {K : Type} [LinearOrder K]

/-- `x` is the smallest of the distances `l` outside of the positions `skip`, and is at `i`. -/
def Smallest (l : List K) (skip : List Nat) (i : Nat) (x : K) : Prop :=
  i ∉ skip ∧ l[i]? = some x ∧ ∀ (j : Nat) (y : K), j ∉ skip → l[j]? = some y → x ≤ y

/-- The distances are pairwise different, also for the comparison `eq`. -/
def NoTies (eq : K → K → Bool) (l : List K) : Prop :=
  ∀ (i j : Nat) (x y : K), i ≠ j → l[i]? = some x → l[j]? = some y → x ≠ y ∧ eq x y = false

/-- The distances of the medoids to the sample `o`. -/
def dists (d : Nat → Nat → K) (ms : List Nat) (o : Nat) : List K := ms.map (d · o)

variable [Ring K]

/-- The total deviation: sum over the `n` samples of the distance to the nearest medoid. -/
def td (d : Nat → Nat → K) (n : Nat) (ms : List Nat) : K :=
  ((List.range n).map fun o => ((dists d ms o).min?).getD 0).sum

/-- The ratio of the two smallest elements of a list, `dv` is the division. -/
def ratio (dv : K → K → K) (l : List K) : K :=
  match l.insertionSort (· ≤ ·) with
  | a :: b :: _ => dv a b
  | _ => 0

/-- The sum over the samples of the ratio of the distances to the two nearest medoids, which the medoid
silhouette methods minimise. -/
def ms (dv : K → K → K) (d : Nat → Nat → K) (n : Nat) (meds : List Nat) : K :=
  ((List.range n).map fun o => ratio dv (dists d meds o)).sum

end Verif.KMedoids.Spec
