import Mathlib.Data.List.Sort
import Mathlib.Data.List.Dedup

/-
Specification of the n-th nearest when distances are repeated.  Independent of the model.
-/

namespace Verif.KMedoids.Spec

/-- The different values of a list, in increasing order. -/
def distinct {K : Type} [LinearOrder K] (l : List K) : List K := l.dedup.insertionSort (· ≤ ·)

end Verif.KMedoids.Spec
