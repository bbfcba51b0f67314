import Verif.Model.KMedoids
import Verif.Model.Random

/-
Model of `KMedoids::fit` (kmedoids/KMedoids.hpp:144-316) and of `medoids_to_centroids`
(kmedoids/PAMUtils.hpp:774-795).
-/

namespace Verif.KMedoids

variable {K : Type} [LinearOrder K] [Ring K]

/-- `KMedoids::fit` with FasterPAM (KMedoids.hpp:144-208, 210-218, 220-254, 256-316 are the same but for
the source of the distances `d`): without stored medoids `n_init` candidates of `k` indices are drawn,
`outcome i` being the outcomes of the generator for candidate `i`; then the loop of `KMeans.fit`, with
`are_containers_equal` on vectors of indices (Utils.hpp:504-540), which is equality. -/
def fit (vmax : K) (eq : K → K → Bool) (d : Nat → Nat → K) (n k : Nat) (o : KMeans.Options)
    (stored : List Nat) (outcome : Nat → Nat → Nat) : Option (List Nat) := do
  let drawn ← (List.range (if stored = [] then o.nInit else 0)).mapM fun i =>
    Random.fromInterval (outcome i) k 0 n
  KMeans.fit (pamInit vmax eq d n) (pamStep d n) (fun s => s.medoids) (fun s => s.loss)
    (fun a b => decide (a = b)) List.isEmpty [] o stored (fun i => drawn.getD i [])

/-- `medoids_to_centroids` (PAMUtils.hpp:774-795): the rows of the medoids. -/
def medoidsToCentroids {V : Type} (rows : List V) (medoids : List Nat) : Option (List V) :=
  medoids.mapM fun m => rows[m]?

end Verif.KMedoids
