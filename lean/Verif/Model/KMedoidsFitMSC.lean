import Verif.Model.KMedoids
import Verif.Model.Random

/-
Model of `KMedoids::fit` (kmedoids/KMedoids.hpp:144-316) with the algorithm FasterMSC.
-/

namespace Verif.KMedoids

variable {K : Type} [LinearOrder K] [Field K]

/-- `KMedoids::fit<FasterMSC>` (KMedoids.hpp:144-208, 210-218, 220-254, 256-316): as `fit`
(Model/KMedoidsFit.lean), with the constructor, `step` and `total_deviation` of FasterMSC
(FasterMSC.hpp:102-178). -/
def fitMSC (vmax : K) (eq : K → K → Bool) (d : Nat → Nat → K) (n k : Nat) (o : KMeans.Options)
    (stored : List Nat) (outcome : Nat → Nat → Nat) : Option (List Nat) := do
  let drawn ← (List.range (if stored = [] then o.nInit else 0)).mapM fun i =>
    Random.fromInterval (outcome i) k 0 n
  KMeans.fit (mscInit vmax eq d n) (mscStep eq d n) (fun s => s.medoids) (fun s => s.loss)
    (fun a b => decide (a = b)) List.isEmpty [] o stored (fun i => drawn.getD i [])

end Verif.KMedoids
