import Verif.Model.FasterPAMRounding
import Verif.Model.KMedoidsFit

/-
Model of `KMedoids::fit` (kmedoids/KMedoids.hpp:144-316) in floating arithmetic: the loops of
Model/KMedoidsFit.lean around the rounded FasterPAM of Model/FasterPAMRounding.lean.
-/

namespace Verif.KMedoids

variable {K : Type} [LinearOrder K] [Ring K]

/-- `KMedoids::fit` with FasterPAM (KMedoids.hpp:144-208, 210-218, 220-254, 256-316), `fl` rounding every sum
and difference of FasterPAM; the choice among the candidates compares the rounded losses
(KMedoids.hpp:231-238).  The distances `d` are those the code computes or looks up. -/
def fitR (fl : K → K) (vmax : K) (eq : K → K → Bool) (d : Nat → Nat → K) (n k : Nat) (o : KMeans.Options)
    (stored : List Nat) (outcome : Nat → Nat → Nat) : Option (List Nat) := do
  let drawn ← (List.range (if stored = [] then o.nInit else 0)).mapM fun i =>
    Random.fromInterval (outcome i) k 0 n
  KMeans.fit (pamInitR fl vmax eq d n) (pamStepR fl d n) (fun s => s.medoids) (fun s => s.loss)
    (fun a b => decide (a = b)) List.isEmpty [] o stored (fun i => drawn.getD i [])

end Verif.KMedoids
