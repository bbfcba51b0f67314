import Verif.Model.ClosestPair
import Verif.Model.DualTree

/-
Model of `dual_set_shortest_edge` and `dual_set_shortest_distance` (search/ClosestPairOfSamples.hpp).
-/

namespace Verif.ClosestPair

open Verif.KDTree

variable {K D S : Type} [LinearOrder K] [LinearOrder D]

/-- `dual_set_shortest_edge` (search/ClosestPairOfSamples.hpp:62-111): a tree over each set, with a bucket
of the size of the set and the default depth limit, which is 0 (KDTree.hpp:42-53), then
`dual_tree_shortest_edge` of the second with the first as queries.  The axis policies are left open; the
arguments of the buffers are part of `env`. -/
def dualSet (env : DualTree.Env K D S) (eqv : K → K → Bool) (xq xr : Nat → Nat → K)
    (pq pr : List Nat → Nat → Box K → Nat) (nfq nfr : Nat) (vmax vlowest : K) (queries others : List Nat)
    (s : S) : Option (Edge D) := do
  let (_, tq) ← make eqv xq pq queries.length 0 nfq vmax vlowest queries
  let (_, tr) ← make eqv xr pr others.length 0 nfr vmax vlowest others
  DualTree.shortestEdge env s tq tr

/-- `dual_set_shortest_distance` (search/ClosestPairOfSamples.hpp:113-141). -/
def dualSetDistance (env : DualTree.Env K D S) (eqv : K → K → Bool) (xq xr : Nat → Nat → K)
    (pq pr : List Nat → Nat → Box K → Nat) (nfq nfr : Nat) (vmax vlowest : K) (queries others : List Nat)
    (s : S) : Option D :=
  (dualSet env eqv xq xr pq pr nfq nfr vmax vlowest queries others s).map fun e => e.2.2

end Verif.ClosestPair
