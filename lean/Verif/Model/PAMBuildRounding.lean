import Verif.Model.KMedoids

/-
kmedoids/PAMBuild.hpp with rounded arithmetic: the functions of Model/KMedoids.lean where every sum and
difference of distances goes through a rounding function `fl`.  The distances `d` are the numbers that the
code computes, whatever their error.  Not modelled: overflow and NaN.
-/

namespace Verif.KMedoids

variable {K : Type} [LinearOrder K] [Ring K]

/-- `loss_acc` of `first_medoid_td_index_pair` for the candidate `c` (PAMUtils.hpp:724-733, 757-762). -/
def rsum (fl : K → K) (d : Nat → Nat → K) (n c : Nat) : K :=
  ((List.range n).map fun o => d c o).foldl (fun s x => fl (s + x)) 0

/-- Loop of `first_medoid_td_index_pair` (PAMUtils.hpp:722-741, 755-770): the accumulator is
`total_deviation` and `selected_medoid`. -/
def firstMedoidLoopR (fl : K → K) (d : Nat → Nat → K) (n : Nat) : List Nat → K × Nat → K × Nat
  | [], acc => acc
  | c :: cs, (td, m) =>
    firstMedoidLoopR fl d n cs (if rsum fl d n c < td then (rsum fl d n c, c) else (td, m))

/-- `first_medoid_td_index_pair` (PAMUtils.hpp:710-772). -/
def firstMedoidR (fl : K → K) (inf : K) (d : Nat → Nat → K) (n : Nat) : K × Nat :=
  firstMedoidLoopR fl d n (List.range n) (inf, 0)

/-- The accumulation of `loss_accumulator` in `build` for the candidate `c` (PAMBuild.hpp:50-67): the
difference is rounded, then the sum. -/
def buildGainR (fl : K → K) (d : Nat → Nat → K) (ms : List Nat) (near : List K) (c : Nat) :
    List Nat → K → Option K
  | [], acc => some acc
  | o :: os, acc => do
    if c ≠ o ∧ o ∉ ms then
      let x ← near[o]?
      buildGainR fl d ms near c os (if d c o < x then fl (acc - fl (d c o - x)) else acc)
    else buildGainR fl d ms near c os acc

/-- Loop over the candidates of one round of `build` (PAMBuild.hpp:47-73). -/
def buildRoundR (fl : K → K) (d : Nat → Nat → K) (n : Nat) (ms : List Nat) (near : List K) :
    List Nat → K × Nat → Option (K × Nat)
  | [], acc => some acc
  | c :: cs, (v, m) => do
    if c ∉ ms then
      let l ← buildGainR fl d ms near c (List.range n) 0
      buildRoundR fl d n ms near cs (if l < v then (l, c) else (v, m))
    else buildRoundR fl d n ms near cs (v, m)

/-- Loop of `build` (PAMBuild.hpp:42-80), `r` rounds to go. -/
def buildLoopR (fl : K → K) (inf vmax : K) (d : Nat → Nat → K) (n : Nat) :
    Nat → K → List Nat → List K → Option (K × List Nat × List K)
  | 0, td, ms, near => some (td, ms, near)
  | r + 1, td, ms, near => do
    let (v, m) ← buildRoundR fl d n ms near (List.range n) (inf, 0)
    let ms' := ms ++ [m]
    let near' ← nearestDistances vmax d n ms'
    buildLoopR fl inf vmax d n r (fl (td + v)) ms' near'

/-- `build` (PAMBuild.hpp:12-82); the overload for a matrix (84-95) cannot be instantiated. -/
def buildR (fl : K → K) (inf vmax : K) (d : Nat → Nat → K) (n k : Nat) : Option (K × List Nat × List K) := do
  let (td, m) := firstMedoidR fl inf d n
  let near ← nearestDistances vmax d n [m]
  buildLoopR fl inf vmax d n (k - 1) td [m] near

end Verif.KMedoids
