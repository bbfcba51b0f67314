import Verif.Model.KDTree

/-
The functions of common/algorithms/Sorting.hpp with a count of the tests of the two scan loops of
`partition_around_pivot_index` (the conditions of lines 77 and 81).  Each definition is the one of
`Verif.Model.Sorting` that also returns the count; that the rest is unchanged is `erase` in
`Verif.Lemmas.SortCost`.  The comparisons outside of the scan loops (three for each median, at most two
for each round of the partition) are not counted.
-/

namespace Verif.Sorting

variable {K : Type} [LT K] [DecidableLT K]

/-- `scanUp` (common/algorithms/Sorting.hpp:75-77) with the number of tests. -/
def scanUpC (key : Nat → K) (pivot : K) (idx : List Nat) : Nat → Nat → Option (Nat × Nat)
  | 0, _ => none
  | fuel + 1, l => do
    let x ← idx[l]?
    if key x < pivot then
      let (r, c) ← scanUpC key pivot idx fuel (l + 1)
      some (r, c + 1)
    else some (l, 1)

/-- `scanDown` (common/algorithms/Sorting.hpp:79-81) with the number of tests. -/
def scanDownC (key : Nat → K) (pivot : K) (idx : List Nat) : Nat → Option (Nat × Nat)
  | 0 => none
  | r + 1 => do
    let x ← idx[r]?
    if pivot < key x then
      let (r, c) ← scanDownC key pivot idx r
      some (r, c + 1)
    else some (r, 1)

/-- `partitionLoop` (common/algorithms/Sorting.hpp:74-149) with the number of tests, `c` before. -/
def partitionLoopC (eqv : K → K → Bool) (key : Nat → K) (pivot : K) :
    Nat → List Nat → Nat → Nat → Nat → Nat → Option ((List Nat × Nat) × Nat)
  | 0, _, _, _, _, _ => none
  | fuel + 1, idx, lp, rp, pv, c => do
    let (left, cu) ← scanUpC key pivot idx (idx.length + 1) lp
    let (right, cd) ← scanDownC key pivot idx rp
    let c := c + cu + cd
    if left ≥ right then some ((idx, pv), c)
    else do
      let xr ← idx[right]?
      if !eqv pivot (key xr) then do
        let idx' ← swap idx left right
        if pv = left then
          partitionLoopC eqv key pivot fuel idx' (left + 1) (right + 1) right c
        else
          partitionLoopC eqv key pivot fuel idx' (left + 1) right pv c
      else do
        let xl ← idx[left]?
        if eqv (key xl) pivot then
          if left ≠ pv then do
            let idx' ← swap idx left pv
            partitionLoopC eqv key pivot fuel idx' left right left c
          else
            partitionLoopC eqv key pivot fuel idx left right pv c
        else do
          let idx' ← swap idx left pv
          partitionLoopC eqv key pivot fuel idx' left right left c

/-- `partition_around_pivot_index` (common/algorithms/Sorting.hpp:48-151) with the number of tests. -/
def partitionC (eqv : K → K → Bool) (key : Nat → K) (idx : List Nat) (pv : Nat) :
    Option ((List Nat × Nat) × Nat) :=
  if idx.length = 1 then some ((idx, pv), 0)
  else do
    let x ← idx[pv]?
    partitionLoopC eqv key (key x) (idx.length + 1) idx 0 idx.length pv 0

/-- `quickselectLoop` (common/algorithms/Sorting.hpp:164-194) with the number of tests, `c` before. -/
def quickselectLoopC (eqv : K → K → Bool) (key : Nat → K) (kth : Nat) :
    Nat → List Nat → Nat → Nat → Nat → Option ((List Nat × Nat × Nat) × Nat)
  | 0, _, _, _, _ => none
  | fuel + 1, idx, left, right, c => do
    if left = right then some ((idx, left, right + 1), c)
    else do
      let pv ← medianIndexOfThree key ((idx.take (right + 1)).drop left)
      let (idx, p, cp) ← onRange idx left (right + 1)
        (fun sub => (partitionC eqv key sub pv).map (fun r => (r.1.1, r.1.2, r.2)))
      let pv := left + p
      if kth = pv then some ((idx, pv, pv + 1), c + cp)
      else if kth < pv then quickselectLoopC eqv key kth fuel idx left (pv - 1) (c + cp)
      else quickselectLoopC eqv key kth fuel idx (pv + 1) right (c + cp)

/-- `quickselect` (common/algorithms/Sorting.hpp:154-195) with the number of tests. -/
def quickselectC (eqv : K → K → Bool) (key : Nat → K) (idx : List Nat) (kth : Nat) :
    Option ((List Nat × Nat × Nat) × Nat) :=
  if idx.length = 0 then none
  else quickselectLoopC eqv key kth (idx.length + 1) idx 0 (idx.length - 1) 0

/-- `quicksort` (common/algorithms/Sorting.hpp:198-255) with the number of tests. -/
def quicksortC (eqv : K → K → Bool) (key : Nat → K) :
    Nat → List Nat → Nat → Option ((List Nat × Nat) × Nat)
  | 0, _, _ => none
  | fuel + 1, idx, pv =>
    if idx.length < 2 then some ((idx, pv), 0)
    else do
      let ((idx, p), c) ← partitionC eqv key idx pv
      let ml ← medianIndexOfThree key (idx.take p)
      let mr ← medianIndexOfThree key (idx.drop (p + 1))
      let (idx, _, cl) ← onRange idx 0 p
        (fun sub => (quicksortC eqv key fuel sub ml).map (fun r => (r.1.1, r.1.2, r.2)))
      let (idx, _, cr) ← onRange idx (p + 1) idx.length
        (fun sub => (quicksortC eqv key fuel sub mr).map (fun r => (r.1.1, r.1.2, r.2)))
      some ((idx, p), c + cl + cr)

end Verif.Sorting
