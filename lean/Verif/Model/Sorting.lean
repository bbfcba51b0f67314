import Mathlib.Order.Defs.LinearOrder
import Mathlib.Algebra.Order.Field.Basic

/-
Model of common/algorithms/Sorting.hpp.

The functions work on a range of sample indices (`List Nat`) and read, for an index `x`, the
value `samples[x * n_features + feature_index]`, here `key x`; the caller guarantees that the
indices address existing samples, so `key` is total.  An access outside of the index range is
undefined behaviour in C++ and `none` here.  `eqv` stands for `common::equality`
(common/Utils.hpp:411-423): `==` for integral types, `|b - a| <= epsilon` for floating types.

A function that receives a sub-range (`first + a, first + b`) receives the sub-list here and the
caller writes the result back.
-/

namespace Verif.Sorting

variable {K : Type} [LT K] [DecidableLT K]

/-- `common::equality` for integral arguments (common/Utils.hpp:413-414). -/
def eqExact {K : Type} [DecidableEq K] (a b : K) : Bool := decide (a = b)

/-- `common::equality` for floating arguments (common/Utils.hpp:416-417): `|b - a| <= eps`. -/
def eqEps {F : Type} [Field F] [LinearOrder F] (eps : F) (a b : F) : Bool := decide (|b - a| ≤ eps)

/-- `std::iter_swap(first + i, first + j)`. -/
def swap {α : Type*} (l : List α) (i j : Nat) : Option (List α) := do
  let a ← l[i]?
  let b ← l[j]?
  some ((l.set i b).set j a)

/-- `median_index_of_three` (common/algorithms/Sorting.hpp:14-45). -/
def medianIndexOfThree (key : Nat → K) (idx : List Nat) : Option Nat :=
  if idx.length < 3 then some 0
  else do
    let less (i j : Nat) : Option Bool := do
      let a ← idx[i]?
      let b ← idx[j]?
      some (decide (key a < key b))
    let left := 0
    let right := idx.length - 1
    let median := right / 2
    let c ← less median left
    let (median, left) := if c then (left, median) else (median, left)
    let c ← less right left
    let (right, left) := if c then (left, right) else (right, left)
    let c ← less median right
    let (_median, right) := if c then (right, median) else (median, right)
    some right

/-- `do { ++left_index; } while (value[left_index] < pivot_value)`
(common/algorithms/Sorting.hpp:75-77). The argument `l` is `left_index + 1` before the loop. -/
def scanUp (key : Nat → K) (pivot : K) (idx : List Nat) : Nat → Nat → Option Nat
  | 0, _ => none
  | fuel + 1, l => do
    let x ← idx[l]?
    if key x < pivot then scanUp key pivot idx fuel (l + 1) else some l

/-- `do { --right_index; } while (pivot_value < value[right_index])`
(common/algorithms/Sorting.hpp:79-81). The argument is `right_index` before the loop; reaching
index `-1` is an out-of-range read. -/
def scanDown (key : Nat → K) (pivot : K) (idx : List Nat) : Nat → Option Nat
  | 0 => none
  | r + 1 => do
    let x ← idx[r]?
    if pivot < key x then scanDown key pivot idx r else some r

/-- The `while (true)` loop of `partition_around_pivot_index`
(common/algorithms/Sorting.hpp:74-149). `lp` is `left_index + 1`, `rp` is `right_index`,
`pv` is `pivot_index`. -/
def partitionLoop (eqv : K → K → Bool) (key : Nat → K) (pivot : K) :
    Nat → List Nat → Nat → Nat → Nat → Option (List Nat × Nat)
  | 0, _, _, _, _ => none
  | fuel + 1, idx, lp, rp, pv => do
    let left ← scanUp key pivot idx (idx.length + 1) lp
    let right ← scanDown key pivot idx rp
    if left ≥ right then some (idx, pv)
    else do
      let xr ← idx[right]?
      if !eqv pivot (key xr) then do
        let idx' ← swap idx left right
        if pv = left then
          -- pivot_index = right_index; ++right_index
          partitionLoop eqv key pivot fuel idx' (left + 1) (right + 1) right
        else
          partitionLoop eqv key pivot fuel idx' (left + 1) right pv
      else do
        let xl ← idx[left]?
        if eqv (key xl) pivot then
          if left ≠ pv then do
            let idx' ← swap idx left pv
            partitionLoop eqv key pivot fuel idx' left right left
          else
            partitionLoop eqv key pivot fuel idx left right pv
        else do
          let idx' ← swap idx left pv
          partitionLoop eqv key pivot fuel idx' left right left

/-- `partition_around_pivot_index` (common/algorithms/Sorting.hpp:48-151). The empty range is
excluded by an assertion, and reads out of range. -/
def partition (eqv : K → K → Bool) (key : Nat → K) (idx : List Nat) (pv : Nat) :
    Option (List Nat × Nat) :=
  if idx.length = 1 then some (idx, pv)
  else do
    let x ← idx[pv]?
    partitionLoop eqv key (key x) (idx.length + 1) idx 0 idx.length pv

/-- Apply `f` to the sub-range `[a, b)` of `l` and write the permuted sub-range back. -/
def onRange {α β : Type*} (l : List α) (a b : Nat) (f : List α → Option (List α × β)) :
    Option (List α × β) := do
  let (sub, r) ← f ((l.take b).drop a)
  some (l.take a ++ sub ++ l.drop b, r)

/-- The loop of `quickselect` (common/algorithms/Sorting.hpp:164-194). Returns the permuted
indices and the two bounds of the returned iterator range. -/
def quickselectLoop (eqv : K → K → Bool) (key : Nat → K) (kth : Nat) :
    Nat → List Nat → Nat → Nat → Option (List Nat × Nat × Nat)
  | 0, _, _, _ => none
  | fuel + 1, idx, left, right => do
    if left = right then some (idx, left, right + 1)
    else do
      let pv ← medianIndexOfThree key ((idx.take (right + 1)).drop left)
      let (idx, p) ← onRange idx left (right + 1) (fun sub => partition eqv key sub pv)
      let pv := left + p
      if kth = pv then some (idx, pv, pv + 1)
      else if kth < pv then quickselectLoop eqv key kth fuel idx left (pv - 1)
      else quickselectLoop eqv key kth fuel idx (pv + 1) right

/-- `quickselect` (common/algorithms/Sorting.hpp:154-195). On an empty range `right_index`
wraps around in C++; that case is `none`. -/
def quickselect (eqv : K → K → Bool) (key : Nat → K) (idx : List Nat) (kth : Nat) :
    Option (List Nat × Nat × Nat) :=
  if idx.length = 0 then none
  else quickselectLoop eqv key kth (idx.length + 1) idx 0 (idx.length - 1)

/-- `quicksort` (common/algorithms/Sorting.hpp:198-255). The fuel bounds the recursion depth. -/
def quicksort (eqv : K → K → Bool) (key : Nat → K) :
    Nat → List Nat → Nat → Option (List Nat × Nat)
  | 0, _, _ => none
  | fuel + 1, idx, pv =>
    if idx.length < 2 then some (idx, pv)
    else do
      let (idx, p) ← partition eqv key idx pv
      let ml ← medianIndexOfThree key (idx.take p)
      let mr ← medianIndexOfThree key (idx.drop (p + 1))
      let (idx, _) ← onRange idx 0 p (fun sub => quicksort eqv key fuel sub ml)
      let (idx, _) ← onRange idx (p + 1) idx.length (fun sub => quicksort eqv key fuel sub mr)
      some (idx, p)

end Verif.Sorting
