import Mathlib.Order.Defs.LinearOrder

/-
Model of the neighbour buffers: search/buffer/StaticBuffer.hpp.
Distances live in a linear order `D`; `inf` is the value of `common::infinity<DistanceType>()`
(common/Utils.hpp:393): a top element for floating types, `0` for integral types.
`none` is an out-of-range access.
-/

namespace Verif.Buffer

variable {D : Type} [LT D] [DecidableLT D]

/-- `2^64`, the modulus of `std::size_t`. -/
abbrev sizeMod : Nat := 2 ^ 64

/-- Data members of `StaticBuffer` (search/buffer/StaticBuffer.hpp:186-197), without `bound_`. -/
structure Buf (D : Type) where
  indices : List Nat
  distances : List D
  closestIndex : Nat
  closestDistance : D
  furthestPos : Nat
  furthestDistance : D
  maxCapacity : Nat
deriving DecidableEq, Repr

/-- Constructor (search/buffer/StaticBuffer.hpp:43-51). The default capacity is
`common::infinity<std::size_t>()`, which is `0`. -/
def mk (inf : D) (maxCapacity : Nat) : Buf D :=
  { indices := [], distances := [], closestIndex := 0, closestDistance := inf,
    furthestPos := 0, furthestDistance := inf, maxCapacity := maxCapacity }

/-- `remaining_capacity` (search/buffer/StaticBuffer.hpp:93-95): an unsigned subtraction. -/
def Buf.remaining (b : Buf D) : Nat :=
  (b.maxCapacity + sizeMod - b.indices.length) % sizeMod

/-- The loop of `std::max_element`: the first position of the largest value. -/
def maxElementLoop : List D → Nat → Nat → D → Nat × D
  | [], _, bestPos, best => (bestPos, best)
  | x :: xs, pos, bestPos, best =>
    if best < x then maxElementLoop xs (pos + 1) pos x
    else maxElementLoop xs (pos + 1) bestPos best

/-- `get_max_index_value_pair` (common/math/statistics/Statistics.hpp:76-85): dereferencing the
result on an empty range is undefined. -/
def getMaxIndexValuePair : List D → Option (Nat × D)
  | [] => none
  | x :: xs => some (maxElementLoop xs 1 0 x)

/-- `v[pos] = value` with the range check made explicit. -/
def assign {α : Type} (v : List α) (pos : Nat) (value : α) : Option (List α) :=
  if pos < v.length then some (v.set pos value) else none

/-- `update_static_buffers` (search/buffer/StaticBuffer.hpp:143-182). -/
def Buf.update (b : Buf D) (index : Nat) (distance : D) : Option (Buf D) :=
  if b.indices.length = 0 then
    some { b with closestIndex := index, closestDistance := distance, furthestDistance := distance,
                  indices := b.indices ++ [index], distances := b.distances ++ [distance] }
  else if b.remaining ≠ 0 then
    let b := if distance < b.closestDistance then
        { b with closestIndex := index, closestDistance := distance } else b
    let b := if distance > b.furthestDistance then
        { b with furthestPos := b.indices.length, furthestDistance := distance } else b
    some { b with indices := b.indices ++ [index], distances := b.distances ++ [distance] }
  else if distance < b.furthestDistance then do
    let b := if distance < b.closestDistance then
        { b with closestIndex := index, closestDistance := distance } else b
    let indices ← assign b.indices b.furthestPos index
    let distances ← assign b.distances b.furthestPos distance
    let (pos, dist) ← getMaxIndexValuePair distances
    some { b with indices := indices, distances := distances,
                  furthestPos := pos, furthestDistance := dist }
  else
    some b

/-- A sequence of `update` calls. -/
def Buf.updates (b : Buf D) (cs : List (Nat × D)) : Option (Buf D) :=
  cs.foldlM (fun b c => b.update c.1 c.2) b

/-- `partial_search_impl` (search/buffer/Unsorted.hpp:42-61, WithMemory.hpp:101-120,
WithUnionFind.hpp:58-77): `cand i` is the distance of sample `i` when the buffer accepts it
(inside the bound, not visited, other component) and `none` otherwise. -/
def Buf.offer (cand : Nat → Option D) (b : Buf D) (i : Nat) : Option (Buf D) :=
  match cand i with
  | none => some b
  | some d => b.update i d

end Verif.Buffer
