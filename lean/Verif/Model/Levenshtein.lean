/-
Model of levenshtein_distance, common/math/heuristics/Distances.hpp:195-237.

Two rows `previous`, `current` of length `|right| + 1`; every access is checked (`none` would be an
out-of-range access).  Costs are natural numbers: the C++ cost type is the integral type of
`Left + Right` (at least `int`); overflow of that type is not modelled.
-/

namespace Verif.Levenshtein

variable {α : Type} [DecidableEq α]

/-- Body of the inner loop (Distances.hpp:221-232) for one column `j`. -/
def innerStep (left right : List α) (i : Nat) (prev : List Nat) (cur : List Nat) (j : Nat) :
    Option (List Nat) := do
  let p1 ← prev[j + 1]?
  let c0 ← cur[j]?
  let a ← left[i]?
  let b ← right[j]?
  let p0 ← prev[j]?
  let deletion := p1 + 1
  let insertion := c0 + 1
  let substitution := if a = b then p0 else p0 + 1
  if j + 1 < cur.length then
    some (cur.set (j + 1) (min deletion (min insertion substitution)))
  else none

/-- Body of the outer loop (Distances.hpp:218-234): returns the swapped pair
`(previous_buffer, current_buffer)`. -/
def outerStep (left right : List α) (bufs : List Nat × List Nat) (i : Nat) :
    Option (List Nat × List Nat) := do
  let (prev, cur) := bufs
  if 0 < cur.length then do
    let cur := cur.set 0 (i + 1)
    let cur ← (List.range right.length).foldlM (innerStep left right i prev) cur
    some (cur, prev)
  else none

/-- `levenshtein_distance` (Distances.hpp:195-237). -/
def levenshtein (left right : List α) : Option Nat := do
  let (prev, _) ← (List.range left.length).foldlM (outerStep left right)
    (List.range (right.length + 1), List.replicate (right.length + 1) 0)
  prev[right.length]?

end Verif.Levenshtein
