import Verif.Model.Search
import Mathlib.Algebra.Order.Group.Unbundled.Int

/-
Model of the searches on integral data with the arithmetic of the C++ types: operands narrower than
`int` are promoted to `int`, signed overflow is undefined, unsigned arithmetic wraps, and conversions
to a narrower type are modular.  `int` has 32 bits.

Values are integers; a value of a type is an integer in its range.
-/

namespace Verif.MachineInt

open Verif.KDTree Verif.Buffer Verif.Search

/-- An integral type: number of bits and signedness. -/
structure IntType where
  bits : Nat
  signed : Bool
deriving DecidableEq

/-- Greatest value of a type (`std::numeric_limits<T>::max()`). -/
def IntType.max (t : IntType) : ℤ := if t.signed then 2 ^ (t.bits - 1) - 1 else 2 ^ t.bits - 1

/-- Least value of a type (`std::numeric_limits<T>::min()`). -/
def IntType.min (t : IntType) : ℤ := if t.signed then -2 ^ (t.bits - 1) else 0

/-- Integral promotion. -/
def IntType.promoted (t : IntType) : IntType := if t.bits < 32 then ⟨32, true⟩ else t

/-- Conversion to a type: the value modulo `2 ^ bits`. -/
def IntType.convert (t : IntType) (z : ℤ) : ℤ :=
  if t.signed then z.bmod (2 ^ t.bits) else z % 2 ^ t.bits

/-- Result of an arithmetic operation of a promoted type whose exact result is `z`: undefined
(`none`) when a signed result is out of range, reduced when unsigned. -/
def IntType.result (t : IntType) (z : ℤ) : Option ℤ :=
  if t.signed then (if t.min ≤ z ∧ z ≤ t.max then some z else none) else some (z % 2 ^ t.bits)

/-- The summand of `manhattan_distance` (Distances.hpp:116) or of `unsigned_manhattan_distance`
(Distances.hpp:157) on values of type `t`. -/
def summand (t : IntType) (a b : ℤ) : Option ℤ :=
  if t.signed then do
    let d ← t.promoted.result (a - b)
    t.promoted.result |d|
  else if a > b then t.promoted.result (a - b) else t.promoted.result (b - a)

/-- `std::transform_reduce` with an accumulator of the promoted type (Distances.hpp:104-116,
147-157), from left to right. -/
def sum (t : IntType) : List ℤ → List ℤ → ℤ → Option ℤ
  | [], _, acc => some acc
  | _ :: _, [], _ => none
  | a :: l, b :: r, acc => do
    let d ← summand t a b
    let acc ← t.promoted.result (acc + d)
    sum t l r acc

/-- `auto_distance` on integral data (Distances.hpp:262-302): the value has the promoted type. -/
def distance (t : IntType) (l r : List ℤ) : Option ℤ := sum t l r 0

/-- `common::abs(pivot_split_value - query_split_value)` (KDNodeView.hpp:235-238,
common/Utils.hpp:397-408). -/
def gap (t : IntType) (v w : ℤ) : Option ℤ := do
  let d ← t.promoted.result (v - w)
  if t.promoted.signed then t.promoted.result (if d < 0 then -d else d) else some d

/-- The features of sample `i` (Unsorted.hpp:52-54). -/
def features (nf : Nat) (x : Nat → ℤ) : List ℤ := (List.range nf).map x

/-- One sample of `partial_search` with an unbounded ball (Unsorted.hpp:49-60):
`compute_distance_to_centroid_if_within_bounds` returns `std::optional<ValueType>(distance)`
(UnboundedBall.hpp:84-92, 189-197), which converts the distance to the data type. -/
def offer (t : IntType) (nf : Nat) (x : Nat → Nat → ℤ) (q : Nat → ℤ) (b : Buf ℤ) (i : Nat) :
    Option (Buf ℤ) := do
  let d ← distance t (features nf (x i)) (features nf q)
  b.update i (t.convert d)

/-- One sample of `partial_search` with a ball (Ball.hpp:88-97, 207-216): the distance is compared
with the radius before it is converted. -/
def offerBall (t : IntType) (nf : Nat) (x : Nat → Nat → ℤ) (q : Nat → ℤ) (radius : ℤ) (b : Buf ℤ)
    (i : Nat) : Option (Buf ℤ) := do
  let d ← distance t (features nf (x i)) (features nf q)
  if d < radius then b.update i (t.convert d) else some b

/-- The operations of a k-nearest-neighbour search.  `ub` is what an overflowing difference to a
splitting plane evaluates to: anything. -/
def ops (t : IntType) (ub : ℤ → ℤ → ℤ) (nf : Nat) (x : Nat → Nat → ℤ) (q : Nat → ℤ) :
    BufferOps (Buf ℤ) where
  offer := offer t nf x q
  visit := visitSibling x q (fun v w => (gap t v w).getD (ub v w))

/-- The operations of a radius search. -/
def ballOps (t : IntType) (ub : ℤ → ℤ → ℤ) (nf : Nat) (x : Nat → Nat → ℤ) (q : Nat → ℤ)
    (radius : ℤ) : BufferOps (Buf ℤ) where
  offer := offerBall t nf x q radius
  visit := visitSibling x q (fun v w => (gap t v w).getD (ub v w))

end Verif.MachineInt
