import Verif.Model.Statistics
import Verif.Model.KMedoids
import Mathlib.Algebra.Order.Monoid.WithTop
import Mathlib.Order.WithBot

/-
Model of common/math/heuristics/SilhouetteMethod.hpp.

The value type `V` with its subtraction, division, conversion from a count and `common::infinity` are
parameters: `floatOps` is a floating type with its infinity (`WithTop` of an ordered field), `intOps`
a signed integral type (division truncates, `common::infinity` is 0; overflow is not modelled).
`d i j` is `auto_distance` between the samples `i` and `j`.  Labels are nonnegative integers.
-/

namespace Verif.Silhouette

/-- Counting loop of `get_cluster_sizes` (SilhouetteMethod.hpp:46-48).  The counters have the type of
the labels: `bits` is its width, `none` for a type that holds every count. -/
def countLoop (bits : Option Nat) : List Nat → List Nat → Option (List Nat)
  | [], h => some h
  | c :: cs, h => do
    let x ← h[c]?
    countLoop bits cs (h.set c (Stats.asValueType bits (x + 1)))

/-- `get_cluster_sizes` (SilhouetteMethod.hpp:33-50): one counter per label up to the greatest; an empty
range of labels dereferences its end. -/
def clusterSizes (bits : Option Nat) (labels : List Nat) : Option (List Nat) := do
  let (_, m) ← Stats.maxPair labels
  countLoop bits labels (List.replicate (1 + m) 0)

/-- The operations of the value type. -/
structure Ops (V : Type) where
  sub : V → V → V
  div : V → V → V
  ofNat : Nat → V
  inf : V

section

variable {V : Type} [LinearOrder V] [Add V] [Zero V] [One V] (ops : Ops V)

/-- Inner loop of `cohesion` (SilhouetteMethod.hpp:92-105). -/
def cohesionLoop (d : Nat → Nat → V) (labels : List Nat) (i c : Nat) : List Nat → V → Option V
  | [], acc => some acc
  | j :: js, acc => do
    let c' ← labels[j]?
    cohesionLoop d labels i c js (if c = c' ∧ i ≠ j then acc + d i j else acc)

/-- `cohesion` for the sample `i` (SilhouetteMethod.hpp:88-113). -/
def cohesion (d : Nat → Nat → V) (n : Nat) (labels sizes : List Nat) (i : Nat) : Option V := do
  let c ← labels[i]?
  let s ← cohesionLoop d labels i c (List.range n) 0
  let size ← sizes[c]?
  some (if 1 < size then ops.div s (ops.ofNat (size - 1)) else s)

/-- Inner loop of `separation` (SilhouetteMethod.hpp:162-174). -/
def separationLoop (d : Nat → Nat → V) (labels : List Nat) (i c : Nat) :
    List Nat → List V → Option (List V)
  | [], acc => some acc
  | j :: js, acc => do
    let c' ← labels[j]?
    if c ≠ c' then
      let acc' ← KMedoids.addAt acc c' (d i j)
      separationLoop d labels i c js acc'
    else separationLoop d labels i c js acc

/-- `separation` for the sample `i` (SilhouetteMethod.hpp:156-192): mean distances to the clusters,
infinity for the empty clusters and for the own cluster, and the least of these. -/
def separation (d : Nat → Nat → V) (n : Nat) (labels sizes : List Nat) (i : Nat) : Option V := do
  let c ← labels[i]?
  let sums ← separationLoop d labels i c (List.range n) (List.replicate sizes.length 0)
  let means := List.zipWith (fun s size => if size = 0 then ops.inf else ops.div s (ops.ofNat size))
    sums sizes
  if c < means.length then
    let (_, v) ← Stats.minPair (means.set c ops.inf)
    some v
  else none

/-- The score of a sample from its cohesion and separation (SilhouetteMethod.hpp:243-255). -/
def score (coh sep : V) : V :=
  if coh < sep then ops.sub 1 (ops.div coh sep)
  else if sep < coh then ops.sub (ops.div sep coh) 1
  else 0

/-- `silhouette` (SilhouetteMethod.hpp:214-258). -/
def silhouette (bits : Option Nat) (d : Nat → Nat → V) (n : Nat) (labels : List Nat) :
    Option (List V) := do
  let sizes ← clusterSizes bits labels
  let cohs ← (List.range n).mapM (cohesion ops d n labels sizes)
  let seps ← (List.range n).mapM (separation ops d n labels sizes)
  some (List.zipWith (score ops) cohs seps)

/-- `get_average_silhouette` (SilhouetteMethod.hpp:260-268). -/
def average (l : List V) : V := ops.div (l.foldl (· + ·) 0) (ops.ofNat l.length)

end

/-- A floating type without rounding: a quotient by infinity is 0. -/
def floatOps (K : Type) [Field K] : Ops (WithTop K) where
  sub a b := WithTop.map₂ (· - ·) a b
  div a b :=
    match a, b with
    | some x, some y => ((x / y : K) : WithTop K)
    | some _, none => ((0 : K) : WithTop K)
    | none, _ => ⊤
  ofNat n := ((n : K) : WithTop K)
  inf := ⊤

/-- A signed integral type. -/
def intOps : Ops ℤ where
  sub a b := a - b
  div a b := a.tdiv b
  ofNat n := n
  inf := 0

end Verif.Silhouette
