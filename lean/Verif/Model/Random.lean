import Verif.Model.Sorting
import Mathlib.Algebra.Order.Field.Basic
import Mathlib.Algebra.BigOperators.Group.List.Basic

/-
Model of common/math/random/Sampling.hpp and common/math/random/VosesAliasMethod.hpp.

Outcomes of the random generator are explicit arguments.
-/

namespace Verif.Random

open Verif.Sorting (swap)

/-! ### selection without replacement -/

/-- Loop of `select_n_elements` (Sampling.hpp:18-21), from element `i` for `k` more elements;
`outcome i` is the value of `uniform_distribution{i, n_elements - 1}()`.  An access out of the vector
is `none`. -/
def selectLoop {α : Type} (outcome : Nat → Nat) : Nat → Nat → List α → Option (List α)
  | _, 0, l => some l
  | i, k + 1, l => do
    let l ← swap l i (outcome i)
    selectLoop outcome (i + 1) k l

/-- `select_n_elements` (Sampling.hpp:13-26). -/
def selectN {α : Type} (outcome : Nat → Nat) (l : List α) (n : Nat) : Option (List α) := do
  let l ← selectLoop outcome 0 n l
  some (l.take n)

/-- `make_n_elements_from_interval` (Sampling.hpp:28-43) for indices; the assertion of the debug
build (`interval_length >= n_choices`) is the case in which the result is defined. -/
def fromInterval (outcome : Nat → Nat) (n first last : Nat) : Option (List Nat) :=
  selectN outcome (List.range' first (last - first)) n

/-- `init_uniform` (Sampling.hpp:153-174), `select_n_random_samples` (62-84): the drawn rows. -/
def initUniform {K : Type} (outcome : Nat → Nat) (rows : List (List K)) (k : Nat) :
    Option (List (List K)) := do
  let idx ← fromInterval outcome k 0 rows.length
  idx.mapM (fun i => rows[i]?)

/-- The maximum of one feature in `init_spatial_uniform` (Sampling.hpp:128-137): the accumulator
starts at `std::numeric_limits<DataType>::min()`, the smallest positive value for floating types. -/
def spatialMax {K : Type} [LinearOrder K] (limitMin : K) (vals : List K) : K :=
  vals.foldl (fun m v => max v m) limitMin

/-- The minimum of one feature in `init_spatial_uniform` (Sampling.hpp:128-137). -/
def spatialMin {K : Type} [LinearOrder K] (limitMax : K) (vals : List K) : K :=
  vals.foldl (fun m v => min v m) limitMax

/-! ### alias method -/

variable {K : Type} [Field K] [LinearOrder K]

/-- The arrays of `VosesAliasMethod::init` (VosesAliasMethod.hpp:56-63).  The arrays `small` and
`large` with their counters are stacks, head first. -/
structure AliasState (K : Type) where
  fake : List K
  small : List Nat
  large : List Nat
  prob : List K
  aliases : List Nat
deriving Repr

/-- Classification loop (VosesAliasMethod.hpp:73-81): indices from `i - 1` down to 0 are pushed. -/
def classify (fake : List K) : Nat → List Nat → List Nat → Option (List Nat × List Nat)
  | 0, small, large => some (small, large)
  | i + 1, small, large => do
    let v ← fake[i]?
    if v < 1 then classify fake i (i :: small) large else classify fake i small (i :: large)

/-- Main loop (VosesAliasMethod.hpp:82-97), with fuel. -/
def pairUp : Nat → AliasState K → Option (AliasState K)
  | 0, _ => none
  | fuel + 1, st =>
    match st.small, st.large with
    | s :: small, l :: large => do
      let fs ← st.fake[s]?
      let fl ← st.fake[l]?
      let v := fl + (fs - 1)
      let st' : AliasState K :=
        { fake := st.fake.set l v
          small := if v < 1 then l :: small else small
          large := if v < 1 then large else l :: large
          prob := st.prob.set s fs
          aliases := st.aliases.set s l }
      pairUp fuel st'
    | _, _ => some st

/-- `VosesAliasMethod::init` (VosesAliasMethod.hpp:56-103) and the constructor (44-53): probabilities
and alias table; an empty weight vector throws. -/
def aliasInit (weights : List K) : Option (List K × List Nat) := do
  if weights.isEmpty then none
  let n := weights.length
  let norm : K := n / weights.sum
  let fake := weights.map (· * norm)
  let (small, large) ← classify fake n [] []
  let st ← pairUp (n + 1)
    { fake, small, large, prob := List.replicate n 0, aliases := List.replicate n 0 }
  some ((st.large ++ st.small).foldl (fun p i => p.set i 1) st.prob, st.aliases)

/-- `sample` (VosesAliasMethod.hpp:106-109): `r` is `static_cast<std::size_t>(n * u1)`, `u2` the
second uniform number. -/
def aliasSample (table : List K × List Nat) (r : Nat) (u : K) : Option Nat := do
  let p ← table.1[r]?
  if u < p then some r else table.2[r]?

end Verif.Random
