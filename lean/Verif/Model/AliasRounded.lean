import Verif.Model.Random
import Verif.Model.Rounding

/-
common/math/random/VosesAliasMethod.hpp with the rounding of `FloatType` made explicit: every
addition, subtraction, product and quotient goes through `rnd`.  With `rnd` the identity this is the
model of Model/Random.lean (`aliasInitR_id` in Lemmas/AliasRounded.lean).
-/

namespace Verif.Random

variable {K : Type} [Field K] [LinearOrder K]

/-- `std::accumulate(weights.begin(), weights.end(), static_cast<FloatType>(0))`
(VosesAliasMethod.hpp:66): from left to right. -/
def sumR (rnd : K → K) (weights : List K) : K :=
  weights.foldl (fun s x => rnd (s + x)) 0

/-- `norm_fact` (VosesAliasMethod.hpp:66): `n_weights_` is converted to `FloatType`. -/
def normR (rnd : K → K) (weights : List K) : K :=
  rnd (rnd (weights.length : K) / sumR rnd weights)

/-- `fake_probabilities` after the transform (VosesAliasMethod.hpp:68-71). -/
def fakeR (rnd : K → K) (weights : List K) : List K :=
  weights.map fun x => rnd (x * normR rnd weights)

/-- Main loop (VosesAliasMethod.hpp:82-97), with fuel. -/
def pairUpR (rnd : K → K) : Nat → AliasState K → Option (AliasState K)
  | 0, _ => none
  | fuel + 1, st =>
    match st.small, st.large with
    | s :: small, l :: large => do
      let fs ← st.fake[s]?
      let fl ← st.fake[l]?
      let v := rnd (fl + rnd (fs - 1))
      let st' : AliasState K :=
        { fake := st.fake.set l v
          small := if v < 1 then l :: small else small
          large := if v < 1 then large else l :: large
          prob := st.prob.set s fs
          aliases := st.aliases.set s l }
      pairUpR rnd fuel st'
    | _, _ => some st

/-- `VosesAliasMethod::init` (VosesAliasMethod.hpp:56-103) and the constructor (44-53). -/
def aliasInitR (rnd : K → K) (weights : List K) : Option (List K × List Nat) := do
  if weights.isEmpty then none
  let n := weights.length
  let fake := fakeR rnd weights
  let (small, large) ← classify fake n [] []
  let st ← pairUpR rnd (n + 1)
    { fake, small, large, prob := List.replicate n 0, aliases := List.replicate n 0 }
  some ((st.large ++ st.small).foldl (fun p i => p.set i 1) st.prob, st.aliases)

/-- Construction and `sample` (VosesAliasMethod.hpp:106-109) with the two numbers drawn by `rand_`;
the product `n_weights_ * rand_()` is rounded before the conversion to an integer. -/
noncomputable def sampleAtR (rnd : ℝ → ℝ) (w : List ℝ) (u : ℝ × ℝ) : Option Nat := do
  let t ← aliasInitR rnd w
  aliasSample t ⌊rnd (rnd (w.length : ℝ) * u.1)⌋₊ u.2

end Verif.Random
