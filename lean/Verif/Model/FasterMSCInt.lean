import Verif.Model.KMedoids
import Mathlib.Data.Rat.Floor

/-
Model of FasterMSC (kmedoids/FasterMSC.hpp) with at least three medoids on integral data: the ratios of
distances are integer divisions of a signed type.  The loops are those of Model/KMedoids.lean, with the division
as a parameter; integers are rationals here because these loops are stated over a field.  Simplification: no
overflow.
-/

namespace Verif.KMedoids

/-- `common::division` (common/Utils.hpp:430-440) on integral types: 0 for the denominator 0, otherwise the
quotient without its fraction.  For the distances and sums of distances it is applied to, which are not
negative, this is the floor. -/
def intDivision (a b : ℚ) : ℚ := if b = 0 then 0 else (⌊a / b⌋ : ℤ)

/-- `common::equality` on integral types (common/Utils.hpp:412-414). -/
def eqRat (a b : ℚ) : Bool := decide (a = b)

/-- The constructors with at least three medoids (FasterMSC.hpp:102-139, 508-612). -/
def mscInitInt (vmax : ℚ) (d : Nat → Nat → ℚ) (n : Nat) (medoids : List Nat) : Option (MState ℚ) := do
  let i1s ← nthIndices vmax eqRat d n medoids 1
  let d1s ← nthDistances vmax eqRat d n medoids 1
  let d2s ← nthDistances vmax eqRat d n medoids 2
  let i2s ← nthIndices vmax eqRat d n medoids 2
  let i3s ← nthIndices vmax eqRat d n medoids 3
  let d3s ← nthDistances vmax eqRat d n medoids 3
  let buf ← (List.range n).mapM fun o => do
    let i1 ← i1s[o]?
    let d1 ← d1s[o]?
    let i2 ← i2s[o]?
    let d2 ← d2s[o]?
    let i3 ← i3s[o]?
    let d3 ← d3s[o]?
    pure (Rec3.mk i1 d1 i2 d2 i3 d3)
  let rem ← removal3 intDivision medoids.length buf
  some ⟨medoids, buf, rem, d1s.sum⟩

/-- One iteration of the loop of `step` with at least three medoids (FasterMSC.hpp:151-176). -/
def tryCandidate3Int (d : Nat → Nat → ℚ) (n : Nat) (s : MState ℚ) (c : Nat) : Option (MState ℚ) := do
  let r ← s.buf[c]?
  if c = r.i1 then some s
  else
    let (delta, b) ← findBestSwap3 intDivision d n s c
    if 0 < delta then
      let ms := s.medoids.set b c
      let (buf, loss) ← swapBuffers3 intDivision d n ms s.buf c b
      let rem ← removal3 intDivision ms.length buf
      some ⟨ms, buf, rem, loss⟩
    else some s

/-- Loop of `step` over the candidates. -/
def stepLoop3Int (d : Nat → Nat → ℚ) (n : Nat) : List Nat → MState ℚ → Option (MState ℚ)
  | [], s => some s
  | c :: cs, s => do
    let s' ← tryCandidate3Int d n s c
    stepLoop3Int d n cs s'

/-- `FasterMSC::step` with at least three medoids (FasterMSC.hpp:147-178). -/
def mscStepInt (d : Nat → Nat → ℚ) (n : Nat) (s : MState ℚ) : Option (MState ℚ) :=
  stepLoop3Int d n (List.range n) s

end Verif.KMedoids
