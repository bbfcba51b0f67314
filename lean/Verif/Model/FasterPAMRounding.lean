import Verif.Model.KMedoids

/-
kmedoids/FasterPAM.hpp with rounded arithmetic: the functions of Model/KMedoids.lean where every sum and
difference of distances goes through a rounding function `fl`.  The distances themselves, `d`, are the
numbers that the code looks up or computes, whatever their error.  The positions and distances of the
buffers are only compared and copied, so `swapSample`, `nthIndices`, `nthDistances` and
`Stats.minPair` are those of the exact model.  Not modelled: overflow and NaN.
-/

namespace Verif.KMedoids

section Rounded

variable {K : Type} [LinearOrder K] [Ring K]

/-- `delta_td_mi[i] += v` (PAMUtils.hpp:671, FasterPAM.hpp:188, 192): the sum is rounded. -/
def addAtR (fl : K → K) (l : List K) (i : Nat) (v : K) : Option (List K) := do
  let x ← l[i]?
  some (l.set i (fl (x + v)))

/-- Loop of `compute_losses_with_closest_medoid_removal` (PAMUtils.hpp:667-673) over the samples: the
difference and the sum are rounded. -/
def removalLoopR (fl : K → K) : List (Rec K) → List K → Option (List K)
  | [], acc => some acc
  | r :: rs, acc => do
    let acc' ← addAtR fl acc r.i1 (fl (r.d2 - r.d1))
    removalLoopR fl rs acc'

/-- `compute_losses_with_closest_medoid_removal` (PAMUtils.hpp:656-675). -/
def removalR (fl : K → K) (k : Nat) (buf : List (Rec K)) : Option (List K) :=
  removalLoopR fl buf (List.replicate k 0)

/-- The constructors (FasterPAM.hpp:93-130): the loss is summed from left to right by
`std::accumulate` (FasterPAM.hpp:97-99, 117-119). -/
def pamInitR (fl : K → K) (vmax : K) (eq : K → K → Bool) (d : Nat → Nat → K) (n : Nat)
    (medoids : List Nat) : Option (PState K) := do
  let i1s ← nthIndices vmax eq d n medoids 1
  let i2s ← nthIndices vmax eq d n medoids 2
  let d1s ← nthDistances vmax eq d n medoids 1
  let d2s ← nthDistances vmax eq d n medoids 2
  let buf ← (List.range n).mapM fun o => do
    let i1 ← i1s[o]?
    let d1 ← d1s[o]?
    let i2 ← i2s[o]?
    let d2 ← d2s[o]?
    pure (Rec.mk i1 d1 i2 d2)
  let rem ← removalR fl medoids.length buf
  some ⟨medoids, buf, rem, d1s.foldl (fun s x => fl (s + x)) 0⟩

/-- Loop of `find_best_swap` (FasterPAM.hpp:173-194) over the samples `os`. -/
def swapGainLoopR (fl : K → K) (d : Nat → Nat → K) (buf : List (Rec K)) (c : Nat) :
    List Nat → List K → K → Option (List K × K)
  | [], mi, xc => some (mi, xc)
  | o :: os, mi, xc => do
    let r ← buf[o]?
    let doc := d c o
    if doc < r.d1 then
      let mi' ← addAtR fl mi r.i1 (fl (r.d1 - r.d2))
      swapGainLoopR fl d buf c os mi' (fl (xc + fl (doc - r.d1)))
    else if doc < r.d2 then
      let mi' ← addAtR fl mi r.i1 (fl (doc - r.d2))
      swapGainLoopR fl d buf c os mi' xc
    else swapGainLoopR fl d buf c os mi xc

/-- `find_best_swap` (FasterPAM.hpp:159-201). -/
def findBestSwapR (fl : K → K) (d : Nat → Nat → K) (n : Nat) (s : PState K) (c : Nat) :
    Option (K × Nat) := do
  let (mi, xc) ← swapGainLoopR fl d s.buf c (List.range n) s.removal 0
  let (i, v) ← Stats.minPair mi
  some (fl (xc + v), i)

/-- The sum of `loss += distance_1` in `swap_buffers` (FasterPAM.hpp:230, 305). -/
def lossLoopR (fl : K → K) (buf : List (Rec K)) (c : Nat) : List Nat → K → Option K
  | [], acc => some acc
  | o :: os, acc => do
    if o = c then lossLoopR fl buf c os acc
    else
      let r ← buf[o]?
      lossLoopR fl buf c os (fl (acc + r.d1))

/-- `swap_buffers` (FasterPAM.hpp:203-308), with the simplification of `swapBuffers`. -/
def swapBuffersR (fl : K → K) (d : Nat → Nat → K) (n : Nat) (medoids : List Nat)
    (buf : List (Rec K)) (c b : Nat) : Option (List (Rec K) × K) := do
  let buf' ← (List.range n).mapM fun o => do
    let r ← buf[o]?
    pure (swapSample (row d medoids o) (decide (o = c)) (d c o) b r)
  let loss ← lossLoopR fl buf' c (List.range n) 0
  some (buf', loss)

/-- One iteration of the loop of `step` (FasterPAM.hpp:142-155) for the candidate `c`. -/
def tryCandidateR (fl : K → K) (d : Nat → Nat → K) (n : Nat) (s : PState K) (c : Nat) :
    Option (PState K) := do
  let r ← s.buf[c]?
  if c = r.i1 then some s
  else
    let (delta, b) ← findBestSwapR fl d n s c
    if delta < 0 then
      let ms := s.medoids.set b c
      let (buf, loss) ← swapBuffersR fl d n ms s.buf c b
      let rem ← removalR fl ms.length buf
      some ⟨ms, buf, rem, loss⟩
    else some s

/-- Loop of `step` over the candidates. -/
def stepLoopR (fl : K → K) (d : Nat → Nat → K) (n : Nat) : List Nat → PState K → Option (PState K)
  | [], s => some s
  | c :: cs, s => do
    let s' ← tryCandidateR fl d n s c
    stepLoopR fl d n cs s'

/-- `FasterPAM::step` (FasterPAM.hpp:137-157). -/
def pamStepR (fl : K → K) (d : Nat → Nat → K) (n : Nat) (s : PState K) : Option (PState K) :=
  stepLoopR fl d n (List.range n) s

end Rounded

end Verif.KMedoids
