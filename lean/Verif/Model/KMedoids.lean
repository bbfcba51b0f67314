import Verif.Model.Sorting
import Verif.Model.Statistics
import Verif.Model.KMeans
import Mathlib.Algebra.Ring.Defs
import Mathlib.Algebra.Field.Defs

/-
Model of kmedoids/PAMUtils.hpp, kmedoids/FasterPAM.hpp, kmedoids/FasterMSC.hpp,
kmedoids/PAMBuild.hpp and the prediction functions of kmedoids/KMedoids.hpp.

`d m o` is the distance of the samples `m` and `o`, either looked up in the pairwise distance matrix
or computed by `auto_distance` (the two overloads of every function differ only in this).  `n` is the
number of samples, `medoids` the vector of sample indices.  `vmax` is
`std::numeric_limits<DataType>::max()`, `inf` is `common::infinity<DataType>()` and `eq` is
`common::equality`.  An access out of a vector and a thrown exception are `none`.  Arithmetic is exact.
-/

namespace Verif.KMedoids

/-- The distances of the medoids to sample `o`, in the order in which the loops over the medoids
compute them (PAMUtils.hpp:47-48 and the other loops over `medoids`).  Simplification: the code
computes an element when the loop reaches it, here the row is computed first. -/
def row {K : Type} (d : Nat → Nat → K) (medoids : List Nat) (o : Nat) : List K :=
  medoids.map fun m => d m o

/-! ### PAMUtils.hpp -/

section Utils

variable {K : Type} [LinearOrder K]

/-- Inner loop of `samples_to_nearest_medoid_indices` and `samples_to_nearest_medoid_distances`
(PAMUtils.hpp:47-54, 81-88, 377-383, 409-415): `j` is `idx`, the accumulator is `first_min_index` and
`first_min_distance`.  The function for the distances does not keep the index. -/
def firstLoop : Nat → List K → Nat × K → Nat × K
  | _, [], acc => acc
  | j, v :: vs, (i1, d1) =>
    if v < d1 then firstLoop (j + 1) vs (j, v) else firstLoop (j + 1) vs (i1, d1)

/-- What the loops over the medoids remember of a sample: the positions of the two nearest medoids in
the vector of medoids, and their distances.  Also an entry of the four vectors of
`FasterPAM::Buffers` (FasterPAM.hpp:60-81). -/
structure Rec (K : Type) where
  i1 : Nat
  d1 : K
  i2 : Nat
  d2 : K
deriving DecidableEq, Repr

/-- Inner loop of `samples_to_second_nearest_medoid_indices` and
`samples_to_second_nearest_medoid_distances` (PAMUtils.hpp:121-135, 165-179, 447-458, 487-498).  The
function for the distances does not keep the indices. -/
def secondLoop (eq : K → K → Bool) : Nat → List K → Rec K → Rec K
  | _, [], acc => acc
  | j, v :: vs, ⟨i1, d1, i2, d2⟩ =>
    if v < d1 then secondLoop eq (j + 1) vs ⟨j, v, i1, d1⟩
    else if v < d2 && !eq v d1 then secondLoop eq (j + 1) vs ⟨i1, d1, j, v⟩
    else secondLoop eq (j + 1) vs ⟨i1, d1, i2, d2⟩

/-- Like `Rec` with the third nearest medoid; an entry of the six vectors of `FasterMSC::Buffers`
(FasterMSC.hpp:64-86). -/
structure Rec3 (K : Type) where
  i1 : Nat
  d1 : K
  i2 : Nat
  d2 : K
  i3 : Nat
  d3 : K
deriving DecidableEq, Repr

/-- Inner loop of `samples_to_third_nearest_medoid_indices` and
`samples_to_third_nearest_medoid_distances` (PAMUtils.hpp:214-239, 270-294, 530-551, 582-597). -/
def thirdLoop (eq : K → K → Bool) : Nat → List K → Rec3 K → Rec3 K
  | _, [], acc => acc
  | j, v :: vs, ⟨i1, d1, i2, d2, i3, d3⟩ =>
    if v < d1 then thirdLoop eq (j + 1) vs ⟨j, v, i1, d1, i2, d2⟩
    else if v < d2 && !eq v d1 then thirdLoop eq (j + 1) vs ⟨i1, d1, j, v, i2, d2⟩
    else if v < d3 && !eq v d1 && !eq v d2 then thirdLoop eq (j + 1) vs ⟨i1, d1, i2, d2, j, v⟩
    else thirdLoop eq (j + 1) vs ⟨i1, d1, i2, d2, i3, d3⟩

/-- Start of the loops (PAMUtils.hpp:44-45, 116-119, 207-212). -/
def first (vmax : K) (l : List K) : Nat × K := firstLoop 0 l (0, vmax)

@[inherit_doc first]
def second (vmax : K) (eq : K → K → Bool) (l : List K) : Rec K :=
  secondLoop eq 0 l ⟨0, vmax, 0, vmax⟩

@[inherit_doc first]
def third (vmax : K) (eq : K → K → Bool) (l : List K) : Rec3 K :=
  thirdLoop eq 0 l ⟨0, vmax, 0, vmax, 0, vmax⟩

/-- `samples_to_nearest_medoid_indices` (PAMUtils.hpp:21-91), which is also `KMedoids::predict`
(KMedoids.hpp:353-369): an empty vector of medoids is rejected. -/
def nearestIndices (vmax : K) (d : Nat → Nat → K) (n : Nat) (medoids : List Nat) :
    Option (List Nat) :=
  if medoids = [] then none
  else some ((List.range n).map fun o => (first vmax (row d medoids o)).1)

/-- `samples_to_nearest_medoid_distances` (PAMUtils.hpp:353-420), which is also `KMedoids::forward`
(KMedoids.hpp:336-350). -/
def nearestDistances (vmax : K) (d : Nat → Nat → K) (n : Nat) (medoids : List Nat) :
    Option (List K) :=
  if medoids = [] then none
  else some ((List.range n).map fun o => (first vmax (row d medoids o)).2)

/-- `samples_to_nth_nearest_medoid_indices` (PAMUtils.hpp:299-350). -/
def nthIndices (vmax : K) (eq : K → K → Bool) (d : Nat → Nat → K) (n : Nat) (medoids : List Nat)
    (nth : Nat) : Option (List Nat) :=
  if nth = 0 ∨ medoids.length < nth then none
  else if medoids = [] then none
  else if nth = 1 then nearestIndices vmax d n medoids
  else if nth = 2 then some ((List.range n).map fun o => (second vmax eq (row d medoids o)).i2)
  else if nth = 3 then some ((List.range n).map fun o => (third vmax eq (row d medoids o)).i3)
  else none

/-- `samples_to_nth_nearest_medoid_distances` (PAMUtils.hpp:602-654). -/
def nthDistances (vmax : K) (eq : K → K → Bool) (d : Nat → Nat → K) (n : Nat) (medoids : List Nat)
    (nth : Nat) : Option (List K) :=
  if nth = 0 ∨ medoids.length < nth then none
  else if medoids = [] then none
  else if nth = 1 then nearestDistances vmax d n medoids
  else if nth = 2 then some ((List.range n).map fun o => (second vmax eq (row d medoids o)).d2)
  else if nth = 3 then some ((List.range n).map fun o => (third vmax eq (row d medoids o)).d3)
  else none

/-- `delta_td_mi[i] += v` (PAMUtils.hpp:671, 702). -/
def addAt [Add K] (l : List K) (i : Nat) (v : K) : Option (List K) := do
  let x ← l[i]?
  some (l.set i (x + v))

end Utils

section PAM

variable {K : Type} [LinearOrder K] [Ring K]

/-- Loop of `compute_losses_with_closest_medoid_removal` (PAMUtils.hpp:667-673) over the samples. -/
def removalLoop : List (Rec K) → List K → Option (List K)
  | [], acc => some acc
  | r :: rs, acc => do
    let acc' ← addAt acc r.i1 (r.d2 - r.d1)
    removalLoop rs acc'

/-- `compute_losses_with_closest_medoid_removal` (PAMUtils.hpp:656-675). -/
def removal (k : Nat) (buf : List (Rec K)) : Option (List K) := removalLoop buf (List.replicate k 0)

/-! ### FasterPAM.hpp -/

/-- The members of `FasterPAM` (FasterPAM.hpp:60-91); `buf` holds the four vectors of nearest and
second nearest medoids of `Buffers`, sample by sample, `removal` is
`losses_with_closest_medoid_removal_`. -/
structure PState (K : Type) where
  medoids : List Nat
  buf : List (Rec K)
  removal : List K
  loss : K

/-- `Buffers` (FasterPAM.hpp:310-379) and the constructors (FasterPAM.hpp:93-130): the loss is the sum
of the distances to the nearest medoids. -/
def pamInit (vmax : K) (eq : K → K → Bool) (d : Nat → Nat → K) (n : Nat) (medoids : List Nat) :
    Option (PState K) := do
  let i1s ← nthIndices vmax eq d n medoids 1
  let i2s ← nthIndices vmax eq d n medoids 2
  let d1s ← nthDistances vmax eq d n medoids 1
  let d2s ← nthDistances vmax eq d n medoids 2
  let buf ← (List.range n).mapM fun o => do
    let i1 ← i1s[o]?
    let d1 ← d1s[o]?
    let i2 ← i2s[o]?
    let d2 ← d2s[o]?
    pure (Rec.mk i1 d1 i2 d2)
  let rem ← removal medoids.length buf
  some ⟨medoids, buf, rem, d1s.sum⟩

/-- Loop of `find_best_swap` (FasterPAM.hpp:173-194) over the samples `os`: `mi` is `delta_td_mi`, `xc`
is `delta_td_xc`. -/
def swapGainLoop (d : Nat → Nat → K) (buf : List (Rec K)) (c : Nat) :
    List Nat → List K → K → Option (List K × K)
  | [], mi, xc => some (mi, xc)
  | o :: os, mi, xc => do
    let r ← buf[o]?
    let doc := d c o
    if doc < r.d1 then
      let mi' ← addAt mi r.i1 (r.d1 - r.d2)
      swapGainLoop d buf c os mi' (xc + (doc - r.d1))
    else if doc < r.d2 then
      let mi' ← addAt mi r.i1 (doc - r.d2)
      swapGainLoop d buf c os mi' xc
    else swapGainLoop d buf c os mi xc

/-- `find_best_swap` (FasterPAM.hpp:159-201): the change of the total deviation and the position of the
medoid to replace. -/
def findBestSwap (d : Nat → Nat → K) (n : Nat) (s : PState K) (c : Nat) : Option (K × Nat) := do
  let (mi, xc) ← swapGainLoop d s.buf c (List.range n) s.removal 0
  let (i, v) ← Stats.minPair mi
  some (xc + v, i)

/-- Loop "update second nearest medoid" (FasterPAM.hpp:247-261, 287-301): smallest distance among the
positions other than `i1` and `b`, from `index_tmp` and `distance_tmp`. -/
def refillLoop (i1 b : Nat) : Nat → List K → Nat × K → Nat × K
  | _, [], acc => acc
  | j, v :: vs, (it, dt) =>
    if j ≠ i1 ∧ j ≠ b then
      if v < dt then refillLoop i1 b (j + 1) vs (j, v) else refillLoop i1 b (j + 1) vs (it, dt)
    else refillLoop i1 b (j + 1) vs (it, dt)

/-- Body of the loop of `swap_buffers` for one sample (FasterPAM.hpp:213-304): `l` are the distances of
the medoids after the exchange, `own` says that the sample is the candidate itself, `doc` is the
distance of the candidate and `b` is `best_swap_index`. -/
def swapSample (l : List K) (own : Bool) (doc : K) (b : Nat) (r : Rec K) : Rec K :=
  if own then
    if r.i1 ≠ b then ⟨b, 0, r.i1, r.d1⟩ else ⟨b, 0, r.i2, r.d2⟩
  else if r.i1 = b then
    if doc < r.d2 then ⟨b, doc, r.i2, r.d2⟩
    else
      let t := refillLoop r.i2 b 0 l (b, doc)
      ⟨r.i2, r.d2, t.1, t.2⟩
  else if doc < r.d1 then ⟨b, doc, r.i1, r.d1⟩
  else if doc < r.d2 then ⟨r.i1, r.d1, b, doc⟩
  else if r.i2 = b then
    let t := refillLoop r.i1 b 0 l (b, doc)
    ⟨r.i1, r.d1, t.1, t.2⟩
  else r

/-- The sum of `loss += distance_1` in `swap_buffers`: the candidate itself is left out by `continue`
(FasterPAM.hpp:230, 305). -/
def lossLoop (buf : List (Rec K)) (c : Nat) : List Nat → K → Option K
  | [], acc => some acc
  | o :: os, acc => do
    if o = c then lossLoop buf c os acc
    else
      let r ← buf[o]?
      lossLoop buf c os (acc + r.d1)

/-- `swap_buffers` (FasterPAM.hpp:203-308); `medoids` is the vector after the exchange.
Simplification: an iteration reads and writes only the entries of its own sample, so the buffers are
updated first and the loss is summed afterwards. -/
def swapBuffers (d : Nat → Nat → K) (n : Nat) (medoids : List Nat) (buf : List (Rec K)) (c b : Nat) :
    Option (List (Rec K) × K) := do
  let buf' ← (List.range n).mapM fun o => do
    let r ← buf[o]?
    pure (swapSample (row d medoids o) (decide (o = c)) (d c o) b r)
  let loss ← lossLoop buf' c (List.range n) 0
  some (buf', loss)

/-- One iteration of the loop of `step` (FasterPAM.hpp:142-155) for the candidate `c`.  The guard
compares the sample index `c` with the position of the nearest medoid of `c`, like the code. -/
def tryCandidate (d : Nat → Nat → K) (n : Nat) (s : PState K) (c : Nat) : Option (PState K) := do
  let r ← s.buf[c]?
  if c = r.i1 then some s
  else
    let (delta, b) ← findBestSwap d n s c
    if delta < 0 then
      let ms := s.medoids.set b c
      let (buf, loss) ← swapBuffers d n ms s.buf c b
      let rem ← removal ms.length buf
      some ⟨ms, buf, rem, loss⟩
    else some s

/-- Loop of `step` over the candidates. -/
def stepLoop (d : Nat → Nat → K) (n : Nat) : List Nat → PState K → Option (PState K)
  | [], s => some s
  | c :: cs, s => do
    let s' ← tryCandidate d n s c
    stepLoop d n cs s'

/-- `FasterPAM::step` (FasterPAM.hpp:137-157). -/
def pamStep (d : Nat → Nat → K) (n : Nat) (s : PState K) : Option (PState K) :=
  stepLoop d n (List.range n) s

/-! ### PAMBuild.hpp -/

/-- Loop of `first_medoid_td_index_pair` (PAMUtils.hpp:722-741, 755-770): the accumulator is
`total_deviation` and `selected_medoid`. -/
def firstMedoidLoop (d : Nat → Nat → K) (n : Nat) : List Nat → K × Nat → K × Nat
  | [], acc => acc
  | c :: cs, (td, m) =>
    let l := ((List.range n).map fun o => d c o).sum
    firstMedoidLoop d n cs (if l < td then (l, c) else (td, m))

/-- `first_medoid_td_index_pair` (PAMUtils.hpp:710-772). -/
def firstMedoid (inf : K) (d : Nat → Nat → K) (n : Nat) : K × Nat :=
  firstMedoidLoop d n (List.range n) (inf, 0)

/-- The accumulation of `loss_accumulator` in `build` for the candidate `c` (PAMBuild.hpp:50-67);
`near` is `sample_to_nearest_medoid_distances`. -/
def buildGain (d : Nat → Nat → K) (ms : List Nat) (near : List K) (c : Nat) :
    List Nat → K → Option K
  | [], acc => some acc
  | o :: os, acc => do
    if c ≠ o ∧ o ∉ ms then
      let x ← near[o]?
      buildGain d ms near c os (if d c o < x then acc - (d c o - x) else acc)
    else buildGain d ms near c os acc

/-- Loop over the candidates of one round of `build` (PAMBuild.hpp:47-73): the accumulator is
`selected_deviation_candidate` and `selected_medoid_index`. -/
def buildRound (d : Nat → Nat → K) (n : Nat) (ms : List Nat) (near : List K) :
    List Nat → K × Nat → Option (K × Nat)
  | [], acc => some acc
  | c :: cs, (v, m) => do
    if c ∉ ms then
      let l ← buildGain d ms near c (List.range n) 0
      buildRound d n ms near cs (if l < v then (l, c) else (v, m))
    else buildRound d n ms near cs (v, m)

/-- Loop of `build` (PAMBuild.hpp:42-80), `r` rounds to go. -/
def buildLoop (inf vmax : K) (d : Nat → Nat → K) (n : Nat) :
    Nat → K → List Nat → List K → Option (K × List Nat × List K)
  | 0, td, ms, near => some (td, ms, near)
  | r + 1, td, ms, near => do
    let (v, m) ← buildRound d n ms near (List.range n) (inf, 0)
    let ms' := ms ++ [m]
    let near' ← nearestDistances vmax d n ms'
    buildLoop inf vmax d n r (td + v) ms' near'

/-- `build` (PAMBuild.hpp:12-82).  The overload for a pairwise distance matrix (84-95) applies
`std::get` to the matrix, so it cannot be instantiated, and is not modelled. -/
def build (inf vmax : K) (d : Nat → Nat → K) (n k : Nat) : Option (K × List Nat × List K) := do
  let (td, m) := firstMedoid inf d n
  let near ← nearestDistances vmax d n [m]
  buildLoop inf vmax d n (k - 1) td [m] near

end PAM

/-! ### FasterMSC.hpp -/

section MSC

variable {K : Type} [LinearOrder K] [Field K]

/-- `common::division` (common/Utils.hpp:430-440) with the default 0 for a denominator equal to 0. -/
def division (eq : K → K → Bool) (a b : K) : K := if eq b 0 then 0 else a / b

/-- Loop of `compute_losses_with_silhouette_medoid_removal` (PAMUtils.hpp:690-706). -/
def removalLoop3 (dv : K → K → K) : List (Rec3 K) → List K → Option (List K)
  | [], acc => some acc
  | r :: rs, acc => do
    let acc' ← addAt acc r.i1 (dv r.d1 r.d2 - dv r.d2 r.d3)
    let acc'' ← addAt acc' r.i2 (dv r.d1 r.d2 - dv r.d1 r.d3)
    removalLoop3 dv rs acc''

/-- `compute_losses_with_silhouette_medoid_removal` (PAMUtils.hpp:677-708). -/
def removal3 (dv : K → K → K) (k : Nat) (buf : List (Rec3 K)) : Option (List K) :=
  removalLoop3 dv buf (List.replicate k 0)

/-- The members of `FasterMSC` (FasterMSC.hpp:64-100).  With two medoids the vectors of the second and
third positions, of the third distances and of the removal losses are empty in the code; here the
corresponding fields of `buf` hold 0 and are not read by the functions for two medoids. -/
structure MState (K : Type) where
  medoids : List Nat
  buf : List (Rec3 K)
  removal : List K
  loss : K

/-- `Buffers` (FasterMSC.hpp:508-612) and the constructors (FasterMSC.hpp:102-139): the initial loss is
the sum of the distances to the nearest medoids. -/
def mscInit (vmax : K) (eq : K → K → Bool) (d : Nat → Nat → K) (n : Nat) (medoids : List Nat) :
    Option (MState K) := do
  let i1s ← nthIndices vmax eq d n medoids 1
  let d1s ← nthDistances vmax eq d n medoids 1
  let d2s ← nthDistances vmax eq d n medoids 2
  if 2 < medoids.length then
    let i2s ← nthIndices vmax eq d n medoids 2
    let i3s ← nthIndices vmax eq d n medoids 3
    let d3s ← nthDistances vmax eq d n medoids 3
    let buf ← (List.range n).mapM fun o => do
      let i1 ← i1s[o]?
      let d1 ← d1s[o]?
      let i2 ← i2s[o]?
      let d2 ← d2s[o]?
      let i3 ← i3s[o]?
      let d3 ← d3s[o]?
      pure (Rec3.mk i1 d1 i2 d2 i3 d3)
    let rem ← removal3 (division eq) medoids.length buf
    some ⟨medoids, buf, rem, d1s.sum⟩
  else
    let buf ← (List.range n).mapM fun o => do
      let i1 ← i1s[o]?
      let d1 ← d1s[o]?
      let d2 ← d2s[o]?
      pure (Rec3.mk i1 d1 0 d2 0 0)
    some ⟨medoids, buf, [], d1s.sum⟩

/-- Loop of `find_best_swap` (FasterMSC.hpp:196-238). -/
def swapGainLoop3 (dv : K → K → K) (d : Nat → Nat → K) (buf : List (Rec3 K)) (c : Nat) :
    List Nat → List K → K → Option (List K × K)
  | [], mi, xc => some (mi, xc)
  | o :: os, mi, xc => do
    let r ← buf[o]?
    let doc := d c o
    if doc < r.d1 then
      let mi' ← addAt mi r.i1 (dv doc r.d1 + dv r.d2 r.d3 - dv (r.d1 + doc) r.d2)
      let mi'' ← addAt mi' r.i2 (dv r.d1 r.d3 - dv r.d1 r.d2)
      swapGainLoop3 dv d buf c os mi'' (xc + (dv r.d1 r.d2 - dv doc r.d1))
    else if doc < r.d2 then
      let mi' ← addAt mi r.i1 (dv r.d1 doc + dv r.d2 r.d3 - dv (r.d1 + doc) r.d2)
      let mi'' ← addAt mi' r.i2 (dv r.d1 r.d3 - dv r.d1 r.d2)
      swapGainLoop3 dv d buf c os mi'' (xc + (dv r.d1 r.d2 - dv r.d1 doc))
    else if doc < r.d3 then
      let mi' ← addAt mi r.i1 (dv r.d2 r.d3 - dv r.d2 doc)
      let mi'' ← addAt mi' r.i2 (dv r.d1 r.d3 - dv r.d1 doc)
      swapGainLoop3 dv d buf c os mi'' xc
    else swapGainLoop3 dv d buf c os mi xc

/-- `find_best_swap` (FasterMSC.hpp:180-245). -/
def findBestSwap3 (dv : K → K → K) (d : Nat → Nat → K) (n : Nat) (s : MState K) (c : Nat) :
    Option (K × Nat) := do
  let (mi, xc) ← swapGainLoop3 dv d s.buf c (List.range n) s.removal 0
  let (i, v) ← Stats.maxPair mi
  some (xc + v, i)

/-- Loop of `find_best_swap_k2` (FasterMSC.hpp:260-277): the accumulator is `delta_td_mi`. -/
def swapGainLoop2 (dv : K → K → K) (d : Nat → Nat → K) (buf : List (Rec3 K)) (c : Nat) :
    List Nat → K × K → Option (K × K)
  | [], acc => some acc
  | o :: os, (a0, a1) => do
    let r ← buf[o]?
    let doc := d c o
    swapGainLoop2 dv d buf c os
      (a0 + (if doc < r.d2 then dv doc r.d2 else dv r.d2 doc),
       a1 + (if doc < r.d1 then dv doc r.d1 else dv r.d1 doc))

/-- `find_best_swap_k2` (FasterMSC.hpp:247-284); `delta_td_xc` stays 0. -/
def findBestSwap2 (dv : K → K → K) (d : Nat → Nat → K) (n : Nat) (s : MState K) (c : Nat) :
    Option (K × Nat) := do
  let (a0, a1) ← swapGainLoop2 dv d s.buf c (List.range n) (0, 0)
  let (i, v) ← Stats.minPair [a0, a1]
  some (0 + v, i)

/-- Loop "update third nearest medoid" (FasterMSC.hpp:350-366, 388-404, 428-444). -/
def refillLoop3 (i1 i2 b : Nat) : Nat → List K → Nat × K → Nat × K
  | _, [], acc => acc
  | j, v :: vs, (it, dt) =>
    if j ≠ i1 ∧ j ≠ b ∧ j ≠ i2 then
      if v < dt then refillLoop3 i1 i2 b (j + 1) vs (j, v)
      else refillLoop3 i1 i2 b (j + 1) vs (it, dt)
    else refillLoop3 i1 i2 b (j + 1) vs (it, dt)

/-- Body of the loop of `swap_buffers` (FasterMSC.hpp:300-447) for one sample.
`common::infinity<std::size_t>()` is 0, so `index_3 == infinity` is `r.i3 = 0`. -/
def swapSample3 (l : List K) (own : Bool) (doc : K) (b : Nat) (r : Rec3 K) : Rec3 K :=
  if own then
    if r.i1 ≠ b then
      if r.i2 ≠ b then ⟨b, 0, r.i1, r.d1, r.i2, r.d2⟩ else ⟨b, 0, r.i1, r.d1, r.i3, r.d3⟩
    else ⟨b, 0, r.i2, r.d2, r.i3, r.d3⟩
  else if r.i1 = b then
    if doc < r.d2 then ⟨b, doc, r.i2, r.d2, r.i3, r.d3⟩
    else if doc < r.d3 ∨ r.i3 = 0 then ⟨r.i2, r.d2, b, doc, r.i3, r.d3⟩
    else
      let t := refillLoop3 r.i2 r.i3 b 0 l (b, doc)
      ⟨r.i2, r.d2, r.i3, r.d3, t.1, t.2⟩
  else if r.i2 = b then
    if doc < r.d1 then ⟨b, doc, r.i1, r.d1, r.i3, r.d3⟩
    else if doc < r.d3 ∨ r.i3 = 0 then ⟨r.i1, r.d1, b, doc, r.i3, r.d3⟩
    else
      let t := refillLoop3 r.i1 r.i3 b 0 l (b, doc)
      ⟨r.i1, r.d1, r.i3, r.d3, t.1, t.2⟩
  else if doc < r.d1 then ⟨b, doc, r.i1, r.d1, r.i2, r.d2⟩
  else if doc < r.d2 then ⟨r.i1, r.d1, b, doc, r.i2, r.d2⟩
  else if doc < r.d3 ∨ r.i3 = 0 then ⟨r.i1, r.d1, r.i2, r.d2, b, doc⟩
  else if r.i3 = b then
    let t := refillLoop3 r.i1 r.i2 b 0 l (b, doc)
    ⟨r.i1, r.d1, r.i2, r.d2, t.1, t.2⟩
  else r

/-- The sum of `loss += division(distance_1, distance_2)` in `swap_buffers` (FasterMSC.hpp:337, 449). -/
def lossLoop3 (dv : K → K → K) (buf : List (Rec3 K)) (c : Nat) : List Nat → K → Option K
  | [], acc => some acc
  | o :: os, acc => do
    if o = c then lossLoop3 dv buf c os acc
    else
      let r ← buf[o]?
      lossLoop3 dv buf c os (acc + dv r.d1 r.d2)

/-- `swap_buffers` (FasterMSC.hpp:286-452); same simplification as `swapBuffers`. -/
def swapBuffers3 (dv : K → K → K) (d : Nat → Nat → K) (n : Nat) (medoids : List Nat)
    (buf : List (Rec3 K)) (c b : Nat) : Option (List (Rec3 K) × K) := do
  let buf' ← (List.range n).mapM fun o => do
    let r ← buf[o]?
    pure (swapSample3 (row d medoids o) (decide (o = c)) (d c o) b r)
  let loss ← lossLoop3 dv buf' c (List.range n) 0
  some (buf', loss)

/-- Body of the loop of `swap_buffers_k2` (FasterMSC.hpp:468-502): the new entry and the term of the
loss. -/
def swapSample2 (eq : K → K → Bool) (dv : K → K → K) (own : Bool) (doc : K) (b : Nat) (r : Rec3 K) :
    Rec3 K × K :=
  if own then ({ r with i1 := b, d1 := 0, d2 := 0 }, 0)
  else if b = 0 then
    if doc < r.d2 ∨ (eq doc r.d2 = true ∧ r.i1 = 0) then ({ r with i1 := 0, d1 := doc }, dv doc r.d2)
    else ({ r with i1 := 1, d1 := doc }, dv r.d2 doc)
  else
    if doc < r.d1 ∨ (eq doc r.d1 = true ∧ r.i1 = 1) then ({ r with i1 := 1, d2 := doc }, dv doc r.d1)
    else ({ r with i1 := 0, d2 := doc }, dv r.d1 doc)

/-- `swap_buffers_k2` (FasterMSC.hpp:454-506). -/
def swapBuffers2 (eq : K → K → Bool) (dv : K → K → K) (d : Nat → Nat → K) (n : Nat)
    (buf : List (Rec3 K)) (c b : Nat) : Option (List (Rec3 K) × K) := do
  let ps ← (List.range n).mapM fun o => do
    let r ← buf[o]?
    pure (swapSample2 eq dv (decide (o = c)) (d c o) b r)
  some (ps.map (·.1), (ps.map (·.2)).sum)

/-- One iteration of the loop of `step` (FasterMSC.hpp:151-176) for the candidate `c`. -/
def tryCandidate3 (eq : K → K → Bool) (d : Nat → Nat → K) (n : Nat) (s : MState K) (c : Nat) :
    Option (MState K) := do
  let r ← s.buf[c]?
  if c = r.i1 then some s
  else if s.medoids.length = 2 then
    let (l, b) ← findBestSwap2 (division eq) d n s c
    if l < s.loss then
      let (buf, loss) ← swapBuffers2 eq (division eq) d n s.buf c b
      some { s with medoids := s.medoids.set b c, buf := buf, loss := loss }
    else some s
  else
    let (delta, b) ← findBestSwap3 (division eq) d n s c
    if 0 < delta then
      let ms := s.medoids.set b c
      let (buf, loss) ← swapBuffers3 (division eq) d n ms s.buf c b
      let rem ← removal3 (division eq) ms.length buf
      some ⟨ms, buf, rem, loss⟩
    else some s

/-- Loop of `step` over the candidates. -/
def stepLoop3 (eq : K → K → Bool) (d : Nat → Nat → K) (n : Nat) :
    List Nat → MState K → Option (MState K)
  | [], s => some s
  | c :: cs, s => do
    let s' ← tryCandidate3 eq d n s c
    stepLoop3 eq d n cs s'

/-- `FasterMSC::step` (FasterMSC.hpp:147-178). -/
def mscStep (eq : K → K → Bool) (d : Nat → Nat → K) (n : Nat) (s : MState K) : Option (MState K) :=
  stepLoop3 eq d n (List.range n) s

end MSC

end Verif.KMedoids
