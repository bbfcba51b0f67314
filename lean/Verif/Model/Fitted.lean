import Verif.Model.KMedoidsFit

/-
Model of the objects of kmeans/KMeans.hpp and kmedoids/KMedoids.hpp over sequences of calls: what is
stored between the calls, and which calls read or replace it.

Rows of samples are elements of `V`.  An access out of the samples, an access out of a vector and a
thrown exception are `none`.  Arithmetic is exact.
-/

namespace Verif.Fitted

/-! ### KMeans -/

/-- The template parameter `KMeansAlgorithm` of `KMeans::fit` (KMeans.hpp:153-154): constructor from the
samples and the centroids (189-190), `step` (200), the centroids that `step` returns and
`total_deviation` (222). -/
structure Algorithm (V K : Type) where
  S : Type
  init : List V → List V → Option S
  step : List V → S → Option S
  cent : S → List V
  loss : S → K

/-- The members of `KMeans` (KMeans.hpp:116-124); `tolerance_` is kept beside the other options. -/
structure KMeansObject (V K : Type) where
  n : Nat
  centroids : List V
  options : KMeans.Options
  tolerance : K

/-- A call of a member function of `KMeans`: `set_options` (KMeans.hpp:147-151), `fit` (153-230; `drawn n i` is
the result of call number `i` of `centroids_initializer` for `n` centroids), `predict` (276-283) and `forward`
(267-274). -/
inductive KMeansCall (V K : Type) where
  | setOptions (o : KMeans.Options) (tolerance : K)
  | fit (xs : List V) (drawn : Nat → Nat → List V)
  | predict (xs : List V)
  | forward (xs : List V)

/-- What a call returns. -/
inductive Answer (C K : Type) where
  | done
  | fitted (c : C)
  | labels (l : List Nat)
  | distances (l : List K)
deriving DecidableEq, Repr

variable {V K : Type} [LinearOrder K]

/-- One call on a `KMeans` object; `same tolerance` is `are_containers_equal`, `inf` and `dist` are as in
`Model/KMeans.lean`. -/
def kmeansCall (alg : Algorithm V K) (same : K → List V → List V → Bool) (inf : K) (dist : V → V → K)
    (q : KMeansObject V K) : KMeansCall V K → Option (KMeansObject V K × Answer (List V) K)
  | .setOptions o tol => some ({ q with options := o, tolerance := tol }, .done)
  | .fit xs drawn => do
    let c ← KMeans.fit (alg.init xs) (alg.step xs) alg.cent alg.loss (same q.tolerance) List.isEmpty []
      q.options q.centroids (drawn q.n)
    some ({ q with centroids := c }, .fitted c)
  | .predict xs => some (q, .labels (KMeans.nearestIndices inf dist xs q.centroids))
  | .forward xs => some (q, .distances (KMeans.nearestDistances inf dist xs q.centroids))

/-- A sequence of calls on one `KMeans` object: the object at the end and what the calls returned. -/
def kmeansRun (alg : Algorithm V K) (same : K → List V → List V → Bool) (inf : K) (dist : V → V → K) :
    KMeansObject V K → List (KMeansCall V K) → Option (KMeansObject V K × List (Answer (List V) K))
  | q, [] => some (q, [])
  | q, c :: cs => do
    let r ← kmeansCall alg same inf dist q c
    let r' ← kmeansRun alg same inf dist r.1 cs
    some (r'.1, r.2 :: r'.2)

/-- `Lloyd` as the algorithm (Lloyd.hpp:66-99). -/
def lloyd [AddCommGroup V] [Field K] [Module K V] (inf : K) (dist : V → V → K) : Algorithm V K where
  S := KMeans.LState V K
  init xs c := some (KMeans.lloydInit inf dist xs c)
  step xs := KMeans.lloydStep inf dist xs
  cent s := s.centroids
  loss s := s.loss

/-- `Hamerly` as the algorithm (Hamerly.hpp:72-116), the default (KMeans.hpp:242, 261). -/
def hamerly [AddCommGroup V] [Field K] [Module K V] (inf vmax lowest : K) (eq : K → K → Bool)
    (dist : V → V → K) : Algorithm V K where
  S := KMeans.HState V K
  init xs c := KMeans.hamerlyInit inf vmax eq dist xs c
  step xs := KMeans.hamerlyStep inf lowest dist xs
  cent s := s.centroids
  loss s := s.loss

/-! ### KMedoids -/

/-- The distance of the samples `i` and `j` of `rows` (PAMUtils.hpp:36-41 or the pairwise distance
matrix); `vmax` stands for an access out of the samples, which the callers below exclude. -/
def distances (vmax : K) (dist : V → V → K) (rows : List V) (i j : Nat) : K :=
  match rows[i]?, rows[j]? with
  | some x, some y => dist x y
  | _, _ => vmax

/-- All medoids are samples of `rows`, or there is no sample for which they are read. -/
def inside (rows : List V) (medoids : List Nat) : Bool :=
  rows.isEmpty || medoids.all (· < rows.length)

/-- The members of `KMedoids` (KMedoids.hpp:112-118): the medoids are kept as indices. -/
structure KMedoidsObject where
  n : Nat
  medoids : List Nat
  options : KMeans.Options

/-- A call of a member function of `KMedoids`: `set_options` (KMedoids.hpp:144-149), `fit` (151-336, either from
samples or from their distance matrix; `outcome i` are the generator outcomes for candidate `i`), `predict`
(354-370) and `forward` (338-352). -/
inductive KMedoidsCall (V : Type) where
  | setOptions (o : KMeans.Options)
  | fit (rows : List V) (outcome : Nat → Nat → Nat)
  | predict (rows : List V)
  | forward (rows : List V)

/-- One call on a `KMedoids` object, with FasterPAM. -/
def kmedoidsCall [Ring K] (vmax : K) (eq : K → K → Bool) (dist : V → V → K) (q : KMedoidsObject) :
    KMedoidsCall V → Option (KMedoidsObject × Answer (List Nat) K)
  | .setOptions o => some ({ q with options := o }, .done)
  | .fit rows outcome => do
    if inside rows q.medoids = false then none
    let ms ← KMedoids.fit vmax eq (distances vmax dist rows) rows.length q.n q.options q.medoids outcome
    some ({ q with medoids := ms }, .fitted ms)
  | .predict rows => do
    if inside rows q.medoids = false then none
    let l ← KMedoids.nearestIndices vmax (distances vmax dist rows) rows.length q.medoids
    some (q, .labels l)
  | .forward rows => do
    if inside rows q.medoids = false then none
    let l ← KMedoids.nearestDistances vmax (distances vmax dist rows) rows.length q.medoids
    some (q, .distances l)

/-- A sequence of calls on one `KMedoids` object. -/
def kmedoidsRun [Ring K] (vmax : K) (eq : K → K → Bool) (dist : V → V → K) :
    KMedoidsObject → List (KMedoidsCall V) → Option (KMedoidsObject × List (Answer (List Nat) K))
  | q, [] => some (q, [])
  | q, c :: cs => do
    let r ← kmedoidsCall vmax eq dist q c
    let r' ← kmedoidsRun vmax eq dist r.1 cs
    some (r'.1, r.2 :: r'.2)

end Verif.Fitted
