import Verif.Model.Search
import Verif.Model.Bounds
import Mathlib.Data.Real.Basic

/-
Model of a search whose buffer is bounded by an axis-aligned box: `search::buffer::Unsorted` with an
`AABBWithCentroid` of `LowerBoundAndUpperBound` segments (search/buffer/Unsorted.hpp,
datastruct/bounds/AABBWithCentroid.hpp).
-/

namespace Verif.BoxSearch

open Verif.KDTree Verif.Buffer Verif.Bounds Verif.Search

variable {K : Type} [LinearOrder K] {D : Type} [LinearOrder D]

/-- Constructor of `AABBWithCentroid` from segments (AABBWithCentroid.hpp:69-96): the cached centroid
holds the `centroid` of every segment (segment/LowerBoundAndUpperBound.hpp:64-67), integral case. -/
def centreInt (box : List (Seg ℤ)) : List ℤ := box.map (fun s => centerInt s.lower s.upper)

/-- Constructor of `AABBWithCentroid` from segments (AABBWithCentroid.hpp:69-96), floating case. -/
noncomputable def centreReal (box : List (Seg ℝ)) : List ℝ :=
  box.map (fun s => centerReal s.lower s.upper)

/-- The coordinates read through `centroid_begin()` (AABBWithCentroid.hpp:186-189).  The traversal
reads it at the cut axes only. -/
def query [Zero K] (centre : List K) : Nat → K := fun a => centre.getD a 0

/-- The iterator range `samples_first + i * n_features` .. `+ n_features` of sample `i`
(Unsorted.hpp:52-54). -/
def features (nf : Nat) (x : Nat → Nat → K) (i : Nat) : List K := (List.range nf).map (x i)

/-- One sample of `partial_search_impl` (Unsorted.hpp:49-60) with
`compute_distance_to_centroid_if_within_bounds_impl` (AABBWithCentroid.hpp:150-161): a sample outside
the box is ignored, a sample inside is offered with its distance to the cached centroid.  `none`
when the box has fewer segments than the sample has features and a missing segment is read. -/
def boxOffer (distance : List K → List K → Option D) (nf : Nat) (x : Nat → Nat → K)
    (box : List (Seg K)) (centre : List K) (b : Buf D) (i : Nat) : Option (Buf D) := do
  let inside ← boxContains box (features nf x i)
  if inside then do
    let d ← distance (features nf x i) centre
    b.update i d
  else some b

/-- The buffer operations of a box search: samples are filtered by the box, siblings are pruned with
the buffer's furthest distance from the centroid (KDNodeView.hpp:222-242), never with the box. -/
def boxOps [Zero K] (distance : List K → List K → Option D) (gap : K → K → D) (nf : Nat)
    (x : Nat → Nat → K) (box : List (Seg K)) (centre : List K) : BufferOps (Buf D) where
  offer := boxOffer distance nf x box centre
  visit := visitSibling x (query centre) gap

end Verif.BoxSearch
