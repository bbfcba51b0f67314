import Verif.Props.Search
import Mathlib.Algebra.Order.Group.Int

/-
Searches with the default options of `KDTree` (datastruct/tree/kdtree/KDTree.hpp:42-53):
`max_depth_ = common::infinity<std::size_t>() = 0`, so that the tree is one leaf (C11) and nothing is pruned.
The answers are exact for every data type and every metric.
-/

namespace Verif.Search

open Verif.KDTree Verif.Buffer Verif.Sorting Verif.Distances

section Default

variable {K : Type} [LinearOrder K] {D : Type} [LinearOrder D]

theorem search_leaf (x : Nat → Nat → K) (q : Nat → K) (gap : K → K → D) (cand : Nat → Option D)
    (idx : List Nat) (box : Box K) (b : Buf D) :
    search x q (staticOps x q gap cand) (.leaf idx box) b = b.updates (cands cand idx) := by
  rw [search_eq_walk, ← foldlM_offer]
  rfl

/-- **C14**, default options: the `k` nearest samples, for any data type, any equality, any gap (also one
that wraps around) and any distance. -/
theorem C14_default_options (eqv : K → K → Bool) (x : Nat → Nat → K) (q : Nat → K) (gap : K → K → D)
    (dist : Nat → D) (policy : List Nat → Nat → Box K → Nat) (bucketSize nf : Nat) (vmax vlowest : K)
    (idx : List Nat) (inf : D) (k : Nat) (hk : 1 ≤ k) (hk2 : k < 2 ^ 64) :
    ∃ t b, make eqv x policy bucketSize 0 nf vmax vlowest idx = some (idx, t) ∧
      search x q (staticOps x q gap (candAll dist)) t (Buffer.mk inf k) = some b ∧
      b.indices.length = b.distances.length ∧
      IsKNearest k (b.indices.zip b.distances) (idx.map (fun i => (i, dist i))) := by
  obtain ⟨b, h1, h2, h3⟩ := C12_keeps_k_nearest inf k hk hk2 (idx.map (fun i => (i, dist i)))
  refine ⟨_, b, C11_default_depth_single_leaf eqv x policy bucketSize nf vmax vlowest idx, ?_, h2, h3⟩
  rw [search_leaf, cands_all, h1]

/-- **C15**, default options: exactly the samples closer than the radius, for any data type. -/
theorem C15_default_options (eqv : K → K → Bool) (x : Nat → Nat → K) (q : Nat → K) (gap : K → K → D)
    (dist : Nat → D) (policy : List Nat → Nat → Box K → Nat) (bucketSize nf : Nat) (vmax vlowest : K)
    (idx : List Nat) (radius inf : D) (hn : idx.length < 2 ^ 64) :
    ∃ t b, make eqv x policy bucketSize 0 nf vmax vlowest idx = some (idx, t) ∧
      search x q (staticOps x q gap (candBall dist radius)) t (Buffer.mk inf 0) = some b ∧
      b.indices.length = b.distances.length ∧
      (b.indices.zip b.distances).Perm
        ((idx.filter (fun i => dist i < radius)).map (fun i => (i, dist i))) := by
  have hlen : (cands (candBall dist radius) idx).length < 2 ^ 64 := by
    have h2 : (cands (candBall dist radius) idx).length ≤ idx.length := List.length_filterMap_le _ _
    omega
  obtain ⟨b, hb, hl, hp⟩ := C12_default_capacity_keeps_all inf _ hlen
  refine ⟨_, b, C11_default_depth_single_leaf eqv x policy bucketSize nf vmax vlowest idx, ?_, hl, ?_⟩
  · rw [search_leaf, hb]
  · rwa [← cands_ball]

end Default

/-! ### concrete cases -/

/-- The sample of `C15_signed_counterexample` that is lost with a depth of 10 is found by default. -/
example : (make eqExact planeX (fun _ d _ => d % 2) 1 0 2 1000 (-1000) [0, 1, 2]).bind (fun r =>
      (search planeX (fun _ => 0) (staticOps planeX (fun _ => 0) (fun v w => |v - w|)
        (candBall (fun i => |planeX i 0| + |planeX i 1|) 5)) r.2 (Buffer.mk 0 0)).map
          (fun b => b.indices)) = some [2] := by decide +kernel

end Verif.Search
