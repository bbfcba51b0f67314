import Verif.Props.DefaultTree
import Verif.Lemmas.AnyOrder
import Verif.Props.DBSCAN
import Verif.Model.HDBSCAN
import Verif.Model.KMeans
import Verif.Model.KMedoidsFit
import Verif.Model.Silhouette
import Mathlib.Data.Rat.Defs
import Mathlib.Algebra.Order.Field.Rat

/-
C101: empty data sets and data sets of one sample, at every entry point of the library.
-/

namespace Verif.Degenerate

open Verif.KDTree Verif.Buffer Verif.Search Verif.Sorting
open Verif.ClosestPair (Edge)

/-! ### no samples -/

section Empty

variable {K : Type} [LinearOrder K]

/-- **C101**: the tree over no samples is one empty leaf, for all options and policies. -/
theorem C101_tree_empty (eqv : K → K → Bool) (x : Nat → Nat → K)
    (policy : List Nat → Nat → Box K → Nat) (bucketSize maxDepth nf : Nat) (vmax vlowest : K) :
    make eqv x policy bucketSize maxDepth nf vmax vlowest [] =
      some ([], .leaf [] (List.replicate nf (vmax, vlowest))) := by
  simp [make, build, tightBound]

/-- **C101**: a search in it leaves any buffer as it was. -/
theorem C101_search_empty {B : Type} (x : Nat → Nat → K) (q : Nat → K) (ops : BufferOps B) (box : Box K)
    (b : B) : search x q ops (.leaf [] box) b = some b := rfl

/-- **C101**: DBSCAN on no samples gives no labels. -/
theorem C101_dbscan_empty {D : Type} [LinearOrder D] (x : Nat → Nat → K) (gap : K → K → D)
    (dist : Nat → Nat → D) (radius inf : D) (t : KDTree.Tree K) (minSamples : Nat) :
    DBSCAN.predictTree x gap dist radius inf t minSamples 0 = some [] := rfl

/-- **C101**, finding: `make_tree` on no samples throws (`reserve(n_samples - 1)` wraps around), and so
does `HDBSCAN::predict`. -/
theorem C101_spanning_tree_empty_counterexample {D : Type} [Ring D] [LinearOrder D] (x : Nat → Nat → K)
    (gap : K → K → D) (dist : Nat → Nat → D) (inf : D) (t : KDTree.Tree K) (ord : Boruvka.Orders D)
    (sort : List (Edge D) → List (Edge D)) (inv : D → D) (k minSize : Nat) (allow ret : Bool)
    (fuel : Nat) :
    Boruvka.makeTree x gap dist inf t ord 0 k fuel = none ∧
      HDBSCAN.predict x gap dist inf t ord sort inv 0 k minSize allow ret fuel = none := by
  constructor <;> rfl

end Empty

section KMeansEmpty

variable {V K : Type} [Field K] [LinearOrder K] [AddCommGroup V] [Module K V]

/-- **C101**: `predict` of k-means on no samples gives no labels. -/
theorem C101_kmeans_predict_empty (inf : K) (dist : V → V → K) (cs : List V) :
    KMeans.nearestIndices inf dist [] cs = [] := rfl

/-- **C101**, finding: k-means++ on no samples reads a row that does not exist, whatever is drawn. -/
theorem C101_kmeans_init_empty_counterexample (inf : K) (dist : V → V → K)
    (draw : Nat → List K → Option Nat) (first k : Nat) :
    KMeans.plusPlus inf dist draw first ([] : List V) k = none := rfl

/-- **C101**, finding: one step of Lloyd on no samples moves every stored centroid to the origin. -/
theorem C101_lloyd_empty_counterexample (inf : K) (dist : V → V → K) (cs : List V) :
    KMeans.lloydStep inf dist [] (KMeans.lloydInit inf dist [] cs) =
      some (KMeans.lloydInit inf dist [] (List.replicate cs.length 0)) := by
  have h : ∀ n, List.zipWith (KMeans.lloydCentroid (V := V) (K := K)) (List.replicate n 0)
      (List.replicate n 0) = List.replicate n 0 := fun n => by
    rw [List.zipWith_replicate]; simp [KMeans.lloydCentroid]
  simp [KMeans.lloydStep, KMeans.lloydInit, KMeans.nearestIndices, KMeans.nearestDistances,
    KMeans.clusterSizes, KMeans.sizesLoop, KMeans.clusterSums, KMeans.sumsLoop, h]

end KMeansEmpty

/-- **C101**, finding: the silhouette of no samples dereferences the end of an empty range. -/
theorem C101_silhouette_empty_counterexample {V : Type} [LinearOrder V] [Ring V] (ops : Silhouette.Ops V)
    (bits : Option Nat) (d : Nat → Nat → V) : Silhouette.silhouette ops bits d 0 [] = none := rfl

/-- **C101**, finding: random medoids of no samples swap elements that do not exist. -/
theorem C101_kmedoids_init_empty_counterexample (outcome : Nat → Nat) (k : Nat) (hk : 0 < k) :
    Random.fromInterval outcome k 0 0 = none := by
  obtain ⟨k, rfl⟩ : ∃ m, k = m + 1 := ⟨k - 1, by omega⟩
  simp [Random.fromInterval, Random.selectN, Random.selectLoop, Sorting.swap]

/-! ### one sample -/

section One

variable {K : Type} [LinearOrder K]

theorem leaf_of_indices_nil {t : KDTree.Tree K} (h : t.indices = []) : ∃ box, t = .leaf [] box := by
  cases t with
  | leaf idx box => exact ⟨box, by simpa [Tree.indices] using h⟩
  | node p a box l r => simp [Tree.indices] at h

/-- **C101**: the tree over one sample holds that sample, for all options. -/
theorem C101_tree_single {eqv : K → K → Bool} (ho : AnyOrder eqv) (x : Nat → Nat → K)
    (policy : List Nat → Nat → Box K → Nat) (bucketSize maxDepth nf : Nat)
    (hpol : ∀ idx d box, policy idx d box < nf) (vmax vlowest : K) (i : Nat) :
    ∃ t, make eqv x policy bucketSize maxDepth nf vmax vlowest [i] = some ([i], t) ∧ t.indices = [i] := by
  obtain ⟨idx', t, h, hp, ht, _⟩ := make_safe ho x policy bucketSize maxDepth nf hpol vmax vlowest [i]
  obtain rfl := List.perm_singleton.1 hp
  exact ⟨t, h, ht⟩

/-- A tree over one sample, whatever its options: a search offers that sample once. -/
theorem search_single {B : Type} (x : Nat → Nat → K) (q : Nat → K) (ops : BufferOps B)
    (t : KDTree.Tree K) (i : Nat) (ht : t.indices = [i]) (b : B) :
    search x q ops t b = ops.offer b i := by
  cases t with
  | leaf idx box =>
    have : idx = [i] := by simpa [Tree.indices] using ht
    subst this
    cases h : ops.offer b i <;> simp [search, nodeCount, Search.traverse, descend, offerAll, h]
  | node p a box l r =>
    have hl : l.indices = [] := by
      rcases hli : l.indices with _ | ⟨y, ys⟩
      · rfl
      · simp [Tree.indices, hli] at ht
    have hr : r.indices = [] ∧ p = i := by
      simp [Tree.indices, hl] at ht
      exact ⟨ht.2, ht.1⟩
    obtain ⟨bl, rfl⟩ := leaf_of_indices_nil hl
    obtain ⟨br, rfl⟩ := leaf_of_indices_nil hr.1
    obtain rfl := hr.2
    cases h : ops.offer b p with
    | none => simp [search, nodeCount, Search.traverse, descend, offerAll, h]
    | some b' =>
      by_cases hq : q a < x p a <;>
        simp [search, nodeCount, Search.traverse, descend, offerAll, h, hq]

/-- **C101**: DBSCAN on one sample: it is a cluster when `min_samples` is 0 and it lies in its own ball
(the radius is greater than its distance to itself), and noise otherwise. -/
theorem C101_dbscan_single {D : Type} [LinearOrder D] (x : Nat → Nat → K) (gap : K → K → D)
    (dist : Nat → Nat → D) (radius inf : D) (t : KDTree.Tree K) (ht : t.indices = [0])
    (minSamples : Nat) :
    DBSCAN.predictTree x gap dist radius inf t minSamples 1 =
      some [if dist 0 0 < radius ∧ minSamples = 0 then 1 else 0] := by
  by_cases hd : dist 0 0 < radius
  · have hq : DBSCAN.radiusQuery x gap dist radius inf t 0 = some [0] := by
      rw [DBSCAN.radiusQuery, search_single _ _ _ _ _ ht]
      simp [staticOps, Buf.offer, candBall, hd, Buf.update, Buffer.mk]
    by_cases hm : minSamples = 0
    · simp [DBSCAN.predictTree, DBSCAN.predict, List.range_succ, DBSCAN.outerStep, hq, hm, hd,
        DBSCAN.inner]
    · simp [DBSCAN.predictTree, DBSCAN.predict, List.range_succ, DBSCAN.outerStep, hq, hm, hd,
        show ¬ minSamples < 1 by omega]
  · have hq : DBSCAN.radiusQuery x gap dist radius inf t 0 = some [] := by
      rw [DBSCAN.radiusQuery, search_single _ _ _ _ _ ht]
      simp [staticOps, Buf.offer, candBall, hd, Buffer.mk]
    simp [DBSCAN.predictTree, DBSCAN.predict, List.range_succ, DBSCAN.outerStep, hq, hd]

/-- **C101**: the spanning tree of one sample has no edges and HDBSCAN puts it into cluster 1, also with a
minimum cluster size above 1 and without `allow_single_cluster`. -/
theorem C101_hdbscan_single {D : Type} [Ring D] [LinearOrder D] (x : Nat → Nat → K)
    (gap : K → K → D) (dist : Nat → Nat → D) (inf : D) (t : KDTree.Tree K) (ht : t.indices = [0])
    (ord : Boruvka.Orders D) (sort : List (Edge D) → List (Edge D)) (hs : sort [] = []) (inv : D → D)
    (k minSize : Nat) (allow ret : Bool) (fuel : Nat) :
    Boruvka.makeTree x gap dist inf t ord 1 k (fuel + 1) = some [] ∧
      HDBSCAN.predict x gap dist inf t ord sort inv 1 k minSize allow ret (fuel + 1) = some [1] := by
  have h1 : Boruvka.makeTree x gap dist inf t ord 1 k (fuel + 1) = some [] := by
    have hc : ∃ c, Boruvka.coreDistances x gap dist inf t 1 k = some c := by
      refine ⟨[dist 0 0], ?_⟩
      simp [Boruvka.coreDistances, List.range_succ, Boruvka.coreDistance, search_single _ _ _ _ _ ht,
        staticOps, Buf.offer, candAll, Buf.update, Buffer.mk]
    obtain ⟨c, hc⟩ := hc
    by_cases hk : k > 1
    · simp [Boruvka.makeTree, Boruvka.Forest.init, hk, hc, Boruvka.makeLoop]
    · simp [Boruvka.makeTree, Boruvka.Forest.init, hk, Boruvka.makeLoop]
  refine ⟨h1, ?_⟩
  cases allow <;> cases ret <;>
    simp [HDBSCAN.predict, h1, hs, Dendrogram.build, List.range_succ, Dendrogram.condensedTree,
      Dendrogram.condenseRoot, Dendrogram.condense, Dendrogram.select, Dendrogram.CTree.isLeaf,
      Dendrogram.extractFlat, Dendrogram.shallowest, Dendrogram.writeLabels, Dendrogram.writeLabel,
      Dendrogram.CTree.root, Dendrogram.STree.size]

end One

/-! ### concrete cases -/

/-- A tree over one sample with an inner node (a bucket size of 0) meets the hypotheses of the
single-sample theorems. -/
example : (make (fun a b : Int => decide (a = b)) (fun _ _ => 7) (fun _ _ _ => 0) 0 5 1 100 (-100) [0]).map
    (fun r => (r.2.indices, DBSCAN.predictTree (fun _ _ => 7) (fun a b => |a - b|) (fun _ _ => 0) 1 0
      r.2 0 1)) = some ([0], some [1]) := by decide +kernel

end Verif.Degenerate
