import Verif.Lemmas.DBSCANSubset
import Verif.Props.DBSCANOrder

/-
Property C107: DBSCAN on a tree that was built on part of the indices of a data set.

`DBSCAN::predict` documents this use (DBSCAN.hpp:66-77): the labels of the samples of the range of
indices, in a vector as long as that range.  `Searcher::n_samples` is the number of samples of the
whole data set (KDTree.hpp:252-254, Search.hpp:106-108), so the loop runs over all samples, and the
queries return samples of the tree only.
-/

namespace Verif.DBSCAN

open Verif.KDTree Verif.Search Verif.Distances Verif.Sorting

/-- Neighbours that a query around `i` returns: samples of the tree within the radius. -/
def among (idx : List Nat) (N : Nat → Nat → Bool) (i j : Nat) : Bool := N i j && decide (j ∈ idx)

/-- The `k`-th smallest index of the range given to the tree. -/
def nthIndex (n : Nat) (idx : List Nat) (k : Nat) : Nat :=
  ((List.range n).filter (fun i => decide (i ∈ idx))).getD k 0

theorem nthIndex_lists {n : Nat} {idx : List Nat} (hnd : idx.Nodup) (hlt : ∀ i ∈ idx, i < n) :
    Lists n idx.length (nthIndex n idx) (fun i => decide (i ∈ idx)) := by
  have hp : ((List.range n).filter (fun i => decide (i ∈ idx))).Perm idx := by
    refine (List.perm_ext_iff_of_nodup (List.nodup_range.filter _) hnd).2 fun i => ?_
    simp only [List.mem_filter, List.mem_range, decide_eq_true_eq]
    exact ⟨fun h => h.2, fun h => ⟨hlt i h, h⟩⟩
  have hs : ((List.range n).filter (fun i => decide (i ∈ idx))).Pairwise (· < ·) :=
    List.pairwise_lt_range.filter _
  have hget : ∀ k, (hk : k < idx.length) → nthIndex n idx k =
      ((List.range n).filter (fun i => decide (i ∈ idx)))[k]'(by rw [hp.length_eq]; exact hk) := by
    intro k hk
    unfold nthIndex
    rw [List.getD_eq_getElem?_getD, List.getElem?_eq_getElem (by rw [hp.length_eq]; exact hk)]
    rfl
  have hmono : ∀ k l, k < l → l < idx.length → nthIndex n idx k < nthIndex n idx l := by
    intro k l h1 h2
    rw [hget k (by omega), hget l h2]
    exact List.pairwise_iff_getElem.1 hs _ _ _ _ h1
  refine ⟨fun k hk => ?_, fun k l hk hl => ⟨fun h => ?_, fun h => hmono k l h hl⟩, fun i hi h => ?_⟩
  · have := List.getElem_mem (l := (List.range n).filter (fun i => decide (i ∈ idx))) (n := k)
      (by rw [hp.length_eq]; exact hk)
    rw [← hget k hk] at this
    exact ⟨List.mem_range.1 (List.mem_filter.1 this).1, (List.mem_filter.1 this).2⟩
  · by_contra hkl
    rcases Nat.eq_or_lt_of_le (Nat.le_of_not_lt hkl) with e | e
    · rw [e] at h; omega
    · have := hmono l k e hk; omega
  · have hm : i ∈ (List.range n).filter (fun i => decide (i ∈ idx)) :=
      List.mem_filter.2 ⟨List.mem_range.2 hi, h⟩
    obtain ⟨k, hk, e⟩ := List.getElem_of_mem hm
    have hk' : k < idx.length := by rw [← hp.length_eq]; exact hk
    exact ⟨k, hk', by rw [hget k hk']; exact e⟩

/-- The radius queries on a tree over part of the indices. -/
theorem subset_query (eps : ℝ) (he : 0 ≤ eps) (nf n : Nat) (hn : n < 2 ^ 64)
    (x : Nat → Nat → ℝ) (dist : Nat → Nat → ℝ)
    (radius inf : ℝ) (hinf : ∀ i p a, |x p a - x i a| < inf)
    (policy : List Nat → Nat → Box ℝ → Nat) (bucketSize maxDepth : Nat)
    (hpol : ∀ idx d box, policy idx d box < nf) (vmax vlowest : ℝ)
    (idx : List Nat) (hnd : idx.Nodup) (hlt : ∀ i ∈ idx, i < n) :
    ∃ idx' t, make (eqEps eps) x policy bucketSize maxDepth nf vmax vlowest idx = some (idx', t) ∧
      QueryOk n (among idx (within dist radius))
        (radiusQuery x (fun v w => |v - w|) dist radius inf t) := by
  obtain ⟨idx', t, e, hp, hi, _⟩ :=
    make_float eps he x policy bucketSize maxDepth nf hpol vmax vlowest idx
  have hpi : t.indices.Perm idx := (hi ▸ hp : t.indices.Perm idx)
  have hlen : t.indices.length ≤ n := by
    rw [hpi.length_eq]
    have hsub : idx ⊆ List.range n := fun i hi => List.mem_range.2 (hlt i hi)
    have := (hnd.subperm hsub).length_le
    rwa [List.length_range] at this
  refine ⟨idx', t, e, ?_⟩
  intro i _
  obtain ⟨b, h1, hl, h2⟩ := radius_any_tree x (x i) (fun v w => |v - w|) (dist i) radius inf
    (GapBelow.of_lt (hinf i)) t (by omega)
  refine ⟨b.indices, by simp [radiusQuery, h1], ?_⟩
  have h3 := h2.map Prod.fst
  rw [List.map_fst_zip (by omega), List.map_map] at h3
  simp only [Function.comp_def, List.map_id'] at h3
  refine h3.trans ((hpi.filter _).trans ?_)
  refine (List.perm_ext_iff_of_nodup (hnd.filter _) (List.nodup_range.filter _)).2 fun j => ?_
  simp only [List.mem_filter, List.mem_range, among, within, Bool.and_eq_true, decide_eq_true_eq]
  exact ⟨fun h => ⟨hlt j h.1, h.2, h.1⟩, fun h => ⟨h.2.2, h.2.1⟩⟩

theorem degree_among {n : Nat} {idx : List Nat} (hnd : idx.Nodup) (hlt : ∀ i ∈ idx, i < n)
    (N : Nat → Nat → Bool) (i : Nat) : degree n (among idx N) i = (idx.filter (N i)).length := by
  unfold degree
  refine List.Perm.length_eq ?_
  refine (List.perm_ext_iff_of_nodup (List.nodup_range.filter _) (hnd.filter _)).2 fun j => ?_
  simp only [List.mem_filter, List.mem_range, among, Bool.and_eq_true, decide_eq_true_eq]
  exact ⟨fun h => ⟨h.2.2, h.2.1⟩, fun h => ⟨hlt j h.1, h.2, h.1⟩⟩

/-- **C107**, part: when every sample outside of the range has at most `minSamples` samples of the
range within the radius, the samples outside are noise and the samples of the range get exactly the
labels that DBSCAN gives to the data set made of these samples alone (in increasing order of the
indices; any tree over it).  Without this hypothesis the claim is false, see
`C107_merge_counterexample`; and the vector is always as long as the data set, see
`C107_outside`. -/
theorem C107_subset_partial (eps : ℝ) (he : 0 ≤ eps) (nf n : Nat) (hn : n < 2 ^ 64)
    (x : Nat → Nat → ℝ) (dist : Nat → Nat → ℝ)
    (hd : ∀ i j, euclidean (row nf (x j)) (row nf (x i)) = some (dist i j))
    (radius inf : ℝ) (hinf : ∀ i p a, |x p a - x i a| < inf)
    (policy policy2 : List Nat → Nat → Box ℝ → Nat) (bucketSize maxDepth bucketSize2 maxDepth2 : Nat)
    (hpol : ∀ idx d box, policy idx d box < nf) (hpol2 : ∀ idx d box, policy2 idx d box < nf)
    (vmax vlowest : ℝ) (idx : List Nat) (hnd : idx.Nodup) (hlt : ∀ i ∈ idx, i < n)
    (minSamples : Nat)
    (hfew : ∀ i < n, i ∉ idx → (idx.filter (fun j => dist i j < radius)).length ≤ minSamples)
    (idx2 : List Nat) (hidx2 : idx2.Perm (List.range idx.length)) :
    ∃ idx' t label idx2' t2 label2,
      make (eqEps eps) x policy bucketSize maxDepth nf vmax vlowest idx = some (idx', t) ∧
      predictTree x (fun v w => |v - w|) dist radius inf t minSamples n = some label ∧
      make (eqEps eps) (fun k => x (nthIndex n idx k)) policy2 bucketSize2 maxDepth2 nf vmax vlowest
        idx2 = some (idx2', t2) ∧
      predictTree (fun k => x (nthIndex n idx k)) (fun v w => |v - w|)
        (fun k l => dist (nthIndex n idx k) (nthIndex n idx l)) radius inf t2 minSamples idx.length =
          some label2 ∧
      (∀ i < n, i ∉ idx → label.getD i 0 = 0) ∧
      ∀ k < idx.length, label.getD (nthIndex n idx k) 0 = label2.getD k 0 := by
  have hL := nthIndex_lists hnd hlt
  have hm : idx.length ≤ n := by
    have hsub : idx ⊆ List.range n := fun i hi => List.mem_range.2 (hlt i hi)
    have := (hnd.subperm hsub).length_le
    rwa [List.length_range] at this
  obtain ⟨idx', t, e, hq⟩ := subset_query eps he nf n hn x dist radius inf hinf policy
    bucketSize maxDepth hpol vmax vlowest idx hnd hlt
  obtain ⟨idx2', t2, label2, e2, p2, hl2, hlab2⟩ := C76_labels eps he nf idx.length (by omega)
    (fun k => x (nthIndex n idx k)) (fun k l => dist (nthIndex n idx k) (nthIndex n idx l))
    (fun k l => hd _ _) radius inf (fun i p a => hinf _ _ a) policy2 bucketSize2 maxDepth2 hpol2
    vmax vlowest idx2 hidx2 minSamples
  have hN : ∀ i j, within dist radius i j = within dist radius j i := by
    intro i j
    unfold within
    rw [euclidean_comm (hd i j) (hd j i)]
  -- the query with the answers of the samples outside of the range removed
  let q := radiusQuery x (fun v w => |v - w|) dist radius inf t
  let q' : Nat → Option (List Nat) := fun i => if i ∈ idx then q i else some []
  have hsame : ∀ i, i < n → SameQuery minSamples q q' i := by
    intro i hi
    by_cases hm : i ∈ idx
    · left; simp [q', hm]
    · right
      obtain ⟨nb, e, hp⟩ := hq i hi
      refine ⟨nb, [], e, by simp [q', hm], ?_, by simp⟩
      rw [hp.length_eq]
      have := degree_among hnd hlt (within dist radius) i
      unfold degree at this
      rw [this]
      exact hfew i hi hm
  have hq' : QueryOk n (inside (fun i => decide (i ∈ idx)) (within dist radius)) q' := by
    intro i hi
    by_cases hm : i ∈ idx
    · obtain ⟨nb, e, hp⟩ := hq i hi
      refine ⟨nb, by simp only [q', if_pos hm]; exact e, hp.trans (List.Perm.of_eq ?_)⟩
      refine List.filter_congr fun j _ => ?_
      simp [inside, among, hm]
    · refine ⟨[], by simp [q', hm], List.Perm.of_eq ?_⟩
      symm
      rw [List.filter_eq_nil_iff]
      intro j _
      simp [inside, hm]
  have hN' : ∀ i j, inside (fun i => decide (i ∈ idx)) (within dist radius) i j =
      inside (fun i => decide (i ∈ idx)) (within dist radius) j i := by
    intro i j
    unfold inside
    rw [hN i j, Bool.and_comm (decide (j ∈ idx)), Bool.and_comm (decide (i ∈ idx)), Bool.and_assoc,
      Bool.and_assoc, Bool.and_comm (decide (i ∈ idx))]
  obtain ⟨label, h1, h2, h3⟩ := predict_label (minSamples := minSamples) hN' hq'
  refine ⟨idx', t, label, idx2', t2, label2, e, ?_, e2, p2, ?_, ?_⟩
  · unfold predictTree
    exact (predict_congr hsame).trans h1
  · intro i hi hm
    exact isLabel_outside (by simp [hm]) (h3 i hi)
  · intro k hk
    have h4 := (hL.isLabel hk).1 (h3 _ (hL.lt k hk).1)
    exact IsLabel.unique h4 (hlab2 k hk)

/-- **C107**, what always holds: the call is defined for every range of distinct indices, the vector
has one label for every sample of the data set (not of the range), a sample outside of the range is
labelled exactly when it has more than `minSamples` samples of the range within the radius, and
then no other sample outside of the range has the same label, not even one at the same place. -/
theorem C107_outside (eps : ℝ) (he : 0 ≤ eps) (nf n : Nat) (hn : n < 2 ^ 64)
    (x : Nat → Nat → ℝ) (dist : Nat → Nat → ℝ)
    (radius inf : ℝ) (hinf : ∀ i p a, |x p a - x i a| < inf)
    (policy : List Nat → Nat → Box ℝ → Nat) (bucketSize maxDepth : Nat)
    (hpol : ∀ idx d box, policy idx d box < nf) (vmax vlowest : ℝ)
    (idx : List Nat) (hnd : idx.Nodup) (hlt : ∀ i ∈ idx, i < n) (minSamples : Nat) :
    ∃ idx' t label,
      make (eqEps eps) x policy bucketSize maxDepth nf vmax vlowest idx = some (idx', t) ∧
      predictTree x (fun v w => |v - w|) dist radius inf t minSamples n = some label ∧
      label.length = n ∧
      (∀ i < n, i ∉ idx → (label.getD i 0 ≠ 0 ↔
        minSamples < (idx.filter (fun j => dist i j < radius)).length)) ∧
      ∀ i < n, ∀ j < n, i ∉ idx → j ∉ idx → i ≠ j →
        minSamples < (idx.filter (fun j => dist i j < radius)).length →
        label.getD i 0 ≠ label.getD j 0 := by
  obtain ⟨idx', t, e, hq⟩ := subset_query eps he nf n hn x dist radius inf hinf policy
    bucketSize maxDepth hpol vmax vlowest idx hnd hlt
  obtain ⟨label, h1, h2, h3, h4⟩ := predict_out (minSamples := minSamples) (Out := fun i => i ∉ idx)
    (fun i j hj => by simp [among, hj]) hq
  have hc : ∀ i, i < n → (Core n (among idx (within dist radius)) minSamples i ↔
      minSamples < (idx.filter (fun j => dist i j < radius)).length) := by
    intro i hi
    unfold Core
    rw [degree_among hnd hlt]
    exact ⟨fun h => h.2, fun h => ⟨hi, h⟩⟩
  refine ⟨idx', t, label, e, h1, h2, fun i hi hm => ?_, fun i hi j hj hmi hmj hij hci => ?_⟩
  · rw [h3 i hi hm, hc i hi]
  · exact h4 i j hi hj hmi hmj hij ((hc i hi).2 hci)

/-! ### the documented behaviour does not hold in general -/

/-- Positions on a line; `part` is the range of indices given to the tree. -/
def partLabels (pos : List ℤ) (part : List Nat) (radius : ℤ) (minSamples : Nat) :
    Option (List Nat) := do
  let (_, t) ← make eqExact (fun i _ => pos.getD i 0) (fun _ _ _ => 0) 1 5 1 1000 (-1000) part
  predictTree (fun i _ => pos.getD i 0) (fun v w => |v - w|)
    (fun i j => |pos.getD j 0 - pos.getD i 0|) radius 1000 t minSamples pos.length

/-- **C107**, negation: a sample outside of the range (index 0, at position 0) merges two clusters of
the range which DBSCAN on the range alone keeps apart; when it comes last instead it forms a
cluster of its own. The vector has 5 labels for a range of 4 indices. -/
theorem C107_merge_counterexample :
    partLabels [0, -2, -1, 1, 2] [1, 2, 3, 4] 2 1 = some [1, 1, 1, 1, 1] ∧
    partLabels [-2, -1, 1, 2] [0, 1, 2, 3] 2 1 = some [1, 1, 2, 2] ∧
    partLabels [-2, -1, 1, 2, 0] [0, 1, 2, 3] 2 1 = some [1, 1, 2, 2, 3] := by
  refine ⟨?_, ?_, ?_⟩ <;> decide +kernel

/-! Concrete case: two clusters of the range around samples that are outside of it and far away. -/

example : partLabels [50, -2, -1, 60, 1, 2, 70] [4, 1, 5, 2] 2 1 = some [0, 1, 1, 0, 2, 2, 0] := by
  decide +kernel

example : (List.range 4).map (nthIndex 7 [4, 1, 5, 2]) = [1, 2, 4, 5] := by decide

/-- The hypotheses of the two theorems on this case. -/
example : [4, 1, 5, 2].Nodup ∧ (∀ i ∈ [4, 1, 5, 2], i < 7) ∧
    ∀ i < 7, i ∉ [4, 1, 5, 2] → ([4, 1, 5, 2].filter (fun j =>
      |[50, -2, -1, 60, 1, 2, 70].getD j (0 : ℤ) - [50, -2, -1, 60, 1, 2, 70].getD i 0| < 2)).length ≤ 1 := by
  decide +kernel

/-- Two samples at the same place outside of the range get two labels. -/
example : partLabels [-1, 1, 0, 0] [0, 1] 2 1 = some [1, 1, 1, 2] := by decide +kernel

end Verif.DBSCAN
