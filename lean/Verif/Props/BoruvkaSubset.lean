import Verif.Lemmas.BoruvkaSubset
import Verif.Props.Boruvka
import Verif.Props.HDBSCANGeometry

/-
Property C118: the spanning tree (and HDBSCAN) on a k-d tree that was built on part of the indices of a data set.

`make_tree` makes a forest of `indexer.n_samples()` samples (BoruvkasAlgorithm.hpp:423), which is the number of
samples of the whole data set (KDTree.hpp:252-254), and the queries return samples of the tree only.
-/

namespace Verif.Boruvka

open Verif.KDTree Verif.Buffer Verif.Search Verif.Sorting Verif.Distances Verif.ClosestPair
  Verif.Graph Verif.Rank

/-- Core distances on a tree over some samples: order statistics of the distances to these samples. -/
theorem coreDistance_sub {eps : ℝ} (he : 0 ≤ eps) {nf : Nat}
    {x : Nat → Nat → ℝ} {dist : Nat → Nat → ℝ}
    (hd : ∀ q i, euclidean (row nf (x i)) (row nf (x q)) = some (dist q i)) (inf : ℝ)
    {t : KDTree.Tree ℝ} (ho : t.SplitBy (fun a i p => x i a ≤ x p a + 2 * eps)
      (fun a p i => x p a ≤ x i a + 2 * eps)) (ha : t.AxesLt nf) {idx : List Nat} (hne : idx ≠ [])
    (hp : t.indices.Perm idx) {k : Nat} (hk : 1 ≤ k) (hk2 : k < 2 ^ 64) (q : Nat) :
    ∃ v, coreDistance x (fun v w => |v - w|) dist inf t k q = some v ∧
      IsKthUpTo (2 * eps) (min k idx.length) (idx.map (dist q)) v := by
  obtain ⟨b, kept, es, _, h1, h2, ⟨rest, hr1, hr2⟩, hl, _, hf, _⟩ :=
    search_result_full (sim_static x (x q) _ (candAll (dist q))) (fun d => by linarith)
      (pruneOk_float he (hd q) (fun i d h => by simpa [candAll] using h.symm)) (inf := inf) hk2
      (Or.inl (by omega)) t (splitBy_axes ho ha) (fun _ _ => trivial) (Buffer.mk inf k) trivial rfl
  have hcl : (cands (candAll (dist q)) t.indices).length = idx.length := by
    have : (cands (candAll (dist q)) t.indices).length = t.indices.length := by
      unfold cands candAll
      generalize t.indices = l
      induction l with
      | nil => rfl
      | cons a l ih => simp_all
    rw [this, hp.length_eq]
  have hcap : capEff k = k := by unfold capEff; rw [if_neg (by omega)]
  rw [hcl, hcap] at hl
  have hpos := List.length_pos_iff.2 hne
  have hne : kept ≠ [] := by
    intro h; rw [h] at hl; simp at hl; omega
  obtain ⟨⟨i, hi⟩, hmax⟩ := hf hne
  refine ⟨b.furthestDistance, ?_, ?_⟩
  · simp only [coreDistance, es, Option.bind_eq_bind, Option.bind_some]
  · have hpc : (cands (candAll (dist q)) t.indices).Perm (cands (candAll (dist q)) idx) :=
      List.Perm.filterMap _ hp
    refine isKth_of_kept (by linarith) (hr1.trans hpc) ?_ hl hi hmax
    intro a ha b hb
    obtain ⟨d', h3, h4⟩ := hr2 a ha b hb
    linarith

/-- The weight that `make_tree` gives to the pair `q`, `i`. -/
def edgeWeight (k : Nat) (core : Nat → ℝ) (dist : Nat → Nat → ℝ) (q i : Nat) : ℝ :=
  if k ≤ 1 then dist q i else max (max (core q) (core i)) (dist q i)

/-- The setting of the main loop, for every number of neighbours. -/
theorem subSetting_float {eps : ℝ} (he : 0 ≤ eps) {nf : Nat} {x : Nat → Nat → ℝ} {dist : Nat → Nat → ℝ}
    (hd : ∀ q i, euclidean (row nf (x i)) (row nf (x q)) = some (dist q i)) {inf : ℝ} {n : Nat}
    (hinf : ∀ q i, q < n → i < n → dist q i < inf)
    {t : KDTree.Tree ℝ} (ho : t.SplitBy (fun a i p => x i a ≤ x p a + 2 * eps)
      (fun a p i => x p a ≤ x i a + 2 * eps)) (ha : t.AxesLt nf) {idx : List Nat} (hne : idx ≠ [])
    (hlt : ∀ i ∈ idx, i < n)
    (hp : t.indices.Perm idx) {k : Nat} (hk2 : k < 2 ^ 64) :
    ∃ (weight : Nat → Nat → ℝ → Option ℝ) (core : Nat → ℝ),
      (1 < k → ∀ q < n, IsKthUpTo (2 * eps) (min k idx.length) (idx.map (dist q)) (core q)) ∧
      SubSetting x (fun v w => |v - w|) dist weight (edgeWeight k core dist) inf t n
        (fun d d' => d' ≤ d + 2 * eps) ∧
      ∀ (ord : Orders ℝ) (fuel : Nat), makeTree x (fun v w => |v - w|) dist inf t ord n k fuel = (do
        let f ← Forest.init n
        let f ← makeLoop x (fun v w => |v - w|) dist weight inf t ord fuel 0 f
        some f.mst) := by
  have hmem : ∀ i ∈ t.indices, i < n := fun i h => hlt i (hp.mem_iff.1 h)
  have ht := goodTree_float he hd ho ha (n := n) hmem
  by_cases hk : 1 < k
  · obtain ⟨core, ec, hcl, hcore⟩ := coreDistances_of (n := n) (fun q _ =>
      coreDistance_sub he hd inf ho ha hne hp (le_of_lt hk) hk2 q)
    have hcv : ∀ q, q < n → core[q]? = some (core.getD q 0) ∧
        IsKthUpTo (2 * eps) (min k idx.length) (idx.map (dist q)) (core.getD q 0) := by
      intro q hq
      obtain ⟨v, h1, h2⟩ := hcore q hq
      have : core.getD q 0 = v := by simp [List.getD_eq_getElem?_getD, h1]
      rw [this]
      exact ⟨h1, h2⟩
    have hclt : ∀ q, q < n → core.getD q 0 < inf := by
      intro q hq
      obtain ⟨j, hj, hjv⟩ := List.mem_map.1 (hcv q hq).2.mem
      rw [← hjv]
      exact hinf q j hq (hlt j hj)
    refine ⟨mutualReach core, fun q => core.getD q 0, fun _ q hq => (hcv q hq).2, ⟨ht, ?_, ?_⟩, ?_⟩
    · intro q i hq hi
      simp only [mutualReach, (hcv q hq).1, (hcv i hi).1, Option.bind_eq_bind, Option.bind_some, edgeWeight,
        if_neg (by omega : ¬ k ≤ 1)]
    · intro q i hq hi
      simp only [edgeWeight, if_neg (by omega : ¬ k ≤ 1)]
      exact max_lt (max_lt (hclt q hq) (hclt i hi)) (hinf q i hq hi)
    · intro ord fuel
      simp only [makeTree, if_pos hk, ec, Option.bind_eq_bind, Option.bind_some]
  · refine ⟨plainWeight, fun _ => 0, fun h => absurd h hk, ⟨ht, ?_, ?_⟩, ?_⟩
    · intro q i hq hi
      simp only [plainWeight, edgeWeight, if_pos (by omega : k ≤ 1)]
    · intro q i hq hi
      simp only [edgeWeight, if_pos (by omega : k ≤ 1)]
      exact hinf q i hq hi
    · intro ord fuel
      simp only [makeTree, if_neg (by omega : ¬ k > 1)]

/-- **C118**, two samples or more in the tree: whatever the iteration orders of the hash maps, `make_tree`
ends after at most `log2 n` rounds and returns a spanning tree of *all* `n` samples of the data set, not of the
samples of the tree.  The second end of every edge is a sample of the tree, every sample outside of it is joined to
a nearest sample of the tree (up to `2 * eps`), and the weights are distances, respectively mutual reachability
distances with the core distances taken among the samples of the tree. -/
theorem C118_spanning (n : Nat) (eps : ℝ) (he : 0 ≤ eps) (nf : Nat)
    (x : Nat → Nat → ℝ) (dist : Nat → Nat → ℝ)
    (hd : ∀ q i, euclidean (row nf (x i)) (row nf (x q)) = some (dist q i))
    (policy : List Nat → Nat → Box ℝ → Nat) (bucketSize maxDepth : Nat)
    (hpol : ∀ idx d box, policy idx d box < nf) (vmax vlowest inf : ℝ)
    (hinf : ∀ q i, q < n → i < n → dist q i < inf)
    (idx : List Nat) (hnd : idx.Nodup) (hlt : ∀ i ∈ idx, i < n) (h2 : 2 ≤ idx.length)
    (ord : Orders ℝ) (hord : ord.Valid) (k : Nat) (hk2 : k < 2 ^ 64) :
    ∃ idx' t T, make (eqEps eps) x policy bucketSize maxDepth nf vmax vlowest idx = some (idx', t) ∧
      (∀ fuel, Nat.log 2 n + 1 ≤ fuel →
        makeTree x (fun v w => |v - w|) dist inf t ord n k fuel = some T) ∧
      IsSpanningTree n T ∧ (∀ e ∈ T, e.2.1 ∈ idx) ∧
      (∃ core : Nat → ℝ,
        (1 < k → ∀ q < n, IsKthUpTo (2 * eps) (min k idx.length) (idx.map (dist q)) (core q)) ∧
        ∀ e ∈ T, e.2.2 = if k ≤ 1 then dist e.1 e.2.1
          else max (max (core e.1) (core e.2.1)) (dist e.1 e.2.1)) ∧
      ∀ a < n, a ∉ idx → ∃ i ∈ idx, (∃ w, (a, i, w) ∈ T) ∧ ∀ b ∈ idx, dist a i ≤ dist a b + 2 * eps := by
  obtain ⟨idx', t, e, hp, hi, _, ho, _, ha, _⟩ :=
    make_float eps he x policy bucketSize maxDepth nf hpol vmax vlowest idx
  have hpi : t.indices.Perm idx := (hi ▸ hp : t.indices.Perm idx)
  have hne : idx ≠ [] := by intro h; simp [h] at h2
  obtain ⟨weight, core, hcore, hs, hmk⟩ := subSetting_float he hd hinf ho ha hne hlt hpi hk2
  have htwo : ∃ i ∈ t.indices, ∃ j ∈ t.indices, i ≠ j := by
    match idx, h2, hnd, hpi with
    | i :: j :: l, _, hnd, hpi =>
      refine ⟨i, hpi.mem_iff.2 (by simp), j, hpi.mem_iff.2 (by simp), ?_⟩
      rintro rfl
      simp at hnd
  obtain ⟨f0, f', e0, e1, hT, hw, hout⟩ := makeLoop_sub_tree hs htwo hord (Nat.log 2 n + 1) (by omega)
  refine ⟨idx', t, f'.mst, e, ?_, hT, fun e he => hpi.mem_iff.1 (hw e he).2,
    ⟨core, hcore, fun e he => (hw e he).1⟩, ?_⟩
  · intro fuel hf
    refine makeTree_mono hf ?_
    rw [hmk]
    simp only [e0, Option.bind_eq_bind, Option.bind_some, e1]
  · intro a ha hna
    obtain ⟨i, hi, hin, hnear⟩ := hout a ha (fun h => hna (hpi.mem_iff.1 h))
    refine ⟨i, hpi.mem_iff.1 hi, ⟨_, hin⟩, fun b hb => ?_⟩
    obtain ⟨d', h1, h2⟩ := hnear b (hpi.mem_iff.2 hb)
    linarith

/-- **C118**, one sample in the tree: on a data set of three samples or more no call of `make_tree` has a defined
result, hence no call of `HDBSCAN::predict` either: the query of the sample of the tree reads an element of an empty
buffer. -/
theorem C118_single_counterexample (n : Nat) (hn : 3 ≤ n) (eps : ℝ) (he : 0 ≤ eps) (nf : Nat)
    (x : Nat → Nat → ℝ) (dist : Nat → Nat → ℝ)
    (hd : ∀ q i, euclidean (row nf (x i)) (row nf (x q)) = some (dist q i))
    (policy : List Nat → Nat → Box ℝ → Nat) (bucketSize maxDepth : Nat)
    (hpol : ∀ idx d box, policy idx d box < nf) (vmax vlowest inf : ℝ)
    (hinf : ∀ q i, q < n → i < n → dist q i < inf) (i : Nat) (hi : i < n)
    (ord : Orders ℝ) (hord : ord.Valid) (k : Nat) (hk2 : k < 2 ^ 64) :
    ∃ idx' t, make (eqEps eps) x policy bucketSize maxDepth nf vmax vlowest [i] = some (idx', t) ∧
      (∀ fuel, makeTree x (fun v w => |v - w|) dist inf t ord n k fuel = none) ∧
      ∀ sort inv minSize allowSingle returnLeaves fuel,
        HDBSCAN.predict x (fun v w => |v - w|) dist inf t ord sort inv n k minSize allowSingle returnLeaves
          fuel = none := by
  obtain ⟨idx', t, e, hp, hix, _, ho, _, ha, _⟩ :=
    make_float eps he x policy bucketSize maxDepth nf hpol vmax vlowest [i]
  have hpi : t.indices.Perm [i] := (hix ▸ hp : t.indices.Perm [i])
  obtain ⟨weight, core, hcore, hs, hmk⟩ := subSetting_float he hd hinf ho ha (by simp)
    (by simpa using hi) hpi hk2
  have key : ∀ fuel, makeTree x (fun v w => |v - w|) dist inf t ord n k fuel = none := by
    intro fuel
    obtain ⟨f0, e0, e1⟩ := makeLoop_sub_single hs hn (by rw [hpi.length_eq]; simp) hord fuel
    rw [hmk]
    simp only [e0, Option.bind_eq_bind, Option.bind_some, e1, Option.bind_none]
  refine ⟨idx', t, e, key, ?_⟩
  intro sort inv minSize allowSingle returnLeaves fuel
  simp only [HDBSCAN.predict, key, Option.bind_eq_bind, Option.bind_none]

/-- **C118**, `HDBSCAN::predict` on a tree over two samples or more: one label for each of the `n` samples of the
data set. -/
theorem C118_labels (n : Nat) (eps : ℝ) (he : 0 ≤ eps) (nf : Nat)
    (x : Nat → Nat → ℝ) (dist : Nat → Nat → ℝ)
    (hd : ∀ q i, euclidean (row nf (x i)) (row nf (x q)) = some (dist q i))
    (policy : List Nat → Nat → Box ℝ → Nat) (bucketSize maxDepth : Nat)
    (hpol : ∀ idx d box, policy idx d box < nf) (vmax vlowest inf : ℝ)
    (hinf : ∀ q i, q < n → i < n → dist q i < inf)
    (idx : List Nat) (hnd : idx.Nodup) (hlt : ∀ i ∈ idx, i < n) (h2 : 2 ≤ idx.length)
    (ord : Orders ℝ) (hord : ord.Valid) (sort : List (Edge ℝ) → List (Edge ℝ))
    (hsort : HDBSCAN.SortsByWeight sort) (inv : ℝ → ℝ) (k : Nat) (hk : k < 2 ^ 64) (minSize : Nat)
    (allow ret : Bool) :
    ∃ idx' t flat K, make (eqEps eps) x policy bucketSize maxDepth nf vmax vlowest idx = some (idx', t) ∧
      (∀ fuel, Nat.log 2 n + 1 ≤ fuel →
        HDBSCAN.predict x (fun v w => |v - w|) dist inf t ord sort inv n k minSize allow ret fuel =
          some flat) ∧
      flat.length = n ∧ (∀ v ∈ flat, v ≤ K) ∧
      ∀ v, 1 ≤ v → v ≤ K → min minSize n ≤ flat.count v := by
  obtain ⟨idx', t, T, h1, h2, h3, _, ⟨core, _, h4⟩, _⟩ := C118_spanning n eps he nf x dist hd policy
    bucketSize maxDepth hpol vmax vlowest inf hinf idx hnd hlt h2 ord hord k hk
  obtain ⟨root, flat, K, e1, e2, h5⟩ := HDBSCAN.labels_of_tree h3
    (fun e he' => by
      rw [h4 e he']
      split
      · exact dist_nonneg hd _ _
      · exact le_max_of_le_right (dist_nonneg hd _ _)) hsort inv minSize allow ret
  refine ⟨idx', t, flat, K, h1, ?_, h5⟩
  intro fuel hf
  simp only [HDBSCAN.predict, h2 fuel hf, Option.bind_eq_bind, Option.bind_some, e1, e2]

/-! ### concrete cases -/

/-- `make_tree` for samples on a line and a tree over the indices `idx`. -/
def lineTree (xs : List ℤ) (idx : List Nat) (ord : Orders ℤ) (k fuel : Nat) : Option (List (Edge ℤ)) :=
  let x : Nat → Nat → ℤ := fun i _ => xs.getD i 0
  (make eqExact x (fun _ _ _ => 0) 1 10 1 1000 (-1000) idx).bind fun p =>
    makeTree x (fun v w => |v - w|) (fun q i => |x i 0 - x q 0|) 1000 p.2 ord xs.length k fuel

/-- **C118**: the edges between samples of the tree need not link them.  Samples of the tree at 0, 1, 10, 11, others
at 4 and 7: the two halves are linked from 4 to 10, at distance 6 instead of 9. -/
theorem C118_bridge_counterexample :
    lineTree [0, 1, 10, 11, 4, 7] [0, 1, 2, 3] idOrders 1 5 =
      some [(0, 1, 1), (2, 3, 1), (4, 1, 3), (5, 2, 3), (4, 2, 6)] ∧
    ¬ Connects 4 ([(0, 1, 1), (2, 3, 1), (4, 1, 3), (5, 2, 3), (4, 2, 6)].filter
      (fun e : Edge ℤ => decide (e.1 < 4 ∧ e.2.1 < 4))) ∧
    lineTree [0, 1, 10, 11] [0, 1, 2, 3] idOrders 1 5 = some [(0, 1, 1), (2, 3, 1), (1, 2, 9)] := by
  refine ⟨by decide +kernel, ?_, by decide +kernel⟩
  intro h
  have h1 := h 0 2 (by norm_num) (by norm_num)
  have key : ∀ a b, Linked ([(0, 1, 1), (2, 3, 1), (4, 1, 3), (5, 2, 3), (4, 2, 6)].filter
      (fun e : Edge ℤ => decide (e.1 < 4 ∧ e.2.1 < 4))) a b → (a < 2 ↔ b < 2) := by
    intro a b hab
    induction hab with
    | rel x y h =>
      obtain ⟨w, hw⟩ := h
      have : (x, y, w) ∈ [((0 : Nat), (1 : Nat), (1 : ℤ)), (2, 3, 1)] := by
        have e : ([(0, 1, 1), (2, 3, 1), (4, 1, 3), (5, 2, 3), (4, 2, 6)].filter
          (fun e : Edge ℤ => decide (e.1 < 4 ∧ e.2.1 < 4))) = [(0, 1, 1), (2, 3, 1)] := by decide +kernel
        rwa [e] at hw
      simp only [List.mem_cons, Prod.mk.injEq, List.not_mem_nil, or_false] at this
      rcases this with ⟨rfl, rfl, _⟩ | ⟨rfl, rfl, _⟩ <;> simp
    | refl x => exact Iff.rfl
    | symm x y _ ih => exact ih.symm
    | trans x y z _ _ ih1 ih2 => exact ih1.trans ih2
  have := key 0 2 h1
  simp at this

/-- **C118**: with one sample in the tree and two in the data set the outcome depends on the iteration order of the
hash map. -/
theorem C118_two_counterexample :
    lineTree [0, 10] [1] idOrders 1 5 = some [(0, 1, 10)] ∧
    lineTree [0, 10] [1] ⟨fun _ l => l.reverse, fun _ l => l⟩ 1 5 = none := by
  constructor <;> decide +kernel

/-- **C118**: the tree is not minimal, also among the trees whose edges have an end in the k-d tree: 15 against
10. -/
theorem C118_minimal_counterexample :
    lineTree [0, 10, 5] [0, 1] idOrders 1 5 = some [(0, 1, 10), (2, 0, 5)] ∧
    IsSpanningTree 3 [((2 : Nat), (0 : Nat), (5 : ℤ)), (2, 1, 5)] := by
  refine ⟨by decide +kernel, isSpanningTree_of (by simp) (by simp) ?_⟩
  have h1 : ∀ a, a < 3 → Linked [((2 : Nat), (0 : Nat), (5 : ℤ)), (2, 1, 5)] a 2 := by
    intro a ha
    have : a = 0 ∨ a = 1 ∨ a = 2 := by omega
    rcases this with rfl | rfl | rfl
    · exact Relation.EqvGen.symm _ _ (.rel _ _ ⟨5, by simp⟩)
    · exact Relation.EqvGen.symm _ _ (.rel _ _ ⟨5, by simp⟩)
    · exact .refl _
  intro a b ha hb
  exact Relation.EqvGen.trans _ 2 _ (h1 a ha) (Relation.EqvGen.symm _ _ (h1 b hb))

/-- `HDBSCAN::predict` for samples on a line and a tree over the indices `idx`, with `min_cluster_size` 3. -/
def partPredict (pos : List ℚ) (idx : List Nat) : Option (List Nat) :=
  let x : Nat → Nat → ℚ := fun i _ => pos.getD i 0
  (make eqExact x (fun _ _ _ => 0) 16 0 1 0 0 idx).bind fun p =>
    HDBSCAN.predict x (fun v w => |v - w|) (fun a b => |x a 0 - x b 0|) 1000 p.2 HDBSCAN.idOrdersQ HDBSCAN.sortUp
      (HDBSCAN.divEps (1 / 2 ^ 23)) pos.length 1 3 false false 5

/-- **C118**: a sample outside of the tree changes the clusters of the samples of the tree.  The same eight samples
are in the tree; with a ninth sample in the data set the two samples 0 and 1 and this one make a cluster of
`min_cluster_size` samples. -/
theorem C118_clusters_counterexample :
    partPredict [0, 1, 10, 12, 13, 100, 102, 105] (List.range 8) = some [2, 2, 2, 2, 2, 1, 1, 1] ∧
    partPredict [0, 1, 10, 12, 13, 100, 102, 105, 3] (List.range 8) = some [2, 2, 3, 3, 3, 1, 1, 1, 2] := by
  constructor <;> decide +kernel

/-- Non-vacuity: the hypotheses hold for six real samples on a line and the tree over four of them. -/
example : ∃ (x : Nat → Nat → ℝ) (dist : Nat → Nat → ℝ) (inf : ℝ) (ord : Orders ℝ), ord.Valid ∧
    (∀ q i, euclidean (row 1 (x i)) (row 1 (x q)) = some (dist q i)) ∧
    (∀ q i, q < 6 → i < 6 → dist q i < inf) ∧ dist 1 4 = 9 ∧
    ([5, 0, 3, 2] : List Nat).Nodup ∧ ∀ i ∈ ([5, 0, 3, 2] : List Nat), i < 6 := by
  refine ⟨fun i _ => (i : ℝ) * 3, fun q i => |(i : ℝ) * 3 - q * 3|, 100,
    ⟨fun _ l => l, fun _ l => l⟩, ⟨fun _ _ => .refl _, fun _ _ => .refl _⟩, ?_, ?_, ?_, by decide, by decide⟩
  · intro q i
    rw [euclidean_eq (by simp [row])]
    simp [row, Real.sqrt_mul_self_eq_abs]
  · intro q i hq hi
    have h1 : (q : ℝ) < 6 := by exact_mod_cast hq
    have h2 : (i : ℝ) < 6 := by exact_mod_cast hi
    have h3 : (0 : ℝ) ≤ q := by positivity
    have h4 : (0 : ℝ) ≤ i := by positivity
    rw [abs_lt]
    constructor <;> linarith
  · norm_num

end Verif.Boruvka
