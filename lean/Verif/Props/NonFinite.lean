import Verif.Lemmas.NonFinite
import Verif.Lemmas.AnyOrderRadius

/-
Properties C98 and C99: data with NaN and infinite coordinates.

C98 is about safety: nothing reads out of range, everything ends, no sample is lost or duplicated.
C99 is about the results.  `Flt F` is a floating value: NaN, an infinity or a finite value.
-/

namespace Verif.NonFinite

open Verif.Sorting Verif.KDTree Verif.Search Verif.Buffer

section Safety

variable {F : Type} [Field F] [LinearOrder F] [IsStrictOrderedRing F]

/-- **C98**, partition: on any floating keys the partition ends without leaving the range, permutes the
range and returns a position of it. -/
theorem C98_partition {eps : F} (he : 0 ≤ eps) (key : Nat → Flt F) (idx : List Nat) (pv : Nat)
    (hpv : pv < idx.length) :
    ∃ idx' p, partition (eqFlt eps) key idx pv = some (idx', p) ∧ idx'.Perm idx ∧ p < idx.length :=
  partition_safe (anyOrder_flt he) key idx pv hpv

/-- **C98**, quickselect: on any floating keys it ends without leaving the range, permutes the range and
returns the position that was asked for. -/
theorem C98_quickselect {eps : F} (he : 0 ≤ eps) (key : Nat → Flt F) (idx : List Nat) (k : Nat)
    (hk : k < idx.length) :
    ∃ idx', quickselect (eqFlt eps) key idx k = some (idx', k, k + 1) ∧ idx'.Perm idx := by
  obtain ⟨P, x, Q, e, _, h⟩ := quickselect_safe (anyOrder_flt he) key idx k hk
  exact ⟨_, e, h⟩

/-- **C98**, quicksort: on any floating keys it ends without leaving the range and permutes the range. -/
theorem C98_quicksort {eps : F} (he : 0 ≤ eps) (key : Nat → Flt F) (idx : List Nat) (pv : Nat)
    (hpv : pv < idx.length) :
    ∃ idx' p, quicksort (eqFlt eps) key (idx.length + 1) idx pv = some (idx', p) ∧ idx'.Perm idx :=
  quicksort_safe (anyOrder_flt he) key _ idx pv (fun _ => hpv) (by omega)

/-- **C98**, k-d tree: whatever the coordinates, building a tree with any options ends, the tree holds
every supplied sample as often as it was supplied, and bucket size and depth are respected. -/
theorem C98_tree {eps : F} (he : 0 ≤ eps) (x : Nat → Nat → Flt F)
    (policy : List Nat → Nat → Box (Flt F) → Nat) (bucketSize maxDepth nf : Nat)
    (hpol : ∀ idx d box, policy idx d box < nf) (vmax vlowest : Flt F) (idx : List Nat) :
    ∃ idx' t, make (eqFlt eps) x policy bucketSize maxDepth nf vmax vlowest idx = some (idx', t) ∧
      t.indices.Perm idx ∧ (∀ s ∈ t.subtrees 0, NodeLimits bucketSize maxDepth s.1 s.2) := by
  obtain ⟨idx', t, e, hp, hi, _, hl⟩ :=
    make_safe (anyOrder_flt he) x policy bucketSize maxDepth nf hpol vmax vlowest idx
  exact ⟨idx', t, e, hi ▸ hp, hl⟩

/-- **C98**, nearest neighbours: whatever the coordinates, the query and the distances computed from them,
a search for `k` neighbours ends without leaving any range and returns `min k n` of the samples, each
at most as often as it was supplied and with the distance computed for it. -/
theorem C98_knn {eps : F} (he : 0 ≤ eps) (x : Nat → Nat → Flt F) (q : Nat → Flt F) (dist : Nat → Flt F)
    (policy : List Nat → Nat → Box (Flt F) → Nat) (bucketSize maxDepth nf : Nat)
    (hpol : ∀ idx d box, policy idx d box < nf) (vmax vlowest : Flt F) (idx : List Nat)
    (k : Nat) (hk : 1 ≤ k) (hk2 : k < 2 ^ 64) :
    ∃ idx' t b, make (eqFlt eps) x policy bucketSize maxDepth nf vmax vlowest idx = some (idx', t) ∧
      search x q (staticOps x q Flt.gap (candAll dist)) t (Buffer.mk .pos k) = some b ∧
      b.indices.length = min k idx.length ∧ b.indices.Subperm idx ∧
      b.distances = b.indices.map dist := by
  obtain ⟨idx', t, e, hp, hi, _, _⟩ :=
    make_safe (anyOrder_flt he) x policy bucketSize maxDepth nf hpol vmax vlowest idx
  have hpi : t.indices.Perm idx := hi ▸ hp
  have h0 : BufSafe dist k (Buffer.mk .pos k) := ⟨rfl, Nat.zero_le _, rfl, by simp [Buffer.mk]⟩
  obtain ⟨b, e2, hb, hl, hs⟩ := walk_safe hk hk2 x q Flt.gap t h0
  refine ⟨idx', t, b, e, by rw [search_eq_walk]; exact e2, ?_, ?_, hb.dists⟩
  · rw [hl, ← hpi.length_eq]
    simp [Buffer.mk]
  · have hs' : b.indices.Subperm t.indices := by simpa [Buffer.mk] using hs
    exact hs'.trans hpi.subperm

/-- **C98**, radius search: whatever the coordinates, a search bounded by a ball with unlimited capacity
ends without leaving any range and returns samples whose computed distance is below the radius, each at
most as often as it was supplied and with the distance computed for it. -/
theorem C98_radius {eps : F} (he : 0 ≤ eps) (x : Nat → Nat → Flt F) (q : Nat → Flt F) (dist : Nat → Flt F)
    (radius : Flt F) (policy : List Nat → Nat → Box (Flt F) → Nat) (bucketSize maxDepth nf : Nat)
    (hpol : ∀ idx d box, policy idx d box < nf) (vmax vlowest : Flt F) (idx : List Nat)
    (hn : idx.length < 2 ^ 64) :
    ∃ idx' t b, make (eqFlt eps) x policy bucketSize maxDepth nf vmax vlowest idx = some (idx', t) ∧
      search x q (staticOps x q Flt.gap (candBall dist radius)) t (Buffer.mk .pos 0) = some b ∧
      b.indices.Subperm (idx.filter (fun i => dist i < radius)) ∧
      b.distances.length = b.indices.length ∧
      ∀ c ∈ b.indices.zip b.distances, c.2 = dist c.1 := by
  obtain ⟨idx', t, e, hp, hi, _, _⟩ :=
    make_safe (anyOrder_flt he) x policy bucketSize maxDepth nf hpol vmax vlowest idx
  have hpi : t.indices.Perm idx := hi ▸ hp
  obtain ⟨b, e2, hb, hs⟩ := search_free x q Flt.gap (candBall dist radius) t .pos
    (by rw [hpi.length_eq]; exact hn)
  refine ⟨idx', t, b, e, e2, ?_, hb.len, ?_⟩
  · have hf : (fun i => (candBall dist radius i).isSome) = fun i => decide (dist i < radius) := by
      funext i
      unfold candBall
      by_cases h : dist i < radius <;> simp [h]
    rw [hf] at hs
    exact hs.trans (hpi.filter _).subperm
  · intro c hc
    have := hb.mem c hc
    unfold candBall at this
    split at this
    · exact (Option.some.inj this).symm
    · simp at this

/-- **C98**, DBSCAN: whatever the coordinates, `predict` on `n` samples ends without leaving any range and
returns `n` labels. -/
theorem C98_dbscan {eps : F} (he : 0 ≤ eps) (x : Nat → Nat → Flt F) (dist : Nat → Nat → Flt F)
    (radius : Flt F) (policy : List Nat → Nat → Box (Flt F) → Nat) (bucketSize maxDepth nf : Nat)
    (hpol : ∀ idx d box, policy idx d box < nf) (vmax vlowest : Flt F) (n minSamples : Nat)
    (idx : List Nat) (hidx : idx.Perm (List.range n)) (hn : n < 2 ^ 64) :
    ∃ idx' t label, make (eqFlt eps) x policy bucketSize maxDepth nf vmax vlowest idx = some (idx', t) ∧
      DBSCAN.predictTree x Flt.gap dist radius .pos t minSamples n = some label ∧ label.length = n := by
  obtain ⟨idx', t, e, hp, hi, _, _⟩ :=
    make_safe (anyOrder_flt he) x policy bucketSize maxDepth nf hpol vmax vlowest idx
  have hpi : t.indices.Perm (List.range n) := (hi ▸ hp).trans hidx
  obtain ⟨label, e2, hl⟩ := DBSCAN.predict_safe
    (query := DBSCAN.radiusQuery x Flt.gap dist radius .pos t) (n := n) minSamples (by
      intro i _
      obtain ⟨b, e2, _, hs⟩ := search_free x (x i) Flt.gap (candBall (dist i) radius) t .pos
        (by rw [hpi.length_eq]; simpa using hn)
      refine ⟨b.indices, by simp [DBSCAN.radiusQuery, e2], ?_, ?_⟩
      · have h1 := hs.length_le
        have h2 := List.length_filter_le (fun i_1 => (candBall (dist i) radius i_1).isSome) t.indices
        have h3 := hpi.length_eq
        simp only [List.length_range] at h3
        omega
      · intro j hj
        have h1 := (List.mem_filter.1 (hs.subset hj)).1
        exact List.mem_range.1 (hpi.mem_iff.1 h1))
  exact ⟨idx', t, label, e, e2, hl⟩

end Safety

/-! ### C99: the results for the other samples -/

/-- **C99**, part that holds: data without NaN and without `-infinity` (some coordinates may be
`+infinity`), any finite query and any `k >= 1`: the search returns `k` nearest samples for the distances
computed in floating arithmetic, up to `2 * eps`, a sample with an infinite coordinate being infinitely
far.  (`a <= b` is false when one side is NaN, so no NaN is returned.)  What is missing: NaN
(`C99_nan_knn_counterexample`) and `-infinity` (`C99_neg_inf_knn_counterexample`). -/
theorem C99_knn_partial (eps : ℝ) (he : 0 ≤ eps) (nf : Nat) (x : Nat → Nat → Flt ℝ)
    (hx : ∀ i a, x i a ≠ .nan ∧ x i a ≠ .neg) (q : Nat → ℝ)
    (policy : List Nat → Nat → Box (Flt ℝ) → Nat) (bucketSize maxDepth : Nat)
    (hpol : ∀ idx d box, policy idx d box < nf) (vmax vlowest : ℝ) (idx : List Nat)
    (k : Nat) (hk : 1 ≤ k) (hk2 : k < 2 ^ 64) :
    let dist := fun i => euclideanFlt (row nf (x i)) (row nf (fun a => .fin (q a)))
    ∃ idx' t b rest,
      make (eqFlt eps) x policy bucketSize maxDepth nf (.fin vmax) (.fin vlowest) idx = some (idx', t) ∧
      search x (fun a => .fin (q a)) (staticOps x (fun a => .fin (q a)) Flt.gap (candAll dist)) t
        (Buffer.mk .pos k) = some b ∧
      b.indices.length = min k idx.length ∧ b.distances = b.indices.map dist ∧
      (b.indices ++ rest).Perm idx ∧
      ∀ i ∈ b.indices, ∀ j ∈ rest, dist i ≤ (dist j).add (.fin (2 * eps)) := by
  intro dist
  obtain ⟨y, rfl⟩ : ∃ y : Nat → Nat → WithTop ℝ, x = fun i a => emb (y i a) :=
    ⟨fun i a => unemb (x i a), by funext i a; exact (emb_unemb (hx i a)).symm⟩
  choose d hd1 hd2 using fun i => euclideanFlt_emb nf (y i) q
  have hdist : dist = fun i => emb (d i) := funext hd1
  clear_value dist
  subst hdist
  have hm := make_alike (alike_emb eps) y policy bucketSize maxDepth nf (vmax : WithTop ℝ)
    (vlowest : WithTop ℝ) idx
  obtain ⟨idx', t, et, hp, hi, hax, hsp⟩ := make_top he y (fun idx d b => policy idx d (mapBox emb b))
    bucketSize maxDepth nf (fun _ _ _ => hpol _ _ _) (vmax : WithTop ℝ) (vlowest : WithTop ℝ) idx
  rw [et] at hm
  have hpi : t.indices.Perm idx := hi ▸ hp
  obtain ⟨b, kept, es, _, h1, h2, ⟨rest, hr1, hr2⟩, hl, _⟩ :=
    search_result (sim_static y (fun a => (q a : WithTop ℝ)) gapTop (candAll d))
      (near := fun d d' => d' ≤ d + ((2 * eps : ℝ) : WithTop ℝ)) (fun d => le_add_eps (by linarith) d)
      (pruneOk_top he hd2) hk2 (Or.inl (by omega)) t (splitBy_axes hsp hax) (fun _ _ => trivial)
      (Buffer.mk ⊤ k) trivial rfl
  simp only [id] at h1 h2
  rw [cands_all] at hr1 hl
  have hsa := search_alike (emb := emb) (ed := emb) emb_lt emb_lt emb_le y (fun a => (q a : WithTop ℝ))
    (gap := gapTop) (gap' := Flt.gap) (fun p a => emb_gap _ _) (cand := candAll d)
    (cand' := candAll fun i => emb (d i)) (fun i => rfl) t (Buffer.mk ⊤ k)
  rw [es] at hsa
  have hkd : ∀ c ∈ kept, c.2 = d c.1 := by
    intro c hc
    obtain ⟨i, _, rfl⟩ := List.mem_map.1 (hr1.mem_iff.1 (List.mem_append_left _ hc))
    rfl
  have hrd : ∀ c ∈ rest, c.2 = d c.1 := by
    intro c hc
    obtain ⟨i, _, rfl⟩ := List.mem_map.1 (hr1.mem_iff.1 (List.mem_append_right _ hc))
    rfl
  refine ⟨idx', mapTree emb t, mapBuf emb b, rest.map Prod.fst, hm, hsa, ?_, ?_, ?_, ?_⟩
  · change b.indices.length = _
    rw [h1, List.length_map, hl, List.length_map, hpi.length_eq, capEff_of_pos hk]
  · change b.distances.map emb = b.indices.map _
    rw [h1, h2, List.map_map, List.map_map]
    apply List.map_congr_left
    intro c hc
    simp only [Function.comp_apply, hkd c hc]
  · change (b.indices ++ _).Perm idx
    rw [h1, ← List.map_append]
    refine (hr1.map Prod.fst).trans ?_
    rw [List.map_map]
    have : (Prod.fst ∘ fun i => (i, d i)) = id := rfl
    rw [this, List.map_id]
    exact hpi
  · intro i hi' j hj
    have hi2 : i ∈ b.indices := hi'
    rw [h1] at hi2
    obtain ⟨a, ha, rfl⟩ := List.mem_map.1 hi2
    obtain ⟨c, hc, rfl⟩ := List.mem_map.1 hj
    obtain ⟨d', hd', hle⟩ := hr2 a ha c hc
    rw [emb_add, emb_le, ← hkd a ha, ← hrd c hc]
    exact hle.trans hd'

/-- **C99**, part that holds: data without NaN and without `-infinity`, a finite query and a finite
radius: the radius search with unlimited capacity returns exactly the samples whose distance is below the
radius.  What is missing: NaN and `-infinity` (`C99_nan_dbscan_counterexample`,
`C99_neg_inf_dbscan_counterexample`). -/
theorem C99_radius_partial (eps : ℝ) (he : 0 ≤ eps) (nf : Nat) (x : Nat → Nat → Flt ℝ)
    (hx : ∀ i a, x i a ≠ .nan ∧ x i a ≠ .neg) (q : Nat → ℝ) (radius : ℝ)
    (policy : List Nat → Nat → Box (Flt ℝ) → Nat) (bucketSize maxDepth : Nat)
    (hpol : ∀ idx d box, policy idx d box < nf) (vmax vlowest : ℝ) (idx : List Nat)
    (hn : idx.length < 2 ^ 64) :
    let dist := fun i => euclideanFlt (row nf (x i)) (row nf (fun a => .fin (q a)))
    ∃ idx' t b,
      make (eqFlt eps) x policy bucketSize maxDepth nf (.fin vmax) (.fin vlowest) idx = some (idx', t) ∧
      search x (fun a => .fin (q a)) (staticOps x (fun a => .fin (q a)) Flt.gap
        (candBall dist (.fin radius))) t (Buffer.mk .pos 0) = some b ∧
      b.indices.Perm (idx.filter (fun i => dist i < .fin radius)) ∧
      b.distances = b.indices.map dist := by
  intro dist
  obtain ⟨y, rfl⟩ : ∃ y : Nat → Nat → WithTop ℝ, x = fun i a => emb (y i a) :=
    ⟨fun i a => unemb (x i a), by funext i a; exact (emb_unemb (hx i a)).symm⟩
  choose d hd1 hd2 using fun i => euclideanFlt_emb nf (y i) q
  have hdist : dist = fun i => emb (d i) := funext hd1
  clear_value dist
  subst hdist
  have hm := make_alike (alike_emb eps) y policy bucketSize maxDepth nf (vmax : WithTop ℝ)
    (vlowest : WithTop ℝ) idx
  obtain ⟨idx', t, et, hp, hi, hax, hsp⟩ := make_top he y (fun idx d b => policy idx d (mapBox emb b))
    bucketSize maxDepth nf (fun _ _ _ => hpol _ _ _) (vmax : WithTop ℝ) (vlowest : WithTop ℝ) idx
  rw [et] at hm
  have hpi : t.indices.Perm idx := hi ▸ hp
  obtain ⟨b, es, hl, hb⟩ := radius_any_tree y (fun a => (q a : WithTop ℝ)) gapTop d (radius : WithTop ℝ) ⊤
    (by
      intro p a
      refine ⟨le_top, fun h => ?_⟩
      cases hy : y p a with
      | top => rw [hy] at h; exact absurd h (by simp)
      | coe v => exact WithTop.coe_lt_top _) t (by rw [hpi.length_eq]; exact hn)
  have hsa := search_alike (emb := emb) (ed := emb) emb_lt emb_lt emb_le y (fun a => (q a : WithTop ℝ))
    (gap := gapTop) (gap' := Flt.gap) (fun p a => emb_gap _ _) (cand := candBall d (radius : WithTop ℝ))
    (cand' := candBall (fun i => emb (d i)) (.fin radius)) (fun i => by
      have h := emb_lt (d i) (radius : WithTop ℝ)
      rw [emb_coe] at h
      unfold candBall
      by_cases hlt : d i < (radius : WithTop ℝ)
      · rw [if_pos hlt, if_pos (h.2 hlt)]; rfl
      · rw [if_neg hlt, if_neg (fun hh => hlt (h.1 hh))]; rfl) t (Buffer.mk ⊤ 0)
  rw [es] at hsa
  have hfst := hb.map Prod.fst
  rw [List.map_fst_zip hl.le, List.map_map] at hfst
  have hid : (Prod.fst ∘ fun i => (i, d i)) = id := rfl
  rw [hid, List.map_id] at hfst
  refine ⟨idx', mapTree emb t, mapBuf emb b, hm, hsa, ?_, ?_⟩
  · change b.indices.Perm _
    have hf : (fun i => decide (emb (d i) < Flt.fin radius)) = fun i => decide (d i < (radius : WithTop ℝ)) := by
      funext i
      have h := emb_lt (d i) (radius : WithTop ℝ)
      rw [emb_coe] at h
      simp only [h]
    rw [hf]
    exact hfst.trans (hpi.filter _)
  · change b.distances.map emb = b.indices.map _
    have hdd : b.distances = b.indices.map d := by
      have h1 : ∀ c ∈ b.indices.zip b.distances, c.2 = d c.1 := by
        intro c hc
        obtain ⟨i, _, rfl⟩ := List.mem_map.1 (hb.mem_iff.1 hc)
        rfl
      rw [← List.map_snd_zip hl.ge]
      conv_rhs => rw [← List.map_fst_zip hl.le]
      rw [List.map_map]
      exact List.map_congr_left h1
    rw [hdd, List.map_map]
    rfl

/-! ### counterexamples

Samples with one feature, so the Euclidean distance is `Flt.gap`; one axis, bucket size 1, unlimited
depth, finite values rational, `eps` the `epsilon` of `double`. -/

/-- The samples given by their only feature. -/
def column (d : List (Flt ℚ)) : Nat → Nat → Flt ℚ := fun i _ => d.getD i .nan

/-- The tree of the samples. -/
def treeOf (d : List (Flt ℚ)) : Option (List Nat × KDTree.Tree (Flt ℚ)) :=
  make (eqFlt (1 / 2 ^ 52)) (column d) (fun _ _ _ => 0) 1 100 1 (.fin (2 ^ 1000)) (.fin (-2 ^ 1000))
    (List.range d.length)

/-- The samples returned by a search for the nearest neighbour of `q`. -/
def nearest (d : List (Flt ℚ)) (q : Flt ℚ) : Option (List Nat) := do
  let (_, t) ← treeOf d
  let b ← search (column d) (fun _ => q)
    (staticOps (column d) (fun _ => q) Flt.gap (candAll fun i => (column d i 0).gap q)) t (Buffer.mk .pos 1)
  some b.indices

/-- The labels of DBSCAN. -/
def labels (d : List (Flt ℚ)) (radius : Flt ℚ) (minSamples : Nat) : Option (List Nat) := do
  let (_, t) ← treeOf d
  DBSCAN.predictTree (column d) Flt.gap (fun i j => (column d j 0).gap (column d i 0)) radius .pos t
    minSamples d.length

/-- **C99** is false with a NaN coordinate: of the samples `0` and NaN, the nearest neighbour of `0` is
reported to be the NaN sample. -/
theorem C99_nan_knn_counterexample : nearest [.fin 0, .nan] (.fin 0) = some [1] := by decide +kernel

/-- **C99** is false with `-infinity`: of the samples `2, 0, 1, -inf, -inf`, the nearest neighbour of `0`
is reported to be the sample `1` although `0` itself is a sample; without the two infinite samples the
answer is right. -/
theorem C99_neg_inf_knn_counterexample :
    nearest [.fin 2, .fin 0, .fin 1, .neg, .neg] (.fin 0) = some [2] ∧
    nearest [.fin 2, .fin 0, .fin 1] (.fin 0) = some [1] := by decide +kernel

/-- The partition around an infinite pivot: `-inf, 5, -inf` around the last sample is returned with `5`
before the pivot. -/
theorem C99_neg_inf_partition_counterexample :
    partition (eqFlt (1 / 2 ^ 52)) (fun i => ([.neg, .fin 5, .neg] : List (Flt ℚ)).getD i .nan) [0, 1, 2] 2 =
      some ([2, 1, 0], 2) := by decide +kernel

/-- **C99** is false for DBSCAN with NaN: the samples `0` and `1` are a cluster, and become noise when
three NaN samples are added. -/
theorem C99_nan_dbscan_counterexample :
    labels [.fin 1, .fin 0] (.fin 2) 1 = some [1, 1] ∧
    labels [.nan, .fin 1, .fin 0, .nan, .nan] (.fin 2) 1 = some [0, 0, 0, 0, 0] := by decide +kernel

/-- **C99** is false for DBSCAN with `-infinity`: the cluster of the two samples `0` is lost when two
infinite samples are added. -/
theorem C99_neg_inf_dbscan_counterexample :
    labels [.fin 5, .fin 0, .fin 0, .fin 5, .fin 5] (.fin 2) 1 = some [1, 2, 2, 1, 1] ∧
    labels [.fin 5, .fin 0, .fin 0, .fin 5, .fin 5, .neg, .neg] (.fin 2) 1 = some [1, 0, 0, 1, 1, 0, 0] := by
  decide +kernel

/-! ### concrete cases for the theorems -/

/-- A tree with NaN and both infinities among the samples. -/
example : (treeOf [.nan, .fin 3, .pos, .neg, .fin 1, .nan]).isSome = true := by decide +kernel

/-- `+infinity` does not disturb the others. -/
example : nearest [.pos, .fin 2, .fin 0, .pos, .fin 1, .pos] (.fin 0) = some [2] ∧
    labels [.fin 0, .pos, .fin 1, .pos, .pos] (.fin 2) 1 = some [1, 0, 1, 0, 0] := by decide +kernel

/-- The hypothesis of `C99_knn_partial` is met by data with a sample at `+infinity`. -/
example : ∀ i a : Nat, (fun i _ => if i = 1 then .pos else .fin (i : ℝ) : Nat → Nat → Flt ℝ) i a ≠ .nan ∧
    (fun i _ => if i = 1 then .pos else .fin (i : ℝ) : Nat → Nat → Flt ℝ) i a ≠ .neg := by
  intro i a
  dsimp only
  split <;> simp

/-- With one feature the distance is the absolute difference. -/
theorem euclideanFlt_one (a b : Flt ℝ) : euclideanFlt [a] [b] = a.gap b := by
  cases a <;> cases b <;>
    simp [euclideanFlt, Flt.sub, Flt.sq, Flt.add, Flt.sqrt, Flt.gap, Flt.abs, Real.sqrt_mul_self_eq_abs,
      not_lt.2 (mul_self_nonneg _)]

end Verif.NonFinite
