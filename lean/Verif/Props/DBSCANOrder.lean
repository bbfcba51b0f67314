import Verif.Lemmas.DBSCANOrder
import Verif.Props.DBSCAN

/-
Property C76: the labels of DBSCAN are a function of the neighbour relation and the order of the
samples, given by `IsLabel` (Spec/DBSCAN.lean); they do not depend on the tree.  Also the exact
criterion for noise, which completes C24.
-/

namespace Verif.DBSCAN

open Verif.KDTree Verif.Search Verif.Distances Verif.Sorting

section Abstract

variable {n : Nat} {N : Nat → Nat → Bool} {minSamples : Nat}

/-- **C76**, label propagation alone: with any exact radius query, whatever the order in which it
returns the neighbours, the label of every sample is the specified one. -/
theorem C76_labels_abstract (hN : ∀ i j, N i j = N j i) {query : Nat → Option (List Nat)}
    (hq : QueryOk n N query) : ∃ label, predict query minSamples n = some label ∧
      label.length = n ∧ ∀ i < n, IsLabel n N minSamples i (label.getD i 0) :=
  predict_label hN hq

/-- The label list is determined by the specification. -/
theorem labels_unique {l l' : List Nat} (h1 : l.length = n)
    (h2 : ∀ i < n, IsLabel n N minSamples i (l.getD i 0)) (h1' : l'.length = n)
    (h2' : ∀ i < n, IsLabel n N minSamples i (l'.getD i 0)) : l = l' := by
  refine List.ext_getElem (h1.trans h1'.symm) (fun i hi hi' => ?_)
  have h := (h2 i (h1 ▸ hi)).unique (h2' i (h1 ▸ hi))
  simpa [List.getD, hi, hi'] using h

/-- **C76**, label propagation alone: two exact radius queries give the same labels. -/
theorem C76_same_abstract (hN : ∀ i j, N i j = N j i) {q1 q2 : Nat → Option (List Nat)}
    (h1 : QueryOk n N q1) (h2 : QueryOk n N q2) :
    predict q1 minSamples n = predict q2 minSamples n := by
  obtain ⟨l1, e1, a1, b1⟩ := predict_label (minSamples := minSamples) hN h1
  obtain ⟨l2, e2, a2, b2⟩ := predict_label (minSamples := minSamples) hN h2
  rw [e1, e2, labels_unique a1 b1 a2 b2]

/-- The criterion for noise in terms of core samples. -/
theorem isLabel_zero_iff (hN : ∀ i j, N i j = N j i) {i l : Nat} (hi : i < n)
    (h : IsLabel n N minSamples i l) : l = 0 ↔ ¬ Core n N minSamples i ∧
      ∀ k m, Core n N minSamples k → N k i = true → First n N minSamples m →
        DensityConnected n N minSamples m k → i < m ∧ N m i = false := by
  have h0 : l = 0 ↔ ∀ m, ¬ Takes n N minSamples m i := by
    rcases h with ⟨h1, h2⟩ | ⟨m, h1, _, h3⟩
    · exact ⟨fun _ => h2, fun _ => h1⟩
    · exact ⟨fun h => by omega, fun h => absurd h1 (h m)⟩
  rw [h0]
  constructor
  · intro h
    refine ⟨fun hc => ?_, fun k m hk hki hm hmk => ?_⟩
    · obtain ⟨m, _, _, ht⟩ := exists_first hN hc
      exact h m ht
    · by_contra hcon
      refine h m ⟨hm, hi, ?_⟩
      by_cases hmi : N m i = true
      · exact Or.inr (Or.inl hmi)
      · have hle : m ≤ i := by
          by_contra hlt
          exact hcon ⟨by omega, by simpa using hmi⟩
        rcases Nat.eq_or_lt_of_le hle with rfl | hlt
        · exact Or.inl rfl
        · exact Or.inr (Or.inr ⟨hlt, k, hmk, hki⟩)
  · rintro ⟨hc, h⟩ m ⟨hm, _, rfl | h2 | ⟨h2, k, h3, h4⟩⟩
    · exact hc hm.1
    · have := (h m m hm.1 h2 hm ⟨hm.1, hm.1, .refl⟩).2
      rw [h2] at this; cases this
    · have := (h k m h3.2.1 h4 hm h3).1
      omega

/-! ### reordering the samples -/

variable {σ : Nat → Nat}

theorem degree_reorder (hσ : ((List.range n).map σ).Perm (List.range n)) (i : Nat) :
    degree n (fun a b => N (σ a) (σ b)) i = degree n N (σ i) := by
  unfold degree
  have h := (hσ.filter (N (σ i))).length_eq
  rw [List.filter_map, List.length_map] at h
  exact h

theorem core_reorder (hσ : ((List.range n).map σ).Perm (List.range n)) {i : Nat} (hi : i < n) :
    Core n (fun a b => N (σ a) (σ b)) minSamples i ↔ Core n N minSamples (σ i) := by
  have hs : σ i < n := by
    have := hσ.mem_iff.1 (List.mem_map_of_mem (f := σ) (List.mem_range.2 hi))
    exact List.mem_range.1 this
  unfold Core
  rw [degree_reorder hσ]
  exact ⟨fun h => ⟨hs, h.2⟩, fun h => ⟨hi, h.2⟩⟩

theorem connected_reorder (hσ : ((List.range n).map σ).Perm (List.range n)) {i j : Nat}
    (hi : i < n) (hj : j < n) : DensityConnected n (fun a b => N (σ a) (σ b)) minSamples i j ↔
      DensityConnected n N minSamples (σ i) (σ j) := by
  have hinj : ∀ a b, a < n → b < n → σ a = σ b → a = b := by
    have hnd : ((List.range n).map σ).Nodup := hσ.nodup_iff.2 List.nodup_range
    intro a b ha hb hab
    exact List.inj_on_of_nodup_map hnd (List.mem_range.2 ha) (List.mem_range.2 hb) hab
  have hsurj : ∀ b, b < n → ∃ a, a < n ∧ σ a = b := by
    intro b hb
    have := hσ.mem_iff.2 (List.mem_range.2 hb)
    obtain ⟨a, ha, h⟩ := List.mem_map.1 this
    exact ⟨a, List.mem_range.1 ha, h⟩
  unfold DensityConnected
  rw [core_reorder hσ hi, core_reorder hσ hj]
  refine and_congr_right fun _ => and_congr_right fun _ => ?_
  constructor
  · intro h
    induction h with
    | refl => exact .refl
    | @tail a b h1 h2 ih =>
      exact (ih h2.1.1 ((core_reorder hσ h2.1.1).1 h2.1)).tail
        ⟨(core_reorder hσ h2.1.1).1 h2.1, (core_reorder hσ h2.2.1.1).1 h2.2.1,
        h2.2.2⟩
  · intro h
    have : ∀ b, Relation.ReflTransGen (fun a b => Core n N minSamples a ∧ Core n N minSamples b ∧
        N a b = true) (σ i) b → ∀ j, j < n → σ j = b →
        Relation.ReflTransGen (fun a b => Core n (fun a b => N (σ a) (σ b)) minSamples a ∧
          Core n (fun a b => N (σ a) (σ b)) minSamples b ∧ N (σ a) (σ b) = true) i j := by
      intro b hb
      induction hb with
      | refl =>
        intro j hj e
        rw [hinj j i hj hi e]
      | @tail a b h1 h2 ih =>
        intro j hj e
        obtain ⟨a', ha', rfl⟩ := hsurj a h2.1.1
        subst e
        exact (ih a' ha' rfl).tail ⟨(core_reorder hσ ha').2 h2.1, (core_reorder hσ hj).2 h2.2.1,
          h2.2.2⟩
    exact this _ h j hj rfl

end Abstract

/-! ### end to end on floating data -/

/-- **C76.** The label of every sample, end to end: 0 when no cluster can take it, else the number of
the first cluster that can take it, the clusters being numbered in the order of their first core
samples. -/
theorem C76_labels (eps : ℝ) (he : 0 ≤ eps) (nf n : Nat) (hn : n < 2 ^ 64)
    (x : Nat → Nat → ℝ) (dist : Nat → Nat → ℝ)
    (hd : ∀ i j, euclidean (row nf (x j)) (row nf (x i)) = some (dist i j))
    (radius inf : ℝ) (hinf : ∀ i p a, |x p a - x i a| < inf)
    (policy : List Nat → Nat → Box ℝ → Nat) (bucketSize maxDepth : Nat)
    (hpol : ∀ idx d box, policy idx d box < nf) (vmax vlowest : ℝ)
    (idx : List Nat) (hidx : idx.Perm (List.range n)) (minSamples : Nat) :
    ∃ idx' t label,
      make (eqEps eps) x policy bucketSize maxDepth nf vmax vlowest idx = some (idx', t) ∧
      predictTree x (fun v w => |v - w|) dist radius inf t minSamples n = some label ∧
      label.length = n ∧
      ∀ i < n, IsLabel n (within dist radius) minSamples i (label.getD i 0) := by
  obtain ⟨idx', t, e, hN, hq⟩ := predictTree_query eps he nf n hn x dist hd radius inf hinf policy
    bucketSize maxDepth hpol vmax vlowest idx hidx
  obtain ⟨label, h1, h2⟩ := predict_label (minSamples := minSamples) hN hq
  exact ⟨idx', t, label, e, h1, h2⟩

/-- **C76.** Two trees on the same data, built with different split policies, bucket sizes, depths
and orders of the indices, give the same labels. -/
theorem C76_same_labels (eps : ℝ) (he : 0 ≤ eps) (nf n : Nat) (hn : n < 2 ^ 64)
    (x : Nat → Nat → ℝ) (dist : Nat → Nat → ℝ)
    (hd : ∀ i j, euclidean (row nf (x j)) (row nf (x i)) = some (dist i j))
    (radius inf : ℝ) (hinf : ∀ i p a, |x p a - x i a| < inf)
    (policy1 policy2 : List Nat → Nat → Box ℝ → Nat) (bucketSize1 bucketSize2 maxDepth1 maxDepth2 : Nat)
    (hpol1 : ∀ idx d box, policy1 idx d box < nf) (hpol2 : ∀ idx d box, policy2 idx d box < nf)
    (vmax vlowest : ℝ) (idx1 idx2 : List Nat) (hidx1 : idx1.Perm (List.range n))
    (hidx2 : idx2.Perm (List.range n)) (minSamples : Nat) :
    ∃ idx1' idx2' t1 t2 label,
      make (eqEps eps) x policy1 bucketSize1 maxDepth1 nf vmax vlowest idx1 = some (idx1', t1) ∧
      make (eqEps eps) x policy2 bucketSize2 maxDepth2 nf vmax vlowest idx2 = some (idx2', t2) ∧
      predictTree x (fun v w => |v - w|) dist radius inf t1 minSamples n = some label ∧
      predictTree x (fun v w => |v - w|) dist radius inf t2 minSamples n = some label := by
  obtain ⟨idx1', t1, e1, hN, hq1⟩ := predictTree_query eps he nf n hn x dist hd radius inf hinf
    policy1 bucketSize1 maxDepth1 hpol1 vmax vlowest idx1 hidx1
  obtain ⟨idx2', t2, e2, _, hq2⟩ := predictTree_query eps he nf n hn x dist hd radius inf hinf
    policy2 bucketSize2 maxDepth2 hpol2 vmax vlowest idx2 hidx2
  obtain ⟨label, h1, _⟩ := predict_label (minSamples := minSamples) hN hq1
  exact ⟨idx1', idx2', t1, t2, label, e1, e2, h1,
    (C76_same_abstract hN hq1 hq2).symm.trans h1⟩

/-- **C24**, the exact criterion. A sample is noise exactly when it is not core and, for every core
sample `k` it is within the radius of, it comes before the first core sample `m` of the cluster of
`k` and is not within the radius of `m`.  The criterion users expect has no second alternative: see
`C24_counterexample`. -/
theorem C24_noise_exact (eps : ℝ) (he : 0 ≤ eps) (nf n : Nat) (hn : n < 2 ^ 64)
    (x : Nat → Nat → ℝ) (dist : Nat → Nat → ℝ)
    (hd : ∀ i j, euclidean (row nf (x j)) (row nf (x i)) = some (dist i j))
    (radius inf : ℝ) (hinf : ∀ i p a, |x p a - x i a| < inf)
    (policy : List Nat → Nat → Box ℝ → Nat) (bucketSize maxDepth : Nat)
    (hpol : ∀ idx d box, policy idx d box < nf) (vmax vlowest : ℝ)
    (idx : List Nat) (hidx : idx.Perm (List.range n)) (minSamples : Nat) :
    ∃ idx' t label,
      make (eqEps eps) x policy bucketSize maxDepth nf vmax vlowest idx = some (idx', t) ∧
      predictTree x (fun v w => |v - w|) dist radius inf t minSamples n = some label ∧
      ∀ i < n, label.getD i 0 = 0 ↔ ¬ Core n (within dist radius) minSamples i ∧
        ∀ k m, Core n (within dist radius) minSamples k → dist k i < radius →
          First n (within dist radius) minSamples m →
          DensityConnected n (within dist radius) minSamples m k → i < m ∧ ¬ dist m i < radius := by
  obtain ⟨idx', t, e, hN, hq⟩ := predictTree_query eps he nf n hn x dist hd radius inf hinf policy
    bucketSize maxDepth hpol vmax vlowest idx hidx
  obtain ⟨label, h1, _, h2⟩ := predict_label (minSamples := minSamples) hN hq
  refine ⟨idx', t, label, e, h1, fun i hi => ?_⟩
  rw [isLabel_zero_iff hN hi (h2 i hi)]
  simp [within]

/-- **C76.** Reordering the samples (`σ i` is the old position of the sample now at `i`) does not
change which core samples share a label, and core samples stay non-noise.  The labels of the other
samples can change: `C76_reorder_counterexample`. -/
theorem C76_reorder_cores (eps : ℝ) (he : 0 ≤ eps) (nf n : Nat) (hn : n < 2 ^ 64)
    (x : Nat → Nat → ℝ) (dist : Nat → Nat → ℝ)
    (hd : ∀ i j, euclidean (row nf (x j)) (row nf (x i)) = some (dist i j))
    (radius inf : ℝ) (hinf : ∀ i p a, |x p a - x i a| < inf)
    (policy1 policy2 : List Nat → Nat → Box ℝ → Nat) (bucketSize1 bucketSize2 maxDepth1 maxDepth2 : Nat)
    (hpol1 : ∀ idx d box, policy1 idx d box < nf) (hpol2 : ∀ idx d box, policy2 idx d box < nf)
    (vmax vlowest : ℝ) (idx1 idx2 : List Nat) (hidx1 : idx1.Perm (List.range n))
    (hidx2 : idx2.Perm (List.range n)) (minSamples : Nat) (σ : Nat → Nat)
    (hσ : ((List.range n).map σ).Perm (List.range n)) :
    ∃ idx1' idx2' t1 t2 label1 label2,
      make (eqEps eps) x policy1 bucketSize1 maxDepth1 nf vmax vlowest idx1 = some (idx1', t1) ∧
      make (eqEps eps) (fun i => x (σ i)) policy2 bucketSize2 maxDepth2 nf vmax vlowest idx2 =
        some (idx2', t2) ∧
      predictTree x (fun v w => |v - w|) dist radius inf t1 minSamples n = some label1 ∧
      predictTree (fun i => x (σ i)) (fun v w => |v - w|) (fun i j => dist (σ i) (σ j)) radius inf t2
        minSamples n = some label2 ∧
      (∀ i < n, Core n (within dist radius) minSamples (σ i) →
        label1.getD (σ i) 0 ≠ 0 ∧ label2.getD i 0 ≠ 0) ∧
      ∀ i j, i < n → j < n → Core n (within dist radius) minSamples (σ i) →
        Core n (within dist radius) minSamples (σ j) →
        (label2.getD i 0 = label2.getD j 0 ↔ label1.getD (σ i) 0 = label1.getD (σ j) 0) := by
  obtain ⟨idx1', t1, label1, a1, a2, g1⟩ := predictTree_guarantees eps he nf n hn x dist hd radius
    inf hinf policy1 bucketSize1 maxDepth1 hpol1 vmax vlowest idx1 hidx1 minSamples
  obtain ⟨idx2', t2, label2, b1, b2, g2⟩ := predictTree_guarantees eps he nf n hn (fun i => x (σ i))
    (fun i j => dist (σ i) (σ j)) (fun i j => hd _ _) radius inf (fun i p a => hinf _ _ _)
    policy2 bucketSize2 maxDepth2 hpol2 vmax vlowest idx2 hidx2 minSamples
  have hw : within (fun i j => dist (σ i) (σ j)) radius =
      fun a b => within dist radius (σ a) (σ b) := rfl
  rw [hw] at g2
  refine ⟨idx1', idx2', t1, t2, label1, label2, a1, b1, a2, b2, fun i hi hc => ?_,
    fun i j hi hj hci hcj => ?_⟩
  · exact ⟨g1.core _ hc, g2.core i ((core_reorder hσ hi).2 hc)⟩
  · rw [g1.clusters _ _ hci hcj, g2.clusters i j ((core_reorder hσ hi).2 hci)
      ((core_reorder hσ hj).2 hcj), connected_reorder hσ hi hj]

/-- Labels of the counterexample to C24 with the samples in another order: `σ` swaps the first two
samples, so that the positions are 2, 0, 1, 3. -/
def lineLabels' : Option (List Nat) := do
  let (_, t) ← make eqExact (fun i => lineX ([1, 0, 2, 3].getD i 0)) (fun _ _ _ => 0) 1 5 1 1000
    (-1000) [0, 1, 2, 3]
  predictTree (fun i => lineX ([1, 0, 2, 3].getD i 0)) (fun v w => |v - w|)
    (fun i j => lineDist ([1, 0, 2, 3].getD i 0) ([1, 0, 2, 3].getD j 0)) 2 1000 t 2 4

/-- **C76**: the labels as a whole depend on the order of the samples. The sample at position 0 is
noise when it comes first and is labelled when it comes second. -/
theorem C76_reorder_counterexample :
    ∃ label label', lineLabels = some label ∧ lineLabels' = some label' ∧
      label.getD 0 0 = 0 ∧ label'.getD 1 0 = 1 :=
  ⟨[0, 1, 1, 1], [1, 1, 1, 1], by decide +kernel, by decide +kernel, by decide +kernel,
    by decide +kernel⟩

/-! Concrete case: the two clusters of `exPos`, with the neighbours returned in reverse order. -/

example : predict (fun i => some ((List.range 8).filter (fun j => |exPos j - exPos i| < 2)).reverse)
    2 8 = some [1, 2, 1, 2, 1, 2, 0, 2] := by decide +kernel

example : QueryOk 8 (fun i j => |exPos j - exPos i| < 2)
    (fun i => some ((List.range 8).filter (fun j => |exPos j - exPos i| < 2)).reverse) :=
  fun _ _ => ⟨_, rfl, List.reverse_perm _⟩

example : ((List.range 4).map (fun i => [1, 0, 2, 3].getD i 0)).Perm (List.range 4) := by decide

end Verif.DBSCAN
