import Verif.Lemmas.RoundingDist
import Verif.Spec.Rounding
import Verif.Props.Search
import Verif.Props.DBSCANOrder

/-
Property C77: searches and DBSCAN on floating data with every operation rounded.

The C14-C16, C23-C26 and C76 theorems on floating data compute with exact reals.  Here the
differences, squares, sums and square roots of the distances, the gap to a splitting plane and the
equality test of the construction are all rounded to nearest.
-/

namespace Verif.Rounding

open Verif.KDTree Verif.Search Verif.Buffer Verif.Sorting

set_option linter.unusedSectionVars false

variable {p : Nat}

/-! ### the distance -/

theorem relErr_nonneg (nf : Nat) : 0 ≤ relErr p nf := Real.sqrt_nonneg _

/-- The error factor in plain terms. -/
theorem relErr_le {nf : Nat} (h : (nf + 5 : ℝ) * unit p ≤ 1 / 2) :
    relErr p nf ≤ 1 + (nf + 5) * unit p := by
  have hu := Rounding.unit_pos (p := p)
  have ha : 0 ≤ (nf + 5 : ℝ) * unit p := by positivity
  have hu1 : unit p ≤ 1 / 2 := by nlinarith [Nat.cast_nonneg (α := ℝ) nf]
  have hb := one_add_mul_le_pow (a := -unit p) (by linarith) (nf + 5)
  have hprod : (1 + unit p) ^ (nf + 5) * (1 + -unit p) ^ (nf + 5) ≤ 1 := by
    rw [← mul_pow]
    refine pow_le_one₀ ?_ ?_ <;> nlinarith
  have hP : 0 < (1 + unit p) ^ (nf + 5) := by positivity
  push_cast at hb
  unfold relErr
  rw [Real.sqrt_le_left (by linarith)]
  generalize (1 + unit p) ^ (nf + 5) = P at *
  have h1 : P * (1 - (nf + 5) * unit p) ≤ 1 :=
    (mul_le_mul_of_nonneg_left (by linarith) hP.le).trans hprod
  generalize (nf + 5 : ℝ) * unit p = a at *
  have h2 : 1 ≤ (1 + a) ^ 2 * (1 - a) := by nlinarith [mul_nonneg ha ha]
  have h3 : P * (1 - a) ≤ (1 + a) ^ 2 * (1 - a) := h1.trans h2
  exact le_of_mul_le_mul_right h3 (by linarith)

/-- **C77.** The computed Euclidean distance is within the factor `relErr p nf` of the true one, both
ways, whatever the order of summation. -/
theorem C77_distance_error (R : Rounding p) {nf : Nat} {o : Order} (ho : o.Sums nf) (u v : Nat → ℝ) :
    distR R o u v ≤ relErr p nf * trueDist nf u v ∧ trueDist nf u v ≤ relErr p nf * distR R o u v := by
  obtain ⟨h1, h2⟩ := distR_error R ho u v
  have hc := distR_nonneg R o u v
  have hF : 0 ≤ (1 + unit p) ^ (nf + 5) := pow_nonneg (by linarith [one_le_f (p := p)]) _
  unfold relErr trueDist
  constructor
  · rw [← Real.sqrt_mul hF]
    exact Real.le_sqrt_of_sq_le (by rw [mul_comm]; exact h1)
  · have : distR R o u v = Real.sqrt (distR R o u v ^ 2) := (Real.sqrt_sq hc).symm
    rw [this, ← Real.sqrt_mul hF]
    exact Real.sqrt_le_sqrt (by rw [mul_comm]; exact h2)

/-! ### searches -/

theorem sums_mem {nf : Nat} {o : Order} (ho : o.Sums nf) {a : Nat} (ha : a < nf) :
    a + 1 ∈ o.terms := ho.mem_iff.2 (List.mem_range.2 (by omega))

/-- The computed gap to a plane never exceeds the computed distance to a sample behind it. -/
theorem gapSound_R (R : Rounding p) (hp : 1 ≤ p) {nf : Nat} {x : Nat → Nat → ℝ} {q : Nat → ℝ}
    {o : Nat → Order} (ho : ∀ i, (o i).Sums nf) :
    GapSound nf x q (gapR R) (fun i => distR R (o i) (x i) q) := by
  intro a ha i v hv
  refine le_trans ?_ (abs_le_distR R hp (sums_mem (ho i) ha))
  unfold gapR
  rw [R.abs, R.abs]
  refine R.mono ?_
  rcases hv with ⟨h1, h2⟩ | ⟨h1, h2⟩
  · rw [abs_of_nonneg (by linarith), abs_of_nonneg (by linarith)]; linarith
  · rw [abs_of_nonpos (by linarith), abs_of_nonpos (by linarith)]; linarith

/-- Pruning with computed gaps when the two sides of a plane are ordered exactly. -/
theorem pruneOk_sep {nf : Nat} {x : Nat → Nat → ℝ} {q : Nat → ℝ} {gap : ℝ → ℝ → ℝ} {dist : Nat → ℝ}
    (hg : GapSound nf x q gap dist) {cand : Nat → Option ℝ}
    (hc : ∀ i d, cand i = some d → d = dist i) :
    PruneOk x q gap cand (fun a i p => a < nf ∧ x i a ≤ x p a + 2 * 0)
      (fun a p i => a < nf ∧ x p a ≤ x i a + 2 * 0) Eq := by
  intro a p i d f hd hs hf
  have := hc i d hd
  subst this
  symm
  rw [max_eq_left_iff]
  refine hf.trans ?_
  rcases hs with ⟨h1, h2, h3⟩ | ⟨h1, h2, h3⟩
  · exact hg a h2 i _ (Or.inl ⟨h1.le, by linarith⟩)
  · exact hg a h2 i _ (Or.inr ⟨by linarith, h1⟩)

/-- Pruning with computed gaps in general. -/
theorem pruneOk_R (R : Rounding p) (hp : 1 ≤ p) {eps : ℝ} (he : 0 ≤ eps) {nf : Nat}
    {x : Nat → Nat → ℝ} {q : Nat → ℝ} {o : Nat → Order} (ho : ∀ i, (o i).Sums nf)
    {cand : Nat → Option ℝ} (hc : ∀ i d, cand i = some d → d = distR R (o i) (x i) q) :
    PruneOk x q (gapR R) cand
      (fun a i p' => a < nf ∧ x i a ≤ x p' a + 2 * (eps * (1 + unit p)))
      (fun a p' i => a < nf ∧ x p' a ≤ x i a + 2 * (eps * (1 + unit p)))
      (fun d d' => d' ≤ max d ((1 + unit p) ^ 2 * (d + 2 * eps))) := by
  intro a p' i d f hd hs hf
  have := hc i d hd
  subst this
  have hu : 1 ≤ 1 + unit p := one_le_f
  refine max_le (le_max_left _ _) ((hf.trans ?_).trans (le_max_right _ _))
  have key : a < nf → |x p' a - q a| ≤ |x i a - q a| + 2 * (eps * (1 + unit p)) →
      gapR R (x p' a) (q a) ≤ (1 + unit p) ^ 2 * (distR R (o i) (x i) q + 2 * eps) := by
    intro ha h
    unfold gapR
    rw [R.abs]
    refine (R.rnd_le_mul (abs_nonneg _)).trans ?_
    have h1 := R.le_rnd_mul (abs_nonneg (x i a - q a))
    have h2 := abs_le_distR R hp (u := x i) (v := q) (sums_mem (ho i) ha)
    rw [R.abs] at h2
    have h3 := mul_le_mul_of_nonneg_right h2 (by linarith : (0 : ℝ) ≤ 1 + unit p)
    calc |x p' a - q a| * (1 + unit p)
        ≤ (distR R (o i) (x i) q * (1 + unit p) + 2 * (eps * (1 + unit p))) * (1 + unit p) :=
          mul_le_mul_of_nonneg_right (by linarith) (by linarith)
      _ = _ := by ring
  have he' : 0 ≤ eps * (1 + unit p) := mul_nonneg he (by linarith)
  rcases hs with ⟨h1, h2, h3⟩ | ⟨h1, h2, h3⟩
  · refine key h2 ?_
    rw [abs_of_pos (by linarith)]
    linarith [le_abs_self (x i a - q a)]
  · refine key h2 ?_
    rw [abs_of_nonpos (by linarith)]
    linarith [neg_abs_le (x i a - q a)]

/-- **C77**, data whose coordinates on each axis are equal or have a computed difference above `eps`:
building with any options and searching returns `k` samples that are nearest for the computed
distances, exactly.  `dist i` may use its own order of summation for each sample. -/
theorem C77_knn_separated (R : Rounding p) (hp : 1 ≤ p) (eps : ℝ) (he : 0 ≤ eps) (nf : Nat)
    (x : Nat → Nat → ℝ) (q : Nat → ℝ) (o : Nat → Order) (ho : ∀ i, (o i).Sums nf)
    (hsep : ∀ a i j, x i a = x j a ∨ eps < |R.rnd (x j a - x i a)|)
    (policy : List Nat → Nat → Box ℝ → Nat) (bucketSize maxDepth : Nat)
    (hpol : ∀ idx d box, policy idx d box < nf) (vmax vlowest inf : ℝ) (idx : List Nat)
    (k : Nat) (hk : 1 ≤ k) (hk2 : k < 2 ^ 64) :
    ∃ idx' t b, make (eqR R eps) x policy bucketSize maxDepth nf vmax vlowest idx = some (idx', t) ∧
      search x q (staticOps x q (gapR R) (candAll (fun i => distR R (o i) (x i) q))) t
        (Buffer.mk inf k) = some b ∧
      b.indices.length = b.distances.length ∧
      IsKNearest k (b.indices.zip b.distances) (idx.map (fun i => (i, distR R (o i) (x i) q))) := by
  obtain ⟨idx', t, e, hpm, hi, _, hs, _, ha, _⟩ :=
    make_tol (goodEq_eqR R he) 0 (le_refl _) x (fun a i j h => by
      rcases hsep a i j with h' | h'
      · simp [h']
      · simp only [eqR, decide_eq_true_eq] at h
        exact absurd h (not_le.2 h')) policy bucketSize maxDepth nf hpol vmax vlowest idx
  obtain ⟨b, kept, es, _, h1, h2, ⟨rest, hr1, hr2⟩, hl, _⟩ :=
    search_result (sim_static x q _ (candAll (fun i => distR R (o i) (x i) q))) (fun _ => rfl)
      (pruneOk_sep (gapSound_R R hp ho) (fun i d h => by simp [candAll] at h; exact h.symm)) hk2
      (Or.inl (by omega)) t (splitBy_axes hs ha) (fun _ _ => trivial) (Buffer.mk inf k) trivial rfl
  have hcp := cands_perm (cand := candAll (fun i => distR R (o i) (x i) q))
    (show t.indices.Perm idx from hi ▸ hpm)
  simp only [id] at h1 h2
  refine ⟨idx', t, b, e, es, by rw [h1, h2]; simp, ?_⟩
  rw [h1, h2, zip_map_fst_snd, ← cands_all]
  refine ⟨⟨rest, hr1.trans hcp, ?_⟩, by rw [hl, hcp.length_eq, capEff_of_pos hk]⟩
  intro a ha b hb
  obtain ⟨d', rfl, h⟩ := hr2 a ha b hb
  exact h

/-- **C77**, any data: the search returns `min k n` samples, and no sample left out is closer than a
returned one by more than the factor `(1 + u) ^ 2` and `2 * eps`, for the computed distances. -/
theorem C77_knn (R : Rounding p) (hp : 1 ≤ p) (eps : ℝ) (he : 0 ≤ eps) (nf : Nat)
    (x : Nat → Nat → ℝ) (q : Nat → ℝ) (o : Nat → Order) (ho : ∀ i, (o i).Sums nf)
    (policy : List Nat → Nat → Box ℝ → Nat) (bucketSize maxDepth : Nat)
    (hpol : ∀ idx d box, policy idx d box < nf) (vmax vlowest inf : ℝ) (idx : List Nat)
    (k : Nat) (hk : 1 ≤ k) (hk2 : k < 2 ^ 64) :
    ∃ idx' t b rest, make (eqR R eps) x policy bucketSize maxDepth nf vmax vlowest idx = some (idx', t) ∧
      search x q (staticOps x q (gapR R) (candAll (fun i => distR R (o i) (x i) q))) t
        (Buffer.mk inf k) = some b ∧
      b.distances = b.indices.map (fun i => distR R (o i) (x i) q) ∧
      (b.indices ++ rest).Perm idx ∧ b.indices.length = min k idx.length ∧
      ∀ i ∈ b.indices, ∀ j ∈ rest, distR R (o i) (x i) q ≤
        (1 + unit p) ^ 2 * (distR R (o j) (x j) q + 2 * eps) := by
  obtain ⟨idx', t, e, hpm, hi, _, hs, _, ha, _⟩ :=
    make_tol (goodEq_eqR R he) (eps * (1 + unit p))
      (mul_nonneg he (by linarith [one_le_f (p := p)])) x
      (fun a i j h => eqR_tol R h) policy bucketSize maxDepth nf hpol vmax vlowest idx
  obtain ⟨b, kept, es, _, h1, h2, ⟨rest, hr1, hr2⟩, hl, _⟩ :=
    search_result (sim_static x q _ (candAll (fun i => distR R (o i) (x i) q)))
      (fun d => le_max_left _ _)
      (pruneOk_R R hp he ho (fun i d h => by simp [candAll] at h; exact h.symm)) hk2
      (Or.inl (by omega)) t (splitBy_axes hs ha) (fun _ _ => trivial) (Buffer.mk inf k) trivial rfl
  have hcp := cands_perm (cand := candAll (fun i => distR R (o i) (x i) q))
    (show t.indices.Perm idx from hi ▸ hpm)
  have hall := hr1.trans hcp
  rw [cands_all] at hall
  have hval : ∀ c ∈ kept ++ rest, c.2 = distR R (o c.1) (x c.1) q := by
    intro c hc
    obtain ⟨i, _, rfl⟩ := List.mem_map.1 (hall.mem_iff.1 hc)
    rfl
  simp only [id] at h1 h2
  have hidx := hall.map Prod.fst
  rw [List.map_append, List.map_map] at hidx
  simp only [Function.comp_def, List.map_id'] at hidx
  refine ⟨idx', t, b, rest.map Prod.fst, e, es, ?_, ?_, ?_, ?_⟩
  · rw [h1, h2, List.map_map]
    exact List.map_congr_left (fun c hc => hval c (List.mem_append_left _ hc))
  · rw [h1]; exact hidx
  · rw [h1, List.length_map, hl, hcp.length_eq, capEff_of_pos hk, cands_all, List.length_map]
  · intro i hi j hj
    rw [h1] at hi
    obtain ⟨a, ha, rfl⟩ := List.mem_map.1 hi
    obtain ⟨c, hc, rfl⟩ := List.mem_map.1 hj
    obtain ⟨d', h, h'⟩ := hr2 a ha c hc
    rw [hval a (List.mem_append_left _ ha), hval c (List.mem_append_right _ hc)] at *
    refine (h'.trans h).trans (max_le ?_ (le_refl _))
    have hd := distR_nonneg R (o c.1) (x c.1) q
    have hf : 1 ≤ (1 + unit p) ^ 2 := one_le_pow₀ one_le_f
    nlinarith [mul_nonneg (sub_nonneg.2 hf) hd, mul_nonneg (by linarith : 0 ≤ (1 + unit p) ^ 2) he]

/-- **C77**, the same in true distances: what rounding and the epsilon equality can cost together. -/
theorem C77_knn_true (R : Rounding p) (hp : 1 ≤ p) (eps : ℝ) (he : 0 ≤ eps) (nf : Nat)
    (x : Nat → Nat → ℝ) (q : Nat → ℝ) (o : Nat → Order) (ho : ∀ i, (o i).Sums nf)
    (policy : List Nat → Nat → Box ℝ → Nat) (bucketSize maxDepth : Nat)
    (hpol : ∀ idx d box, policy idx d box < nf) (vmax vlowest inf : ℝ) (idx : List Nat)
    (k : Nat) (hk : 1 ≤ k) (hk2 : k < 2 ^ 64) :
    ∃ idx' t b rest, make (eqR R eps) x policy bucketSize maxDepth nf vmax vlowest idx = some (idx', t) ∧
      search x q (staticOps x q (gapR R) (candAll (fun i => distR R (o i) (x i) q))) t
        (Buffer.mk inf k) = some b ∧
      (b.indices ++ rest).Perm idx ∧ b.indices.length = min k idx.length ∧
      ∀ i ∈ b.indices, ∀ j ∈ rest, trueDist nf (x i) q ≤
        relErr p nf * (1 + unit p) ^ 2 * (relErr p nf * trueDist nf (x j) q + 2 * eps) := by
  obtain ⟨idx', t, b, rest, e, es, _, h1, h2, h3⟩ := C77_knn R hp eps he nf x q o ho policy bucketSize
    maxDepth hpol vmax vlowest inf idx k hk hk2
  refine ⟨idx', t, b, rest, e, es, h1, h2, fun i hi j hj => ?_⟩
  have h4 := h3 i hi j hj
  have h5 := (C77_distance_error R (ho i) (x i) q).2
  have h6 := (C77_distance_error R (ho j) (x j) q).1
  have hr := relErr_nonneg (p := p) nf
  have hf : (0 : ℝ) ≤ (1 + unit p) ^ 2 := sq_nonneg _
  calc trueDist nf (x i) q ≤ relErr p nf * distR R (o i) (x i) q := h5
    _ ≤ relErr p nf * ((1 + unit p) ^ 2 * (distR R (o j) (x j) q + 2 * eps)) :=
      mul_le_mul_of_nonneg_left h4 hr
    _ ≤ relErr p nf * ((1 + unit p) ^ 2 * (relErr p nf * trueDist nf (x j) q + 2 * eps)) :=
      mul_le_mul_of_nonneg_left (mul_le_mul_of_nonneg_left (by linarith) hf) hr
    _ = _ := by ring

/-- **C77**, radius search: exactly the samples whose computed distance is below the radius; hence
every sample whose true distance is below the radius by the error factor, and none whose true
distance is above it by the error factor. -/
theorem C77_radius (R : Rounding p) (eps : ℝ) (he : 0 ≤ eps) (nf : Nat)
    (x : Nat → Nat → ℝ) (q : Nat → ℝ) (o : Nat → Order) (ho : ∀ i, (o i).Sums nf)
    (radius inf : ℝ) (hinf : ∀ i a, gapR R (x i a) (q a) < inf)
    (policy : List Nat → Nat → Box ℝ → Nat) (bucketSize maxDepth : Nat)
    (hpol : ∀ idx d box, policy idx d box < nf) (vmax vlowest : ℝ) (idx : List Nat)
    (hn : idx.length < 2 ^ 64) :
    ∃ idx' t b, make (eqR R eps) x policy bucketSize maxDepth nf vmax vlowest idx = some (idx', t) ∧
      search x q (staticOps x q (gapR R) (candBall (fun i => distR R (o i) (x i) q) radius)) t
        (Buffer.mk inf 0) = some b ∧
      b.indices.Perm (idx.filter (fun i => distR R (o i) (x i) q < radius)) ∧
      (∀ i ∈ idx, relErr p nf * trueDist nf (x i) q < radius → i ∈ b.indices) ∧
      ∀ i ∈ b.indices, i ∈ idx ∧ trueDist nf (x i) q < relErr p nf * radius := by
  obtain ⟨idx', t, e, hpm, hi, _⟩ :=
    make_tol (goodEq_eqR R he) (eps * (1 + unit p))
      (mul_nonneg he (by linarith [one_le_f (p := p)])) x
      (fun a i j h => eqR_tol R h) policy bucketSize maxDepth nf hpol vmax vlowest idx
  have hpi : t.indices.Perm idx := hi ▸ hpm
  obtain ⟨b, h1, hl, h2⟩ := radius_any_tree x q (gapR R) (fun i => distR R (o i) (x i) q) radius inf
    (GapBelow.of_lt hinf) t (by rw [hpi.length_eq]; exact hn)
  have h3 := h2.map Prod.fst
  rw [List.map_fst_zip (by omega), List.map_map] at h3
  simp only [Function.comp_def, List.map_id'] at h3
  have h4 := h3.trans (hpi.filter _)
  refine ⟨idx', t, b, e, h1, h4, fun i hi hr => ?_, fun i hi => ?_⟩
  · refine h4.mem_iff.2 (List.mem_filter.2 ⟨hi, ?_⟩)
    simpa using ((C77_distance_error R (ho i) (x i) q).1.trans_lt hr)
  · have h5 := List.mem_filter.1 (h4.mem_iff.1 hi)
    refine ⟨h5.1, ?_⟩
    have h6 : distR R (o i) (x i) q < radius := by simpa using h5.2
    refine (C77_distance_error R (ho i) (x i) q).2.trans_lt ?_
    refine mul_lt_mul_of_pos_left h6 (Real.sqrt_pos.2 (pow_pos ?_ _))
    linarith [one_le_f (p := p)]

/-! ### DBSCAN -/

/-- The computed distances between the samples. -/
noncomputable def distsR (R : Rounding p) (o : Order) (x : Nat → Nat → ℝ) (i j : Nat) : ℝ :=
  distR R o (x j) (x i)

/-- **C77**, DBSCAN: with every operation rounded, for a tree built with any options, the labels are
those that C76 specifies and they meet all guarantees of C23-C26, for the computed distances. -/
theorem C77_dbscan (R : Rounding p) (eps : ℝ) (he : 0 ≤ eps) (nf n : Nat) (hn : n < 2 ^ 64)
    (x : Nat → Nat → ℝ) (o : Order)
    (radius inf : ℝ) (hinf : ∀ i j a, gapR R (x j a) (x i a) < inf)
    (policy : List Nat → Nat → Box ℝ → Nat) (bucketSize maxDepth : Nat)
    (hpol : ∀ idx d box, policy idx d box < nf) (vmax vlowest : ℝ)
    (idx : List Nat) (hidx : idx.Perm (List.range n)) (minSamples : Nat) :
    ∃ idx' t label,
      make (eqR R eps) x policy bucketSize maxDepth nf vmax vlowest idx = some (idx', t) ∧
      DBSCAN.predictTree x (gapR R) (distsR R o x) radius inf t minSamples n = some label ∧
      DBSCAN.Guarantees n (DBSCAN.within (distsR R o x) radius) minSamples label ∧
      ∀ i < n, DBSCAN.IsLabel n (DBSCAN.within (distsR R o x) radius) minSamples i
        (label.getD i 0) := by
  obtain ⟨idx', t, e, hpm, hi, _⟩ :=
    make_tol (goodEq_eqR R he) (eps * (1 + unit p))
      (mul_nonneg he (by linarith [one_le_f (p := p)])) x
      (fun a i j h => eqR_tol R h) policy bucketSize maxDepth nf hpol vmax vlowest idx
  have hpi : t.indices.Perm (List.range n) := (hi ▸ hpm : t.indices.Perm idx).trans hidx
  have hlen : t.indices.length = n := by rw [hpi.length_eq, List.length_range]
  have hN : ∀ i j, DBSCAN.within (distsR R o x) radius i j =
      DBSCAN.within (distsR R o x) radius j i := by
    intro i j
    unfold DBSCAN.within distsR
    rw [distR_comm]
  have hq : DBSCAN.QueryOk n (DBSCAN.within (distsR R o x) radius)
      (DBSCAN.radiusQuery x (gapR R) (distsR R o x) radius inf t) := by
    intro i _
    obtain ⟨b, h1, hl, h2⟩ := radius_any_tree x (x i) (gapR R) (distsR R o x i) radius inf
      (GapBelow.of_lt (hinf i)) t (by rw [hlen]; exact hn)
    refine ⟨b.indices, by simp [DBSCAN.radiusQuery, h1], ?_⟩
    have h3 := h2.map Prod.fst
    rw [List.map_fst_zip (by omega), List.map_map] at h3
    simp only [Function.comp_def, List.map_id'] at h3
    exact h3.trans (hpi.filter _)
  obtain ⟨label, h1, h2⟩ := DBSCAN.predict_guarantees (minSamples := minSamples) hN hq
  obtain ⟨label', h1', _, h2'⟩ := DBSCAN.predict_label (minSamples := minSamples) hN hq
  rw [h1] at h1'
  obtain rfl := Option.some.inj h1'
  exact ⟨idx', t, label, e, h1, h2, h2'⟩

/-! ### a rounding exists, and concrete cases -/

/-- Round a positive number: the nearest multiple of the spacing of its binade. -/
noncomputable def rndPos (p : Nat) (x : ℝ) : ℝ :=
  round (x / (2 : ℝ) ^ (Int.log 2 x - p + 1)) * (2 : ℝ) ^ (Int.log 2 x - p + 1)

theorem rndPos_isFloat {x : ℝ} (hx : 0 < x) : IsFloat p (rndPos p x) := by
  refine ⟨round (x / (2 : ℝ) ^ (Int.log 2 x - p + 1)), _, ?_, rfl⟩
  have hs : (0 : ℝ) < (2 : ℝ) ^ (Int.log 2 x - p + 1) := two_zpow_pos _
  have h1 : x < (2 : ℝ) ^ (Int.log 2 x + 1) := by
    simpa using Int.lt_zpow_succ_log_self (b := 2) (by norm_num) x
  have h2 : x / (2 : ℝ) ^ (Int.log 2 x - p + 1) ≤ ((2 ^ p : ℤ) : ℝ) := by
    rw [div_le_iff₀ hs]
    refine h1.le.trans (le_of_eq ?_)
    push_cast
    rw [← zpow_natCast, ← zpow_add₀ (by norm_num)]
    congr 1; ring
  have h3 := round_mono' h2
  rw [round_intCast] at h3
  have h4 : 0 ≤ round (x / (2 : ℝ) ^ (Int.log 2 x - p + 1)) := by
    have := round_mono' (div_nonneg hx.le hs.le : 0 ≤ x / (2 : ℝ) ^ (Int.log 2 x - p + 1))
    simpa using this
  rw [abs_of_nonneg h4]
  exact h3

theorem rndPos_nearest (hp : 1 ≤ p) {x y : ℝ} (hx : 0 < x) (hy : IsFloat p y) :
    |rndPos p x - x| ≤ |y - x| := by
  obtain ⟨m, f, hm, rfl⟩ := hy
  have hs : (0 : ℝ) < (2 : ℝ) ^ (Int.log 2 x - p + 1) := two_zpow_pos _
  have hmul : ∀ n : ℤ, |rndPos p x - x| ≤ |n * (2 : ℝ) ^ (Int.log 2 x - p + 1) - x| := by
    intro n
    have h := round_le (x / (2 : ℝ) ^ (Int.log 2 x - p + 1)) n
    have h' := mul_le_mul_of_nonneg_right h hs.le
    rw [← abs_of_pos hs, ← abs_mul, ← abs_mul, abs_of_pos hs, sub_mul, sub_mul,
      div_mul_cancel₀ _ hs.ne', abs_sub_comm, abs_sub_comm x] at h'
    exact h'
  have hlow : (2 : ℝ) ^ (Int.log 2 x) ≤ x := by
    simpa using Int.zpow_log_le_self (b := 2) (by norm_num) hx
  by_cases hf : Int.log 2 x - p + 1 ≤ f
  · have e : (m : ℝ) * (2 : ℝ) ^ f =
        ((m * 2 ^ (f - (Int.log 2 x - p + 1)).toNat : ℤ) : ℝ) * (2 : ℝ) ^ (Int.log 2 x - p + 1) := by
      push_cast
      rw [mul_assoc, ← zpow_natCast, ← zpow_add₀ (by norm_num)]
      congr 2
      omega
    rw [e]
    exact hmul _
  · have h1 := hmul (2 ^ (p - 1))
    have e : ((2 ^ (p - 1) : ℤ) : ℝ) * (2 : ℝ) ^ (Int.log 2 x - p + 1) = (2 : ℝ) ^ (Int.log 2 x) := by
      push_cast
      rw [← zpow_natCast, ← zpow_add₀ (by norm_num)]
      congr 1
      omega
    rw [e] at h1
    refine h1.trans ?_
    have hy : (m : ℝ) * (2 : ℝ) ^ f ≤ (2 : ℝ) ^ (Int.log 2 x) := by
      have h2 : (m : ℝ) ≤ (2 : ℝ) ^ (p : ℤ) := by
        have : m ≤ 2 ^ p := (le_abs_self m).trans hm
        rw [zpow_natCast]
        exact_mod_cast this
      calc (m : ℝ) * (2 : ℝ) ^ f ≤ (2 : ℝ) ^ (p : ℤ) * (2 : ℝ) ^ f :=
            mul_le_mul_of_nonneg_right h2 (two_zpow_pos f).le
        _ = (2 : ℝ) ^ ((p : ℤ) + f) := by rw [zpow_add₀ (by norm_num)]
        _ ≤ _ := zpow_le_zpow_right₀ (by norm_num) (by omega)
    rw [abs_of_nonpos (by linarith), abs_of_nonpos (by linarith)]
    linarith

/-- Rounding to nearest, ties away from zero. -/
noncomputable def away (p : Nat) (hp : 1 ≤ p) : Rounding p where
  rnd x := if 0 < x then rndPos p x else if x < 0 then -rndPos p (-x) else 0
  isFloat x := by
    split
    · exact rndPos_isFloat (by assumption)
    · split
      · exact (rndPos_isFloat (by linarith)).neg
      · exact isFloat_zero
  nearest x y hy := by
    split
    · exact rndPos_nearest hp (by assumption) hy
    · split
      · have := rndPos_nearest hp (x := -x) (by linarith) hy.neg
        rw [← abs_neg, ← abs_neg (y - x)]
        convert this using 2 <;> ring
      · have : x = 0 := by linarith
        simp [this]
  neg x := by
    rcases lt_trichotomy x 0 with h | h | h
    · simp [h, h.le, not_lt.2 h.le]
    · simp [h]
    · simp [h, not_lt.2 h.le]

/-- The left-to-right order of `std::accumulate` on two features, and one that starts from the end. -/
example : (Order.add (.add (.term 0) (.term 1)) (.term 2)).Sums 2 := by
  unfold Order.Sums; decide

example : (Order.add (.term 2) (.add (.term 1) (.term 0))).Sums 2 := by
  unfold Order.Sums; decide

/-- The same with contraction: the second square and the sum it is added to are one operation. -/
example : (Order.fma (.fma (.term 0) 1) 2).Sums 2 := by
  unfold Order.Sums; decide

/-- Rounding does change numbers: with one bit of precision 5 becomes 4. -/
example (R : Rounding 1) : R.rnd 5 ≠ 5 := by
  intro h
  obtain ⟨m, e, hm, h5⟩ := h ▸ R.isFloat 5
  have hm' : -2 ≤ m ∧ m ≤ 2 := by simpa [abs_le] using hm
  have hpos := two_zpow_pos e
  obtain ⟨h1, h2⟩ := hm'
  have hcase : m = 1 ∨ m = 2 := by
    have : 0 < m := by
      by_contra hc
      have : (m : ℝ) ≤ 0 := by exact_mod_cast not_lt.1 hc
      nlinarith
    omega
  have key : ∀ e : ℤ, (2 : ℝ) ^ e ≠ 5 := by
    intro e he
    have a1 : (2 : ℝ) ^ (2 : ℤ) < (2 : ℝ) ^ e := by rw [he]; norm_num
    have a2 : (2 : ℝ) ^ e < (2 : ℝ) ^ (3 : ℤ) := by rw [he]; norm_num
    have b1 := (zpow_lt_zpow_iff_right₀ (by norm_num : (1 : ℝ) < 2)).1 a1
    have b2 := (zpow_lt_zpow_iff_right₀ (by norm_num : (1 : ℝ) < 2)).1 a2
    omega
  rcases hcase with rfl | rfl
  · exact key e (by simpa using h5.symm)
  · refine key (e + 1) ?_
    rw [zpow_add₀ (by norm_num)]
    push_cast at h5
    linarith

/-- Concrete case of the separation hypothesis: integers, with any tolerance below one half. -/
example (R : Rounding 53) (x : Nat → Nat → ℤ) (eps : ℝ) (he : eps < 1 / 2) (a i j : Nat) :
    (x i a : ℝ) = x j a ∨ eps < |R.rnd ((x j a : ℝ) - x i a)| := by
  by_cases h : x i a = x j a
  · exact Or.inl (by rw [h])
  · refine Or.inr ?_
    have h1 : (1 : ℝ) ≤ |(x j a : ℝ) - x i a| := by
      have : 1 ≤ |x j a - x i a| := Int.one_le_abs (by omega)
      exact_mod_cast this
    rw [R.abs]
    have h2 := R.mono h1
    have h3 : R.rnd 1 = 1 := R.of_isFloat ⟨1, 0, by norm_num, by norm_num⟩
    rw [h3] at h2
    linarith

/-- Concrete case of `C77_knn_true`: two features, double precision, a tree with one sample per
leaf. -/
example (x : Nat → Nat → ℝ) (q : Nat → ℝ) :=
  C77_knn_true (away 53 (by norm_num)) (by norm_num) (epsilon 53) (two_zpow_pos _).le 2 x q
    (fun _ => .add (.add (.term 0) (.term 1)) (.term 2)) (fun _ => by unfold Order.Sums; decide)
    (fun _ d _ => d % 2) 1 10 (fun _ _ _ => Nat.mod_lt _ (by norm_num)) 0 0 0 [0, 1, 2, 3] 2
    (by norm_num) (by norm_num)

end Verif.Rounding
