import Verif.Props.DBSCANOrder

/-
How the labels of DBSCAN depend on radius, min_samples and the position of the data: they are monotone
for core samples (C89) and depend on the samples only through which pairs are within the radius (C90).
-/

namespace Verif.DBSCAN

open Verif.KDTree Verif.Search Verif.Distances Verif.Sorting

/-! ### C89 -/

section Abstract

variable {n : Nat} {N N' : Nat → Nat → Bool} {m m' : Nat}

theorem degree_mono (h : ∀ i j, N i j = true → N' i j = true) (i : Nat) : degree n N i ≤ degree n N' i := by
  unfold degree
  exact (List.monotone_filter_right (List.range n) (fun j hj => h i j hj)).length_le

theorem Core.mono (h : ∀ i j, N i j = true → N' i j = true) (hm : m' ≤ m) {i : Nat} (hc : Core n N m i) :
    Core n N' m' i :=
  ⟨hc.1, lt_of_le_of_lt hm (lt_of_lt_of_le hc.2 (degree_mono h i))⟩

theorem DensityConnected.mono (h : ∀ i j, N i j = true → N' i j = true) (hm : m' ≤ m) {i j : Nat}
    (hc : DensityConnected n N m i j) : DensityConnected n N' m' i j := by
  refine ⟨hc.1.mono h hm, hc.2.1.mono h hm, ?_⟩
  obtain ⟨_, _, hp⟩ := hc
  induction hp with
  | refl => exact .refl
  | tail _ h2 ih => exact (ih h2.1).tail ⟨h2.1.mono h hm, h2.2.1.mono h hm, h _ _ h2.2.2⟩

end Abstract

/-- **C89.** With a larger radius and a smaller `min_samples` core samples stay core and labelled, and
core samples with the same label keep a common label: clusters only grow and merge.  Trees, orders of
the indices and options may differ between the two runs.  Missing: that a labelled sample that is not
core stays labelled, which is false (`C89_noise_counterexample`). -/
theorem C89_nested_partial (eps : ℝ) (he : 0 ≤ eps) (nf n : Nat) (hn : n < 2 ^ 64)
    (x : Nat → Nat → ℝ) (dist : Nat → Nat → ℝ)
    (hd : ∀ i j, euclidean (row nf (x j)) (row nf (x i)) = some (dist i j))
    (radius1 radius2 inf : ℝ) (hr : radius1 ≤ radius2) (hinf : ∀ i p a, |x p a - x i a| < inf)
    (policy1 policy2 : List Nat → Nat → Box ℝ → Nat) (bucketSize1 bucketSize2 maxDepth1 maxDepth2 : Nat)
    (hpol1 : ∀ idx d box, policy1 idx d box < nf) (hpol2 : ∀ idx d box, policy2 idx d box < nf)
    (vmax vlowest : ℝ) (idx1 idx2 : List Nat) (hidx1 : idx1.Perm (List.range n))
    (hidx2 : idx2.Perm (List.range n)) (minSamples1 minSamples2 : Nat)
    (hm : minSamples2 ≤ minSamples1) :
    ∃ idx1' idx2' t1 t2 label1 label2,
      make (eqEps eps) x policy1 bucketSize1 maxDepth1 nf vmax vlowest idx1 = some (idx1', t1) ∧
      make (eqEps eps) x policy2 bucketSize2 maxDepth2 nf vmax vlowest idx2 = some (idx2', t2) ∧
      predictTree x (fun v w => |v - w|) dist radius1 inf t1 minSamples1 n = some label1 ∧
      predictTree x (fun v w => |v - w|) dist radius2 inf t2 minSamples2 n = some label2 ∧
      (∀ i, Core n (within dist radius1) minSamples1 i →
        Core n (within dist radius2) minSamples2 i ∧ label2.getD i 0 ≠ 0) ∧
      (∀ i j, Core n (within dist radius1) minSamples1 i → Core n (within dist radius1) minSamples1 j →
        label1.getD i 0 = label1.getD j 0 → label2.getD i 0 = label2.getD j 0) ∧
      (∀ i < n, label1.getD i 0 ≠ 0 → Core n (within dist radius2) minSamples2 i ∨
        ∃ k, Core n (within dist radius2) minSamples2 k ∧ dist k i < radius2) := by
  obtain ⟨idx1', t1, label1, a1, a2, g1⟩ := predictTree_guarantees eps he nf n hn x dist hd radius1
    inf hinf policy1 bucketSize1 maxDepth1 hpol1 vmax vlowest idx1 hidx1 minSamples1
  obtain ⟨idx2', t2, label2, b1, b2, g2⟩ := predictTree_guarantees eps he nf n hn x dist hd radius2
    inf hinf policy2 bucketSize2 maxDepth2 hpol2 vmax vlowest idx2 hidx2 minSamples2
  have hsub : ∀ i j, within dist radius1 i j = true → within dist radius2 i j = true := by
    intro i j h
    simp only [within, decide_eq_true_eq] at h ⊢
    linarith
  refine ⟨idx1', idx2', t1, t2, label1, label2, a1, b1, a2, b2, ?_, ?_, ?_⟩
  · intro i hc
    exact ⟨hc.mono hsub hm, g2.core i (hc.mono hsub hm)⟩
  · intro i j hi hj h
    exact (g2.clusters i j (hi.mono hsub hm) (hj.mono hsub hm)).2
      (((g1.clusters i j hi hj).1 h).mono hsub hm)
  · intro i hi h0
    rcases g1.border i hi h0 with h | ⟨k, h1, h2, _⟩
    · exact .inl (h.mono hsub hm)
    · exact .inr ⟨k, h1.mono hsub hm, by simpa [within] using hsub k i h2⟩

/-- The labels of samples on a line at the given positions, on the tree built from them. -/
def positionLabels (pos : List ℤ) (radius : ℤ) (minSamples : Nat) : Option (List Nat) := do
  let x : Nat → Nat → ℤ := fun i _ => pos.getD i 0
  let (_, t) ← make eqExact x (fun _ _ _ => 0) 1 5 1 1000 (-1000) (List.range pos.length)
  predictTree x (fun v w => |v - w|) (fun i j => |x j 0 - x i 0|) radius 1000 t minSamples pos.length

/-- **C89** is false of samples that are not core: with samples at 0, 6, 3, 4 and radius 4, lowering
`min_samples` from 3 to 2 makes sample 0, labelled before, noise; with samples at 0, 4, 2, 7 and
`min_samples` 2, raising the radius from 3 to 4 does.  The cluster then starts at sample 1, out of reach
of sample 0. -/
theorem C89_noise_counterexample :
    positionLabels [0, 6, 3, 4] 4 3 = some [1, 1, 1, 1] ∧
    positionLabels [0, 6, 3, 4] 4 2 = some [0, 1, 1, 1] ∧
    positionLabels [0, 4, 2, 7] 3 2 = some [1, 1, 1, 0] ∧
    positionLabels [0, 4, 2, 7] 4 2 = some [0, 1, 1, 1] := by
  decide +kernel

/-- Two clusters that merge when the radius grows from 2 to 4. -/
example : positionLabels [0, 1, 2, 5, 6, 7] 2 1 = some [1, 1, 1, 2, 2, 2] ∧
    positionLabels [0, 1, 2, 5, 6, 7] 4 1 = some [1, 1, 1, 1, 1, 1] := by
  decide +kernel

/-! ### C90 -/

theorem QueryOk.congr {n : Nat} {N N' : Nat → Nat → Bool} {q : Nat → Option (List Nat)}
    (h : QueryOk n N' q) (hNN : ∀ i j, i < n → j < n → N i j = N' i j) : QueryOk n N q := by
  intro i hi
  obtain ⟨l, e, hl⟩ := h i hi
  refine ⟨l, e, hl.trans (List.Perm.of_eq ?_)⟩
  exact List.filter_congr fun j hj => (hNN i j hi (List.mem_range.1 hj)).symm

/-- **C90.** The labels depend on the samples only through which pairs are within the radius: two data
sets, of any numbers of features, with two radii, that have the same pairs within the radius get the
same labels, whatever the trees. -/
theorem C90_pairs (eps : ℝ) (he : 0 ≤ eps) (nf1 nf2 n : Nat) (hn : n < 2 ^ 64)
    (x1 x2 : Nat → Nat → ℝ) (dist1 dist2 : Nat → Nat → ℝ)
    (hd1 : ∀ i j, euclidean (row nf1 (x1 j)) (row nf1 (x1 i)) = some (dist1 i j))
    (hd2 : ∀ i j, euclidean (row nf2 (x2 j)) (row nf2 (x2 i)) = some (dist2 i j))
    (radius1 radius2 inf : ℝ) (hinf1 : ∀ i p a, |x1 p a - x1 i a| < inf)
    (hinf2 : ∀ i p a, |x2 p a - x2 i a| < inf)
    (policy1 policy2 : List Nat → Nat → Box ℝ → Nat) (bucketSize1 bucketSize2 maxDepth1 maxDepth2 : Nat)
    (hpol1 : ∀ idx d box, policy1 idx d box < nf1) (hpol2 : ∀ idx d box, policy2 idx d box < nf2)
    (vmax vlowest : ℝ) (idx1 idx2 : List Nat) (hidx1 : idx1.Perm (List.range n))
    (hidx2 : idx2.Perm (List.range n)) (minSamples : Nat)
    (hpairs : ∀ i j, i < n → j < n → (dist1 i j < radius1 ↔ dist2 i j < radius2)) :
    ∃ idx1' idx2' t1 t2 label,
      make (eqEps eps) x1 policy1 bucketSize1 maxDepth1 nf1 vmax vlowest idx1 = some (idx1', t1) ∧
      make (eqEps eps) x2 policy2 bucketSize2 maxDepth2 nf2 vmax vlowest idx2 = some (idx2', t2) ∧
      predictTree x1 (fun v w => |v - w|) dist1 radius1 inf t1 minSamples n = some label ∧
      predictTree x2 (fun v w => |v - w|) dist2 radius2 inf t2 minSamples n = some label := by
  obtain ⟨idx1', t1, e1, hN, hq1⟩ := predictTree_query eps he nf1 n hn x1 dist1 hd1 radius1 inf hinf1
    policy1 bucketSize1 maxDepth1 hpol1 vmax vlowest idx1 hidx1
  obtain ⟨idx2', t2, e2, _, hq2⟩ := predictTree_query eps he nf2 n hn x2 dist2 hd2 radius2 inf hinf2
    policy2 bucketSize2 maxDepth2 hpol2 vmax vlowest idx2 hidx2
  obtain ⟨label, h1, _⟩ := predict_label (minSamples := minSamples) hN hq1
  refine ⟨idx1', idx2', t1, t2, label, e1, e2, h1, ?_⟩
  have := hq2.congr (N := within dist1 radius1) (fun i j hi hj => by
    simp only [within, decide_eq_decide]
    exact hpairs i j hi hj)
  exact (C76_same_abstract hN hq1 this).symm.trans h1

theorem euclidean_affine {nf : Nat} (s : ℝ) (hs : 0 < s) (v : Nat → ℝ) (u w : Nat → ℝ) {d d' : ℝ}
    (h : euclidean (row nf u) (row nf w) = some d)
    (h' : euclidean (row nf fun a => s * u a + v a) (row nf fun a => s * w a + v a) = some d') :
    d' = s * d := by
  rw [euclidean_eq (by simp [row])] at h h'
  rw [← Option.some.inj h, ← Option.some.inj h']
  have key : (List.zipWith (fun a b => (a - b) * (a - b)) (row nf fun a => s * u a + v a)
      (row nf fun a => s * w a + v a)).sum =
      s ^ 2 * (List.zipWith (fun a b => (a - b) * (a - b)) (row nf u) (row nf w)).sum := by
    simp only [row]
    induction List.range nf with
    | nil => simp
    | cons a l ih =>
      simp only [List.map_cons, List.zipWith_cons_cons, List.sum_cons, ih]
      ring
  rw [key, Real.sqrt_mul (sq_nonneg s), Real.sqrt_sq hs.le]

/-- **C90** for the usual changes of the data: translating all samples by a vector, scaling them and the
radius by a positive factor. -/
theorem C90_affine (eps : ℝ) (he : 0 ≤ eps) (nf n : Nat) (hn : n < 2 ^ 64)
    (x : Nat → Nat → ℝ) (dist dist' : Nat → Nat → ℝ) (s : ℝ) (hs : 0 < s) (v : Nat → ℝ)
    (hd : ∀ i j, euclidean (row nf (x j)) (row nf (x i)) = some (dist i j))
    (hd' : ∀ i j, euclidean (row nf fun a => s * x j a + v a) (row nf fun a => s * x i a + v a) =
      some (dist' i j))
    (radius inf : ℝ) (hinf : ∀ i p a, |x p a - x i a| < inf) (hinf' : ∀ i p a, s * |x p a - x i a| < inf)
    (policy1 policy2 : List Nat → Nat → Box ℝ → Nat) (bucketSize1 bucketSize2 maxDepth1 maxDepth2 : Nat)
    (hpol1 : ∀ idx d box, policy1 idx d box < nf) (hpol2 : ∀ idx d box, policy2 idx d box < nf)
    (vmax vlowest : ℝ) (idx1 idx2 : List Nat) (hidx1 : idx1.Perm (List.range n))
    (hidx2 : idx2.Perm (List.range n)) (minSamples : Nat) :
    ∃ idx1' idx2' t1 t2 label,
      make (eqEps eps) x policy1 bucketSize1 maxDepth1 nf vmax vlowest idx1 = some (idx1', t1) ∧
      make (eqEps eps) (fun i a => s * x i a + v a) policy2 bucketSize2 maxDepth2 nf vmax vlowest idx2 =
        some (idx2', t2) ∧
      predictTree x (fun v w => |v - w|) dist radius inf t1 minSamples n = some label ∧
      predictTree (fun i a => s * x i a + v a) (fun v w => |v - w|) dist' (s * radius) inf t2 minSamples
        n = some label := by
  refine C90_pairs eps he nf nf n hn x (fun i a => s * x i a + v a) dist dist' hd hd' radius (s * radius)
    inf hinf ?_ policy1 policy2 bucketSize1 bucketSize2 maxDepth1 maxDepth2 hpol1 hpol2 vmax vlowest idx1
    idx2 hidx1 hidx2 minSamples ?_
  · intro i p a
    have := hinf' i p a
    rwa [show s * x p a + v a - (s * x i a + v a) = s * (x p a - x i a) by ring, abs_mul,
      abs_of_pos hs]
  · intro i j _ _
    rw [euclidean_affine s hs v (x j) (x i) (hd i j) (hd' i j)]
    exact (mul_lt_mul_iff_right₀ hs).symm

/-- Positions 0, 1, 2, 5, 6, 7 scaled by 3 and moved by -10, with the radius scaled by 3. -/
example : positionLabels [-10, -7, -4, 5, 8, 11] 6 1 = positionLabels [0, 1, 2, 5, 6, 7] 2 1 := by
  decide +kernel

end Verif.DBSCAN
