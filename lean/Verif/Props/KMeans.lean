import Verif.Lemmas.Objective
import Mathlib.Algebra.Order.Ring.Rat

/-
Properties of prediction, Lloyd steps and Hamerly steps (C41, C42, C43).
-/

namespace Verif.KMeans

set_option linter.unusedSectionVars false

/-! ### C41 -/

/-- **C41**: `predict` gives every sample the first centroid at minimum distance and `forward` that
distance.  Missing: integral data, for which `infinity<DataType>()` is 0 and `hinf` never holds; the
claim is false there (`C41_integral_counterexample`). -/
theorem C41_predict_partial {V K : Type} [LinearOrder K] (inf : K) (dist : V → V → K) (xs cs : List V)
    (hne : cs ≠ []) (hinf : ∀ x ∈ xs, ∀ c ∈ cs, dist x c < inf) :
    (nearestIndices inf dist xs cs).length = xs.length ∧
    (nearestDistances inf dist xs cs).length = xs.length ∧
    ∀ (i : Nat) x, xs[i]? = some x → ∃ t c, (nearestIndices inf dist xs cs)[i]? = some t ∧
      FirstNearest dist cs x t ∧ cs[t]? = some c ∧
      (nearestDistances inf dist xs cs)[i]? = some (dist x c) := by
  refine ⟨by simp [nearestIndices], by simp [nearestDistances], ?_⟩
  intro i x hx
  obtain ⟨t, c, hc, h1, h2, h3, h4⟩ := nearest_spec inf dist cs x hne
    (hinf x (List.mem_of_getElem? hx))
  refine ⟨t, c, ?_, ⟨c, hc, h3, h4⟩, hc, ?_⟩
  · simp [nearestIndices, hx, h1]
  · simp [nearestDistances, hx, h2]

example : nearestIndices (1000 : ℚ) (fun a b => |a - b|) [0, 4, 11, 5] [10, 0, 10, 0] = [1, 1, 0, 0] ∧
    nearestDistances (1000 : ℚ) (fun a b => |a - b|) [0, 4, 11, 5] [10, 0, 10, 0] = [0, 4, 1, 5] := by
  decide +kernel

/-- For integral data `infinity<DataType>()` is 0 and no distance is below it: every sample is
predicted to centroid 0 at distance 0, whatever the centroids. -/
theorem C41_integral {V K : Type} [LinearOrder K] [Zero K] (dist : V → V → K)
    (h0 : ∀ a b, 0 ≤ dist a b) (xs cs : List V) :
    nearestIndices 0 dist xs cs = List.replicate xs.length 0 ∧
    nearestDistances 0 dist xs cs = List.replicate xs.length 0 := by
  have key : ∀ x, nearestLoop dist x 0 cs (0, 0) = (0, 0) := by
    intro x
    rcases nearestLoop_spec dist x cs 0 0 (0 : K) with ⟨e, _⟩ | ⟨t, c, _, _, hlt, _⟩
    · exact e
    · exact absurd hlt (not_lt.2 (h0 _ _))
  constructor
  · rw [List.eq_replicate_iff]
    refine ⟨by simp [nearestIndices], ?_⟩
    intro i hi
    obtain ⟨x, _, rfl⟩ := List.mem_map.1 hi
    rw [key]
  · rw [List.eq_replicate_iff]
    refine ⟨by simp [nearestDistances], ?_⟩
    intro i hi
    obtain ⟨x, _, rfl⟩ := List.mem_map.1 hi
    rw [minLoop_eq dist x cs 0 0, key]

/-- So C41 is false for integral data: sample 10 is predicted to the centroid 0 at distance 0 although
the centroid 10 exists. -/
theorem C41_integral_counterexample :
    ¬ FirstNearest (fun a b : ℤ => |a - b|) [0, 10] 10
      ((nearestIndices 0 (fun a b : ℤ => |a - b|) [10] [0, 10]).getD 0 0) := by
  rw [(C41_integral (fun a b : ℤ => |a - b|) (fun a b => abs_nonneg _) _ _).1]
  rintro ⟨c, hc, h, _⟩
  have hc0 : c = 0 := by simpa using hc.symm
  subst hc0
  have := h 10 (by simp)
  simp at this

/-! ### C42 -/

variable {nf : Nat}

/-- **C42**, one step: it does not fail, does not increase the objective, moves every centroid with
samples to the mean of its samples and leaves the buffers of the new centroids. -/
theorem C42_lloyd_step (inf : ℝ) (xs cs : List (Fin nf → ℝ)) (hne : cs ≠ [])
    (hinf : ∀ x ∈ xs, ∀ c ∈ cs, edist x c < inf) :
    ∃ s', lloydStep inf edist xs (lloydInit inf edist xs cs) = some s' ∧
      s' = lloydInit inf edist xs s'.centroids ∧ s'.centroids.length = cs.length ∧
      objective xs s'.centroids ≤ objective xs cs ∧
      ∀ j, j < cs.length → s'.centroids[j]? =
        some (if members (xs.zip (nearestIndices inf edist xs cs)) j = [] then 0
              else mean (K := ℝ) (members (xs.zip (nearestIndices inf edist xs cs)) j)) := by
  have hnear : ∀ p ∈ xs.zip (nearestIndices inf edist xs cs), Nearest edist cs p.1 p.2 := by
    intro p hp
    obtain ⟨i, hi⟩ := List.getElem?_of_mem hp
    obtain ⟨hx, ha⟩ := List.getElem?_zip_eq_some.1 hi
    obtain ⟨t, c, h1, ⟨c', hc', hmin, _⟩, _⟩ := (C41_predict_partial inf edist xs cs hne hinf).2.2 i p.1 hx
    rw [h1] at ha
    rw [← Option.some.inj ha]
    exact ⟨c', hc', hmin⟩
  obtain ⟨sizes, sums, e1, e2, ht⟩ := cluster_spec cs.length xs (nearestIndices inf edist xs cs)
    (by simp [nearestIndices]) (by
      intro i hi
      simp only [nearestIndices, List.mem_map] at hi
      obtain ⟨x, hx, rfl⟩ := hi
      obtain ⟨t, c, hc, he, _⟩ := nearest_spec inf edist cs x hne (hinf x hx)
      rw [he]
      exact (List.getElem?_eq_some_iff.1 hc).1)
  have hl := ht.length
  have hget : ∀ j, j < cs.length →
      (List.zipWith (lloydCentroid (K := ℝ)) sizes sums)[j]? =
        some (if members (xs.zip (nearestIndices inf edist xs cs)) j = [] then 0
              else mean (K := ℝ) (members (xs.zip (nearestIndices inf edist xs cs)) j)) := by
    intro j hj
    obtain ⟨h1, h2⟩ := ht.get hj
    rw [List.getElem?_zipWith, h1, h2]
    simp only [lloydCentroid, List.length_eq_zero_iff]
    congr 1
    split
    · rename_i hm
      rw [hm]; rfl
    · rfl
  refine ⟨lloydInit inf edist xs (List.zipWith (lloydCentroid (K := ℝ)) sizes sums), ?_, rfl,
    by simp [lloydInit, hl], ?_, hget⟩
  · simp only [lloydStep, lloydInit, e1, e2, Option.bind_eq_bind, Option.bind_some]
  · apply objective_means xs cs _ (nearestIndices inf edist xs cs) (by simp [nearestIndices])
      (by simp [lloydInit, hl]) hnear
    intro j hj hm
    have := hget j hj
    rw [if_neg hm] at this
    exact this

/-- **C42**, any number of steps.  `B` bounds the coordinates of the samples and of the initial
centroids; the only condition is that distances in that box are below `inf`. -/
theorem C42_lloyd_run (inf B : ℝ) (xs cs : List (Fin nf → ℝ)) (hne : cs ≠ [])
    (hx : ∀ x ∈ xs, InBox B x) (hc : ∀ c ∈ cs, InBox B c) (hinf : 2 * B * nf < inf) (n : Nat) :
    ∃ s s', runN (lloydStep inf edist xs) n (lloydInit inf edist xs cs) = some s ∧
      lloydStep inf edist xs s = some s' ∧ s = lloydInit inf edist xs s.centroids ∧
      s.centroids.length = cs.length ∧
      (∀ p ∈ xs.zip s.assigned, Nearest edist s.centroids p.1 p.2) ∧
      objective xs s'.centroids ≤ objective xs s.centroids ∧
      objective xs s.centroids ≤ objective xs cs := by
  have hbase : ∀ cs' : List (Fin nf → ℝ), (∀ c ∈ cs', InBox B c) →
      ∀ x ∈ xs, ∀ c ∈ cs', edist x c < inf :=
    fun cs' h x hx' c hc' => (edist_box (hx x hx') (h c hc')).trans_lt hinf
  have main : ∃ s, runN (lloydStep inf edist xs) n (lloydInit inf edist xs cs) = some s ∧
      s = lloydInit inf edist xs s.centroids ∧ s.centroids.length = cs.length ∧
      (∀ c ∈ s.centroids, InBox B c) ∧ objective xs s.centroids ≤ objective xs cs := by
    induction n with
    | zero => exact ⟨_, rfl, rfl, rfl, hc, le_rfl⟩
    | succ n ih =>
      obtain ⟨s, e, hs, hlen, hbox, hobj⟩ := ih
      have hne' : s.centroids ≠ [] := by
        intro h
        rw [h] at hlen
        exact hne (List.length_eq_zero_iff.1 hlen.symm)
      obtain ⟨s', e', hs', hlen', hobj', hget⟩ := C42_lloyd_step inf xs s.centroids hne'
        (hbase _ hbox)
      rw [← hs] at e'
      refine ⟨s', ?_, hs', hlen'.trans hlen, ?_, hobj'.trans hobj⟩
      · simp only [runN, e, Option.bind_some, e']
      · intro c hc'
        obtain ⟨j, hj⟩ := List.getElem?_of_mem hc'
        have hjl := (List.getElem?_eq_some_iff.1 hj).1
        rw [hlen'] at hjl
        rw [hget j hjl] at hj
        rw [← Option.some.inj hj]
        split
        · intro f
          have h0 : 0 ≤ B := by
            obtain ⟨c0, hc0⟩ := List.exists_mem_of_ne_nil cs hne
            exact (abs_nonneg _).trans (hc c0 hc0 f)
          simpa using h0
        · rename_i hm
          exact mean_box B _ hm fun v hv => hx v (List.of_mem_zip (members_mem hv)).1
  obtain ⟨s, e, hs, hlen, hbox, hobj⟩ := main
  have hne' : s.centroids ≠ [] := by
    intro h
    rw [h] at hlen
    exact hne (List.length_eq_zero_iff.1 hlen.symm)
  obtain ⟨s', e', _, _, hobj', _⟩ := C42_lloyd_step inf xs s.centroids hne' (hbase _ hbox)
  rw [← hs] at e'
  refine ⟨s, s', e, e', hs, hlen, ?_, hobj', hobj⟩
  intro p hp
  obtain ⟨i, hi⟩ := List.getElem?_of_mem hp
  obtain ⟨hxi, ha⟩ := List.getElem?_zip_eq_some.1 hi
  obtain ⟨t, c, h1, ⟨c', hc', hmin, _⟩, _⟩ :=
    (C41_predict_partial inf edist xs s.centroids hne' (hbase _ hbox)).2.2 i p.1 hxi
  rw [hs] at ha
  simp only [lloydInit] at ha
  rw [h1] at ha
  rw [← Option.some.inj ha]
  exact ⟨c', hc', hmin⟩

/-- The hypotheses are met by, for instance, three points of the plane and two centroids. -/
example : ([![1, 0], ![0, 1]] : List (Fin 2 → ℝ)) ≠ [] ∧
    (∀ x ∈ ([![0, 0], ![3, 1], ![4, 0]] : List (Fin 2 → ℝ)), InBox 4 x) ∧
    (∀ c ∈ ([![1, 0], ![0, 1]] : List (Fin 2 → ℝ)), InBox 4 c) ∧ (2 * 4 * (2 : Nat) : ℝ) < 100 := by
  refine ⟨by simp, ?_, ?_, by norm_num⟩
  · intro x hx f
    fin_cases hx <;> fin_cases f <;> simp <;> norm_num
  · intro x hx f
    fin_cases hx <;> fin_cases f <;> simp

/-- The loss that `total_deviation` reports is the sum of the distances, not of their squares; a step
can increase it: samples 0, 0, 10 with the centroid 0 (10 before the step, 40/3 after it). -/
theorem C42_reported_loss_increases :
    (lloydInit (1000 : ℚ) (fun a b => |a - b|) [0, 0, 10] [0]).loss = 10 ∧
    (lloydStep (1000 : ℚ) (fun a b => |a - b|) [0, 0, 10]
      (lloydInit 1000 (fun a b => |a - b|) [0, 0, 10] [0])).map (·.loss) = some (40 / 3) := by
  decide +kernel

/-- A centroid without samples is moved to the origin: samples 10, 11 with centroids 10, 50. -/
theorem C42_empty_cluster_to_origin :
    (lloydStep (1000 : ℚ) (fun a b => |a - b|) [10, 11]
      (lloydInit 1000 (fun a b => |a - b|) [10, 11] [10, 50])).map (·.centroids) = some [21 / 2, 0] := by
  decide +kernel

/-! ### C43 -/

/-- **C43**: from initial centroids without (almost) tied nearest centroids, after any number of steps
the next step succeeds, assigns every sample to a centroid that is nearest among the centroids before
the step although most distances are not computed, moves every centroid with samples to the mean of
its samples and keeps the others; the bounds are valid for the new centroids and the sizes and sums are
those of the assignment.  `inf` and `vmax` only have to exceed the initial distances.  Missing: initial
ties, where the claim is false (`C43_ties_counterexample`). -/
theorem C43_hamerly_partial {V K : Type} [AddCommGroup V] [Field K] [LinearOrder K]
    [IsStrictOrderedRing K] [Module K V] (inf vmax lowest eps : K) (heps : 0 ≤ eps) (hlow : lowest ≤ 0)
    (dist : V → V → K) (hd : IsDist dist) (xs cs : List V) (hne : cs ≠ [])
    (hinf : ∀ x ∈ xs, ∀ c ∈ cs, dist x c < inf) (hmax : ∀ x ∈ xs, ∀ c ∈ cs, dist x c < vmax)
    (hties : NoTies (Sorting.eqEps eps) dist xs cs) (n : Nat) :
    ∃ s0 s s', hamerlyInit inf vmax (Sorting.eqEps eps) dist xs cs = some s0 ∧
      runN (hamerlyStep inf lowest dist xs) n s0 = some s ∧
      hamerlyStep inf lowest dist xs s = some s' ∧
      s'.cached.length = xs.length ∧ s'.centroids.length = cs.length ∧
      (∀ p ∈ xs.zip (s'.cached.map (·.assigned)), Nearest dist s.centroids p.1 p.2) ∧
      (∀ (j : Nat) c, s.centroids[j]? = some c → s'.centroids[j]? =
        some (if members (xs.zip (s'.cached.map (·.assigned))) j = [] then c
              else mean (K := K) (members (xs.zip (s'.cached.map (·.assigned))) j))) ∧
      (∀ (i : Nat) x q, xs[i]? = some x → s'.cached[i]? = some q →
        (∃ c, s'.centroids[q.assigned]? = some c ∧ dist x c ≤ q.upper) ∧
        ∀ (j : Nat) c, j ≠ q.assigned → s'.centroids[j]? = some c → q.lower ≤ dist x c) ∧
      Tally cs.length (xs.zip (s'.cached.map (·.assigned))) s'.sizes s'.sums := by
  obtain ⟨s0, e0, hinv0, hcs0⟩ := init_spec inf vmax (Sorting.eqEps eps)
    (by intro a; simp [Sorting.eqEps, heps]) dist xs cs hne hinf hmax hties
  have main : ∃ s, runN (hamerlyStep inf lowest dist xs) n s0 = some s ∧ HInv dist xs s ∧
      s.centroids.length = cs.length := by
    induction n with
    | zero => exact ⟨s0, rfl, hinv0, by rw [hcs0]⟩
    | succ n ih =>
      obtain ⟨s, e, hinv, hlen⟩ := ih
      obtain ⟨s', e', hinv', hlen', _⟩ := step_spec inf lowest hlow hd hinv (by
        intro h
        rw [h] at hlen
        exact hne (List.length_eq_zero_iff.1 hlen.symm))
      exact ⟨s', by simp only [runN, e, Option.bind_some, e'], hinv', hlen'.trans hlen⟩
  obtain ⟨s, e, hinv, hlen⟩ := main
  obtain ⟨s', e', hinv', hlen', hnear, hcent⟩ := step_spec inf lowest hlow hd hinv (by
    intro h
    rw [h] at hlen
    exact hne (List.length_eq_zero_iff.1 hlen.symm))
  have hp : pairs (xs.zip s'.cached) = xs.zip (s'.cached.map (·.assigned)) := by
    rw [pairs, List.zip_map_right]
    rfl
  have ht := hinv'.tally
  rw [hp] at hnear hcent ht
  refine ⟨s0, s, s', e0, e, e', hinv'.len, hlen'.trans hlen, hnear, hcent, ?_, ?_⟩
  · intro i x q hx hq
    have := hinv'.bounds (x, q) (List.mem_of_getElem? (i := i)
      (List.getElem?_zip_eq_some.2 ⟨hx, hq⟩))
    exact ⟨this.upper, this.lower⟩
  · rw [hlen', hlen] at ht
    exact ht

/-- Hence the objective never increases along a Hamerly run with Euclidean distances. -/
theorem C43_objective_partial (inf vmax lowest eps : ℝ) (heps : 0 ≤ eps) (hlow : lowest ≤ 0)
    (xs cs : List (Fin nf → ℝ)) (hne : cs ≠ [])
    (hinf : ∀ x ∈ xs, ∀ c ∈ cs, edist x c < inf) (hmax : ∀ x ∈ xs, ∀ c ∈ cs, edist x c < vmax)
    (hties : NoTies (Sorting.eqEps eps) edist xs cs) (n : Nat) :
    ∃ s0 s s', hamerlyInit inf vmax (Sorting.eqEps eps) edist xs cs = some s0 ∧
      runN (hamerlyStep inf lowest edist xs) n s0 = some s ∧
      hamerlyStep inf lowest edist xs s = some s' ∧
      objective xs s'.centroids ≤ objective xs s.centroids := by
  obtain ⟨s0, s, s', e0, e, e', hlen, hcl, hnear, hcent, _, ht⟩ := C43_hamerly_partial inf vmax lowest
    eps heps hlow edist edist_isDist xs cs hne hinf hmax hties n
  refine ⟨s0, s, s', e0, e, e', ?_⟩
  have hsl : s.centroids.length = cs.length := by
    cases n with
    | zero =>
      simp only [runN, Option.some.injEq] at e
      subst e
      obtain ⟨s1, e1, _, h1⟩ := init_spec inf vmax (Sorting.eqEps eps)
        (by intro a; simp [Sorting.eqEps, heps]) edist xs cs hne hinf hmax hties
      rw [e0] at e1
      rw [Option.some.inj e1, h1]
    | succ n =>
      obtain ⟨t0, t, t', f0, f, f', _, hl, _⟩ := C43_hamerly_partial inf vmax lowest
        eps heps hlow edist edist_isDist xs cs hne hinf hmax hties n
      rw [e0] at f0
      obtain rfl := Option.some.inj f0
      simp only [runN, f, Option.bind_some, f'] at e
      rw [← Option.some.inj e]
      exact hl
  apply objective_means xs s.centroids s'.centroids (s'.cached.map (·.assigned)) (by simp [hlen])
    (by rw [hcl, hsl]) hnear
  intro j hj hm
  rw [hcent j _ (List.getElem?_eq_getElem hj), if_neg hm]

/-- A run that meets the hypotheses and in which a sample changes its cluster: samples 0, 1, 5, 6, 10
with centroids 0 and 4. -/
example : NoTies (Sorting.eqEps 0) (fun a b : ℚ => |a - b|) [0, 1, 5, 6, 10] [0, 4] ∧
    ((hamerlyInit (1000 : ℚ) 1000 (Sorting.eqEps 0) (fun a b => |a - b|) [0, 1, 5, 6, 10] [0, 4]).bind
      (runN (hamerlyStep 1000 (-1000) (fun a b => |a - b|) [0, 1, 5, 6, 10]) 2)).map (·.centroids) =
      some [1 / 2, 7] := by
  constructor
  · intro x hx i j c c' hc hc' hij hmin
    have h2 : ∀ (i : Nat) (c : ℚ), ([0, 4] : List ℚ)[i]? = some c → (i = 0 ∧ c = 0) ∨ (i = 1 ∧ c = 4) := by
      intro i c h
      match i, h with
      | 0, h => left; simpa using h.symm
      | 1, h => right; simpa using h.symm
      | (n + 2), h => simp at h
    rcases h2 i c hc with ⟨rfl, rfl⟩ | ⟨rfl, rfl⟩ <;> rcases h2 j c' hc' with ⟨rfl, rfl⟩ | ⟨rfl, rfl⟩ <;>
      first
      | exact absurd rfl hij
      | (fin_cases hx <;> decide +kernel)
  · decide +kernel

/-- The property is false when a sample is tied initially: `samples_to_second_nearest_centroid_distances`
skips distances equal to the minimum, so the lower bound of sample 0 between the centroids -1 and 1 is
`numeric_limits::max()`.  The second step leaves it with the centroid that has moved to -7/2 although
the centroid 1 is nearer. -/
theorem C43_ties_counterexample :
    ((hamerlyInit (1000 : ℚ) 1000 (Sorting.eqEps 0) (fun a b => |a - b|) [0, -7, 1] [-1, 1]).bind
      (runN (hamerlyStep 1000 (-1000) (fun a b => |a - b|) [0, -7, 1]) 1)).map (·.centroids) =
        some [-7 / 2, 1] ∧
    ((hamerlyInit (1000 : ℚ) 1000 (Sorting.eqEps 0) (fun a b => |a - b|) [0, -7, 1] [-1, 1]).bind
      (runN (hamerlyStep 1000 (-1000) (fun a b => |a - b|) [0, -7, 1]) 2)).map
        (fun s => s.cached.map (·.assigned)) = some [0, 0, 1] ∧
    ¬ Nearest (fun a b : ℚ => |a - b|) [-7 / 2, 1] 0 0 := by
  refine ⟨by decide +kernel, by decide +kernel, ?_⟩
  rintro ⟨c, hc, h⟩
  simp at hc
  subst hc
  have := h 1 (by simp)
  revert this
  decide +kernel

/-- The loss reported by `total_deviation` is only adjusted when a sample is reassigned, not when the
centroids move: samples 0, 2 with the centroid 0 keep the loss 2 though the distances are then 1 and
1 — and with samples 0, 0, 6 the reported loss is 6 and the sum of distances 8. -/
theorem C43_reported_loss_stale :
    ((hamerlyInit (1000 : ℚ) 1000 (Sorting.eqEps 0) (fun a b => |a - b|) [0, 0, 6] [0]).bind
      (hamerlyStep 1000 (-1000) (fun a b => |a - b|) [0, 0, 6])).map
        (fun s => (s.loss, (nearestDistances 1000 (fun a b => |a - b|) [0, 0, 6] s.centroids).sum)) =
      some (6, 8) := by
  decide +kernel

end Verif.KMeans
