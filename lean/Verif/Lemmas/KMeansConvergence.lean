import Verif.Lemmas.Objective
import Mathlib.Data.Set.Finite.List
import Mathlib.Data.Set.Finite.Range
import Mathlib.Data.Set.Finite.Lattice

/-
Alternating "assign to a nearest centroid" and "move to the mean" settles: the cost decreases and takes
finitely many values, and the mean is the only minimiser.
-/

namespace Verif.KMeans

set_option linter.unusedSectionVars false

variable {nf : Nat}

theorem mean_one_unique (l : List ℝ) (hl : l ≠ []) (c : ℝ)
    (h : (l.map fun a => (a - c) ^ 2).sum ≤ (l.map fun a => (a - (l.length : ℝ)⁻¹ * l.sum) ^ 2).sum) :
    c = (l.length : ℝ)⁻¹ * l.sum := by
  have hn : (0 : ℝ) < l.length := by
    have := List.length_pos_iff.2 hl
    exact_mod_cast this
  rw [sum_sq_expand, sum_sq_expand] at h
  have e : (l.length : ℝ) * (c - (l.length : ℝ)⁻¹ * l.sum) ^ 2 =
      (- 2 * c * l.sum + l.length * c ^ 2) -
        (- 2 * ((l.length : ℝ)⁻¹ * l.sum) * l.sum + l.length * ((l.length : ℝ)⁻¹ * l.sum) ^ 2) := by
    field_simp
    ring
  have h2 : (l.length : ℝ) * (c - (l.length : ℝ)⁻¹ * l.sum) ^ 2 ≤ 0 := by linarith
  have h3 : (c - (l.length : ℝ)⁻¹ * l.sum) ^ 2 ≤ 0 := by
    by_contra hcon
    have := mul_pos hn (not_le.1 hcon)
    linarith
  have h4 : c - (l.length : ℝ)⁻¹ * l.sum = 0 := by
    have := le_antisymm h3 (sq_nonneg _)
    exact pow_eq_zero_iff (two_ne_zero) |>.1 this
  linarith

/-- The mean is the only point with the minimal sum of squared distances. -/
theorem mean_unique (l : List (Fin nf → ℝ)) (hl : l ≠ []) (c : Fin nf → ℝ)
    (h : (l.map fun v => sq v c).sum ≤ (l.map fun v => sq v (mean (K := ℝ) l)).sum) :
    c = mean (K := ℝ) l := by
  have em : ∀ f, mean (K := ℝ) l f = (l.length : ℝ)⁻¹ * (l.map fun v => v f).sum := by
    intro f
    rw [mean, Pi.smul_apply, sum_apply', smul_eq_mul]
  have hle : ∀ f ∈ (Finset.univ : Finset (Fin nf)),
      (l.map fun v => (v f - mean (K := ℝ) l f) ^ 2).sum ≤ (l.map fun v => (v f - c f) ^ 2).sum := by
    intro f _
    have := mean_le_one (l.map fun v => v f) (by simpa using hl) (c f)
    simp only [List.map_map, List.length_map] at this
    rw [em]
    exact this
  simp only [sq] at h
  rw [sum_comm' (fun v f => (v f - mean (K := ℝ) l f) ^ 2), sum_comm' (fun v f => (v f - c f) ^ 2)] at h
  have heq := (Finset.sum_eq_sum_iff_of_le hle).1 (le_antisymm (Finset.sum_le_sum hle) h)
  funext f
  have hf := (heq f (Finset.mem_univ f)).ge
  rw [em] at hf ⊢
  have := mean_one_unique (l.map fun v => v f) (by simpa using hl) (c f)
    (by simp only [List.map_map, List.length_map]; exact hf)
  simpa using this

/-- When moving to the means does not lower the cost, no centroid with samples moves. -/
theorem cost_means_eq (cs cs' : List (Fin nf → ℝ)) (ps : List ((Fin nf → ℝ) × Nat))
    (hp : ∀ p ∈ ps, p.2 < cs.length)
    (h : ∀ j, j < cs.length → members ps j ≠ [] → cs'.getD j 0 = mean (K := ℝ) (members ps j))
    (hc : cost cs ps ≤ cost cs' ps) (j : Nat) (hj : j < cs.length) (hm : members ps j ≠ []) :
    cs.getD j 0 = cs'.getD j 0 := by
  have hle : ∀ j ∈ Finset.range cs.length, ((members ps j).map fun x => sq x (cs'.getD j 0)).sum ≤
      ((members ps j).map fun x => sq x (cs.getD j 0)).sum := by
    intro j hj
    by_cases hm : members ps j = []
    · simp [hm]
    · rw [h j (Finset.mem_range.1 hj) hm]
      exact mean_le _ hm _
  rw [cost, cost, sum_by_cluster cs.length (fun x j => sq x (cs'.getD j 0)) ps hp,
    sum_by_cluster cs.length (fun x j => sq x (cs.getD j 0)) ps hp] at hc
  have heq := (Finset.sum_eq_sum_iff_of_le hle).1 (le_antisymm (Finset.sum_le_sum hle) hc)
  have := (heq j (Finset.mem_range.2 hj)).ge
  rw [h j hj hm] at this ⊢
  exact mean_unique _ hm _ this

/-- The cost of an assignment to the centroids is at least that of the nearest one. -/
theorem cost_nearest_le (xs cs : List (Fin nf → ℝ)) (a b : List Nat) (ha : a.length = xs.length)
    (hb : b.length = xs.length) (hn : ∀ p ∈ xs.zip a, Nearest edist cs p.1 p.2)
    (hp : ∀ p ∈ xs.zip b, p.2 < cs.length) : cost cs (xs.zip a) ≤ cost cs (xs.zip b) := by
  rw [← objective_eq_cost xs cs a ha hn]
  exact objective_le_cost xs cs b hb hp

/-- A run that alternates between assigning every sample to a nearest centroid and moving every
centroid with samples to the mean of its samples. -/
structure Alternates (xs : List (Fin nf → ℝ)) (k : Nat) (c : Nat → List (Fin nf → ℝ))
    (a : Nat → List Nat) : Prop where
  lenC : ∀ t, (c t).length = k
  lenA : ∀ t, (a t).length = xs.length
  near : ∀ t, ∀ p ∈ xs.zip (a t), Nearest edist (c t) p.1 p.2
  means : ∀ t j, j < k → members (xs.zip (a t)) j ≠ [] →
    (c (t + 1))[j]? = some (mean (K := ℝ) (members (xs.zip (a t)) j))

namespace Alternates

variable {xs : List (Fin nf → ℝ)} {k : Nat} {c : Nat → List (Fin nf → ℝ)} {a : Nat → List Nat}

theorem index_lt (h : Alternates xs k c a) (t : Nat) : ∀ p ∈ xs.zip (a t), p.2 < k := by
  intro p hp
  obtain ⟨v, hv, _⟩ := h.near t p hp
  have := (List.getElem?_eq_some_iff.1 hv).1
  rwa [h.lenC] at this

theorem assigned_lt (h : Alternates xs k c a) (t : Nat) : ∀ j ∈ a t, j < k := by
  intro j hj
  rw [← List.map_snd_zip (l₁ := xs) (h.lenA t).le] at hj
  obtain ⟨p, hp, rfl⟩ := List.mem_map.1 hj
  exact h.index_lt t p hp

theorem getD_mean (h : Alternates xs k c a) (t : Nat) {j : Nat} (hj : j < k)
    (hm : members (xs.zip (a t)) j ≠ []) :
    (c (t + 1)).getD j 0 = mean (K := ℝ) (members (xs.zip (a t)) j) := by
  rw [List.getD_eq_getElem?_getD, h.means t j hj hm]
  rfl

/-- The cost after a move depends on the assignment only. -/
theorem cost_eq (h : Alternates xs k c a) (t : Nat) : cost (c (t + 1)) (xs.zip (a t)) =
    ((xs.zip (a t)).map fun p => sq p.1 (mean (K := ℝ) (members (xs.zip (a t)) p.2))).sum := by
  rw [cost]
  congr 1
  apply List.map_congr_left
  intro p hp
  rw [h.getD_mean t (h.index_lt t p hp)]
  intro he
  have : p.1 ∈ members (xs.zip (a t)) p.2 := by
    simp only [members, List.mem_map, List.mem_filter, decide_eq_true_eq]
    exact ⟨p, ⟨hp, rfl⟩, rfl⟩
  rw [he] at this
  simp at this

theorem cost_step (h : Alternates xs k c a) (t : Nat) :
    cost (c (t + 2)) (xs.zip (a (t + 1))) ≤ cost (c (t + 1)) (xs.zip (a (t + 1))) ∧
    cost (c (t + 1)) (xs.zip (a (t + 1))) ≤ cost (c (t + 1)) (xs.zip (a t)) := by
  constructor
  · apply cost_means
    · intro p hp
      rw [h.lenC]
      exact h.index_lt _ p hp
    · intro j hj hm
      rw [h.lenC] at hj
      exact h.getD_mean (t + 1) hj hm
  · apply cost_nearest_le xs (c (t + 1)) _ _ (h.lenA _) (h.lenA _) (h.near _)
    intro p hp
    rw [h.lenC]
    exact h.index_lt _ p hp

theorem finite_assignments (h : Alternates xs k c a) : (Set.range a).Finite := by
  apply ((List.finite_length_eq (Fin k) xs.length).image (fun l => l.map Fin.val)).subset
  rintro _ ⟨t, rfl⟩
  have hlt := h.assigned_lt t
  refine ⟨(a t).pmap (fun j hj => ⟨j, hj⟩) hlt, ?_, ?_⟩
  · simp [h.lenA t]
  · show List.map Fin.val (List.pmap _ (a t) hlt) = a t
    rw [List.map_pmap]
    simp

/-- After finitely many steps no centroid with samples moves. -/
theorem settles (h : Alternates xs k c a) :
    ∃ T, ∀ t, T ≤ t → ∀ j, j < k → members (xs.zip (a t)) j ≠ [] → (c (t + 1))[j]? = (c t)[j]? := by
  set G : Nat → ℝ := fun t => cost (c (t + 1)) (xs.zip (a t)) with hG
  have hfin : (Set.range G).Finite := by
    apply (h.finite_assignments.image (fun b : List Nat =>
      ((xs.zip b).map fun p => sq p.1 (mean (K := ℝ) (members (xs.zip b) p.2))).sum)).subset
    rintro _ ⟨t, rfl⟩
    exact ⟨a t, ⟨t, rfl⟩, (h.cost_eq t).symm⟩
  obtain ⟨m, ⟨T, rfl⟩, hmin⟩ := Set.exists_min_image (Set.range G) id hfin ⟨G 0, 0, rfl⟩
  have hanti : Antitone G := antitone_nat_of_succ_le fun t => (h.cost_step t).1.trans (h.cost_step t).2
  have hconst : ∀ t, T ≤ t → G t = G T := fun t ht => le_antisymm (hanti ht) (hmin _ ⟨t, rfl⟩)
  refine ⟨T + 1, ?_⟩
  intro t ht j hj hm
  obtain ⟨u, rfl⟩ : ∃ u, t = u + 1 := ⟨t - 1, by omega⟩
  have e1 : G (u + 1) = G u := (hconst _ (by omega)).trans (hconst u (by omega)).symm
  have hle : cost (c (u + 1)) (xs.zip (a (u + 1))) ≤ cost (c (u + 2)) (xs.zip (a (u + 1))) := by
    have := (h.cost_step u).2
    simp only [hG] at e1
    linarith
  have := cost_means_eq (c (u + 1)) (c (u + 2)) (xs.zip (a (u + 1)))
    (by intro p hp; rw [h.lenC]; exact h.index_lt _ p hp)
    (by intro j hj hm; rw [h.lenC] at hj; exact h.getD_mean (u + 1) hj hm) hle j
    (by rw [h.lenC]; exact hj) hm
  have l1 : j < (c (u + 1)).length := by rw [h.lenC]; exact hj
  have l2 : j < (c (u + 2)).length := by rw [h.lenC]; exact hj
  rw [List.getD_eq_getElem?_getD, List.getD_eq_getElem?_getD, List.getElem?_eq_getElem l1,
    List.getElem?_eq_getElem l2] at this
  rw [List.getElem?_eq_getElem l1, List.getElem?_eq_getElem l2]
  simpa using this.symm

/-- If centroids without samples stay, the centroids are constant from some step on. -/
theorem eventually_keep (h : Alternates xs k c a)
    (hkeep : ∀ t j, j < k → members (xs.zip (a t)) j = [] → (c (t + 1))[j]? = (c t)[j]?) :
    ∃ T, ∀ t, T ≤ t → c t = c T := by
  obtain ⟨T, hT⟩ := h.settles
  refine ⟨T, ?_⟩
  intro t ht
  induction t, ht using Nat.le_induction with
  | base => rfl
  | succ t ht ih =>
    rw [← ih]
    apply List.ext_getElem?
    intro j
    by_cases hj : j < k
    · by_cases hm : members (xs.zip (a t)) j = []
      · exact hkeep t j hj hm
      · exact hT t ht j hj hm
    · rw [List.getElem?_eq_none (by rw [h.lenC]; omega), List.getElem?_eq_none (by rw [h.lenC]; omega)]

/-- If centroids without samples go to `z`, the centroids are constant from some step on. -/
theorem eventually_reset (h : Alternates xs k c a) (z : Fin nf → ℝ)
    (hz : ∀ t j, j < k → members (xs.zip (a t)) j = [] → (c (t + 1))[j]? = some z) :
    ∃ T, ∀ t, T ≤ t → c t = c T := by
  obtain ⟨T, hT⟩ := h.settles
  have step : ∀ t, T ≤ t → ∀ j, j < k → (c (t + 1))[j]? = (c t)[j]? ∨ (c (t + 1))[j]? = some z := by
    intro t ht j hj
    by_cases hm : members (xs.zip (a t)) j = []
    · exact .inr (hz t j hj hm)
    · exact .inl (hT t ht j hj hm)
  have stay : ∀ j, j < k → ∀ t, T ≤ t → (c t)[j]? = some z → ∀ u, t ≤ u → (c u)[j]? = some z := by
    intro j hj t ht e u hu
    induction u, hu using Nat.le_induction with
    | base => exact e
    | succ u hu ih =>
      rcases step u (by omega) j hj with h1 | h1
      · rw [h1, ih]
      · exact h1
  have one : ∀ j, j < k → ∃ Tj, T ≤ Tj ∧ ∀ t, Tj ≤ t → (c t)[j]? = (c Tj)[j]? := by
    intro j hj
    by_cases hex : ∃ t, T ≤ t ∧ (c t)[j]? = some z
    · obtain ⟨t, ht, e⟩ := hex
      refine ⟨t, ht, ?_⟩
      intro u hu
      rw [stay j hj t ht e u hu, e]
    · refine ⟨T, le_rfl, ?_⟩
      intro t ht
      induction t, ht using Nat.le_induction with
      | base => rfl
      | succ t ht ih =>
        rcases step t ht j hj with h1 | h1
        · rw [h1, ih]
        · exact absurd ⟨t + 1, by omega, h1⟩ hex
  have all : ∀ m, m ≤ k → ∃ N, T ≤ N ∧ ∀ j, j < m → ∀ t, N ≤ t → (c t)[j]? = (c N)[j]? := by
    intro m
    induction m with
    | zero => intro _; exact ⟨T, le_rfl, fun j hj => absurd hj (by omega)⟩
    | succ m ih =>
      intro hm
      obtain ⟨N, hN, hall⟩ := ih (by omega)
      obtain ⟨M, hM, hone⟩ := one m (by omega)
      refine ⟨max N M, by omega, ?_⟩
      intro j hj t ht
      by_cases hjm : j = m
      · subst hjm
        rw [hone t (by omega), hone (max N M) (by omega)]
      · rw [hall j (by omega) t (by omega), hall j (by omega) (max N M) (by omega)]
  obtain ⟨N, _, hN⟩ := all k le_rfl
  refine ⟨N, ?_⟩
  intro t ht
  apply List.ext_getElem?
  intro j
  by_cases hj : j < k
  · exact hN j hj t ht
  · rw [List.getElem?_eq_none (by rw [h.lenC]; omega), List.getElem?_eq_none (by rw [h.lenC]; omega)]

/-- Two of the first `k ^ n + 1` assignments coincide. -/
theorem pigeonhole (h : Alternates xs k c a) :
    ∃ i j, i < j ∧ j ≤ k ^ xs.length ∧ a i = a j := by
  let f : Fin (k ^ xs.length + 1) → (Fin xs.length → Fin k) := fun t i =>
    ⟨(a t)[i.val]'(by rw [h.lenA]; exact i.isLt), h.assigned_lt t _ (List.getElem_mem _)⟩
  obtain ⟨i, j, hij, e⟩ := Fintype.exists_ne_map_eq_of_card_lt f (by simp)
  have he : a i = a j := by
    apply List.ext_getElem (by rw [h.lenA, h.lenA])
    intro m h1 h2
    have := congrFun e ⟨m, by rw [h.lenA] at h1; exact h1⟩
    simpa [f] using this
  rcases Nat.lt_or_gt_of_ne (fun hh => hij (Fin.ext hh) : i.val ≠ j.val) with hlt | hlt
  · exact ⟨i, j, hlt, by have := j.isLt; omega, he⟩
  · exact ⟨j, i, hlt, by have := i.isLt; omega, he.symm⟩

/-- When the next centroids are a function of the assignment and the assignment one of the centroids,
the centroids are constant from step `k ^ n` on. -/
theorem bounded (h : Alternates xs k c a) (hev : ∃ T, ∀ t, T ≤ t → c t = c T)
    (next : List Nat → List (Fin nf → ℝ)) (hnext : ∀ t, c (t + 1) = next (a t))
    (assign : List (Fin nf → ℝ) → List Nat) (hassign : ∀ t, a t = assign (c t)) :
    ∀ t, k ^ xs.length ≤ t → c t = c (k ^ xs.length) := by
  obtain ⟨i, j, hij, hj, e⟩ := h.pigeonhole
  have hper : ∀ m, a (i + m) = a (j + m) := by
    intro m
    induction m with
    | zero => exact e
    | succ m ih =>
      rw [← Nat.add_assoc, ← Nat.add_assoc, hassign, hassign (j + m + 1), hnext, hnext, ih]
  have hc : ∀ t, i < t → ∀ m, c (t + m * (j - i)) = c t := by
    intro t ht m
    induction m with
    | zero => simp
    | succ m ih =>
      rw [← ih]
      have := hper (t + m * (j - i) - 1 - i)
      rw [show t + (m + 1) * (j - i) = (j + (t + m * (j - i) - 1 - i)) + 1 by
        rw [Nat.add_mul]; omega, hnext, ← this, ← hnext]
      congr 1
      omega
  obtain ⟨T, hT⟩ := hev
  have main : ∀ t, i < t → c t = c T := by
    intro t ht
    rw [← hc t ht T]
    apply hT
    have : T * 1 ≤ T * (j - i) := Nat.mul_le_mul_left T (by omega)
    omega
  intro t ht
  rw [main t (by omega), main (k ^ xs.length) (by omega)]

end Alternates

end Verif.KMeans
