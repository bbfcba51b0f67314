import Verif.Lemmas.Silhouette
import Mathlib.Algebra.Order.Ring.Int
import Mathlib.Algebra.Order.Field.Rat
import Mathlib.Algebra.Order.BigOperators.Group.List

/-
C61: silhouette scores.
-/

namespace Verif.Silhouette

open Spec

set_option linter.unusedSectionVars false

/-- C61: with counters wide enough, `get_cluster_sizes` returns one size for every label up to the
greatest one, each the number of samples with that label, and the sizes add up to the number of samples. -/
theorem C61_sizes {labels : List Nat} (hne : labels ≠ []) :
    ∃ sizes m, clusterSizes none labels = some sizes ∧ m ∈ labels ∧ (∀ c ∈ labels, c ≤ m) ∧
      sizes.length = m + 1 ∧ (∀ c ≤ m, sizes[c]? = some (members labels c).length) ∧
      sizes.sum = labels.length := by
  obtain ⟨m, hm, hmem, e⟩ := clusterSizes_spec hne
  refine ⟨_, m, e, hmem, hm, by simp; omega, fun c hc => map_range_get _ _ _ (by omega), ?_⟩
  simp only [members_length]
  exact sum_count _ _ fun c hc => by have := hm c hc; omega

/-- `C61_sizes` on three labels with an unused one. -/
example : clusterSizes none [2, 0, 2, 2] = some [1, 0, 3] := by decide +kernel

/-- C61: the counters have the type of the labels.  With 8-bit labels a cluster of 256 samples has
size 0, so the sizes do not add up to the number of samples. -/
theorem C61_sizes_counterexample :
    ¬ ∀ labels : List Nat, labels ≠ [] → (∀ c ∈ labels, c < 2 ^ 8) →
      ∃ sizes, clusterSizes (some 8) labels = some sizes ∧ sizes.sum = labels.length := by
  intro h
  obtain ⟨sizes, e, hs⟩ := h (List.replicate 256 0) (by decide) (by
    intro c hc; rw [List.eq_of_mem_replicate hc]; decide)
  have : clusterSizes (some 8) (List.replicate 256 0) = some [0] := by decide +kernel
  rw [this] at e
  injection e with e
  subst e
  rw [List.length_replicate] at hs
  exact absurd hs (by decide)

/-- C61: an empty range of labels dereferences the end of the range. -/
theorem C61_empty (bits : Option Nat) : clusterSizes bits [] = none := rfl

section

variable {K : Type} [LinearOrder K] [Field K] [IsStrictOrderedRing K]

/-- What the score of a sample is: its defining formula if there is another cluster, 1 otherwise. -/
theorem silhouette_spec {d : Nat → Nat → K} {labels : List Nat} (hne : labels ≠ [])
    (hd : ∀ i j, 0 ≤ d i j) :
    ∃ f : Nat → K,
      silhouette (floatOps K) none (fun i j => (d i j : WithTop K)) labels.length labels =
        some ((List.range labels.length).map fun i => ((f i : K) : WithTop K)) ∧
      ∀ i c, labels[i]? = some c →
        (∃ b, IsBetween d labels i c b ∧ f i = Spec.score (within d labels i c) b ∧ 0 ≤ b) ∨
        ((∀ q ∈ labels, q = c) ∧ f i = 1) := by
  obtain ⟨m, hm, hmem, e⟩ := clusterSizes_spec hne
  have hlab : ∀ i ∈ List.range labels.length, ∃ c, labels[i]? = some c := fun i hi =>
    ⟨_, List.getElem?_eq_getElem (List.mem_range.1 hi)⟩
  have h1 : ∀ i ∈ List.range labels.length,
      cohesion (floatOps K) (fun i j => (d i j : WithTop K)) labels.length labels
      ((List.range (1 + m)).map fun c => (members labels c).length) i =
      some ((within d labels i (labels.getD i 0) : K) : WithTop K) := by
    intro i hi
    obtain ⟨c, hc⟩ := hlab i hi
    rw [cohesion_spec d hc (hm c (List.mem_of_getElem? hc)), List.getD_eq_getElem?_getD, hc]
    rfl
  have h2 : ∀ i, ∃ sc : WithTop K × K, i < labels.length →
      separation (floatOps K) (fun i j => (d i j : WithTop K)) labels.length labels
      ((List.range (1 + m)).map fun c => (members labels c).length) i = some sc.1 ∧
      score (floatOps K) ((within d labels i (labels.getD i 0) : K) : WithTop K) sc.1 =
        (sc.2 : WithTop K) ∧
      ((∃ b, IsBetween d labels i (labels.getD i 0) b ∧
          sc.2 = Spec.score (within d labels i (labels.getD i 0)) b ∧ 0 ≤ b) ∨
        ((∀ q ∈ labels, q = labels.getD i 0) ∧ sc.2 = 1)) := by
    intro i
    by_cases hi : i < labels.length
    · obtain ⟨c, hc⟩ := hlab i (List.mem_range.2 hi)
      have hg : labels.getD i 0 = c := by rw [List.getD_eq_getElem?_getD, hc]; rfl
      rw [hg]
      have ha : 0 ≤ within d labels i c := mean_nonneg fun j _ => hd i j
      by_cases hq : ∃ q ∈ labels, q ≠ c
      · obtain ⟨b, eb, hb⟩ := separation_spec d hc hm hq
        have hb0 : 0 ≤ b := by
          obtain ⟨⟨c', -, -, rfl⟩, -⟩ := hb
          exact mean_nonneg fun j _ => hd i j
        exact ⟨(b, Spec.score (within d labels i c) b), fun _ => ⟨eb, score_spec ha hb0,
          Or.inl ⟨b, hb, rfl, hb0⟩⟩⟩
      · have hq : ∀ q ∈ labels, q = c := by
          intro q h
          by_contra hn
          exact hq ⟨q, h, hn⟩
        refine ⟨(⊤, 1), fun _ => ⟨separation_top d hc hm hq, ?_, Or.inr ⟨hq, rfl⟩⟩⟩
        unfold score
        rw [if_pos (WithTop.coe_lt_top _)]
        show ((((1 : K) - 0 : K)) : WithTop K) = _
        rw [sub_zero]
    · exact ⟨(⊤, 1), fun h => absurd h hi⟩
  choose g hg using h2
  refine ⟨fun i => (g i).2, ?_, ?_⟩
  · simp only [silhouette, e, Option.bind_eq_bind, Option.bind_some]
    rw [KMeans.mapM_some _ _ _ h1, Option.bind_some,
      KMeans.mapM_some _ (fun i => (g i).1) _ (fun i hi => (hg i (List.mem_range.1 hi)).1),
      Option.bind_some, List.zipWith_map, List.zipWith_self]
    congr 1
    apply List.map_congr_left
    intro i hi
    exact (hg i (List.mem_range.1 hi)).2.1
  · intro i c hc
    have hi : i < labels.length := by
      by_contra hn
      rw [List.getElem?_eq_none (by omega)] at hc
      cases hc
    have hgd : labels.getD i 0 = c := by rw [List.getD_eq_getElem?_getD, hc]; rfl
    have := (hg i hi).2.2
    rwa [hgd] at this

/-- C61: with at least two clusters and nonnegative distances, the score of every sample is
`(b - a) / max a b`, where `a` is the mean distance to the others of its cluster and `b` the least mean
distance to another cluster, and it is in `[-1, 1]`.  Missing: the score 0 for singletons
(`C61_singleton`), and integral data (`C61_integral`). -/
theorem C61_scores_partial {d : Nat → Nat → K} {labels : List Nat} (hd : ∀ i j, 0 ≤ d i j)
    (h2 : ∃ p ∈ labels, ∃ q ∈ labels, p ≠ q) :
    ∃ s : List (WithTop K),
      silhouette (floatOps K) none (fun i j => (d i j : WithTop K)) labels.length labels = some s ∧
      s.length = labels.length ∧
      ∀ i c, labels[i]? = some c → ∃ b, IsBetween d labels i c b ∧
        s[i]? = some ((Spec.score (within d labels i c) b : K) : WithTop K) ∧
        -1 ≤ Spec.score (within d labels i c) b ∧ Spec.score (within d labels i c) b ≤ 1 := by
  obtain ⟨p, hp, q, hq, hpq⟩ := h2
  obtain ⟨f, e, hf⟩ := silhouette_spec (List.ne_nil_of_mem hp) hd
  refine ⟨_, e, by simp, ?_⟩
  intro i c hc
  have hi : i < labels.length := by
    by_contra hn
    rw [List.getElem?_eq_none (by omega)] at hc
    cases hc
  rcases hf i c hc with ⟨b, hb, hs, hb0⟩ | ⟨hall, -⟩
  · refine ⟨b, hb, ?_, score_range (mean_nonneg fun j _ => hd i j) hb0⟩
    rw [map_range_get _ _ _ hi, hs]
  · exact absurd ((hall p hp).trans (hall q hq).symm) hpq

/-- C61: every score is in `[-1, 1]`, for every nonempty labelling. -/
theorem C61_range {d : Nat → Nat → K} {labels : List Nat} (hne : labels ≠ []) (hd : ∀ i j, 0 ≤ d i j) :
    ∃ s : List K,
      silhouette (floatOps K) none (fun i j => (d i j : WithTop K)) labels.length labels =
        some (s.map fun x : K => (x : WithTop K)) ∧
      s.length = labels.length ∧ ∀ x ∈ s, -1 ≤ x ∧ x ≤ 1 := by
  obtain ⟨f, e, hf⟩ := silhouette_spec hne hd
  refine ⟨(List.range labels.length).map f, ?_, by simp, ?_⟩
  · rw [e, List.map_map]; rfl
  · intro x hx
    simp only [List.mem_map, List.mem_range] at hx
    obtain ⟨i, hi, rfl⟩ := hx
    rcases hf i _ (List.getElem?_eq_getElem hi) with ⟨b, hb, hs, hb0⟩ | ⟨-, hs⟩
    · rw [hs]
      exact score_range (mean_nonneg fun j _ => hd i j) hb0
    · rw [hs]
      constructor <;> linarith

/-- C61: with one cluster only, every score is 1. -/
theorem C61_one_cluster {d : Nat → Nat → K} {labels : List Nat} {c : Nat} (hne : labels ≠ [])
    (hd : ∀ i j, 0 ≤ d i j) (h1 : ∀ q ∈ labels, q = c) :
    silhouette (floatOps K) none (fun i j => (d i j : WithTop K)) labels.length labels =
      some (List.replicate labels.length 1) := by
  obtain ⟨f, e, hf⟩ := silhouette_spec hne hd
  rw [e, replicate_eq_map]
  congr 1
  apply List.map_congr_left
  intro i hi
  have hi := List.mem_range.1 hi
  rcases hf i _ (List.getElem?_eq_getElem hi) with ⟨b, ⟨⟨c', hc', hm, -⟩, -⟩, -⟩ | ⟨-, hs⟩
  · exact absurd ((h1 c' (label_of_member hm)).trans (h1 _ (List.getElem_mem hi)).symm) hc'
  · rw [hs]; rfl

/-- C61: the score of a singleton at positive distances from the samples of the other clusters is 1,
not 0. -/
theorem C61_singleton {d : Nat → Nat → K} {labels : List Nat} {i c : Nat} (hd : ∀ i j, 0 ≤ d i j)
    (hi : labels[i]? = some c) (hs : members labels c = [i]) (hpos : ∀ j, j ≠ i → 0 < d i j) :
    ∃ s, silhouette (floatOps K) none (fun i j => (d i j : WithTop K)) labels.length labels = some s ∧
      s[i]? = some 1 := by
  obtain ⟨f, e, hf⟩ := silhouette_spec (List.ne_nil_of_mem (List.mem_of_getElem? hi)) hd
  refine ⟨_, e, ?_⟩
  have hi' : i < labels.length := by
    by_contra hn
    rw [List.getElem?_eq_none (by omega)] at hi
    cases hi
  rw [map_range_get _ _ _ hi']
  have ha : within d labels i c = 0 := by
    unfold within
    rw [hs]
    simp [mean]
  rcases hf i c hi with ⟨b, ⟨⟨c', hc', hm, rfl⟩, -⟩, h, hb0⟩ | ⟨-, h⟩
  · have hb : 0 < mean d i (members labels c') := by
      unfold mean
      apply div_pos
      · obtain ⟨x, l, e⟩ := List.exists_cons_of_ne_nil hm
        have hx : ∀ y ∈ members labels c', 0 < d i y := by
          intro y hy
          apply hpos
          rintro rfl
          rw [mem_members, hi] at hy
          injection hy with hy
          exact hc' hy.symm
        rw [e, List.map_cons, List.sum_cons]
        have h1 := hx x (by rw [e]; simp)
        have h2 : 0 ≤ (l.map (d i)).sum := by
          apply List.sum_nonneg
          intro y hy
          simp only [List.mem_map] at hy
          obtain ⟨j, -, rfl⟩ := hy
          exact hd i j
        linarith
      · exact Nat.cast_pos.2 (List.length_pos_of_ne_nil hm)
    rw [h, ha]
    unfold Spec.score
    rw [max_eq_right hb.le, sub_zero, div_self hb.ne']
    rfl
  · rw [h]; rfl

/-- C61: the average of scores in `[-1, 1]` is in `[-1, 1]`. -/
theorem C61_average {s : List K} (hne : s ≠ []) (hs : ∀ x ∈ s, -1 ≤ x ∧ x ≤ 1) :
    ∃ v : K, average (floatOps K) (s.map fun x : K => (x : WithTop K)) = (v : WithTop K) ∧
      v * s.length = s.sum ∧ -1 ≤ v ∧ v ≤ 1 := by
  have hc : (s.map fun x : K => (x : WithTop K)).sum = ((s.sum : K) : WithTop K) := by
    clear hne hs
    induction s with
    | nil => rfl
    | cons a l ih => rw [List.map_cons, List.sum_cons, List.sum_cons, ih, WithTop.coe_add]
  have hpos : (0 : K) < s.length := Nat.cast_pos.2 (List.length_pos_of_ne_nil hne)
  have hb : -(s.length : K) ≤ s.sum ∧ s.sum ≤ s.length := by
    clear hne hc hpos
    induction s with
    | nil => simp
    | cons a l ih =>
      have h1 := hs a (by simp)
      have h2 := ih fun x hx => hs x (by simp [hx])
      rw [List.sum_cons, List.length_cons, Nat.cast_succ]
      constructor <;> linarith
  refine ⟨s.sum / s.length, ?_, div_mul_cancel₀ _ hpos.ne', ?_, ?_⟩
  · unfold average
    rw [show ((s.map fun x : K => (x : WithTop K)).foldl (· + ·) 0) =
      (s.map fun x : K => (x : WithTop K)).sum from List.sum_eq_foldl.symm, hc, List.length_map]
    rfl
  · rw [le_div_iff₀ hpos]; linarith
  · rw [div_le_iff₀ hpos]; linarith

end

/-- Four points of a line in two clusters, and a singleton. -/
def line (i j : Nat) : ℚ := |(([0, 1, 10, 11, 30] : List ℚ).getD i 0) - (([0, 1, 10, 11, 30] : List ℚ).getD j 0)|

/-- `C61_scores_partial` on the line: the formula on the first sample, and 1 on the singleton. -/
example : silhouette (floatOps ℚ) none (fun i j => (line i j : WithTop ℚ)) 5 [0, 0, 1, 1, 2] =
    some [((19 / 21 : ℚ) : WithTop ℚ), ((17 / 19 : ℚ) : WithTop ℚ), ((17 / 19 : ℚ) : WithTop ℚ),
      ((19 / 21 : ℚ) : WithTop ℚ), ((1 : ℚ) : WithTop ℚ)] := by decide +kernel

example : (∀ i < 5, ∀ j < 5, 0 ≤ line i j) ∧ members [0, 0, 1, 1, 2] 2 = [4] ∧
    (∀ j < 4, 0 < line 4 j) := by decide +kernel

/-- C61: a singleton does not have score 0. -/
theorem C61_singleton_counterexample :
    ¬ ∀ (labels : List Nat) (i c : Nat), members labels c = [i] → ∃ s,
      silhouette (floatOps ℚ) none (fun i j => (line i j : WithTop ℚ)) labels.length labels = some s ∧
      s[i]? = some 0 := by
  intro h
  obtain ⟨s, e, hs⟩ := h [0, 0, 1, 1, 2] 4 2 (by decide)
  have : (silhouette (floatOps ℚ) none (fun i j => (line i j : WithTop ℚ)) 5 [0, 0, 1, 1, 2]).bind
      (·[4]?) = some 1 := by decide +kernel
  rw [show ([0, 0, 1, 1, 2] : List Nat).length = 5 from rfl] at e
  rw [e, Option.bind_some, hs] at this
  exact absurd this (by decide +kernel)

/-! ### Integral data -/

/-- C61: with integral data `common::infinity` is 0, the separation is 0 for every sample, and the score
is -1 or 0 whatever the clusters: -1 as soon as the (truncated) cohesion is positive. -/
theorem C61_integral {d : Nat → Nat → ℤ} {labels : List Nat} (hne : labels ≠ []) (hd : ∀ i j, 0 ≤ d i j) :
    ∃ s, silhouette intOps none d labels.length labels = some s ∧ s.length = labels.length ∧
      ∀ x ∈ s, x = -1 ∨ x = 0 := by
  obtain ⟨m, hm, hmem, e⟩ := clusterSizes_spec hne
  have hcoh : ∀ i, ∃ a : ℤ, i < labels.length → 0 ≤ a ∧ cohesion intOps d labels.length labels
      ((List.range (1 + m)).map fun c => (members labels c).length) i = some a := by
    intro i
    by_cases hi : i < labels.length
    · simp only [cohesion, List.getElem?_eq_getElem hi, Option.bind_eq_bind, Option.bind_some]
      rw [cohesionLoop_spec _ _ _ _ _ _ (fun j => List.mem_range.1), Option.bind_some,
        map_range_get _ _ _ (by have := hm _ (List.getElem_mem hi); omega), Option.bind_some, zero_add]
      have h0 : 0 ≤ (((List.range labels.length).filter
          fun j => decide (labels[j]? = some labels[i]) && decide (i ≠ j)).map (d i)).sum := by
        apply List.sum_nonneg
        intro y hy
        simp only [List.mem_map] at hy
        obtain ⟨j, -, rfl⟩ := hy
        exact hd i j
      refine ⟨_, fun _ => ⟨?_, rfl⟩⟩
      split
      · exact Int.tdiv_nonneg h0 (Int.natCast_nonneg _)
      · exact h0
    · exact ⟨0, fun h => absurd h hi⟩
  have hsep : ∀ i ∈ List.range labels.length, separation intOps d labels.length labels
      ((List.range (1 + m)).map fun c => (members labels c).length) i = some 0 := by
    intro i hi
    have hi := List.mem_range.1 hi
    have hc := hm _ (List.getElem_mem hi)
    simp only [separation, List.getElem?_eq_getElem hi, Option.bind_eq_bind, Option.bind_some,
      List.length_map, List.length_range]
    rw [replicate_eq_map, separationLoop_spec _ _ _ _ _ _ _ (by
      intro j hj
      have hj := List.mem_range.1 hj
      refine ⟨labels[j], List.getElem?_eq_getElem hj, ?_⟩
      have := hm _ (List.getElem_mem hj)
      omega), Option.bind_some]
    rw [List.zipWith_map, List.zipWith_self, List.length_map, List.length_range, if_pos (by omega),
      set_map_range]
    obtain ⟨p, v, ev, hp, hmin, -⟩ := Stats.minPair_spec ((List.range (1 + m)).map fun q =>
      if q = labels[i] then intOps.inf else
        if (members labels q).length = 0 then intOps.inf else
          intOps.div (if q = labels[i] then 0 else 0 + (((List.range labels.length).filter
            fun j => decide (labels[j]? = some q)).map (d i)).sum)
            (intOps.ofNat (members labels q).length)) (by simp)
    rw [ev]
    have h1 : v ≤ 0 := by
      apply hmin
      rw [List.mem_map]
      exact ⟨labels[i], List.mem_range.2 (by omega), by rw [if_pos rfl]; rfl⟩
    have h2 : 0 ≤ v := by
      have := List.mem_of_getElem? hp
      rw [List.mem_map] at this
      obtain ⟨q, -, rfl⟩ := this
      split
      · exact le_refl _
      · split
        · exact le_refl _
        · apply Int.tdiv_nonneg _ (Int.natCast_nonneg _)
          rw [zero_add]
          apply List.sum_nonneg
          intro y hy
          simp only [List.mem_map] at hy
          obtain ⟨j, -, rfl⟩ := hy
          exact hd i j
    rw [le_antisymm h1 h2]
    rfl
  choose g hg using hcoh
  refine ⟨(List.range labels.length).map fun i => score intOps (g i) 0, ?_, by simp, ?_⟩
  · simp only [silhouette, e, Option.bind_eq_bind, Option.bind_some]
    rw [KMeans.mapM_some _ _ _ (fun i hi => (hg i (List.mem_range.1 hi)).2), Option.bind_some,
      KMeans.mapM_some _ (fun _ => 0) _ hsep, Option.bind_some, List.zipWith_map, List.zipWith_self]
  · intro x hx
    simp only [List.mem_map, List.mem_range] at hx
    obtain ⟨i, hi, rfl⟩ := hx
    have h0 := (hg i hi).1
    unfold score
    rw [if_neg (by omega)]
    split
    · left
      show (0 : ℤ).tdiv (g i) - 1 = -1
      rw [Int.zero_tdiv]
      rfl
    · right; rfl

/-- C61: two well-separated pairs of points with integral coordinates have score -1. -/
theorem C61_integral_counterexample :
    silhouette intOps none (fun i j => |([0, 1, 10, 11] : List ℤ).getD i 0 - ([0, 1, 10, 11] : List ℤ).getD j 0|)
      4 [0, 0, 1, 1] = some [-1, -1, -1, -1] := by decide +kernel

end Verif.Silhouette
