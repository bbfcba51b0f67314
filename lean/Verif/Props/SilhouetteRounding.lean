import Verif.Lemmas.SilhouetteRounding
import Verif.Props.Silhouette
import Verif.Props.AliasRounded

/-
C120: the silhouette scores of floating data with rounded arithmetic.
-/

namespace Verif.Silhouette

open Spec
open Verif.Rounding (Rounding IsFloat unit isFloat_zero)
open Verif.Random (isFloat_natCast unit_eq pow_bounds)

variable {p : Nat}

/-- The score of every sample, computed. -/
theorem silhouette_rounded (R : Rounding p) (hp : 1 ≤ p) {d : Nat → Nat → ℝ} {labels : List Nat}
    (hne : labels ≠ []) (hd : ∀ i j, 0 ≤ d i j ∧ IsFloat p (d i j)) (hn : labels.length ≤ 2 ^ p) :
    ∃ f : Nat → ℝ, silhouette (fltOps R) none (fun i j => Flt.mk R (d i j)) labels.length labels =
        some ((List.range labels.length).map fun i => Flt.mk R (f i)) ∧
      ∀ i c, labels[i]? = some c → (-1 ≤ f i ∧ f i ≤ 1) ∧
        ((∃ a' b' b : ℝ, IsBetween d labels i c b ∧
            Near ((1 + unit p) ^ (labels.length + 1)) a' (within d labels i c) ∧
            Near ((1 + unit p) ^ (labels.length + 1)) b' b ∧
            |f i - Spec.score a' b'| ≤ 2 * unit p ∧ (0 < f i ↔ a' < b') ∧ (f i < 0 ↔ b' < a')) ∨
          ((∀ q ∈ labels, q = c) ∧ f i = 1)) := by
  obtain ⟨m, hm, hmem, e⟩ := clusterSizes_spec hne
  have hlab : ∀ i ∈ List.range labels.length, ∃ c, labels[i]? = some c := fun i hi =>
    ⟨_, List.getElem?_eq_getElem (List.mem_range.1 hi)⟩
  have h1 : ∀ i ∈ List.range labels.length,
      cohesion (fltOps R) (fun i j => Flt.mk R (d i j)) labels.length labels
      ((List.range (1 + m)).map fun c => (members labels c).length) i =
      some (Flt.mk R (withinR R d labels i (labels.getD i 0))) := by
    intro i hi
    obtain ⟨c, hc⟩ := hlab i hi
    rw [cohesion_rounded d hc (hm c (List.mem_of_getElem? hc)), List.getD_eq_getElem?_getD, hc]
    rfl
  have h2 : ∀ i, ∃ sc : Flt R × ℝ, i < labels.length →
      separation (fltOps R) (fun i j => Flt.mk R (d i j)) labels.length labels
      ((List.range (1 + m)).map fun c => (members labels c).length) i = some sc.1 ∧
      score (fltOps R) (Flt.mk R (withinR R d labels i (labels.getD i 0))) sc.1 = Flt.mk R sc.2 ∧
      (-1 ≤ sc.2 ∧ sc.2 ≤ 1) ∧
      ((∃ a' b' b : ℝ, IsBetween d labels i (labels.getD i 0) b ∧
            Near ((1 + unit p) ^ (labels.length + 1)) a' (within d labels i (labels.getD i 0)) ∧
            Near ((1 + unit p) ^ (labels.length + 1)) b' b ∧
            |sc.2 - Spec.score a' b'| ≤ 2 * unit p ∧ (0 < sc.2 ↔ a' < b') ∧ (sc.2 < 0 ↔ b' < a')) ∨
        ((∀ q ∈ labels, q = labels.getD i 0) ∧ sc.2 = 1)) := by
    intro i
    by_cases hi : i < labels.length
    · obtain ⟨c, hc⟩ := hlab i (List.mem_range.2 hi)
      have hg : labels.getD i 0 = c := by rw [List.getD_eq_getElem?_getD, hc]; rfl
      rw [hg]
      have ha : Near ((1 + unit p) ^ (labels.length + 1)) (withinR R d labels i c) (within d labels i c) :=
        meanR_near (fun j => hd i j) ((List.length_filter_le _ _).trans (members_length_le labels c)) hn
      have haf : IsFloat p (withinR R d labels i c) := R.isFloat _
      by_cases hq : ∃ q ∈ labels, q ≠ c
      · obtain ⟨b', b, eb, hbf, hb, hnear⟩ := separation_rounded d hd hn hc hm hq
        obtain ⟨s, es, s1, s2, s3, s4, s5⟩ := score_rounded R hp haf hbf ha.1 hnear.1
        exact ⟨(Flt.mk R b', s), fun _ => ⟨eb, es, ⟨s1, s2⟩,
          Or.inl ⟨withinR R d labels i c, b', b, hb, ha, hnear, s3, s4, s5⟩⟩⟩
      · have hq : ∀ q ∈ labels, q = c := by
          intro q h
          by_contra hn
          exact hq ⟨q, h, hn⟩
        refine ⟨((fltOps R).inf, 1), fun _ => ⟨separation_top_rounded d hc hm hq, ?_,
          ⟨by norm_num, by norm_num⟩, Or.inr ⟨hq, rfl⟩⟩⟩
        unfold score
        rw [if_pos (mk_lt_inf _)]
        show Flt.mk R (R.rnd (1 - 0)) = _
        rw [sub_zero, R.of_isFloat (by simpa using isFloat_natCast (p := p) (n := 1) Nat.one_le_two_pow)]
    · exact ⟨(Flt.mk R 0, 1), fun h => absurd h hi⟩
  choose g hg using h2
  refine ⟨fun i => (g i).2, ?_, ?_⟩
  · simp only [silhouette, e, Option.bind_eq_bind, Option.bind_some]
    rw [KMeans.mapM_some _ _ _ h1, Option.bind_some,
      KMeans.mapM_some _ (fun i => (g i).1) _ (fun i hi => (hg i (List.mem_range.1 hi)).1),
      Option.bind_some, List.zipWith_map, List.zipWith_self]
    congr 1
    apply List.map_congr_left
    intro i hi
    exact (hg i (List.mem_range.1 hi)).2.1
  · intro i c hc
    have hi : i < labels.length := by
      by_contra hn
      rw [List.getElem?_eq_none (by omega)] at hc
      cases hc
    have hgd : labels.getD i 0 = c := by rw [List.getD_eq_getElem?_getD, hc]; rfl
    have := (hg i hi).2.2
    rwa [hgd] at this

/-- C120: with rounded arithmetic every score is still in `[-1, 1]` exactly, for every nonempty labelling
of at most `2 ^ p` samples. -/
theorem C120_range (R : Rounding p) (hp : 1 ≤ p) {d : Nat → Nat → ℝ} {labels : List Nat}
    (hne : labels ≠ []) (hd : ∀ i j, 0 ≤ d i j ∧ IsFloat p (d i j)) (hn : labels.length ≤ 2 ^ p) :
    ∃ s : List ℝ, silhouette (fltOps R) none (fun i j => Flt.mk R (d i j)) labels.length labels =
        some (s.map (Flt.mk R)) ∧ s.length = labels.length ∧ ∀ x ∈ s, -1 ≤ x ∧ x ≤ 1 := by
  obtain ⟨f, e, hf⟩ := silhouette_rounded R hp hne hd hn
  refine ⟨(List.range labels.length).map f, by rw [e, List.map_map]; rfl, by simp, ?_⟩
  intro x hx
  simp only [List.mem_map, List.mem_range] at hx
  obtain ⟨i, hi, rfl⟩ := hx
  exact (hf i _ (List.getElem?_eq_getElem hi)).1

/-- C120: with two clusters or more, the computed score of a sample is within `(4 n + 6) / 2 ^ p` of the
score of the same distances without rounding; and it is positive (negative) as soon as the exact mean
distances differ in that direction by the relative amount `4 (n + 1) / 2 ^ p`. -/
theorem C120_error (R : Rounding p) {d : Nat → Nat → ℝ} {labels : List Nat}
    (h2 : ∃ c ∈ labels, ∃ q ∈ labels, c ≠ q) (hd : ∀ i j, 0 ≤ d i j ∧ IsFloat p (d i j))
    (hn : 4 * (labels.length + 1) ≤ 2 ^ p) :
    ∃ s : List ℝ, silhouette (fltOps R) none (fun i j => Flt.mk R (d i j)) labels.length labels =
        some (s.map (Flt.mk R)) ∧
      ∀ i c, labels[i]? = some c → ∃ x b : ℝ, s[i]? = some x ∧ IsBetween d labels i c b ∧
        |x - Spec.score (within d labels i c) b| ≤ (4 * labels.length + 6) / 2 ^ p ∧
        (within d labels i c * (1 + 4 * (labels.length + 1) / 2 ^ p) < b → 0 < x) ∧
        (b * (1 + 4 * (labels.length + 1) / 2 ^ p) < within d labels i c → x < 0) := by
  obtain ⟨c0, hc0, q0, hq0, hcq⟩ := h2
  have hu := Rounding.unit_pos (p := p)
  have hp : 1 ≤ p := by
    rcases Nat.eq_zero_or_pos p with rfl | h
    · simp at hn; omega
    · exact h
  obtain ⟨f, e, hf⟩ := silhouette_rounded R hp (List.ne_nil_of_mem hc0) hd (by omega)
  refine ⟨(List.range labels.length).map f, by rw [e, List.map_map]; rfl, ?_⟩
  intro i c hc
  have hi : i < labels.length := by
    by_contra hn
    rw [List.getElem?_eq_none (by omega)] at hc
    cases hc
  have hpu : unit p = 1 / 2 ^ p := unit_eq
  have hsmall : ((2 * (labels.length + 1) : ℕ) : ℝ) * unit p ≤ 1 / 2 := by
    rw [hpu, mul_one_div, div_le_iff₀ (by positivity)]
    have : ((4 * (labels.length + 1) : ℕ) : ℝ) ≤ ((2 ^ p : ℕ) : ℝ) := by exact_mod_cast hn
    push_cast at this ⊢
    linarith
  have hG := (pow_bounds (p := p) _ hsmall).2
  rw [pow_mul'] at hG
  have hG' : ((1 + unit p) ^ (labels.length + 1)) ^ 2 ≤ 1 + 4 * (labels.length + 1) / 2 ^ p := by
    refine hG.trans (le_of_eq ?_)
    rw [hpu]
    push_cast
    ring
  have hg1 : 1 ≤ (1 + unit p) ^ (labels.length + 1) := one_le_pow_unit _
  generalize (1 + unit p) ^ (labels.length + 1) = g at *
  rcases (hf i c hc).2 with ⟨a', b', b, hb, ha, hbn, h3, h4, h5⟩ | ⟨hall, -⟩
  · refine ⟨f i, b, map_range_get _ _ _ hi, hb, ?_, ?_, ?_⟩
    · have h6 := score_near hg1 ha hbn
      have h7 : |f i - Spec.score (within d labels i c) b| ≤ 2 * unit p + (g ^ 2 - 1) := by
        calc _ = |(f i - Spec.score a' b') + (Spec.score a' b' - Spec.score (within d labels i c) b)| := by
              congr 1; ring
          _ ≤ _ := (abs_add_le _ _).trans (add_le_add h3 h6)
      refine h7.trans ?_
      rw [hpu]
      have : (4 * (labels.length : ℝ) + 6) / 2 ^ p = 2 * (1 / 2 ^ p) + 4 * (labels.length + 1) / 2 ^ p := by
        ring
      rw [this]
      linarith
    · intro hlt
      rw [h4]
      have h6 : within d labels i c * g ^ 2 < b := lt_of_le_of_lt (mul_le_mul_of_nonneg_left hG' ha.2.1) hlt
      have h7 : a' * g ≤ within d labels i c * g ^ 2 := by
        rw [pow_two, ← mul_assoc]
        exact mul_le_mul_of_nonneg_right ha.2.2.1 (by linarith)
      exact lt_of_mul_lt_mul_right (h7.trans_lt (h6.trans_le hbn.2.2.2)) (by linarith)
    · intro hlt
      rw [h5]
      have h6 : b * g ^ 2 < within d labels i c := lt_of_le_of_lt (mul_le_mul_of_nonneg_left hG' hbn.2.1) hlt
      have h7 : b' * g ≤ b * g ^ 2 := by
        rw [pow_two, ← mul_assoc]
        exact mul_le_mul_of_nonneg_right hbn.2.2.1 (by linarith)
      exact lt_of_mul_lt_mul_right (h7.trans_lt (h6.trans_le ha.2.2.2)) (by linarith)
  · exact absurd ((hall c0 hc0).trans (hall q0 hq0).symm) hcq

/-- C120: with one cluster every computed score is 1. -/
theorem C120_one_cluster (R : Rounding p) (hp : 1 ≤ p) {d : Nat → Nat → ℝ} {labels : List Nat} {c : Nat}
    (hne : labels ≠ []) (hd : ∀ i j, 0 ≤ d i j ∧ IsFloat p (d i j)) (hn : labels.length ≤ 2 ^ p)
    (h1 : ∀ q ∈ labels, q = c) :
    silhouette (fltOps R) none (fun i j => Flt.mk R (d i j)) labels.length labels =
      some (List.replicate labels.length (Flt.mk R 1)) := by
  obtain ⟨f, e, hf⟩ := silhouette_rounded R hp hne hd hn
  rw [e, replicate_eq_map]
  congr 1
  apply List.map_congr_left
  intro i hi
  have hi := List.mem_range.1 hi
  rcases (hf i _ (List.getElem?_eq_getElem hi)).2 with ⟨_, _, b, ⟨⟨c', hc', hm, -⟩, -⟩, -⟩ | ⟨-, hs⟩
  · exact absurd ((h1 c' (label_of_member hm)).trans (h1 _ (List.getElem_mem hi)).symm) hc'
  · rw [hs]

/-- The partial sums of scores. -/
theorem sum_rounded (R : Rounding p) : ∀ (s : List ℝ) (k : Nat) (t e : ℝ), (∀ x ∈ s, -1 ≤ x ∧ x ≤ 1) →
    k + s.length ≤ 2 ^ p → |t| ≤ k → |t - e| ≤ unit p * (k * (k + 1) / 2) →
    ∃ t' : ℝ, (s.map (Flt.mk R)).foldl (· + ·) (Flt.mk R t) = Flt.mk R t' ∧
      |t'| ≤ (k + s.length : ℕ) ∧
      |t' - (e + s.sum)| ≤ unit p * ((k + s.length : ℕ) * ((k + s.length : ℕ) + 1) / 2) := by
  intro s
  induction s with
  | nil =>
    intro k t e _ _ h1 h2
    exact ⟨t, rfl, by simpa using h1, by simpa using h2⟩
  | cons x s ih =>
    intro k t e hs hk h1 h2
    rw [List.length_cons] at hk
    have hx := hs x (by simp)
    have hle : |t + x| ≤ (k + 1 : ℕ) := by
      push_cast
      exact (abs_add_le _ _).trans (add_le_add h1 (abs_le.2 hx))
    have hb : |R.rnd (t + x)| ≤ (k + 1 : ℕ) := by
      rw [R.abs, ← R.of_isFloat (isFloat_natCast (p := p) (n := k + 1) (by omega))]
      exact R.mono hle
    have hu := Rounding.unit_pos (p := p)
    have he : |R.rnd (t + x) - (e + x)| ≤ unit p * ((k + 1 : ℕ) * ((k + 1 : ℕ) + 1) / 2) := by
      have h3 := (R.rel_error (t + x)).1
      have h4 : unit p * |t + x| ≤ unit p * (k + 1 : ℕ) := mul_le_mul_of_nonneg_left hle hu.le
      calc |R.rnd (t + x) - (e + x)| = |(R.rnd (t + x) - (t + x)) + (t - e)| := by congr 1; ring
        _ ≤ unit p * (k + 1 : ℕ) + unit p * (k * (k + 1) / 2) :=
            (abs_add_le _ _).trans (add_le_add (h3.trans h4) h2)
        _ = _ := by push_cast; ring
    obtain ⟨t', e1, e2, e3⟩ := ih (k + 1) _ _ (fun y hy => hs y (by simp [hy])) (by omega) hb he
    refine ⟨t', ?_, ?_, ?_⟩
    · rw [List.map_cons, List.foldl_cons, mk_add]
      exact e1
    · rw [List.length_cons, show k + (s.length + 1) = k + 1 + s.length by omega]; exact e2
    · rw [List.length_cons, show k + (s.length + 1) = k + 1 + s.length by omega, List.sum_cons, ← add_assoc]
      exact e3

/-- C120: the computed average of `n` scores in `[-1, 1]`, for `n <= 2 ^ p`, is in `[-1, 1]` exactly, and
within `(n + 3) / 2 ^ (p + 1)` of their mean. -/
theorem C120_average (R : Rounding p) {s : List ℝ} (hne : s ≠ []) (hs : ∀ x ∈ s, -1 ≤ x ∧ x ≤ 1)
    (hn : s.length ≤ 2 ^ p) :
    ∃ v : ℝ, average (fltOps R) (s.map (Flt.mk R)) = Flt.mk R v ∧ -1 ≤ v ∧ v ≤ 1 ∧
      |v - s.sum / s.length| ≤ (s.length + 3) / 2 ^ (p + 1) := by
  obtain ⟨t, e, h1, h2⟩ := sum_rounded R s 0 0 0 hs (by omega) (by simp) (by simp)
  rw [Nat.zero_add] at h1 h2
  rw [zero_add] at h2
  have hu := Rounding.unit_pos (p := p)
  have hpos : (0 : ℝ) < s.length := Nat.cast_pos.2 (List.length_pos_of_ne_nil hne)
  have hone : R.rnd 1 = 1 :=
    R.of_isFloat (by simpa using isFloat_natCast (p := p) (n := 1) Nat.one_le_two_pow)
  have hq : |t / s.length| ≤ 1 := by
    rw [abs_div, abs_of_pos hpos, div_le_one hpos]
    exact h1
  have hr : |R.rnd (t / s.length)| ≤ 1 := by
    rw [R.abs, ← hone]
    exact R.mono hq
  refine ⟨R.rnd (t / s.length), ?_, (abs_le.1 hr).1, (abs_le.1 hr).2, ?_⟩
  · unfold average
    rw [mk_zero, e, List.length_map]
    show (fltOps R).div _ (Flt.mk R (R.rnd s.length)) = _
    rw [R.of_isFloat (isFloat_natCast hn), div_mk]
  · have h3 := (R.rel_error (t / s.length)).1
    have h4 : |t / s.length - s.sum / s.length| ≤ unit p * ((s.length + 1) / 2) := by
      rw [← sub_div, abs_div, abs_of_pos hpos, div_le_iff₀ hpos]
      refine h2.trans (le_of_eq ?_)
      ring
    calc |R.rnd (t / s.length) - s.sum / s.length|
        = |(R.rnd (t / s.length) - t / s.length) + (t / s.length - s.sum / s.length)| := by congr 1; ring
      _ ≤ unit p * 1 + unit p * ((s.length + 1) / 2) :=
          (abs_add_le _ _).trans (add_le_add (h3.trans (mul_le_mul_of_nonneg_left hq hu.le)) h4)
      _ = _ := by rw [unit_eq, pow_succ]; field_simp; ring

/-! ### cases that meet the hypotheses -/

/-- Five points of a line, as numbers of the format. -/
def lineR (i j : Nat) : ℝ := ((([0, 1, 10, 11, 30] : List ℤ).getD i 0 - ([0, 1, 10, 11, 30] : List ℤ).getD j 0).natAbs : ℝ)

theorem lineR_isFloat (i j : Nat) : 0 ≤ lineR i j ∧ IsFloat 24 (lineR i j) := by
  refine ⟨Nat.cast_nonneg _, isFloat_natCast ?_⟩
  have h : ∀ k, ([0, 1, 10, 11, 30] : List ℤ).getD k 0 ∈ ([0, 1, 10, 11, 30] : List ℤ) := by
    intro k
    rcases k with _ | _ | _ | _ | _ | k <;> simp
  have h1 := h i
  have h2 := h j
  simp only [List.mem_cons, List.not_mem_nil, or_false] at h1 h2
  generalize ([0, 1, 10, 11, 30] : List ℤ).getD i 0 = x at h1 ⊢
  generalize ([0, 1, 10, 11, 30] : List ℤ).getD j 0 = y at h2 ⊢
  norm_num
  omega

/-- `C120_error` in `float` on three clusters of the line. -/
example (R : Rounding 24) : ∃ s : List ℝ,
    silhouette (fltOps R) none (fun i j => Flt.mk R (lineR i j)) 5 [0, 0, 1, 1, 2] = some (s.map (Flt.mk R)) ∧
    ∃ x : ℝ, s[0]? = some x ∧ |x - 19 / 21| ≤ 26 / 2 ^ 24 := by
  obtain ⟨s, e, h⟩ := C120_error R (labels := [0, 0, 1, 1, 2]) (d := lineR)
    ⟨0, by simp, 1, by simp, by simp⟩ lineR_isFloat (by norm_num)
  refine ⟨s, e, ?_⟩
  obtain ⟨x, b, hx, ⟨⟨c', hc', hm, rfl⟩, hle⟩, herr, -⟩ := h 0 0 rfl
  refine ⟨x, hx, ?_⟩
  have m0 : members [0, 0, 1, 1, 2] 0 = [0, 1] := by decide
  have m1 : members [0, 0, 1, 1, 2] 1 = [2, 3] := by decide
  have m2 : members [0, 0, 1, 1, 2] 2 = [4] := by decide
  have hw : within lineR [0, 0, 1, 1, 2] 0 0 = 1 := by
    simp [within, m0, Spec.mean, lineR]
  have v1 : Spec.mean lineR 0 (members [0, 0, 1, 1, 2] 1) = 21 / 2 := by
    rw [m1]; simp [Spec.mean, lineR]; norm_num
  have v2 : Spec.mean lineR 0 (members [0, 0, 1, 1, 2] 2) = 30 := by
    rw [m2]; simp [Spec.mean, lineR]
  have hc : c' = 1 := by
    have := label_of_member hm
    simp only [List.mem_cons, List.not_mem_nil, or_false] at this
    rcases this with h | h | h | h | h
    · exact absurd h hc'
    · exact absurd h hc'
    · exact h
    · exact h
    · have := hle 1 (by norm_num) (by rw [m1]; simp)
      rw [h, v1, v2] at this
      norm_num at this
  rw [hc, v1, hw] at herr
  have : Spec.score (1 : ℝ) (21 / 2) = 19 / 21 := by
    unfold Spec.score
    rw [max_eq_right (by norm_num)]
    norm_num
  rw [this] at herr
  refine herr.trans (le_of_eq ?_)
  norm_num

end Verif.Silhouette
