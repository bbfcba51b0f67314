import Verif.Model.KMeansRounding
import Verif.Props.Rounding
import Verif.Lemmas.Objective
import Mathlib.Tactic.Linarith
import Mathlib.Tactic.Ring

/-
Rounded sums and means, and the objective near the mean.
-/

namespace Verif.KMeansR

open Verif.KMeans Verif.Rounding

set_option linter.unusedSectionVars false

variable {p nf : Nat} (R : Rounding p)

theorem ext_sum (x c : Fin nf → ℝ) :
    ((List.range nf).map fun k => (ext x k - ext c k) ^ 2).sum = sq x c := by
  have e : (List.range nf).map (fun k => (ext x k - ext c k) ^ 2) =
      List.ofFn (fun f : Fin nf => (x f - c f) ^ 2) := by
    rw [List.ofFn_eq_map, ← List.map_coe_finRange_eq_range, List.map_map]
    apply List.map_congr_left
    intro f _
    simp [ext]
  rw [e, List.sum_ofFn]
  rfl

theorem trueDist_ext (x c : Fin nf → ℝ) : trueDist nf (ext x) (ext c) = KMeans.edist x c := by
  rw [trueDist, ext_sum]; rfl

theorem rdist_error {ord : (Fin nf → ℝ) → (Fin nf → ℝ) → Order} (ho : ∀ x c, (ord x c).Sums nf)
    (x c : Fin nf → ℝ) : rdist R ord x c ≤ relErr p nf * KMeans.edist x c ∧
      KMeans.edist x c ≤ relErr p nf * rdist R ord x c := by
  have := C77_distance_error R (ho x c) (ext x) (ext c)
  rwa [trueDist_ext] at this

/-! ### rounded sums -/

theorem abs_list_sum : ∀ l : List ℝ, |l.sum| ≤ (l.map abs).sum
  | [] => by simp
  | x :: l => by
    simp only [List.sum_cons, List.map_cons]
    exact (abs_add_le _ _).trans (by linarith [abs_list_sum l])

/-- Summation from left to right: the error is at most `(1 + u) ^ n - 1` times the sum of the absolute
values. -/
theorem foldl_error (l : List ℝ) : ∀ (s t a : ℝ) (n : Nat), |s - t| ≤ ((1 + unit p) ^ n - 1) * a →
    |t| ≤ a →
    |l.foldl (fun s x => R.rnd (s + x)) s - (t + l.sum)| ≤
      ((1 + unit p) ^ (n + l.length) - 1) * (a + (l.map abs).sum) := by
  have hu := Rounding.unit_pos (p := p)
  induction l with
  | nil => intro s t a n h _; simpa using h
  | cons x l ih =>
    intro s t a n h ht
    have ha : |t + x| ≤ a + |x| := (abs_add_le _ _).trans (by linarith)
    have h1 := (R.rel_error (s + x)).1
    have h2 : |s + x| ≤ |t + x| + |s - t| := by
      have := abs_add_le (t + x) (s - t)
      rwa [show t + x + (s - t) = s + x by ring] at this
    have h3 : |R.rnd (s + x) - (t + x)| ≤ |R.rnd (s + x) - (s + x)| + |s - t| := by
      have := abs_add_le (R.rnd (s + x) - (s + x)) (s - t)
      rwa [show R.rnd (s + x) - (s + x) + (s - t) = R.rnd (s + x) - (t + x) by ring] at this
    have hpow : (1 : ℝ) ≤ (1 + unit p) ^ n := one_le_pow₀ (by linarith)
    have key : |R.rnd (s + x) - (t + x)| ≤ ((1 + unit p) ^ (n + 1) - 1) * (a + |x|) := by
      have h4 : |R.rnd (s + x) - (t + x)| ≤ unit p * (a + |x|) + (1 + unit p) * |s - t| := by
        have : unit p * |s + x| ≤ unit p * ((a + |x|) + |s - t|) :=
          mul_le_mul_of_nonneg_left (h2.trans (by linarith)) hu.le
        nlinarith
      have h5 : (1 + unit p) * |s - t| ≤ (1 + unit p) * (((1 + unit p) ^ n - 1) * (a + |x|)) := by
        apply mul_le_mul_of_nonneg_left _ (by linarith)
        exact h.trans (mul_le_mul_of_nonneg_left (by linarith [abs_nonneg x]) (by linarith))
      calc _ ≤ _ := h4
        _ ≤ unit p * (a + |x|) + (1 + unit p) * (((1 + unit p) ^ n - 1) * (a + |x|)) := by linarith
        _ = _ := by rw [pow_succ]; ring
    have := ih (R.rnd (s + x)) (t + x) (a + |x|) (n + 1) key ha
    simp only [List.foldl_cons, List.sum_cons, List.map_cons, List.length_cons]
    rw [show n + (l.length + 1) = n + 1 + l.length by omega,
      show t + (x + l.sum) = t + x + l.sum by ring,
      show a + (|x| + (l.map abs).sum) = a + |x| + (l.map abs).sum by ring]
    exact this

/-- A rounded sum divided by the number of terms and rounded: the error is at most `(1 + u) ^ (n + 1) - 1`
times the mean of the absolute values. -/
theorem mean_error (l : List ℝ) (hl : l ≠ []) (hp : (l.length : ℝ) ≤ 2 ^ p) :
    |R.rnd (l.foldl (fun s x => R.rnd (s + x)) 0 / R.rnd l.length) - (l.length : ℝ)⁻¹ * l.sum| ≤
      ((1 + unit p) ^ (l.length + 1) - 1) * ((l.length : ℝ)⁻¹ * (l.map abs).sum) := by
  have hu := Rounding.unit_pos (p := p)
  have hn : (0 : ℝ) < l.length := by exact_mod_cast List.length_pos_iff.2 hl
  have hfl : R.rnd l.length = l.length := by
    apply R.of_isFloat
    refine ⟨l.length, 0, ?_, by simp⟩
    have : (l.length : ℝ) ≤ ((2 ^ p : ℕ) : ℝ) := by exact_mod_cast hp
    have : l.length ≤ 2 ^ p := by exact_mod_cast this
    rw [abs_of_nonneg (by positivity)]
    exact_mod_cast this
  rw [hfl]
  have h := foldl_error R l 0 0 0 0 (by simp) (by simp)
  simp only [zero_add] at h
  generalize l.foldl (fun s x => R.rnd (s + x)) 0 = s at h
  have h1 := (R.rel_error (s / l.length)).1
  have hA : |l.sum| ≤ (l.map abs).sum := abs_list_sum l
  generalize (l.map abs).sum = A at *
  generalize l.sum = t at *
  have hpow : (1 : ℝ) ≤ (1 + unit p) ^ l.length := one_le_pow₀ (by linarith)
  have e1 : |s / l.length - (l.length : ℝ)⁻¹ * t| = (l.length : ℝ)⁻¹ * |s - t| := by
    rw [show s / l.length - (l.length : ℝ)⁻¹ * t = (l.length : ℝ)⁻¹ * (s - t) by field_simp,
      abs_mul, abs_of_nonneg (by positivity)]
  have e2 : |s / l.length| = (l.length : ℝ)⁻¹ * |s| := by
    rw [show s / l.length = (l.length : ℝ)⁻¹ * s by field_simp, abs_mul, abs_of_nonneg (by positivity)]
  have e3 : |s| ≤ A + |s - t| := by
    have := abs_add_le t (s - t)
    rw [show t + (s - t) = s by ring] at this
    linarith
  have h3 := abs_add_le (R.rnd (s / l.length) - s / l.length) (s / l.length - (l.length : ℝ)⁻¹ * t)
  rw [show R.rnd (s / l.length) - s / l.length + (s / l.length - (l.length : ℝ)⁻¹ * t) =
    R.rnd (s / l.length) - (l.length : ℝ)⁻¹ * t by ring] at h3
  have hi : 0 ≤ (l.length : ℝ)⁻¹ := by positivity
  generalize (l.length : ℝ)⁻¹ = w at *
  rw [pow_succ]
  generalize (1 + unit p) ^ l.length = P at *
  rw [e2] at h1
  rw [e1] at h3
  have h4 : unit p * (w * |s|) ≤ unit p * (w * (A + |s - t|)) :=
    mul_le_mul_of_nonneg_left (mul_le_mul_of_nonneg_left e3 hi) hu.le
  have h5 : (1 + unit p) * (w * |s - t|) ≤ (1 + unit p) * (w * ((P - 1) * A)) :=
    mul_le_mul_of_nonneg_left (mul_le_mul_of_nonneg_left h hi) (by linarith)
  calc _ ≤ _ := h3
    _ ≤ unit p * (w * A) + (1 + unit p) * (w * |s - t|) := by linarith
    _ ≤ unit p * (w * A) + (1 + unit p) * (w * ((P - 1) * A)) := by linarith
    _ = _ := by ring

/-! ### rounded means of rows -/

/-- The rounded sum of rows, element by element. -/
theorem row_foldl (R : Rounding p) (f : Fin nf) : ∀ (l : List (Fin nf → ℝ)) (s : Row R nf),
    ((l.map fun x => (⟨x⟩ : Row R nf)).foldl (· + ·) s).val f =
      (l.map fun x => x f).foldl (fun s x => R.rnd (s + x)) (s.val f)
  | [], _ => rfl
  | x :: l, s => by
    simp only [List.map_cons, List.foldl_cons]
    rw [row_foldl R f l]
    rfl

/-- The position sums are the left-to-right sums of the members. -/
theorem sumsLoop_foldl {V : Type} [Add V] [Zero V] (k : Nat) : ∀ (ps pre : List (V × Nat)),
    (∀ p ∈ ps, p.2 < k) →
    sumsLoop ((List.range k).map fun j => (members pre j).foldl (· + ·) 0) ps =
      some ((List.range k).map fun j => (members (pre ++ ps) j).foldl (· + ·) 0)
  | [], pre, _ => by simp [sumsLoop]
  | (x, i) :: ps, pre, h => by
    have hi : i < k := h _ List.mem_cons_self
    have ih := sumsLoop_foldl k ps (pre ++ [(x, i)]) (fun p hp => h p (List.mem_cons_of_mem _ hp))
    have e : ((List.range k).map fun j => (members pre j).foldl (· + ·) 0).set i
          ((members pre i).foldl (· + ·) 0 + x) =
        (List.range k).map fun j => (members (pre ++ [(x, i)]) j).foldl (· + ·) 0 := by
      apply List.ext_getElem?
      intro j
      rw [List.getElem?_set]
      by_cases hj : j < k
      · simp only [List.length_map, List.length_range, List.getElem?_map, List.getElem?_range hj,
          Option.map_some, members_append, members_cons, members_nil]
        by_cases hij : i = j
        · subst hij; simp [hi]
        · simp [hij]
      · rw [List.getElem?_eq_none (by simpa using hj), List.getElem?_eq_none (by simpa using hj)]
        have : i ≠ j := by omega
        simp [this]
    simp only [sumsLoop, List.getElem?_map, List.getElem?_range hi, Option.map_some,
      Option.bind_eq_bind, Option.bind_some]
    rw [e, ih]
    simp

theorem members_map {V W : Type} (g : V → W) (ps : List (V × Nat)) (j : Nat) :
    members (ps.map fun p => (g p.1, p.2)) j = (members ps j).map g := by
  induction ps with
  | nil => rfl
  | cons p ps ih =>
    rw [List.map_cons, members_cons, ih, show p = (p.1, p.2) from rfl, members_cons]
    split <;> simp

/-- The centroids of a step, in terms of the samples of each cluster. -/
theorem step_get (inf : ℝ) (ord : (Fin nf → ℝ) → (Fin nf → ℝ) → Order) (xs cs : List (Fin nf → ℝ))
    (hne : cs ≠ []) (hinf : ∀ x ∈ xs, ∀ c ∈ cs, rdist R ord x c < inf) :
    ∃ cs', step R inf ord xs cs = some cs' ∧ cs'.length = cs.length ∧ ∀ j, j < cs.length → ∃ c, cs'[j]? = some c ∧
      (members (xs.zip (nearestIndices inf (rdist R ord) xs cs)) j = [] → c = 0) ∧
      (members (xs.zip (nearestIndices inf (rdist R ord) xs cs)) j ≠ [] → ∀ f, c f =
        R.rnd (((members (xs.zip (nearestIndices inf (rdist R ord) xs cs)) j).map fun x => x f).foldl
          (fun s x => R.rnd (s + x)) 0 /
          R.rnd (members (xs.zip (nearestIndices inf (rdist R ord) xs cs)) j).length)) := by
  have hlt : ∀ i ∈ nearestIndices inf (rdist R ord) xs cs, i < cs.length := by
    intro i hi
    simp only [nearestIndices, List.mem_map] at hi
    obtain ⟨x, hx, rfl⟩ := hi
    obtain ⟨t, c, hc, he, _⟩ := nearest_spec inf (rdist R ord) cs x hne (hinf x hx)
    rw [he]
    exact (List.getElem?_eq_some_iff.1 hc).1
  have hal : (nearestIndices inf (rdist R ord) xs cs).length = xs.length := by simp [nearestIndices]
  have e0 : nearestIndices inf (rdist R ord) xs cs = nearestIndices inf (rdist R ord) xs cs := rfl
  unfold step
  generalize nearestIndices inf (rdist R ord) xs cs = a at *
  have hs : (xs.zip a).map Prod.snd = a := List.map_snd_zip hal.le
  have hp : ∀ q ∈ xs.zip a, q.2 < cs.length := fun q hq => hlt _ (List.of_mem_zip hq).2
  have e1 : clusterSizes cs.length a =
      some ((List.range cs.length).map fun j => (members (xs.zip a) j).length) := by
    have := sizesLoop_spec cs.length (xs.zip a) [] hp
    rw [hs] at this
    rw [clusterSizes]
    simpa [members_nil] using this
  have ez : (xs.map fun x => (⟨x⟩ : Row R nf)).zip a =
      (xs.zip a).map fun q => ((⟨q.1⟩ : Row R nf), q.2) := by
    rw [List.zip_map_left]; rfl
  have e2 : clusterSums cs.length (xs.map fun x => (⟨x⟩ : Row R nf)) a =
      some ((List.range cs.length).map fun j =>
        ((members (xs.zip a) j).map fun x => (⟨x⟩ : Row R nf)).foldl (· + ·) 0) := by
    have := sumsLoop_foldl cs.length ((xs.zip a).map fun q => ((⟨q.1⟩ : Row R nf), q.2)) [] (by
      intro q hq
      obtain ⟨r, hr, rfl⟩ := List.mem_map.1 hq
      exact hp r hr)
    rw [clusterSums, ez]
    simpa [members_nil, members_map (fun x => (⟨x⟩ : Row R nf))] using this
  simp only [e1, e2, Option.bind_eq_bind, Option.bind_some]
  refine ⟨_, rfl, by simp, ?_⟩
  intro j hj
  refine ⟨_, by simp [List.getElem?_zipWith, List.getElem?_range hj]; rfl, ?_, ?_⟩
  · intro hm
    simp [centroid, hm]
    rfl
  · intro hm f
    rw [centroid, if_neg (by simpa using hm), row_foldl]
    rfl

/-! ### the objective near the mean -/

theorem near_mean_one (l : List ℝ) (hl : l ≠ []) (c : ℝ) :
    (l.map fun a => (a - c) ^ 2).sum =
      (l.map fun a => (a - (l.length : ℝ)⁻¹ * l.sum) ^ 2).sum +
        l.length * (c - (l.length : ℝ)⁻¹ * l.sum) ^ 2 := by
  have hn : (0 : ℝ) < l.length := by exact_mod_cast List.length_pos_iff.2 hl
  rw [sum_sq_expand, sum_sq_expand]
  field_simp
  ring

/-- The sum of squared distances to a point near the mean. -/
theorem near_mean (l : List (Fin nf → ℝ)) (hl : l ≠ []) (c' c : Fin nf → ℝ) (d : ℝ)
    (h : ∀ f, |c' f - mean (K := ℝ) l f| ≤ d) :
    (l.map fun v => KMeans.sq v c').sum ≤ (l.map fun v => KMeans.sq v c).sum + l.length * (nf * d ^ 2) := by
  have h1 : (l.map fun v => KMeans.sq v c').sum ≤
      (l.map fun v => KMeans.sq v (mean (K := ℝ) l)).sum + l.length * (nf * d ^ 2) := by
    simp only [KMeans.sq]
    rw [sum_comm' (fun v f => (v f - c' f) ^ 2), sum_comm' (fun v f => (v f - mean (K := ℝ) l f) ^ 2)]
    have e : (l.length : ℝ) * (nf * d ^ 2) = ∑ _f : Fin nf, (l.length : ℝ) * d ^ 2 := by
      rw [Finset.sum_const, Finset.card_univ, Fintype.card_fin, nsmul_eq_mul]; ring
    rw [e, ← Finset.sum_add_distrib]
    refine Finset.sum_le_sum fun f _ => ?_
    have := near_mean_one (l.map fun v => v f) (by simpa using hl) (c' f)
    simp only [List.map_map, List.length_map] at this
    have em : mean (K := ℝ) l f = (l.length : ℝ)⁻¹ * (l.map fun v => v f).sum := by
      rw [mean, Pi.smul_apply, sum_apply', smul_eq_mul]
    rw [← em] at this
    simp only [Function.comp_def] at this
    rw [this]
    have hsq : (c' f - mean (K := ℝ) l f) ^ 2 ≤ d ^ 2 := by
      rw [← sq_abs]
      exact pow_le_pow_left₀ (abs_nonneg _) (h f) 2
    have : (l.length : ℝ) * (c' f - mean (K := ℝ) l f) ^ 2 ≤ l.length * d ^ 2 :=
      mul_le_mul_of_nonneg_left hsq (by positivity)
    linarith
  exact h1.trans (by linarith [mean_le l hl c])

theorem cost_near (cs cs' : List (Fin nf → ℝ)) (ps : List ((Fin nf → ℝ) × Nat)) (d : ℝ)
    (hp : ∀ p ∈ ps, p.2 < cs.length)
    (h : ∀ j, j < cs.length → members ps j ≠ [] →
      ∀ f, |cs'.getD j 0 f - mean (K := ℝ) (members ps j) f| ≤ d) :
    cost cs' ps ≤ cost cs ps + ps.length * (nf * d ^ 2) := by
  have e : (ps.length : ℝ) * (nf * d ^ 2) =
      ∑ j ∈ Finset.range cs.length, ((members ps j).length : ℝ) * (nf * d ^ 2) := by
    have := sum_by_cluster cs.length (fun (_ : Fin nf → ℝ) _ => (nf * d ^ 2 : ℝ)) ps hp
    simpa using this
  rw [cost, cost, sum_by_cluster cs.length (fun x j => KMeans.sq x (cs'.getD j 0)) ps hp,
    sum_by_cluster cs.length (fun x j => KMeans.sq x (cs.getD j 0)) ps hp, e, ← Finset.sum_add_distrib]
  refine Finset.sum_le_sum fun j hj => ?_
  by_cases hm : members ps j = []
  · simp [hm]
  · exact near_mean _ hm _ _ d (h j (Finset.mem_range.1 hj) hm)

/-- An assignment within a factor of the nearest costs at most that factor times the objective. -/
theorem cost_le_factor (E : ℝ) (xs cs : List (Fin nf → ℝ)) (a : List Nat) (hl : a.length = xs.length)
    (hne : cs ≠ [])
    (h : ∀ p ∈ xs.zip a, ∃ c, cs[p.2]? = some c ∧ ∀ c' ∈ cs, KMeans.sq p.1 c ≤ E * KMeans.sq p.1 c') :
    cost cs (xs.zip a) ≤ E * objective xs cs := by
  have e : xs = (xs.zip a).map Prod.fst := (List.map_fst_zip hl.ge).symm
  rw [objective, cost]
  conv_rhs => rw [e]
  rw [List.map_map, ← List.sum_map_mul_left]
  apply List.sum_le_sum
  intro p hp
  obtain ⟨c, hc, hmin⟩ := h p hp
  rw [List.getD_eq_getElem?_getD, hc]
  simp only [Function.comp, Option.getD_some]
  cases hm : (cs.map (KMeans.sq p.1)).min? with
  | none => simp at hm; exact absurd hm hne
  | some m =>
    rw [List.min?_eq_some_iff] at hm
    obtain ⟨c', hc', rfl⟩ := List.mem_map.1 hm.1
    exact hmin c' hc'

end Verif.KMeansR
