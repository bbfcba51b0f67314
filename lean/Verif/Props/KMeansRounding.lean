import Verif.Lemmas.KMeansRounding
import Verif.Props.KMeans
import Verif.Props.KMedoids

/-
C113: k-means and k-medoids on floating data with every operation rounded.
-/

namespace Verif.KMeansR

open Verif.KMeans Verif.Rounding

variable {p nf : Nat}

/-- **C113**, `predict` and `forward`: the true distance to the predicted centroid is at most `relErr ^ 2`
times that to any other, and the reported distance is that distance up to the factor `relErr`. -/
theorem C113_predict (R : Rounding p) (inf : ℝ) (ord : (Fin nf → ℝ) → (Fin nf → ℝ) → Order)
    (ho : ∀ x c, (ord x c).Sums nf) (xs cs : List (Fin nf → ℝ)) (hne : cs ≠ [])
    (hinf : ∀ x ∈ xs, ∀ c ∈ cs, relErr p nf * KMeans.edist x c < inf) :
    (nearestIndices inf (rdist R ord) xs cs).length = xs.length ∧
    (nearestDistances inf (rdist R ord) xs cs).length = xs.length ∧
    ∀ (i : Nat) x, xs[i]? = some x → ∃ (t : Nat) (c : Fin nf → ℝ) (d : ℝ),
      (nearestIndices inf (rdist R ord) xs cs)[i]? = some t ∧
      cs[t]? = some c ∧ (∀ c' ∈ cs, KMeans.edist x c ≤ relErr p nf ^ 2 * KMeans.edist x c') ∧
      (nearestDistances inf (rdist R ord) xs cs)[i]? = some d ∧
      d ≤ relErr p nf * KMeans.edist x c ∧ KMeans.edist x c ≤ relErr p nf * d := by
  obtain ⟨h1, h2, h3⟩ := C41_predict_partial inf (rdist R ord) xs cs hne
    (fun x hx c hc => (rdist_error R ho x c).1.trans_lt (hinf x hx c hc))
  refine ⟨h1, h2, fun i x hx => ?_⟩
  obtain ⟨t, c, e1, ⟨c0, hc0, hmin, -⟩, hc, e2⟩ := h3 i x hx
  obtain rfl : c0 = c := Option.some.inj (hc0.symm.trans hc)
  refine ⟨t, c0, _, e1, hc, fun c' hc' => ?_, e2, (rdist_error R ho x c0).1, (rdist_error R ho x c0).2⟩
  have hE := relErr_nonneg (p := p) nf
  calc _ ≤ relErr p nf * rdist R ord x c0 := (rdist_error R ho x c0).2
    _ ≤ relErr p nf * rdist R ord x c' := mul_le_mul_of_nonneg_left (hmin c' hc') hE
    _ ≤ relErr p nf * (relErr p nf * KMeans.edist x c') :=
      mul_le_mul_of_nonneg_left (rdist_error R ho x c').1 hE
    _ = _ := by ring

/-- **C113**, samples that are not nearly tied: if one centroid is nearer than every other by more than the
factor `relErr ^ 2`, it is predicted. -/
theorem C113_predict_separated (R : Rounding p) (inf : ℝ)
    (ord : (Fin nf → ℝ) → (Fin nf → ℝ) → Order) (ho : ∀ x c, (ord x c).Sums nf)
    (xs cs : List (Fin nf → ℝ)) (hinf : ∀ x ∈ xs, ∀ c ∈ cs, relErr p nf * KMeans.edist x c < inf)
    (i t : Nat) (x c : Fin nf → ℝ) (hx : xs[i]? = some x) (hc : cs[t]? = some c)
    (hsep : ∀ (t' : Nat) c', t' ≠ t → cs[t']? = some c' →
      relErr p nf ^ 2 * KMeans.edist x c < KMeans.edist x c') :
    (nearestIndices inf (rdist R ord) xs cs)[i]? = some t := by
  have hne : cs ≠ [] := by rintro rfl; simp at hc
  obtain ⟨t', c', d, e1, hc', hmin, -⟩ := (C113_predict R inf ord ho xs cs hne hinf).2.2 i x hx
  by_cases h : t' = t
  · rw [e1, h]
  · exact absurd (hmin c (List.mem_of_getElem? hc)) (not_le.2 (hsep t' c' h hc'))

/-- **C113**, `predict` of k-medoids, whose distances are those of the matrix of rounded distances: the true
distance to the medoid of the predicted label is at most `relErr ^ 2` times that to any other. -/
theorem C113_medoids_predict (R : Rounding p) (vmax : ℝ) (ord : (Fin nf → ℝ) → (Fin nf → ℝ) → Order)
    (ho : ∀ x c, (ord x c).Sums nf) (x : Nat → Fin nf → ℝ) (n : Nat) (M : List Nat) (hne : M ≠ [])
    (hmax : ∀ o < n, ∀ m ∈ M, relErr p nf * KMeans.edist (x m) (x o) < vmax) :
    ∃ l, KMedoids.nearestIndices vmax (fun a b => rdist R ord (x a) (x b)) n M = some l ∧ l.length = n ∧
      ∀ o, o < n → ∃ i m, l[o]? = some i ∧ M[i]? = some m ∧
        ∀ m' ∈ M, KMeans.edist (x m) (x o) ≤ relErr p nf ^ 2 * KMeans.edist (x m') (x o) := by
  obtain ⟨l, e, hl, h⟩ := KMedoids.C45_predict vmax (fun a b => rdist R ord (x a) (x b)) n M hne
    (fun o ho' m hm => (rdist_error R ho (x m) (x o)).1.trans_lt (hmax o ho' m hm))
  refine ⟨l, e, hl, fun o ho' => ?_⟩
  obtain ⟨i, m, h1, h2, h3, -⟩ := h o ho'
  refine ⟨i, m, h1, h2, fun m' hm' => ?_⟩
  have hE := relErr_nonneg (p := p) nf
  calc _ ≤ relErr p nf * rdist R ord (x m) (x o) := (rdist_error R ho _ _).2
    _ ≤ relErr p nf * rdist R ord (x m') (x o) := mul_le_mul_of_nonneg_left (h3 m' hm') hE
    _ ≤ relErr p nf * (relErr p nf * KMeans.edist (x m') (x o)) :=
      mul_le_mul_of_nonneg_left (rdist_error R ho _ _).1 hE
    _ = _ := by ring

/-- The relative error of a mean of `n` values computed with rounding. -/
noncomputable def meanErr (p n : Nat) : ℝ := (1 + unit p) ^ (n + 1) - 1

theorem meanErr_nonneg (n : Nat) : 0 ≤ meanErr p n := by
  have := one_le_pow₀ (M₀ := ℝ) (a := 1 + unit p) (by linarith [Rounding.unit_pos (p := p)]) (n := n + 1)
  unfold meanErr
  linarith

theorem meanErr_mono {m n : Nat} (h : m ≤ n) : meanErr p m ≤ meanErr p n := by
  have := pow_le_pow_right₀ (M₀ := ℝ) (a := 1 + unit p) (by linarith [Rounding.unit_pos (p := p)])
    (show m + 1 ≤ n + 1 by omega)
  unfold meanErr
  linarith

theorem members_length {V : Type} (ps : List (V × Nat)) (j : Nat) : (members ps j).length ≤ ps.length := by
  simp only [members, List.length_map]
  exact List.length_filter_le _ _

/-- **C113**, the step of Lloyd's algorithm: it does not fail; a centroid without samples becomes the origin
and the coordinates of any other differ from the mean of its samples by at most `meanErr` times the mean of
their absolute values.  At most `2 ^ p` samples, so that the cluster sizes are exact. -/
theorem C113_means (R : Rounding p) (inf : ℝ) (ord : (Fin nf → ℝ) → (Fin nf → ℝ) → Order)
    (ho : ∀ x c, (ord x c).Sums nf) (xs cs : List (Fin nf → ℝ)) (hne : cs ≠ [])
    (hinf : ∀ x ∈ xs, ∀ c ∈ cs, relErr p nf * KMeans.edist x c < inf) (hn : xs.length ≤ 2 ^ p) :
    ∃ cs', step R inf ord xs cs = some cs' ∧ cs'.length = cs.length ∧ ∀ j, j < cs.length → ∃ c, cs'[j]? = some c ∧
      let S := members (xs.zip (nearestIndices inf (rdist R ord) xs cs)) j
      (S = [] → c = 0) ∧ (S ≠ [] → ∀ f, |c f - mean (K := ℝ) S f| ≤
        meanErr p S.length * ((S.length : ℝ)⁻¹ * (S.map fun x => |x f|).sum)) := by
  obtain ⟨cs', e, hl, h⟩ := step_get R inf ord xs cs hne
    (fun x hx c hc => (rdist_error R ho x c).1.trans_lt (hinf x hx c hc))
  refine ⟨cs', e, hl, fun j hj => ?_⟩
  obtain ⟨c, hc, h0, h1⟩ := h j hj
  refine ⟨c, hc, h0, fun hS f => ?_⟩
  rw [h1 hS f]
  have hlen : (members (xs.zip (nearestIndices inf (rdist R ord) xs cs)) j).length ≤ 2 ^ p := by
    refine (members_length _ _).trans ?_
    rw [List.length_zip]
    exact (min_le_left _ _).trans hn
  have := mean_error R ((members (xs.zip (nearestIndices inf (rdist R ord) xs cs)) j).map fun x => x f)
    (by simpa using hS) (by rw [List.length_map]; exact_mod_cast hlen)
  simp only [List.length_map, List.map_map, Function.comp_def] at this
  rw [mean, Pi.smul_apply, sum_apply', smul_eq_mul]
  exact this

/-- The mean of the absolute values of coordinates in a box. -/
theorem mean_abs_le {B : ℝ} {S : List (Fin nf → ℝ)} (hS : S ≠ []) (h : ∀ x ∈ S, InBox B x) (f : Fin nf) :
    (S.length : ℝ)⁻¹ * (S.map fun x => |x f|).sum ≤ B := by
  have hn : (0 : ℝ) < S.length := by exact_mod_cast List.length_pos_iff.2 hS
  rw [inv_mul_le_iff₀ hn]
  have := List.sum_le_card_nsmul (S.map fun x => |x f|) B (by
    intro y hy
    obtain ⟨x, hx, rfl⟩ := List.mem_map.1 hy
    exact h x hx f)
  simpa using this

/-- **C113**, one step: in rounded arithmetic it increases the objective at most by the factor `relErr ^ 4`
and by `meanErr * B` squared for every coordinate of every sample.  With exact arithmetic (C42) it does not
increase it. -/
theorem C113_step (R : Rounding p) (inf B : ℝ) (ord : (Fin nf → ℝ) → (Fin nf → ℝ) → Order)
    (ho : ∀ x c, (ord x c).Sums nf) (xs cs : List (Fin nf → ℝ)) (hne : cs ≠ [])
    (hinf : ∀ x ∈ xs, ∀ c ∈ cs, relErr p nf * KMeans.edist x c < inf) (hn : xs.length ≤ 2 ^ p)
    (hB : ∀ x ∈ xs, InBox B x) :
    ∃ cs', step R inf ord xs cs = some cs' ∧ cs'.length = cs.length ∧
      (0 ≤ B → ∀ c ∈ cs', InBox ((1 + meanErr p xs.length) * B) c) ∧
      objective xs cs' ≤ relErr p nf ^ 4 * objective xs cs +
        xs.length * (nf * (meanErr p xs.length * B) ^ 2) := by
  obtain ⟨cs', e, hl, h⟩ := C113_means R inf ord ho xs cs hne hinf hn
  obtain ⟨a1, -, hpred⟩ := C113_predict R inf ord ho xs cs hne hinf
  refine ⟨cs', e, hl, ?_⟩
  have hnear : ∀ q ∈ xs.zip (nearestIndices inf (rdist R ord) xs cs), ∃ c, cs[q.2]? = some c ∧
      ∀ c' ∈ cs, KMeans.sq q.1 c ≤ relErr p nf ^ 4 * KMeans.sq q.1 c' := by
    intro q hq
    obtain ⟨i, hi⟩ := List.getElem?_of_mem hq
    obtain ⟨hx, ha⟩ := List.getElem?_zip_eq_some.1 hi
    obtain ⟨t, c, d, e1, hc, hmin, -⟩ := hpred i q.1 hx
    rw [e1] at ha
    rw [← Option.some.inj ha]
    refine ⟨c, hc, fun c' hc' => ?_⟩
    have h1 := hmin c' hc'
    have e2 : ∀ y, KMeans.edist q.1 y ^ 2 = KMeans.sq q.1 y := fun y => Real.sq_sqrt (sq_nonneg' _ _)
    have := pow_le_pow_left₀ (show 0 ≤ KMeans.edist q.1 c from Real.sqrt_nonneg _) h1 2
    rw [mul_pow, e2, e2, ← pow_mul] at this
    exact this
  generalize nearestIndices inf (rdist R ord) xs cs = a at *
  have hp : ∀ q ∈ xs.zip a, q.2 < cs.length := by
    intro q hq
    obtain ⟨c, hc, -⟩ := hnear q hq
    exact (List.getElem?_eq_some_iff.1 hc).1
  have hlz : (xs.zip a).length = xs.length := by rw [List.length_zip, a1, min_self]
  have hbox : ∀ j, ∀ x ∈ members (xs.zip a) j, InBox B x := fun j x hx =>
    hB x (List.of_mem_zip (members_mem hx)).1
  have hdev : ∀ j, j < cs.length → members (xs.zip a) j ≠ [] → ∀ c, cs'[j]? = some c →
      ∀ f, |c f - mean (K := ℝ) (members (xs.zip a) j) f| ≤ meanErr p xs.length * B := by
    intro j hj hS c hc f
    obtain ⟨c', hc', -, h1⟩ := h j hj
    obtain rfl : c' = c := Option.some.inj (hc'.symm.trans hc)
    have hm := mean_abs_le hS (hbox j) f
    have h0 : 0 ≤ ((members (xs.zip a) j).length : ℝ)⁻¹ * ((members (xs.zip a) j).map fun x => |x f|).sum := by
      apply mul_nonneg (by positivity)
      apply List.sum_nonneg
      intro y hy
      obtain ⟨x, -, rfl⟩ := List.mem_map.1 hy
      exact abs_nonneg _
    refine (h1 hS f).trans ?_
    refine mul_le_mul ?_ hm h0 (meanErr_nonneg _)
    apply meanErr_mono
    rw [← hlz]
    exact members_length _ _
  constructor
  · intro hB0 c hc f
    obtain ⟨j, hj⟩ := List.getElem?_of_mem hc
    have hjl : j < cs.length := by rw [← hl]; exact (List.getElem?_eq_some_iff.1 hj).1
    have hme := mul_nonneg (meanErr_nonneg (p := p) xs.length) hB0
    by_cases hS : members (xs.zip a) j = []
    · obtain ⟨c', hc', h0, -⟩ := h j hjl
      obtain rfl : c' = c := Option.some.inj (hc'.symm.trans hj)
      rw [h0 hS]
      simp only [Pi.zero_apply, abs_zero]
      linarith
    · have h1 := hdev j hjl hS c hj f
      have h2 := mean_box B _ hS (hbox j) f
      have h3 := abs_add_le (c f - mean (K := ℝ) (members (xs.zip a) j) f) (mean (K := ℝ) (members (xs.zip a) j) f)
      rw [sub_add_cancel] at h3
      linarith
  · refine (objective_le_cost xs cs' a a1 (by rw [hl]; exact hp)).trans ?_
    refine (cost_near cs cs' _ (meanErr p xs.length * B) hp ?_).trans ?_
    · intro j hj hS f
      have hj' : j < cs'.length := by rw [hl]; exact hj
      rw [List.getD_eq_getElem?_getD, List.getElem?_eq_getElem hj', Option.getD_some]
      exact hdev j hj hS _ (List.getElem?_eq_getElem hj') f
    · rw [hlz]
      have := cost_le_factor (relErr p nf ^ 4) xs cs a a1 hne hnear
      linarith

/-- **C113**, any number of steps from centroids in the box of the samples: no step fails, and the objective
stays below that of the initial centroids up to the accumulated rounding. -/
theorem C113_run (R : Rounding p) (inf B : ℝ) (ord : (Fin nf → ℝ) → (Fin nf → ℝ) → Order)
    (ho : ∀ x c, (ord x c).Sums nf) (xs cs : List (Fin nf → ℝ)) (hne : cs ≠ []) (hn : xs.length ≤ 2 ^ p)
    (hB0 : 0 ≤ B) (hB : ∀ x ∈ xs, InBox B x) (hC : ∀ c ∈ cs, InBox B c)
    (hinf : relErr p nf * (2 * ((1 + meanErr p xs.length) * B) * nf) < inf) (k : Nat) :
    ∃ cs', runN (step R inf ord xs) k cs = some cs' ∧ cs'.length = cs.length ∧
      objective xs cs' ≤ (relErr p nf ^ 4) ^ k * objective xs cs +
        ((List.range k).map fun i => (relErr p nf ^ 4) ^ i).sum *
          (xs.length * (nf * (meanErr p xs.length * B) ^ 2)) := by
  have hme := mul_nonneg (meanErr_nonneg (p := p) xs.length) hB0
  have hE := relErr_nonneg (p := p) nf
  have hmono : ∀ v : Fin nf → ℝ, InBox B v → InBox ((1 + meanErr p xs.length) * B) v :=
    fun v hv f => (hv f).trans (by linarith)
  have main : ∃ cs', runN (step R inf ord xs) k cs = some cs' ∧ cs'.length = cs.length ∧
      (∀ c ∈ cs', InBox ((1 + meanErr p xs.length) * B) c) ∧
      objective xs cs' ≤ (relErr p nf ^ 4) ^ k * objective xs cs +
        ((List.range k).map fun i => (relErr p nf ^ 4) ^ i).sum *
          (xs.length * (nf * (meanErr p xs.length * B) ^ 2)) := by
    induction k with
    | zero => exact ⟨cs, rfl, rfl, fun c hc => hmono c (hC c hc), by simp⟩
    | succ k ih =>
      obtain ⟨s, e, hl, hbox, hobj⟩ := ih
      have hne' : s ≠ [] := by
        rintro rfl
        exact hne (List.length_eq_zero_iff.1 hl.symm)
      obtain ⟨s', e', hl', hbox', hobj'⟩ := C113_step R inf B ord ho xs s hne' (by
        intro x hx c hc
        refine lt_of_le_of_lt ?_ hinf
        exact mul_le_mul_of_nonneg_left (edist_box (hmono x (hB x hx)) (hbox c hc)) hE) hn hB
      refine ⟨s', ?_, hl'.trans hl, hbox' hB0, hobj'.trans ?_⟩
      · simp only [runN, e, Option.bind_some, e']
      · have h1 := mul_le_mul_of_nonneg_left hobj (show 0 ≤ relErr p nf ^ 4 by positivity)
        have e3 : ((List.range (k + 1)).map fun i => (relErr p nf ^ 4) ^ i).sum =
            1 + relErr p nf ^ 4 * ((List.range k).map fun i => (relErr p nf ^ 4) ^ i).sum := by
          rw [List.range_succ_eq_map, List.map_cons, List.sum_cons, List.map_map, ← List.sum_map_mul_left]
          congr 2
          apply List.map_congr_left
          intro i _
          simp only [Function.comp, Nat.succ_eq_add_one, pow_succ]
          ring
        rw [e3]
        generalize relErr p nf ^ 4 = Q at *
        rw [pow_succ Q k]
        linarith
  obtain ⟨cs', h1, h2, -, h3⟩ := main
  exact ⟨cs', h1, h2, h3⟩

/-! ### a farther centroid can be predicted -/

/-- Below the first number after `2 ^ p`, sums round down to `2 ^ p`. -/
theorem absorb (hp : 1 ≤ p) (R : Rounding p) {t : ℝ} (h0 : 0 ≤ t) (h1 : t < 1) : R.rnd ((2 : ℝ) ^ p + t) = 2 ^ p := by
  have hf : IsFloat p ((2 : ℝ) ^ p) := by
    have := isFloat_zpow (p := p) (p : ℤ)
    rwa [zpow_natCast] at this
  have hlo : (2 : ℝ) ^ p ≤ R.rnd ((2 : ℝ) ^ p + t) := by
    have := R.mono (show (2 : ℝ) ^ p ≤ 2 ^ p + t by linarith)
    rwa [R.of_isFloat hf] at this
  have hhi : R.rnd ((2 : ℝ) ^ p + t) < 2 ^ p + 2 := by
    have h := R.nearest ((2 : ℝ) ^ p + t) _ hf
    rw [show (2 : ℝ) ^ p - (2 ^ p + t) = -t by ring, abs_neg, abs_of_nonneg h0] at h
    have := (abs_le.1 h).2
    linarith
  obtain ⟨m, e, hm, he⟩ := R.isFloat ((2 : ℝ) ^ p + t)
  rw [he] at hlo hhi ⊢
  have hm2 : m ≤ 2 ^ p := (le_abs_self m).trans hm
  have hm2' : (m : ℝ) ≤ 2 ^ p := by exact_mod_cast hm2
  by_cases hneg : e ≤ 0
  · have h2 : (2 : ℝ) ^ e ≤ 1 := zpow_le_one_of_nonpos₀ (by norm_num) hneg
    have hpos := two_zpow_pos e
    apply le_antisymm _ hlo
    by_cases hmp : (m : ℝ) ≤ 0
    · have : (m : ℝ) * 2 ^ e ≤ 0 := mul_nonpos_of_nonpos_of_nonneg hmp hpos.le
      exact this.trans (by positivity)
    · push Not at hmp
      nlinarith
  · obtain ⟨k, rfl⟩ : ∃ k : ℕ, e = k + 1 := ⟨(e - 1).toNat, by omega⟩
    have e2 : (m : ℝ) * (2 : ℝ) ^ ((k : ℤ) + 1) = ((m * 2 ^ k * 2 : ℤ) : ℝ) := by
      rw [zpow_add₀ (by norm_num)]
      push_cast
      rw [zpow_natCast]
      ring
    rw [e2] at hlo hhi ⊢
    have l1 : (2 : ℤ) ^ p ≤ m * 2 ^ k * 2 := by exact_mod_cast hlo
    have l2 : m * 2 ^ k * 2 < (2 : ℤ) ^ p + 2 := by exact_mod_cast hhi
    have : m * 2 ^ k * 2 = (2 : ℤ) ^ p := by
      obtain ⟨q, rfl⟩ : ∃ q, p = q + 1 := ⟨p - 1, by omega⟩
      rw [pow_succ] at l1 l2 ⊢
      omega
    exact_mod_cast this

/-- **C113**: the exact claim of C41 is false in floating arithmetic of any precision of at least two bits.
The sample `2 ^ p` is at distance `2 ^ p + 3 / 8` of the first centroid and `2 ^ p + 1 / 4` of the second; both
are computed as `2 ^ p` and the first is predicted. -/
theorem C113_predict_counterexample (hp : 2 ≤ p) (R : Rounding p) (inf : ℝ) (hinf : (2 : ℝ) ^ p < inf) :
    let x : Fin 1 → ℝ := fun _ => 2 ^ p
    let c0 : Fin 1 → ℝ := fun _ => -(3 / 8)
    let c1 : Fin 1 → ℝ := fun _ => -(1 / 4)
    IsFloat p (2 ^ p) ∧ IsFloat p (-(3 / 8)) ∧ IsFloat p (-(1 / 4)) ∧
    nearestIndices inf (rdist R fun _ _ => .add (.term 0) (.term 1)) [x] [c0, c1] = [0] ∧
    KMeans.edist x c1 < KMeans.edist x c0 := by
  intro x c0 c1
  have hf : ∀ k : ℕ, IsFloat p ((2 : ℝ) ^ k) := fun k => by
    have := isFloat_zpow (p := p) (k : ℤ)
    rwa [zpow_natCast] at this
  have h4 : (4 : ℤ) ≤ 2 ^ p := by
    calc (4 : ℤ) = 2 ^ 2 := by norm_num
      _ ≤ 2 ^ p := pow_le_pow_right₀ (by norm_num) hp
  have hd : ∀ (c : Fin 1 → ℝ) (t : ℝ), 0 ≤ t → t < 1 → c 0 = -t →
      rdist R (fun _ _ => .add (.term 0) (.term 1)) x c = 2 ^ p := by
    intro c t h0 h1 hc
    have e1 : ext x 0 - ext c 0 = 2 ^ p + t := by simp [ext, x, hc]
    have e2 : (2 : ℝ) ^ p * 2 ^ p = 2 ^ (p + p) := by rw [pow_add]
    simp only [rdist, distR, Order.eval, term, e1, R.zero]
    rw [absorb (by omega) R h0 h1, e2, R.of_isFloat (hf _), zero_add, R.of_isFloat (hf _), ← e2,
      Real.sqrt_mul_self (by positivity), R.of_isFloat (hf _)]
  have d0 := hd c0 (3 / 8) (by norm_num) (by norm_num) rfl
  have d1 := hd c1 (1 / 4) (by norm_num) (by norm_num) rfl
  refine ⟨hf p, ⟨-3, -3, by norm_num; linarith, by norm_num⟩, ⟨-1, -2, by norm_num; linarith, by norm_num⟩, ?_, ?_⟩
  · simp [nearestIndices, nearestLoop, d0, d1, hinf]
  · apply Real.sqrt_lt_sqrt (sq_nonneg' _ _)
    simp only [KMeans.sq, Finset.univ_unique, Finset.sum_singleton, x, c0, c1]
    have : (0 : ℝ) < 2 ^ p := by positivity
    nlinarith

/-! Concrete cases. -/

/-- The error factors for `double` and three features, and for the mean of at most three samples. -/
example : relErr 53 3 ≤ 1 + 8 * (2 : ℝ) ^ (-53 : ℤ) ∧ meanErr 53 1 = 2 * (2 : ℝ) ^ (-53 : ℤ) + ((2 : ℝ) ^ (-53 : ℤ)) ^ 2 := by
  refine ⟨?_, ?_⟩
  · have := relErr_le (p := 53) (nf := 3) (by unfold unit; norm_num)
    refine this.trans ?_
    unfold unit
    norm_num
  · unfold meanErr unit
    norm_num

/-- The hypotheses of the run are met by samples and centroids on a line. -/
example (k : Nat) := C113_run (nf := 1) (away 53 (by norm_num)) (relErr 53 1 * (2 * ((1 + meanErr 53 3) * 8) * 1) + 1) 8
  (fun _ _ => .add (.term 0) (.term 1)) (fun _ _ => by unfold Order.Sums; decide)
  [fun _ => 1, fun _ => 2, fun _ => 8] [fun _ => 1, fun _ => -8] (by simp) (by norm_num) (by norm_num)
  (by intro x hx; simp at hx; rcases hx with rfl | rfl | rfl <;> intro f <;> norm_num)
  (by intro x hx; simp at hx; rcases hx with rfl | rfl <;> intro f <;> norm_num)
  (by simp) k

end Verif.KMeansR
