import Verif.Model.KMeansRange
import Verif.Lemmas.KMeansRounding
import Verif.Props.RoundingRange

/-
Sums, means and distances of rows in a format of bounded range.
-/

namespace Verif.KMeansE

open Verif.KMeans Verif.Rounding Verif.NonFinite
open Verif.KMeansR (ext trueDist_ext foldl_error mean_error abs_list_sum sumsLoop_foldl)

set_option linter.unusedSectionVars false

variable {p nf : Nat} {emax : ℤ} (R : RoundingE p emax)

/-- A row of finite numbers. -/
def rowF (v : Fin nf → ℝ) : RowE R nf := ⟨fun f => .fin (v f)⟩

variable {R}

/-! ### distances -/

theorem evalE_top {d : Nat → WithTop ℝ} {k : Nat} (hd : d k = ⊤) : ∀ o : Order, k ∈ o.terms → o.evalE R d = ⊤
  | .term j, h => by
    simp only [Order.terms, List.mem_singleton] at h
    subst h
    simp only [Order.evalE, hd]
    rfl
  | .add a b, h => by
    simp only [Order.terms, List.mem_append] at h
    simp only [Order.evalE]
    rcases h with h | h
    · rw [evalE_top hd a h]; rfl
    · rw [evalE_top hd b h]
      cases a.evalE R d <;> rfl
  | .fma a j, h => by
    simp only [Order.terms, List.mem_append, List.mem_singleton] at h
    simp only [Order.evalE]
    rcases h with h | h
    · rw [evalE_top hd a h]
      cases d j <;> rfl
    · subst h; rw [hd]; rfl

theorem fdist_rowF (ord : RowE R nf → RowE R nf → Order) (x c : Fin nf → ℝ) :
    fdist R ord (rowF R x) (rowF R c) = distE R (ord (rowF R x) (rowF R c)) (ext x) (ext c) := by
  have e : diffF R (rowF R x).val (rowF R c).val = diffE R (ext x) (ext c) := by
    funext k
    cases k with
    | zero => rfl
    | succ k =>
      by_cases h : k < nf
      · simp only [diffF, diffE, h, dif_pos, ext, rowF]; rfl
      · simp only [diffF, diffE, h, dif_neg, ext, not_false_eq_true]
        unfold subE
        rw [sub_zero, R.zero, abs_zero, clip_of_lt (two_zpow_pos _)]
  unfold fdist distE
  rw [e]

/-- A finite distance has finite coordinates on both sides. -/
theorem finite_of_fdist {ord : RowE R nf → RowE R nf → Order} (ho : ∀ x c, (ord x c).Sums nf)
    {x c : RowE R nf} (h : fdist R ord x c ≠ ⊤) : ∃ x0 c0, x = rowF R x0 ∧ c = rowF R c0 := by
  have key : ∀ f, ∃ a b, x.val f = .fin a ∧ c.val f = .fin b := by
    intro f
    by_contra hc
    apply h
    have hk : f.val + 1 ∈ (ord x c).terms := (ho x c).mem_iff.2 (by simp)
    have hd : diffF R x.val c.val (f.val + 1) = ⊤ := by
      simp only [diffF, f.isLt, dif_pos, Fin.eta]
      cases hx : x.val f <;> cases hy : c.val f <;> first | rfl | exact absurd ⟨_, _, hx, hy⟩ hc
    unfold fdist
    rw [evalE_top hd _ hk]
    rfl
  choose x0 c0 h0 using key
  exact ⟨x0, c0, congrArg RowE.mk (funext fun f => (h0 f).1), congrArg RowE.mk (funext fun f => (h0 f).2)⟩

theorem sq_edist (x c : Fin nf → ℝ) : trueDist nf (ext x) (ext c) ^ 2 = KMeans.sq x c := by
  rw [trueDist_ext]
  exact Real.sq_sqrt (KMeans.sq_nonneg' _ _)

/-- A finite distance is at most the root of the largest number. -/
theorem distE_le (hp : 1 ≤ p) (hE : (p : ℤ) + 1 ≤ emax) (heven : Even emax) {o : Order} {u v : Nat → ℝ} {D : ℝ}
    (hD : distE R o u v = (D : WithTop ℝ)) : 0 ≤ D ∧ D ^ 2 ≤ (2 : ℝ) ^ emax := by
  obtain ⟨c, hc⟩ := heven
  rw [distE_eq R hp (by omega)] at hD
  split at hD
  · rename_i hlt
    have hD' : R.rnd (Real.sqrt (sumU R o u v)) = D := by exact_mod_cast hD
    have h0 : 0 ≤ D := hD' ▸ R.nonneg (Real.sqrt_nonneg _)
    refine ⟨h0, ?_⟩
    have h1 : Real.sqrt (sumU R o u v) ≤ (2 : ℝ) ^ c := by
      rw [Real.sqrt_le_left (two_zpow_pos c).le, pow_two, ← zpow_add₀ (by norm_num), ← hc]
      exact hlt.le
    have h2 := R.mono h1
    rw [R.of_isFloat (isFloatE_zpow (by unfold emin; omega)), hD'] at h2
    have := pow_le_pow_left₀ h0 h2 2
    rwa [pow_two ((2 : ℝ) ^ c), ← zpow_add₀ (by norm_num), ← hc] at this
  · exact absurd hD (by simp)

/-! ### sums -/

theorem row_foldl (f : Fin nf) : ∀ (l : List (RowE R nf)) (s : RowE R nf),
    (l.foldl (· + ·) s).val f = (l.map fun x => x.val f).foldl (addF R) (s.val f)
  | [], _ => rfl
  | x :: l, s => by
    simp only [List.map_cons, List.foldl_cons]
    rw [row_foldl f l]
    rfl

theorem fold_pos : ∀ l : List ℝ, (l.map Flt.fin).foldl (addF R) .pos = .pos
  | [] => rfl
  | _ :: l => fold_pos l

theorem fold_neg : ∀ l : List ℝ, (l.map Flt.fin).foldl (addF R) .neg = .neg
  | [] => rfl
  | _ :: l => fold_neg l

theorem roundF_cases (y : ℝ) : (roundF R y = .fin (R.rnd y) ∧ |R.rnd y| < (2 : ℝ) ^ emax) ∨
    roundF R y = .pos ∨ roundF R y = .neg := by
  unfold roundF
  by_cases h : |R.rnd y| < (2 : ℝ) ^ emax
  · exact .inl ⟨if_pos h, h⟩
  · rw [if_neg h]
    right
    split
    · exact .inl rfl
    · exact .inr rfl

/-- Adding finite numbers from left to right gives the rounded sum or an infinity. -/
theorem fold_cases : ∀ (l : List ℝ) (s : ℝ), |s| < (2 : ℝ) ^ emax →
    ((l.map Flt.fin).foldl (addF R) (.fin s) = .fin (l.foldl (fun s x => R.rnd (s + x)) s) ∧
      |l.foldl (fun s x => R.rnd (s + x)) s| < (2 : ℝ) ^ emax) ∨
    (l.map Flt.fin).foldl (addF R) (.fin s) = .pos ∨ (l.map Flt.fin).foldl (addF R) (.fin s) = .neg
  | [], s, h => .inl ⟨rfl, h⟩
  | x :: l, s, _ => by
    simp only [List.map_cons, List.foldl_cons]
    change ((l.map Flt.fin).foldl (addF R) (roundF R (s + x)) = _ ∧ _) ∨
      (l.map Flt.fin).foldl (addF R) (roundF R (s + x)) = _ ∨
      (l.map Flt.fin).foldl (addF R) (roundF R (s + x)) = _
    rcases roundF_cases (R := R) (s + x) with ⟨e, h1⟩ | e | e
    · rw [e]; exact fold_cases l _ h1
    · rw [e, fold_pos]; exact .inr (.inl rfl)
    · rw [e, fold_neg]; exact .inr (.inr rfl)

theorem fold_normal (hp : 1 ≤ p) (R0 : Rounding p) : ∀ (l : List ℝ) (s : ℝ), IsFloatE p emax s →
    (∀ x ∈ l, IsFloatE p emax x) →
    l.foldl (fun s x => (R.normal hp R0).rnd (s + x)) s = l.foldl (fun s x => R.rnd (s + x)) s
  | [], _, _, _ => rfl
  | x :: l, s, hs, h => by
    simp only [List.foldl_cons]
    rw [R.normal_add hp R0 hs (h x List.mem_cons_self)]
    exact fold_normal hp R0 l _ (R.isFloat _) fun y hy => h y (List.mem_cons_of_mem _ hy)

/-- A sum whose absolute values stay below the overflow threshold does not overflow. -/
theorem fold_fin (hp : 1 ≤ p) (R0 : Rounding p) : ∀ (l : List ℝ) (s a : ℝ) (n : Nat), IsFloatE p emax s →
    (∀ x ∈ l, IsFloatE p emax x) → |s| ≤ (1 + unit p) ^ n * a → 0 ≤ a →
    (1 + unit p) ^ (n + l.length) * (a + (l.map abs).sum) < (2 : ℝ) ^ emax →
    (l.map Flt.fin).foldl (addF R) (.fin s) = .fin (l.foldl (fun s x => R.rnd (s + x)) s)
  | [], _, _, _, _, _, _, _, _ => rfl
  | x :: l, s, a, n, hs, h, hsa, ha, hlt => by
    have hu := Rounding.unit_pos (p := p)
    have hN := R.normal_add hp R0 hs (h x List.mem_cons_self)
    have h1 := ((R.normal hp R0).rel_error (s + x)).1
    rw [hN] at h1
    have h2 := abs_add_le (R.rnd (s + x) - (s + x)) (s + x)
    rw [sub_add_cancel] at h2
    have h3 := abs_add_le s x
    have hpow : (1 : ℝ) ≤ (1 + unit p) ^ n := one_le_pow₀ (by linarith)
    have h4 : |s + x| ≤ (1 + unit p) ^ n * (a + |x|) := by nlinarith [abs_nonneg x]
    have h5 : |R.rnd (s + x)| ≤ (1 + unit p) ^ (n + 1) * (a + |x|) := by
      calc _ ≤ (1 + unit p) * |s + x| := by linarith
        _ ≤ (1 + unit p) * ((1 + unit p) ^ n * (a + |x|)) := mul_le_mul_of_nonneg_left h4 (by linarith)
        _ = _ := by rw [pow_succ]; ring
    have hl0 : 0 ≤ (l.map abs).sum := by
      apply List.sum_nonneg
      intro y hy
      obtain ⟨z, -, rfl⟩ := List.mem_map.1 hy
      exact abs_nonneg _
    simp only [List.length_cons, List.map_cons, List.sum_cons] at hlt
    have hlt' : (1 + unit p) ^ (n + 1 + l.length) * (a + |x| + (l.map abs).sum) < (2 : ℝ) ^ emax := by
      rw [show n + 1 + l.length = n + (l.length + 1) by omega, add_assoc]
      exact hlt
    have h6 : |R.rnd (s + x)| < (2 : ℝ) ^ emax := by
      refine (h5.trans ?_).trans_lt hlt'
      refine mul_le_mul ?_ (by linarith) (by linarith [abs_nonneg x]) (by positivity)
      exact pow_le_pow_right₀ (by linarith) (by omega)
    simp only [List.map_cons, List.foldl_cons]
    change (l.map Flt.fin).foldl (addF R) (roundF R (s + x)) = _
    rw [show roundF R (s + x) = .fin (R.rnd (s + x)) from if_pos h6]
    exact fold_fin hp R0 l _ (a + |x|) (n + 1) (R.isFloat _) (fun y hy => h y (List.mem_cons_of_mem _ hy)) h5
      (by linarith [abs_nonneg x]) hlt'

theorem fold_isFloat : ∀ (l : List ℝ) (s : ℝ), IsFloatE p emax s →
    IsFloatE p emax (l.foldl (fun s x => R.rnd (s + x)) s)
  | [], _, h => h
  | _ :: l, _, _ => fold_isFloat l _ (R.isFloat _)

theorem natFloat (hE : (p : ℤ) + 1 ≤ emax) (hp : 1 ≤ p) {n : Nat} (hn : n ≤ 2 ^ p) : IsFloatE p emax n := by
  refine ⟨n, 0, ?_, by unfold emin; omega, by simp⟩
  rw [abs_of_nonneg (by positivity)]
  exact_mod_cast hn

/-! ### means -/

/-- Dividing a finite sum by the number of its terms does not overflow. -/
theorem div_fin (hp : 1 ≤ p) (hE : (p : ℤ) + 1 ≤ emax) {s : ℝ} {n : Nat} (hn : n ≠ 0) (hn2 : n ≤ 2 ^ p)
    (hs : IsFloatE p emax s) (hlt : |s| < (2 : ℝ) ^ emax) :
    divF R (.fin s) n = .fin (R.rnd (s / n)) ∧ |R.rnd (s / n)| < (2 : ℝ) ^ emax := by
  have e : R.rnd n = n := R.of_isFloat (natFloat hE hp hn2)
  have h1 : |R.rnd (s / n)| ≤ |s| := by
    rw [R.abs]
    have h0 : |s / (n : ℝ)| ≤ |s| := by
      rw [abs_div, abs_of_nonneg (show (0 : ℝ) ≤ n by positivity)]
      apply div_le_self (abs_nonneg _)
      exact_mod_cast Nat.one_le_iff_ne_zero.2 hn
    have := R.mono h0
    rwa [R.of_isFloat hs.abs] at this
  have h2 := h1.trans_lt hlt
  refine ⟨?_, h2⟩
  simp only [divF, e]
  exact if_pos h2

/-- A mean in the format: the relative error of a mean with unbounded exponents, and half of the smallest
number when the quotient underflows. -/
theorem mean_errorE (hp : 1 ≤ p) (hE : (p : ℤ) + 1 ≤ emax) (l : List ℝ) (hl : l ≠ []) (hn : l.length ≤ 2 ^ p)
    (hf : ∀ x ∈ l, IsFloatE p emax x) :
    |R.rnd (l.foldl (fun s x => R.rnd (s + x)) 0 / l.length) - (l.length : ℝ)⁻¹ * l.sum| ≤
      ((1 + unit p) ^ (l.length + 1) - 1) * ((l.length : ℝ)⁻¹ * (l.map abs).sum) +
        (2 : ℝ) ^ (emin p emax - 1) := by
  have hu := Rounding.unit_pos (p := p)
  have hpos : (0 : ℝ) < l.length := by exact_mod_cast List.length_pos_iff.2 hl
  have hη := two_zpow_pos (emin p emax - 1)
  have hm := mean_error (R.normal hp (away p hp)) l hl (by exact_mod_cast hn)
  have hs := foldl_error (R.normal hp (away p hp)) l 0 0 0 0 (by simp) (by simp)
  simp only [zero_add] at hs
  rw [fold_normal hp _ l 0 isFloatE_zero hf] at hm hs
  have en : (R.normal hp (away p hp)).rnd l.length = l.length :=
    (R.normal hp (away p hp)).of_isFloat (natFloat hE hp hn).isFloat
  rw [en] at hm
  have hA : 0 ≤ (l.map abs).sum := (abs_nonneg _).trans (abs_list_sum l)
  generalize (l.map abs).sum = A at *
  generalize l.foldl (fun s x => R.rnd (s + x)) 0 = s at *
  by_cases h : tiny emax ≤ |s / (l.length : ℝ)|
  · rw [R.normal_eq hp _ h] at hm
    linarith
  · push Not at h
    have h1 := R.small_error hp h.le
    have e1 : |s / l.length - (l.length : ℝ)⁻¹ * l.sum| = (l.length : ℝ)⁻¹ * |s - l.sum| := by
      rw [show s / l.length - (l.length : ℝ)⁻¹ * l.sum = (l.length : ℝ)⁻¹ * (s - l.sum) by field_simp,
        abs_mul, abs_of_nonneg (by positivity)]
    have h3 := abs_add_le (R.rnd (s / l.length) - s / l.length) (s / l.length - (l.length : ℝ)⁻¹ * l.sum)
    rw [show R.rnd (s / l.length) - s / l.length + (s / l.length - (l.length : ℝ)⁻¹ * l.sum) =
      R.rnd (s / l.length) - (l.length : ℝ)⁻¹ * l.sum by ring, e1] at h3
    have hi : 0 ≤ (l.length : ℝ)⁻¹ := by positivity
    have h4 : (l.length : ℝ)⁻¹ * |s - l.sum| ≤ (l.length : ℝ)⁻¹ * (((1 + unit p) ^ l.length - 1) * A) :=
      mul_le_mul_of_nonneg_left hs hi
    have h5 : (1 + unit p) ^ l.length ≤ (1 + unit p) ^ (l.length + 1) :=
      pow_le_pow_right₀ (by linarith) (by omega)
    have h6 := mul_le_mul_of_nonneg_right h5 (mul_nonneg hi hA)
    generalize (1 + unit p) ^ (l.length + 1) = P1 at *
    generalize (1 + unit p) ^ l.length = P at *
    have e7 : (l.length : ℝ)⁻¹ * ((P - 1) * A) = P * ((l.length : ℝ)⁻¹ * A) - (l.length : ℝ)⁻¹ * A := by ring
    have e8 : (P1 - 1) * ((l.length : ℝ)⁻¹ * A) = P1 * ((l.length : ℝ)⁻¹ * A) - (l.length : ℝ)⁻¹ * A := by ring
    linarith

/-! ### the step -/

/-- The search for the nearest centroid when distances may be infinite. -/
theorem nearest_top {V : Type} (dist : V → V → WithTop ℝ) (x : V) (cs : List V) :
    (nearestLoop dist x 0 cs (0, ⊤) = (0, ⊤) ∧ ∀ c ∈ cs, dist x c = ⊤) ∨
    ∃ (t : Nat) (c : V), cs[t]? = some c ∧ nearestLoop dist x 0 cs (0, ⊤) = (t, dist x c) ∧
      dist x c ≠ ⊤ ∧ FirstNearest dist cs x t := by
  rcases nearestLoop_spec dist x cs 0 0 ⊤ with ⟨e, hle⟩ | ⟨t, d, hd, e, hlt, hle, hf⟩
  · exact .inl ⟨e, fun c hc => top_le_iff.1 (hle c hc)⟩
  · right
    rw [zero_add] at e
    exact ⟨t, d, hd, e, hlt.ne, d, hd, hle, hf⟩

theorem nearest_lt {V : Type} (dist : V → V → WithTop ℝ) (xs cs : List V) (hne : cs ≠ []) :
    ∀ i ∈ nearestIndices ⊤ dist xs cs, i < cs.length := by
  intro i hi
  simp only [nearestIndices, List.mem_map] at hi
  obtain ⟨x, -, rfl⟩ := hi
  rcases nearest_top dist x cs with ⟨e, -⟩ | ⟨t, c, hc, e, -⟩
  · rw [e]; exact List.length_pos_iff.2 hne
  · rw [e]; exact (List.getElem?_eq_some_iff.1 hc).1

/-- The centroids of a step, in terms of the samples of each cluster. -/
theorem stepE_get (ord : RowE R nf → RowE R nf → Order) (xs cs : List (RowE R nf)) (hne : cs ≠ []) :
    ∃ cs', stepE R ord xs cs = some cs' ∧ cs'.length = cs.length ∧ ∀ j, j < cs.length → cs'[j]? = some
      (centroidE (members (xs.zip (nearestIndices ⊤ (fdist R ord) xs cs)) j).length
        ((members (xs.zip (nearestIndices ⊤ (fdist R ord) xs cs)) j).foldl (· + ·) 0)) := by
  have hlt := nearest_lt (fdist R ord) xs cs hne
  have hal : (nearestIndices ⊤ (fdist R ord) xs cs).length = xs.length := by simp [nearestIndices]
  unfold stepE
  generalize nearestIndices ⊤ (fdist R ord) xs cs = a at *
  have hs : (xs.zip a).map Prod.snd = a := List.map_snd_zip hal.le
  have hp : ∀ q ∈ xs.zip a, q.2 < cs.length := fun q hq => hlt _ (List.of_mem_zip hq).2
  have e1 : clusterSizes cs.length a =
      some ((List.range cs.length).map fun j => (members (xs.zip a) j).length) := by
    have := sizesLoop_spec cs.length (xs.zip a) [] hp
    rw [hs] at this
    rw [clusterSizes]
    simpa [members_nil] using this
  have e2 : clusterSums cs.length xs a =
      some ((List.range cs.length).map fun j => (members (xs.zip a) j).foldl (· + ·) 0) := by
    have := sumsLoop_foldl cs.length (xs.zip a) [] hp
    rw [clusterSums]
    simpa [members_nil] using this
  simp only [e1, e2, Option.bind_eq_bind, Option.bind_some]
  refine ⟨_, rfl, by simp, ?_⟩
  intro j hj
  simp [List.getElem?_zipWith, List.getElem?_range hj]

/-- An assignment within a factor and a constant of the nearest. -/
theorem cost_le_affine (E G : ℝ) (xs cs : List (Fin nf → ℝ)) (a : List Nat) (hl : a.length = xs.length)
    (hne : cs ≠ [])
    (h : ∀ p ∈ xs.zip a, ∃ c, cs[p.2]? = some c ∧ ∀ c' ∈ cs, KMeans.sq p.1 c ≤ E * KMeans.sq p.1 c' + G) :
    cost cs (xs.zip a) ≤ E * objective xs cs + xs.length * G := by
  have e : xs = (xs.zip a).map Prod.fst := (List.map_fst_zip hl.ge).symm
  have eG : (xs.length : ℝ) * G = ((xs.zip a).map fun _ => G).sum := by
    rw [List.map_const', List.sum_replicate, nsmul_eq_mul, List.length_zip, hl, min_self]
  rw [objective, cost, eG]
  conv_rhs => rw [e]
  rw [List.map_map, ← List.sum_map_mul_left, show ((List.map Prod.fst (xs.zip a)).zip a) = xs.zip a by rw [← e],
    ← List.sum_map_add]
  apply List.sum_le_sum
  intro p hp
  obtain ⟨c, hc, hmin⟩ := h p hp
  rw [List.getD_eq_getElem?_getD, hc]
  simp only [Function.comp, Option.getD_some]
  cases hm : (cs.map (KMeans.sq p.1)).min? with
  | none => simp at hm; exact absurd hm hne
  | some m =>
    rw [List.min?_eq_some_iff] at hm
    obtain ⟨c', hc', rfl⟩ := List.mem_map.1 hm.1
    exact hmin c' hc'

end Verif.KMeansE
