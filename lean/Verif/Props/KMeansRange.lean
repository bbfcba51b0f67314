import Verif.Lemmas.KMeansRange
import Verif.Props.KMeansRounding

/-
C125: k-means on floating data in a format with overflow and gradual underflow.
-/

namespace Verif.KMeansE

open Verif.KMeans Verif.Rounding Verif.NonFinite
open Verif.KMeansR (ext meanErr meanErr_nonneg meanErr_mono members_length members_map mean_abs_le cost_near)

variable {p nf : Nat} {emax : ℤ} {R : RoundingE p emax}

/-- The factor of the error of a squared distance (C122). -/
noncomputable def distErr (p nf : Nat) : ℝ := (1 + unit p) ^ (nf + 5)

/-- What underflow adds to a squared distance (C122). -/
noncomputable def distAbs (p : Nat) (emax : ℤ) (nf : Nat) : ℝ := (nf + 1) * (2 : ℝ) ^ (emin p emax - 1)

/-- Every coordinate is a number of the format. -/
def InFormat (p : Nat) (emax : ℤ) (v : Fin nf → ℝ) : Prop := ∀ f, IsFloatE p emax (v f)

theorem one_le_distErr : 1 ≤ distErr p nf :=
  one_le_pow₀ (by linarith [Rounding.unit_pos (p := p)])

theorem distAbs_nonneg : 0 ≤ distAbs p emax nf := by unfold distAbs; positivity

theorem ext_format {v : Fin nf → ℝ} (h : InFormat p emax v) (k : Nat) (hk : k < nf) :
    IsFloatE p emax (ext v k) := by
  simp only [ext, hk, dif_pos]
  exact h _

/-- The computed distance and the true one. -/
theorem fdist_error (hp : 1 ≤ p) (hE : (p : ℤ) + 1 ≤ emax) {ord : RowE R nf → RowE R nf → Order}
    (ho : ∀ x c, (ord x c).Sums nf) {x c : Fin nf → ℝ} (hx : InFormat p emax x) (hc : InFormat p emax c) :
    (∀ D : ℝ, fdist R ord (rowF R x) (rowF R c) = (D : WithTop ℝ) → 0 ≤ D ∧
      D ^ 2 ≤ distErr p nf * (KMeans.sq x c + distAbs p emax nf) ∧
      KMeans.sq x c ≤ distErr p nf * (D ^ 2 + distAbs p emax nf)) ∧
    (fdist R ord (rowF R x) (rowF R c) = ⊤ →
      (2 : ℝ) ^ emax ≤ distErr p nf * (KMeans.sq x c + distAbs p emax nf)) := by
  have := C122_distance_error R hp hE (ho (rowF R x) (rowF R c)) (ext_format hx) (ext_format hc)
  rw [sq_edist] at this
  rw [fdist_rowF]
  exact this

/-- Of two centroids the one at the smaller computed distance is the nearer one, up to rounding. -/
theorem near_of_le (hp : 1 ≤ p) (hE : (p : ℤ) + 1 ≤ emax) (heven : Even emax)
    {ord : RowE R nf → RowE R nf → Order} (ho : ∀ x c, (ord x c).Sums nf) {x c c' : Fin nf → ℝ}
    (hx : InFormat p emax x) (hc : InFormat p emax c) (hc' : InFormat p emax c')
    (hfin : fdist R ord (rowF R x) (rowF R c) ≠ ⊤)
    (hle : fdist R ord (rowF R x) (rowF R c) ≤ fdist R ord (rowF R x) (rowF R c')) :
    KMeans.sq x c ≤ distErr p nf * (distErr p nf * (KMeans.sq x c' + distAbs p emax nf) + distAbs p emax nf) := by
  obtain ⟨D, hD⟩ := WithTop.ne_top_iff_exists.1 hfin
  obtain ⟨h0, -, h2⟩ := (fdist_error hp hE ho hx hc).1 D hD.symm
  obtain ⟨h3, h4⟩ := fdist_error (R := R) hp hE ho hx hc'
  refine h2.trans (mul_le_mul_of_nonneg_left ?_ (by linarith [one_le_distErr (p := p) (nf := nf)]))
  have key : D ^ 2 ≤ distErr p nf * (KMeans.sq x c' + distAbs p emax nf) := by
    by_cases ht : fdist R ord (rowF R x) (rowF R c') = ⊤
    · refine le_trans ?_ (h4 ht)
      rw [fdist_rowF] at hD
      exact (distE_le hp hE heven hD.symm).2
    · obtain ⟨D', hD'⟩ := WithTop.ne_top_iff_exists.1 ht
      rw [← hD, ← hD'] at hle
      have hle' : D ≤ D' := by exact_mod_cast hle
      exact (pow_le_pow_left₀ h0 hle' 2).trans (h3 D' hD'.symm).2.1
  linarith

/-- **C125**, `predict` and `forward`, for rows that may hold infinities and NaN: a sample gets the first of
the centroids at the least computed distance, which is a finite centroid and, of the finite ones, the nearest
up to rounding and underflow; or every distance is infinite, then the label is 0, the distance infinity, and
every finite centroid is far away. -/
theorem C125_predict (hp : 1 ≤ p) (hE : (p : ℤ) + 1 ≤ emax) (heven : Even emax)
    (ord : RowE R nf → RowE R nf → Order) (ho : ∀ x c, (ord x c).Sums nf) (xs cs : List (RowE R nf))
    (hx : ∀ x, rowF R x ∈ xs → InFormat p emax x) (hc : ∀ c, rowF R c ∈ cs → InFormat p emax c) :
    (nearestIndices ⊤ (fdist R ord) xs cs).length = xs.length ∧
    (nearestDistances ⊤ (fdist R ord) xs cs).length = xs.length ∧
    ∀ (i : Nat) x, xs[i]? = some x →
      ((nearestIndices ⊤ (fdist R ord) xs cs)[i]? = some 0 ∧
        (nearestDistances ⊤ (fdist R ord) xs cs)[i]? = some ⊤ ∧
        (∀ c ∈ cs, fdist R ord x c = ⊤) ∧
        ∀ x0 c, x = rowF R x0 → rowF R c ∈ cs →
          (2 : ℝ) ^ emax ≤ distErr p nf * (KMeans.sq x0 c + distAbs p emax nf)) ∨
      ∃ (t : Nat) (x0 c : Fin nf → ℝ) (d : ℝ), (nearestIndices ⊤ (fdist R ord) xs cs)[i]? = some t ∧
        x = rowF R x0 ∧ cs[t]? = some (rowF R c) ∧ FirstNearest (fdist R ord) cs x t ∧
        (∀ c', rowF R c' ∈ cs → KMeans.sq x0 c ≤
          distErr p nf * (distErr p nf * (KMeans.sq x0 c' + distAbs p emax nf) + distAbs p emax nf)) ∧
        (nearestDistances ⊤ (fdist R ord) xs cs)[i]? = some (d : WithTop ℝ) ∧ 0 ≤ d ∧
        d ^ 2 ≤ distErr p nf * (KMeans.sq x0 c + distAbs p emax nf) ∧
        KMeans.sq x0 c ≤ distErr p nf * (d ^ 2 + distAbs p emax nf) := by
  refine ⟨by simp [nearestIndices], by simp [nearestDistances], fun i x hi => ?_⟩
  have e1 : (nearestIndices ⊤ (fdist R ord) xs cs)[i]? = some (nearestLoop (fdist R ord) x 0 cs (0, ⊤)).1 := by
    simp [nearestIndices, hi]
  have e2 : (nearestDistances ⊤ (fdist R ord) xs cs)[i]? = some (nearestLoop (fdist R ord) x 0 cs (0, ⊤)).2 := by
    simp [nearestDistances, hi, minLoop_eq (fdist R ord) x cs 0 0 ⊤]
  rcases nearest_top (fdist R ord) x cs with ⟨e, h⟩ | ⟨t, c, hct, e, hfin, hnear⟩
  · left
    refine ⟨by rw [e1, e], by rw [e2, e], h, ?_⟩
    rintro x0 c rfl hmem
    exact (fdist_error hp hE ho (hx x0 (List.mem_of_getElem? hi)) (hc c hmem)).2 (h _ hmem)
  · right
    obtain ⟨x0, c0, rfl, rfl⟩ := finite_of_fdist ho hfin
    have hx0 := hx x0 (List.mem_of_getElem? hi)
    have hc0 := hc c0 (List.mem_of_getElem? hct)
    obtain ⟨d, hd⟩ := WithTop.ne_top_iff_exists.1 hfin
    obtain ⟨h1, h2, h3⟩ := (fdist_error hp hE ho hx0 hc0).1 d hd.symm
    refine ⟨t, x0, c0, d, by rw [e1, e], rfl, hct, hnear, ?_, by rw [e2, e, hd], h1, h2, h3⟩
    intro c' hc'
    obtain ⟨c1, hc1, hmin, -⟩ := hnear
    obtain rfl : c1 = rowF R c0 := Option.some.inj (hc1.symm.trans hct)
    exact near_of_le hp hE heven ho hx0 hc0 (hc c' hc') hfin (hmin _ hc')

/-- **C125**, the step of Lloyd's algorithm from any centroids, finite or not: it does not fail and no
coordinate becomes NaN.  A centroid without samples becomes the origin.  A coordinate of any other is within
`meanErr` times the mean of the absolute values, and half of the smallest number, of the mean of its samples;
or it is infinite, and then the sum of the absolute values was at the overflow threshold up to rounding. -/
theorem C125_means (hp : 1 ≤ p) (hE : (p : ℤ) + 1 ≤ emax) (ord : RowE R nf → RowE R nf → Order)
    (xs : List (Fin nf → ℝ)) (cs : List (RowE R nf)) (hne : cs ≠ []) (hf : ∀ x ∈ xs, InFormat p emax x)
    (hn : xs.length ≤ 2 ^ p) :
    ∃ cs', stepE R ord (xs.map (rowF R)) cs = some cs' ∧ cs'.length = cs.length ∧
      ∀ j, j < cs.length → ∃ c, cs'[j]? = some c ∧
        let S := members (xs.zip (nearestIndices ⊤ (fdist R ord) (xs.map (rowF R)) cs)) j
        (S = [] → c = rowF R 0) ∧
        (S ≠ [] → ∀ f,
          (∃ z : ℝ, c.val f = .fin z ∧ |z| < (2 : ℝ) ^ emax ∧ IsFloatE p emax z ∧
            |z - mean (K := ℝ) S f| ≤ meanErr p S.length * ((S.length : ℝ)⁻¹ * (S.map fun x => |x f|).sum) +
              (2 : ℝ) ^ (emin p emax - 1)) ∨
          ((c.val f = .pos ∨ c.val f = .neg) ∧
            (2 : ℝ) ^ emax ≤ (1 + unit p) ^ S.length * (S.map fun x => |x f|).sum)) := by
  obtain ⟨cs', e, hl, h⟩ := stepE_get ord (xs.map (rowF R)) cs hne
  refine ⟨cs', e, hl, fun j hj => ⟨_, h j hj, ?_⟩⟩
  have hal : (nearestIndices ⊤ (fdist R ord) (xs.map (rowF R)) cs).length = xs.length := by
    simp [nearestIndices]
  generalize nearestIndices ⊤ (fdist R ord) (xs.map (rowF R)) cs = a at *
  have ez : (xs.map (rowF R)).zip a = (xs.zip a).map fun q => (rowF R q.1, q.2) := by
    rw [List.zip_map_left]; rfl
  rw [ez, members_map (rowF R)]
  have hSlen : (members (xs.zip a) j).length ≤ 2 ^ p := by
    refine (members_length _ _).trans ?_
    rw [List.length_zip]
    exact (min_le_left _ _).trans hn
  have hSf : ∀ x ∈ members (xs.zip a) j, InFormat p emax x := fun x hx =>
    hf x (List.of_mem_zip (members_mem hx)).1
  generalize members (xs.zip a) j = S at *
  refine ⟨?_, ?_⟩
  · intro hS
    subst hS
    rfl
  · intro hS f
    have hlf : ∀ x ∈ S.map (fun x => x f), IsFloatE p emax x := by
      intro y hy
      obtain ⟨x, hx, rfl⟩ := List.mem_map.1 hy
      exact hSf x hx f
    have ec : (centroidE (S.map (rowF R)).length ((S.map (rowF R)).foldl (· + ·) 0)).val f =
        divF R (((S.map fun x => x f).map Flt.fin).foldl (addF R) (.fin 0)) S.length := by
      rw [centroidE, if_neg (by simpa using hS)]
      simp only [row_foldl, List.map_map, List.length_map]
      rfl
    rw [ec]
    rcases fold_cases (R := R) (S.map fun x => x f) 0 (by simpa using two_zpow_pos emax) with ⟨e1, h1⟩ | hinf
    · left
      rw [e1]
      obtain ⟨e2, h2⟩ := div_fin (R := R) hp hE (n := S.length) (by simpa using hS) hSlen
        (fold_isFloat (R := R) (S.map fun x => x f) 0 isFloatE_zero) h1
      refine ⟨_, e2, h2, R.isFloat _, ?_⟩
      have := mean_errorE (R := R) hp hE (S.map fun x => x f) (by simpa using hS) (by simpa using hSlen) hlf
      simp only [List.length_map, List.map_map, Function.comp_def] at this
      rw [mean, Pi.smul_apply, sum_apply', smul_eq_mul]
      exact this
    · right
      refine ⟨?_, ?_⟩
      · rcases hinf with e1 | e1 <;> rw [e1]
        · exact .inl rfl
        · exact .inr rfl
      · by_contra hc
        push Not at hc
        have := fold_fin (R := R) hp (away p hp) (S.map fun x => x f) 0 0 0 isFloatE_zero hlf (by simp) le_rfl
          (by simpa [Function.comp_def] using hc)
        rw [this] at hinf
        simp at hinf

/-- The centroids of a step that has only finite coordinates. -/
theorem exists_rows {l : List (RowE R nf)} (h : ∀ c ∈ l, ∀ f, ∃ z, c.val f = .fin z) :
    ∃ l' : List (Fin nf → ℝ), l = l'.map (rowF R) := by
  induction l with
  | nil => exact ⟨[], rfl⟩
  | cons c l ih =>
    obtain ⟨l', rfl⟩ := ih fun c' hc' => h c' (List.mem_cons_of_mem _ hc')
    choose z hz using h c List.mem_cons_self
    exact ⟨z :: l', by rw [List.map_cons]; congr 1; exact congrArg RowE.mk (funext hz)⟩

theorem rowF_inj {a b : Fin nf → ℝ} (h : rowF R a = rowF R b) : a = b := by
  funext f
  have := congrArg (fun r => r.val f) h
  simpa [rowF] using this

/-- **C125**, one step when no sum can overflow and every sample has a centroid at a finite distance: the new
centroids are finite, in the box of the samples up to rounding, and the objective grows at most by the factor
`distErr ^ 2` and by what rounding of the means and underflow add for every sample. -/
theorem C125_step (hp : 1 ≤ p) (hE : (p : ℤ) + 1 ≤ emax) (heven : Even emax)
    (ord : RowE R nf → RowE R nf → Order) (ho : ∀ x c, (ord x c).Sums nf) (B : ℝ) (hB0 : 0 ≤ B)
    (xs cs : List (Fin nf → ℝ)) (hne : cs ≠ []) (hf : ∀ x ∈ xs, InFormat p emax x)
    (hcf : ∀ c ∈ cs, InFormat p emax c) (hn : xs.length ≤ 2 ^ p) (hB : ∀ x ∈ xs, InBox B x)
    (hsum : (1 + unit p) ^ xs.length * (xs.length * B) < (2 : ℝ) ^ emax)
    (hdist : ∀ x ∈ xs, ∃ c ∈ cs, distErr p nf * (KMeans.sq x c + distAbs p emax nf) < (2 : ℝ) ^ emax) :
    ∃ cs' : List (Fin nf → ℝ), stepE R ord (xs.map (rowF R)) (cs.map (rowF R)) = some (cs'.map (rowF R)) ∧
      cs'.length = cs.length ∧ (∀ c ∈ cs', InFormat p emax c) ∧
      (∀ c ∈ cs', InBox ((1 + meanErr p xs.length) * B + (2 : ℝ) ^ (emin p emax - 1)) c) ∧
      objective xs cs' ≤ distErr p nf ^ 2 * objective xs cs +
        xs.length * ((distErr p nf ^ 2 + distErr p nf) * distAbs p emax nf +
          nf * (meanErr p xs.length * B + (2 : ℝ) ^ (emin p emax - 1)) ^ 2) := by
  obtain ⟨rows, e, hl, h⟩ := C125_means (R := R) hp hE ord xs (cs.map (rowF R)) (by simpa using hne) hf hn
  obtain ⟨a1, -, hpred⟩ := C125_predict (R := R) hp hE heven ord ho (xs.map (rowF R)) (cs.map (rowF R))
    (by
      intro x hx
      obtain ⟨y, hy, e⟩ := List.mem_map.1 hx
      exact rowF_inj e ▸ hf y hy)
    (by
      intro x hx
      obtain ⟨y, hy, e⟩ := List.mem_map.1 hx
      exact rowF_inj e ▸ hcf y hy)
  rw [List.length_map] at a1 hl
  have hu := Rounding.unit_pos (p := p)
  have hη := two_zpow_pos (emin p emax - 1)
  have hnear : ∀ q ∈ xs.zip (nearestIndices ⊤ (fdist R ord) (xs.map (rowF R)) (cs.map (rowF R))),
      ∃ c, cs[q.2]? = some c ∧ ∀ c' ∈ cs, KMeans.sq q.1 c ≤ distErr p nf ^ 2 * KMeans.sq q.1 c' +
        (distErr p nf ^ 2 + distErr p nf) * distAbs p emax nf := by
    intro q hq
    obtain ⟨i, hi⟩ := List.getElem?_of_mem hq
    obtain ⟨hx, ha⟩ := List.getElem?_zip_eq_some.1 hi
    rcases hpred i (rowF R q.1) (by simp [hx]) with ⟨-, -, -, hfar⟩ | ⟨t, x0, c, d, e1, ex, hc, -, hmin, -⟩
    · obtain ⟨c, hc, hlt⟩ := hdist q.1 (List.mem_of_getElem? hx)
      exact absurd (hfar q.1 c rfl (List.mem_map_of_mem hc)) (not_le.2 hlt)
    · obtain rfl := rowF_inj ex
      rw [e1] at ha
      rw [← Option.some.inj ha]
      rw [List.getElem?_map, Option.map_eq_some_iff] at hc
      obtain ⟨c0, hc0, ec⟩ := hc
      obtain rfl := rowF_inj ec
      refine ⟨c0, hc0, fun c' hc' => (hmin c' (List.mem_map_of_mem hc')).trans (le_of_eq ?_)⟩
      ring
  have hjlt : ∀ {j}, j < cs.length → j < (cs.map (rowF R)).length := by simp
  generalize nearestIndices ⊤ (fdist R ord) (xs.map (rowF R)) (cs.map (rowF R)) = a at *
  have hpl : ∀ q ∈ xs.zip a, q.2 < cs.length := by
    intro q hq
    obtain ⟨c, hc, -⟩ := hnear q hq
    exact (List.getElem?_eq_some_iff.1 hc).1
  have hlz : (xs.zip a).length = xs.length := by rw [List.length_zip, a1, min_self]
  have hbox : ∀ j, ∀ x ∈ members (xs.zip a) j, InBox B x := fun j x hx =>
    hB x (List.of_mem_zip (members_mem hx)).1
  have hfit : ∀ j f, (1 + unit p) ^ (members (xs.zip a) j).length *
      ((members (xs.zip a) j).map fun x => |x f|).sum < (2 : ℝ) ^ emax := by
    intro j f
    refine lt_of_le_of_lt ?_ hsum
    have hlen : (members (xs.zip a) j).length ≤ xs.length := by rw [← hlz]; exact members_length _ _
    have hs := List.sum_le_card_nsmul ((members (xs.zip a) j).map fun x => |x f|) B (by
      intro y hy
      obtain ⟨x, hx, rfl⟩ := List.mem_map.1 hy
      exact hbox j x hx f)
    rw [List.length_map, nsmul_eq_mul] at hs
    have h0 : 0 ≤ ((members (xs.zip a) j).map fun x => |x f|).sum := by
      apply List.sum_nonneg
      intro y hy
      obtain ⟨x, -, rfl⟩ := List.mem_map.1 hy
      exact abs_nonneg _
    refine mul_le_mul (pow_le_pow_right₀ (by linarith) hlen) (hs.trans ?_) h0 (by positivity)
    exact mul_le_mul_of_nonneg_right (by exact_mod_cast hlen) hB0
  have hfin : ∀ c ∈ rows, ∀ f, ∃ z, c.val f = .fin z := by
    intro c hc f
    obtain ⟨j, hj⟩ := List.getElem?_of_mem hc
    have hjl : j < cs.length := by rw [← hl]; exact (List.getElem?_eq_some_iff.1 hj).1
    obtain ⟨c', hc', h0, h1⟩ := h j (hjlt hjl)
    obtain rfl : c' = c := Option.some.inj (hc'.symm.trans hj)
    by_cases hS : members (xs.zip a) j = []
    · rw [h0 hS]; exact ⟨0, rfl⟩
    · rcases h1 hS f with ⟨z, hz, -⟩ | ⟨-, hbig⟩
      · exact ⟨z, hz⟩
      · exact absurd hbig (not_le.2 (hfit j f))
  obtain ⟨cs', rfl⟩ := exists_rows hfin
  rw [List.length_map] at hl
  have hget : ∀ j, j < cs.length → ∃ c, cs'[j]? = some c ∧
      (members (xs.zip a) j = [] → c = 0) ∧
      (members (xs.zip a) j ≠ [] → ∀ f, IsFloatE p emax (c f) ∧
        |c f - mean (K := ℝ) (members (xs.zip a) j) f| ≤
          meanErr p xs.length * B + (2 : ℝ) ^ (emin p emax - 1)) := by
    intro j hj
    obtain ⟨r, hr, h0, h1⟩ := h j (hjlt hj)
    rw [List.getElem?_map, Option.map_eq_some_iff] at hr
    obtain ⟨c, hc, rfl⟩ := hr
    refine ⟨c, hc, fun hS => rowF_inj (h0 hS), fun hS f => ?_⟩
    rcases h1 hS f with ⟨z, hz, -, hzf, hze⟩ | ⟨-, hbig⟩
    · have ez : c f = z := by simpa [rowF] using hz
      rw [ez]
      refine ⟨hzf, hze.trans ?_⟩
      have hm := mean_abs_le hS (hbox j) f
      have h0 : 0 ≤ ((members (xs.zip a) j).length : ℝ)⁻¹ * ((members (xs.zip a) j).map fun x => |x f|).sum := by
        apply mul_nonneg (by positivity)
        apply List.sum_nonneg
        intro y hy
        obtain ⟨x, -, rfl⟩ := List.mem_map.1 hy
        exact abs_nonneg _
      have : meanErr p (members (xs.zip a) j).length *
          (((members (xs.zip a) j).length : ℝ)⁻¹ * ((members (xs.zip a) j).map fun x => |x f|).sum) ≤
          meanErr p xs.length * B := by
        refine mul_le_mul ?_ hm h0 (meanErr_nonneg _)
        apply meanErr_mono
        rw [← hlz]
        exact members_length _ _
      linarith
    · exact absurd hbig (not_le.2 (hfit j f))
  have hmem : ∀ c ∈ cs', ∃ j, j < cs.length ∧ cs'[j]? = some c := by
    intro c hc
    obtain ⟨j, hj⟩ := List.getElem?_of_mem hc
    exact ⟨j, by rw [← hl]; exact (List.getElem?_eq_some_iff.1 hj).1, hj⟩
  refine ⟨cs', e, hl, ?_, ?_, ?_⟩
  · intro c hc f
    obtain ⟨j, hjl, hj⟩ := hmem c hc
    obtain ⟨c', hc', h0, h1⟩ := hget j hjl
    obtain rfl : c' = c := Option.some.inj (hc'.symm.trans hj)
    by_cases hS : members (xs.zip a) j = []
    · rw [h0 hS]; exact isFloatE_zero
    · exact (h1 hS f).1
  · intro c hc f
    obtain ⟨j, hjl, hj⟩ := hmem c hc
    obtain ⟨c', hc', h0, h1⟩ := hget j hjl
    obtain rfl : c' = c := Option.some.inj (hc'.symm.trans hj)
    have hme := mul_nonneg (meanErr_nonneg (p := p) xs.length) hB0
    by_cases hS : members (xs.zip a) j = []
    · rw [h0 hS]
      simp only [Pi.zero_apply, abs_zero]
      linarith
    · have h1 := (h1 hS f).2
      have h2 := mean_box B _ hS (hbox j) f
      have h3 := abs_add_le (c' f - mean (K := ℝ) (members (xs.zip a) j) f)
        (mean (K := ℝ) (members (xs.zip a) j) f)
      rw [sub_add_cancel] at h3
      linarith
  · refine (objective_le_cost xs cs' a a1 (by rw [hl]; exact hpl)).trans ?_
    refine (cost_near cs cs' _ (meanErr p xs.length * B + (2 : ℝ) ^ (emin p emax - 1)) hpl ?_).trans ?_
    · intro j hj hS f
      obtain ⟨c, hc, -, h1⟩ := hget j hj
      rw [List.getD_eq_getElem?_getD, hc, Option.getD_some]
      exact (h1 hS f).2
    · rw [hlz]
      have := cost_le_affine _ _ xs cs a a1 hne hnear
      linarith

theorem sq_box {B : ℝ} {x c : Fin nf → ℝ} (hx : InBox B x) (hc : InBox B c) :
    KMeans.sq x c ≤ nf * (2 * B) ^ 2 := by
  unfold KMeans.sq
  have : ∀ f ∈ Finset.univ, (x f - c f) ^ 2 ≤ (2 * B) ^ 2 := by
    intro f _
    have h1 := abs_le.1 (hx f)
    have h2 := abs_le.1 (hc f)
    exact sq_le_sq' (by linarith) (by linarith)
  have := Finset.sum_le_card_nsmul _ _ _ this
  rwa [Finset.card_univ, Fintype.card_fin, nsmul_eq_mul] at this

/-- **C125**, any number of steps from centroids in the box of the samples, where the box is so small that
neither sums nor distances overflow: no step fails, all centroids stay finite, and the objective stays below
that of the initial centroids up to accumulated rounding and underflow. -/
theorem C125_run (hp : 1 ≤ p) (hE : (p : ℤ) + 1 ≤ emax) (heven : Even emax)
    (ord : RowE R nf → RowE R nf → Order) (ho : ∀ x c, (ord x c).Sums nf) (B : ℝ) (hB0 : 0 ≤ B)
    (xs cs : List (Fin nf → ℝ)) (hne : cs ≠ []) (hf : ∀ x ∈ xs, InFormat p emax x)
    (hcf : ∀ c ∈ cs, InFormat p emax c) (hn : xs.length ≤ 2 ^ p) (hB : ∀ x ∈ xs, InBox B x)
    (hC : ∀ c ∈ cs, InBox B c)
    (hsum : (1 + unit p) ^ xs.length * (xs.length * B) < (2 : ℝ) ^ emax)
    (hdist : distErr p nf * (nf * (2 * ((1 + meanErr p xs.length) * B + (2 : ℝ) ^ (emin p emax - 1))) ^ 2 +
      distAbs p emax nf) < (2 : ℝ) ^ emax) (k : Nat) :
    ∃ cs' : List (Fin nf → ℝ),
      runN (stepE R ord (xs.map (rowF R))) k (cs.map (rowF R)) = some (cs'.map (rowF R)) ∧
      cs'.length = cs.length ∧
      (∀ c ∈ cs', InBox ((1 + meanErr p xs.length) * B + (2 : ℝ) ^ (emin p emax - 1)) c) ∧
      objective xs cs' ≤ (distErr p nf ^ 2) ^ k * objective xs cs +
        ((List.range k).map fun i => (distErr p nf ^ 2) ^ i).sum *
          (xs.length * ((distErr p nf ^ 2 + distErr p nf) * distAbs p emax nf +
            nf * (meanErr p xs.length * B + (2 : ℝ) ^ (emin p emax - 1)) ^ 2)) := by
  have hme := mul_nonneg (meanErr_nonneg (p := p) xs.length) hB0
  have hη := two_zpow_pos (emin p emax - 1)
  have hF := one_le_distErr (p := p) (nf := nf)
  have hmono : ∀ v : Fin nf → ℝ, InBox B v →
      InBox ((1 + meanErr p xs.length) * B + (2 : ℝ) ^ (emin p emax - 1)) v :=
    fun v hv f => (hv f).trans (by linarith)
  have main : ∃ cs' : List (Fin nf → ℝ),
      runN (stepE R ord (xs.map (rowF R))) k (cs.map (rowF R)) = some (cs'.map (rowF R)) ∧
      cs'.length = cs.length ∧ (∀ c ∈ cs', InFormat p emax c) ∧
      (∀ c ∈ cs', InBox ((1 + meanErr p xs.length) * B + (2 : ℝ) ^ (emin p emax - 1)) c) ∧
      objective xs cs' ≤ (distErr p nf ^ 2) ^ k * objective xs cs +
        ((List.range k).map fun i => (distErr p nf ^ 2) ^ i).sum *
          (xs.length * ((distErr p nf ^ 2 + distErr p nf) * distAbs p emax nf +
            nf * (meanErr p xs.length * B + (2 : ℝ) ^ (emin p emax - 1)) ^ 2)) := by
    induction k with
    | zero => exact ⟨cs, rfl, rfl, hcf, fun c hc => hmono c (hC c hc), by simp⟩
    | succ k ih =>
      obtain ⟨s, e, hl, hfs, hbox, hobj⟩ := ih
      have hne' : s ≠ [] := by
        rintro rfl
        exact hne (List.length_eq_zero_iff.1 hl.symm)
      obtain ⟨s', e', hl', hfs', hbox', hobj'⟩ := C125_step (R := R) hp hE heven ord ho B hB0 xs s hne' hf hfs hn
        hB hsum (by
          intro x hx
          obtain ⟨c, hc⟩ := List.exists_mem_of_ne_nil s hne'
          refine ⟨c, hc, lt_of_le_of_lt ?_ hdist⟩
          exact mul_le_mul_of_nonneg_left
            (by linarith [sq_box (hmono x (hB x hx)) (hbox c hc)]) (by linarith))
      refine ⟨s', ?_, hl'.trans hl, hfs', hbox', hobj'.trans ?_⟩
      · simp only [runN, e, Option.bind_some, e']
      · have h1 := mul_le_mul_of_nonneg_left hobj (show 0 ≤ distErr p nf ^ 2 by positivity)
        have e3 : ((List.range (k + 1)).map fun i => (distErr p nf ^ 2) ^ i).sum =
            1 + distErr p nf ^ 2 * ((List.range k).map fun i => (distErr p nf ^ 2) ^ i).sum := by
          rw [List.range_succ_eq_map, List.map_cons, List.sum_cons, List.map_map, ← List.sum_map_mul_left]
          congr 2
          apply List.map_congr_left
          intro i _
          simp only [Function.comp, Nat.succ_eq_add_one, pow_succ]
          ring
        rw [e3]
        generalize xs.length * ((distErr p nf ^ 2 + distErr p nf) * distAbs p emax nf +
            nf * (meanErr p xs.length * B + (2 : ℝ) ^ (emin p emax - 1)) ^ 2) = W at *
        generalize distErr p nf ^ 2 = Q at *
        rw [pow_succ Q k]
        linarith
  obtain ⟨cs', h1, h2, -, h3, h4⟩ := main
  exact ⟨cs', h1, h2, h3, h4⟩

/-- **C125**, any number of steps from any centroids, finite or not: the step is defined and after the first
one no coordinate is NaN. -/
theorem C125_no_nan (hp : 1 ≤ p) (hE : (p : ℤ) + 1 ≤ emax) (ord : RowE R nf → RowE R nf → Order)
    (xs : List (Fin nf → ℝ)) (cs : List (RowE R nf)) (hne : cs ≠ []) (hf : ∀ x ∈ xs, InFormat p emax x)
    (hn : xs.length ≤ 2 ^ p) (k : Nat) :
    ∃ cs', runN (stepE R ord (xs.map (rowF R))) k cs = some cs' ∧ cs'.length = cs.length ∧
      (k ≠ 0 → ∀ c ∈ cs', ∀ f, c.val f ≠ .nan) := by
  induction k with
  | zero => exact ⟨cs, rfl, rfl, fun h => absurd rfl h⟩
  | succ k ih =>
    obtain ⟨s, e, hl, -⟩ := ih
    have hne' : s ≠ [] := by
      rintro rfl
      exact hne (List.length_eq_zero_iff.1 hl.symm)
    obtain ⟨s', e', hl', h⟩ := C125_means (R := R) hp hE ord xs s hne' hf hn
    refine ⟨s', by simp only [runN, e, Option.bind_some, e'], hl'.trans hl, fun _ c hc f => ?_⟩
    obtain ⟨j, hj⟩ := List.getElem?_of_mem hc
    obtain ⟨c', hc', h0, h1⟩ := h j (by rw [← hl']; exact (List.getElem?_eq_some_iff.1 hj).1)
    obtain rfl : c' = c := Option.some.inj (hc'.symm.trans hj)
    by_cases hS : members (xs.zip (nearestIndices ⊤ (fdist R ord) (xs.map (rowF R)) s)) j = []
    · rw [h0 hS]; simp [rowF]
    · rcases h1 hS f with ⟨z, hz, -⟩ | ⟨hz | hz, -⟩ <;> rw [hz] <;> simp

/-! ### what overflow and underflow do -/

theorem one_sum (R : RoundingE 53 1024) {e : ℤ} (he : -1074 ≤ e) :
    sumU R order1 (ext (fun _ : Fin 1 => (0 : ℝ))) (ext (fun _ : Fin 1 => (2 : ℝ) ^ e)) =
      R.rnd ((2 : ℝ) ^ (e + e)) := by
  have hv := two_zpow_pos e
  have e0 : ext (fun _ : Fin 1 => (0 : ℝ)) 0 - ext (fun _ : Fin 1 => (2 : ℝ) ^ e) 0 = -(2 : ℝ) ^ e := by
    simp [ext]
  have hfl : R.rnd (-(2 : ℝ) ^ e) = -(2 : ℝ) ^ e := by
    rw [R.neg, R.of_isFloat (isFloatE_zpow (by unfold emin; norm_num; omega))]
  simp only [sumU, order1, Order.evalU, termU, diffU, e0, hfl, abs_neg, abs_of_pos hv, mul_zero, zero_add, R.zero,
    ← zpow_add₀ (show (2 : ℝ) ≠ 0 by norm_num)]
  exact R.of_isFloat (R.isFloat _)

theorem one_over (R : RoundingE 53 1024) {e : ℤ} (he : 512 ≤ e) :
    fdist R (fun _ _ => order1) (rowF R fun _ : Fin 1 => 0) (rowF R fun _ => (2 : ℝ) ^ e) = ⊤ := by
  rw [fdist_rowF, distE_eq R (by norm_num) (by norm_num), one_sum R (by omega),
    R.of_isFloat (isFloatE_zpow (by unfold emin; norm_num; omega)), if_neg]
  rw [not_lt]
  exact zpow_le_zpow_right₀ (by norm_num) (by omega)

theorem one_under (R : RoundingE 53 1024) {e : ℤ} (h0 : -1074 ≤ e) (he : e ≤ -540) :
    fdist R (fun _ _ => order1) (rowF R fun _ : Fin 1 => 0) (rowF R fun _ => (2 : ℝ) ^ e) =
      ((0 : ℝ) : WithTop ℝ) := by
  have hsq : R.rnd ((2 : ℝ) ^ (e + e)) = 0 := by
    have hy := two_zpow_pos (e + e)
    have h1 := R.nearest ((2 : ℝ) ^ (e + e)) 0 isFloatE_zero
    have h2 := R.nonneg hy.le
    have h3 : (2 : ℝ) ^ (e + e) * 2 < (2 : ℝ) ^ (emin 53 1024) := by
      rw [← zpow_add_one₀ (by norm_num)]
      exact zpow_lt_zpow_right₀ (by norm_num) (by unfold emin; norm_num; omega)
    obtain ⟨m, hm⟩ := (R.isFloat ((2 : ℝ) ^ (e + e))).mult
    have hq := two_zpow_pos (emin 53 1024)
    generalize (2 : ℝ) ^ (e + e) = y at *
    generalize (2 : ℝ) ^ (emin 53 1024) = q at *
    rw [zero_sub, abs_neg, abs_of_pos hy] at h1
    have h4 := (abs_le.1 h1).2
    rw [hm] at h2 h4 ⊢
    have h5 : (m : ℝ) < 1 := by
      by_contra hc
      push Not at hc
      nlinarith
    have h6 : (0 : ℝ) ≤ m := by
      by_contra hc
      push Not at hc
      nlinarith
    have h7 : m = 0 := by
      have a1 : m < 1 := by exact_mod_cast h5
      have a2 : 0 ≤ m := by exact_mod_cast h6
      omega
    simp [h7]
  rw [fdist_rowF, distE_eq R (by norm_num) (by norm_num), one_sum R h0, hsq, if_pos (two_zpow_pos _),
    Real.sqrt_zero, R.zero]

theorem one_sq (v : ℝ) : KMeans.sq (fun _ : Fin 1 => (0 : ℝ)) (fun _ => v) = v * v := by
  simp [KMeans.sq]
  ring

/-- **C125**: the claim of C41 that the nearest centroid is predicted is false in double precision, by any
factor: the sample 0 gets the first centroid although the second is nearer by the factor `2 ^ 400` (distances
that overflow, `2 ^ 1000` and `2 ^ 600`) or `2 ^ 60` (distances that underflow, `2 ^ -540` and `2 ^ -600`). -/
theorem C125_predict_counterexample (R : RoundingE 53 1024) :
    let x : Fin 1 → ℝ := fun _ => 0
    let c (e : ℤ) : Fin 1 → ℝ := fun _ => (2 : ℝ) ^ e
    nearestIndices ⊤ (fdist R fun _ _ => order1) [rowF R x] [rowF R (c 1000), rowF R (c 600)] = [0] ∧
    nearestDistances ⊤ (fdist R fun _ _ => order1) [rowF R x] [rowF R (c 1000), rowF R (c 600)] = [⊤] ∧
    KMeans.sq x (c 1000) = (2 : ℝ) ^ (800 : ℤ) * KMeans.sq x (c 600) ∧
    nearestIndices ⊤ (fdist R fun _ _ => order1) [rowF R x] [rowF R (c (-540)), rowF R (c (-600))] = [0] ∧
    nearestDistances ⊤ (fdist R fun _ _ => order1) [rowF R x] [rowF R (c (-540)), rowF R (c (-600))] =
      [((0 : ℝ) : WithTop ℝ)] ∧
    KMeans.sq x (c (-540)) = (2 : ℝ) ^ (120 : ℤ) * KMeans.sq x (c (-600)) := by
  intro x c
  have h1 := one_over R (e := 1000) (by norm_num)
  have h2 := one_over R (e := 600) (by norm_num)
  have h3 := one_under R (e := -540) (by norm_num) (by norm_num)
  have h4 := one_under R (e := -600) (by norm_num) (by norm_num)
  have ht : ((0 : ℝ) : WithTop ℝ) < ⊤ := WithTop.coe_lt_top _
  refine ⟨?_, ?_, ?_, ?_, ?_, ?_⟩
  · simp only [nearestIndices, List.map_cons, List.map_nil, nearestLoop, x, c, h1, h2, lt_irrefl, if_false]
  · simp only [nearestDistances, List.map_cons, List.map_nil, minLoop, x, c, h1, h2, lt_irrefl, if_false]
  · rw [one_sq, one_sq, ← zpow_add₀ (by norm_num), ← zpow_add₀ (by norm_num), ← zpow_add₀ (by norm_num)]
    norm_num
  · simp only [nearestIndices, List.map_cons, List.map_nil, nearestLoop, x, c, h3, h4, ht, lt_irrefl, if_false,
      if_true]
  · simp only [nearestDistances, List.map_cons, List.map_nil, minLoop, x, c, h3, h4, ht, lt_irrefl, if_false,
      if_true]
  · rw [one_sq, one_sq, ← zpow_add₀ (by norm_num), ← zpow_add₀ (by norm_num), ← zpow_add₀ (by norm_num)]
    norm_num

/-- A single centroid and the two samples `2 ^ 1023`, wherever the centroid is. -/
theorem overflow_step (R : RoundingE 53 1024) (ord : RowE R 1 → RowE R 1 → Order) (c : RowE R 1) :
    stepE R ord ([fun _ => (2 : ℝ) ^ (1023 : ℤ), fun _ => (2 : ℝ) ^ (1023 : ℤ)].map (rowF R)) [c] =
      some [⟨fun _ => .pos⟩] := by
  obtain ⟨cs', e, hl, h⟩ := stepE_get ord
    ([fun _ => (2 : ℝ) ^ (1023 : ℤ), fun _ => (2 : ℝ) ^ (1023 : ℤ)].map (rowF R)) [c] (by simp)
  have hlt := nearest_lt (fdist R ord)
    ([fun _ => (2 : ℝ) ^ (1023 : ℤ), fun _ => (2 : ℝ) ^ (1023 : ℤ)].map (rowF R)) [c] (by simp)
  have hal : (nearestIndices ⊤ (fdist R ord)
    ([fun _ => (2 : ℝ) ^ (1023 : ℤ), fun _ => (2 : ℝ) ^ (1023 : ℤ)].map (rowF R)) [c]).length = 2 := by
    simp [nearestIndices]
  rw [e]
  have h0 := h 0 (by simp)
  generalize nearestIndices ⊤ (fdist R ord)
    ([fun _ => (2 : ℝ) ^ (1023 : ℤ), fun _ => (2 : ℝ) ^ (1023 : ℤ)].map (rowF R)) [c] = a at *
  obtain ⟨i, j, rfl⟩ := List.length_eq_two.1 hal
  obtain rfl : i = 0 := by have := hlt i (by simp); simpa using this
  obtain rfl : j = 0 := by have := hlt j (by simp); simpa using this
  obtain ⟨r, rfl⟩ := List.length_eq_one_iff.1 hl
  have hr : r = _ := Option.some.inj h0
  rw [hr]
  congr 2
  have hpos := two_zpow_pos (1023 : ℤ)
  have e1 : roundF R (0 + (2 : ℝ) ^ (1023 : ℤ)) = .fin ((2 : ℝ) ^ (1023 : ℤ)) := by
    have : R.rnd (0 + (2 : ℝ) ^ (1023 : ℤ)) = (2 : ℝ) ^ (1023 : ℤ) := by
      rw [zero_add]; exact R.of_isFloat (isFloatE_zpow (by unfold emin; norm_num))
    rw [roundF, this, abs_of_pos hpos, if_pos]
    exact zpow_lt_zpow_right₀ (by norm_num) (by norm_num)
  have e2 : roundF R ((2 : ℝ) ^ (1023 : ℤ) + (2 : ℝ) ^ (1023 : ℤ)) = .pos := by
    have h2 : (2 : ℝ) ^ (1023 : ℤ) + (2 : ℝ) ^ (1023 : ℤ) = (2 : ℝ) ^ (1024 : ℤ) := by
      rw [show (1024 : ℤ) = 1023 + 1 by norm_num, zpow_add_one₀ (by norm_num)]; ring
    have h3 := two_zpow_pos (1024 : ℤ)
    rw [roundF, h2, R.of_isFloat (isFloatE_zpow (by unfold emin; norm_num)), abs_of_pos h3,
      if_neg (lt_irrefl _), if_pos h3]
  have hm : members ((([fun _ => (2 : ℝ) ^ (1023 : ℤ), fun _ => (2 : ℝ) ^ (1023 : ℤ)] :
      List (Fin 1 → ℝ)).map (rowF R)).zip [0, 0]) 0 =
      [rowF R fun _ => (2 : ℝ) ^ (1023 : ℤ), rowF R fun _ => (2 : ℝ) ^ (1023 : ℤ)] := by
    simp [members]
  rw [hm, centroidE, if_neg (by simp)]
  refine congrArg RowE.mk (funext fun f => ?_)
  change divF R (addF R (addF R (.fin 0) (.fin ((2 : ℝ) ^ (1023 : ℤ)))) (.fin ((2 : ℝ) ^ (1023 : ℤ)))) 2 = .pos
  change divF R (addF R (roundF R (0 + (2 : ℝ) ^ (1023 : ℤ))) (.fin ((2 : ℝ) ^ (1023 : ℤ)))) 2 = .pos
  rw [e1]
  change divF R (roundF R ((2 : ℝ) ^ (1023 : ℤ) + (2 : ℝ) ^ (1023 : ℤ))) 2 = .pos
  rw [e2]
  rfl

/-- **C125**: that a step moves a centroid to the mean of its samples (C42) is false in double precision.  Two
samples at `2 ^ 1023` and one centroid there: after the first step, and after every later one, the centroid is
at infinity, although the mean of the samples is `2 ^ 1023`. -/
theorem C125_means_counterexample (R : RoundingE 53 1024) (ord : RowE R 1 → RowE R 1 → Order) (k : Nat) :
    let x : Fin 1 → ℝ := fun _ => (2 : ℝ) ^ (1023 : ℤ)
    InFormat 53 1024 x ∧ mean (K := ℝ) [x, x] = x ∧
    runN (stepE R ord ([x, x].map (rowF R))) (k + 1) [rowF R x] = some [⟨fun _ => .pos⟩] := by
  intro x
  refine ⟨fun _ => isFloatE_zpow (by unfold emin; norm_num), ?_, ?_⟩
  · simp only [mean, List.sum_cons, List.sum_nil, add_zero, List.length_cons, List.length_nil, zero_add]
    funext f
    simp only [Pi.smul_apply, Pi.add_apply, smul_eq_mul]
    push_cast
    ring
  · induction k with
    | zero => exact overflow_step R ord _
    | succ k ih =>
      rw [runN, ih, Option.bind_some]
      exact overflow_step R ord _

/-! ### concrete cases -/

theorem unit_53 : unit 53 ≤ 1 / 2 := by
  unfold unit
  exact (zpow_le_zpow_right₀ (by norm_num) (by norm_num : (-53 : ℤ) ≤ -1)).trans (by norm_num)

/-- Concrete case of `C125_predict`: one centroid at infinity, one that is NaN and a finite one. -/
example := C125_predict (R := awayE 53 1024 (by norm_num)) (nf := 1) (by norm_num) (by norm_num) (by decide)
  (fun _ _ => order1) (fun _ _ => order1_sums)
  [rowF _ fun _ => 0] [⟨fun _ => .pos⟩, ⟨fun _ => .nan⟩, rowF _ fun _ => 0]
  (by
    intro x hx f
    have := rowF_inj (List.mem_singleton.1 hx)
    rw [this]; exact isFloatE_zero)
  (by
    intro x hx f
    simp only [List.mem_cons, List.not_mem_nil, or_false] at hx
    rcases hx with h | h | h
    · have := congrArg (fun r => r.val f) h
      simp [rowF] at this
    · have := congrArg (fun r => r.val f) h
      simp [rowF] at this
    · rw [rowF_inj h]; exact isFloatE_zero)

/-- Concrete case of `C125_means` and `C125_no_nan`: the samples of `C125_means_counterexample`, from a
centroid that is NaN. -/
example := C125_no_nan (R := awayE 53 1024 (by norm_num)) (nf := 1) (by norm_num) (by norm_num)
  (fun _ _ => order1) [fun _ => (2 : ℝ) ^ (1023 : ℤ), fun _ => (2 : ℝ) ^ (1023 : ℤ)] [⟨fun _ => .nan⟩] (by simp)
  (by
    intro x hx f
    simp only [List.mem_cons, List.not_mem_nil, or_false, or_self] at hx
    rw [hx]; exact isFloatE_zpow (by unfold emin; norm_num)) (by norm_num)

/-- Concrete case of `C125_step` and `C125_run`: the samples 0 and 1 and centroids there; the box is 1. -/
example (k : Nat) := C125_run (R := awayE 53 1024 (by norm_num)) (nf := 1) (by norm_num) (by norm_num) (by decide)
  (fun _ _ => order1) (fun _ _ => order1_sums) 1 zero_le_one [fun _ => 0, fun _ => 1] [fun _ => 0, fun _ => 1]
  (by simp)
  (by
    intro x hx f
    simp only [List.mem_cons, List.not_mem_nil, or_false] at hx
    rcases hx with rfl | rfl
    · exact isFloatE_zero
    · have := isFloatE_zpow (p := 53) (emax := 1024) (e := 0) (by unfold emin; norm_num)
      simpa using this)
  (by
    intro x hx f
    simp only [List.mem_cons, List.not_mem_nil, or_false] at hx
    rcases hx with rfl | rfl
    · exact isFloatE_zero
    · have := isFloatE_zpow (p := 53) (emax := 1024) (e := 0) (by unfold emin; norm_num)
      simpa using this)
  (by norm_num)
  (by
    intro x hx f
    simp only [List.mem_cons, List.not_mem_nil, or_false] at hx
    rcases hx with rfl | rfl <;> simp)
  (by
    intro x hx f
    simp only [List.mem_cons, List.not_mem_nil, or_false] at hx
    rcases hx with rfl | rfl <;> simp)
  (by
    have hu := unit_53
    have h0 := Rounding.unit_pos (p := 53)
    have h1 : (2 : ℝ) ^ (10 : ℤ) ≤ (2 : ℝ) ^ (1024 : ℤ) := zpow_le_zpow_right₀ (by norm_num) (by norm_num)
    have h2 : (1 + unit 53) ^ 2 ≤ (3 / 2) ^ 2 := pow_le_pow_left₀ (by linarith) (by linarith) 2
    generalize (2 : ℝ) ^ (1024 : ℤ) = top at *
    norm_num at h1 h2 ⊢
    linarith)
  (by
    have hu := unit_53
    have h0 := Rounding.unit_pos (p := 53)
    have h1 : (2 : ℝ) ^ (20 : ℤ) ≤ (2 : ℝ) ^ (1024 : ℤ) := zpow_le_zpow_right₀ (by norm_num) (by norm_num)
    have h2 : (1 + unit 53) ^ (1 + 5) ≤ (3 / 2) ^ 6 := pow_le_pow_left₀ (by linarith) (by linarith) 6
    have h3 : (1 + unit 53) ^ 3 ≤ (3 / 2) ^ 3 := pow_le_pow_left₀ (by linarith) (by linarith) 3
    have h3' : 0 ≤ (1 + unit 53) ^ 3 := by positivity
    have h4 : (2 : ℝ) ^ (emin 53 1024 - 1) ≤ 1 := zpow_le_one_of_nonpos₀ (by norm_num) (by unfold emin; norm_num)
    have h5 := two_zpow_pos (emin 53 1024 - 1)
    simp only [distErr, distAbs, meanErr, List.length_cons, List.length_nil, zero_add, Nat.reduceAdd] at h2 ⊢
    generalize (2 : ℝ) ^ (1024 : ℤ) = top at *
    generalize (2 : ℝ) ^ (emin 53 1024 - 1) = q at *
    generalize (1 + unit 53) ^ 3 = P at *
    have h6 : (0 : ℝ) ≤ (1 + unit 53) ^ 6 := by positivity
    generalize (1 + unit 53) ^ 6 = Q at *
    norm_num at h1 h2 h3 ⊢
    have h7 : (2 * (P + q)) ^ 2 ≤ 100 := by nlinarith
    have h8 : (2 * (P + q)) ^ 2 + (1 + 1) * q ≤ 102 := by linarith
    have h9 : Q * ((2 * (P + q)) ^ 2 + (1 + 1) * q) ≤ 12 * 102 :=
      mul_le_mul (by linarith) h8 (by positivity) (by norm_num)
    norm_num at h9
    linarith) k

end Verif.KMeansE
