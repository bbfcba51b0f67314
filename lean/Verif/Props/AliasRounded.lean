import Verif.Lemmas.AliasRounded
import Verif.Props.Rounding
import Verif.Props.KMeansFit

/-
C119: the alias method, and k-means++ on top of it, with rounded arithmetic.
-/

namespace Verif.Random

open Verif.Rounding (Rounding IsFloat unit isFloat_zero isFloat_zpow two_zpow_pos)

variable {p : Nat}

/-! ### the index drawn -/

/-- A number of the format below 1 is at most `1 - 2 ^ -p`. -/
theorem float_lt_one (hp : 1 ≤ p) {u : ℝ} (hf : IsFloat p u) (h : u < 1) : u ≤ 1 - unit p := by
  have h2 : (2 : ℤ) ^ (p - 1) < 2 ^ p := pow_lt_pow_right₀ (by norm_num) (by omega)
  have e : ((2 ^ p : ℤ) : ℝ) * (2 : ℝ) ^ (-(p : ℤ)) = 1 := by
    push_cast
    rw [← zpow_natCast, ← zpow_add₀ (by norm_num)]
    simp
  have := Rounding.pred (p := p) (m := 2 ^ p) (e := -(p : ℤ)) h2 hp hf (by rw [e]; exact h)
  rw [sub_mul, e, one_mul] at this
  exact this

/-- The rounded product `n * u` of the draw stays below `n`. -/
theorem index_lt (R : Rounding p) {n : Nat} (h1 : 1 ≤ n) (hn : n ≤ 2 ^ p) {u : ℝ} (hf : IsFloat p u)
    (hu : u < 1) : R.rnd (R.rnd (n : ℝ) * u) < n := by
  rw [R.of_isFloat (isFloat_natCast hn)]
  obtain ⟨e, he1, he2⟩ : ∃ e : Nat, 2 ^ e ≤ n ∧ n < 2 ^ (e + 1) :=
    ⟨Nat.log 2 n, Nat.pow_log_le_self 2 (by omega), Nat.lt_pow_succ_log_self (by norm_num) n⟩
  rcases Nat.eq_or_lt_of_le he1 with heq | hlt
  · obtain ⟨m, k, hm, rfl⟩ := hf
    have : (n : ℝ) * (m * (2 : ℝ) ^ k) = m * (2 : ℝ) ^ (k + e) := by
      rw [← heq, zpow_add₀ (by norm_num)]
      push_cast
      rw [zpow_natCast]
      ring
    rw [this, R.of_isFloat ⟨m, k + e, hm, rfl⟩, ← this]
    have hn' : (0 : ℝ) < n := by exact_mod_cast h1
    nlinarith
  · have hep : e < p := (Nat.pow_lt_pow_iff_right (by norm_num)).1 (hlt.trans_le hn)
    have hu' := float_lt_one (by omega) hf hu
    by_contra hcon
    have hge := not_lt.1 hcon
    have hy : IsFloat p ((n : ℝ) - (2 : ℝ) ^ ((e : ℤ) + 1 - p)) := by
      refine ⟨n * 2 ^ (p - e - 1) - 1, (e : ℤ) + 1 - p, ?_, ?_⟩
      · have hb : (n : ℤ) * 2 ^ (p - e - 1) ≤ 2 ^ (e + 1) * 2 ^ (p - e - 1) :=
          mul_le_mul_of_nonneg_right (by exact_mod_cast he2.le) (by positivity)
        rw [← pow_add, show e + 1 + (p - e - 1) = p by omega] at hb
        have hb2 : (1 : ℤ) ≤ n * 2 ^ (p - e - 1) :=
          one_le_mul_of_one_le_of_one_le (by exact_mod_cast h1) (one_le_pow₀ (by norm_num))
        rw [abs_of_nonneg (by linarith)]
        linarith
      · push_cast
        rw [sub_mul, one_mul, mul_assoc, ← zpow_natCast, ← zpow_add₀ (by norm_num)]
        rw [show ((p - e - 1 : ℕ) : ℤ) + ((e : ℤ) + 1 - p) = 0 by omega]
        simp
    have hnear := R.nearest ((n : ℝ) * u) _ hy
    have hx : (n : ℝ) * u ≤ n - n * unit p := by
      have : (0 : ℝ) ≤ n := Nat.cast_nonneg _
      nlinarith
    have hgap : (2 : ℝ) ^ ((e : ℤ) + 1 - p) = 2 * (2 ^ e * unit p) := by
      unfold unit
      rw [sub_eq_add_neg, zpow_add₀ (by norm_num), zpow_add₀ (by norm_num), zpow_natCast, zpow_one]
      ring
    have hlt' : (2 : ℝ) ^ e * unit p < n * unit p :=
      mul_lt_mul_of_pos_right (by exact_mod_cast hlt) Rounding.unit_pos
    have hpos : 0 < (2 : ℝ) ^ e * unit p := mul_pos (by positivity) Rounding.unit_pos
    rw [hgap] at hnear
    generalize (2 : ℝ) ^ e * unit p = d at *
    generalize (n : ℝ) * unit p = c at *
    rw [abs_of_nonneg (by linarith)] at hnear
    rcases abs_cases ((n : ℝ) - 2 * d - n * u) with ⟨e1, _⟩ | ⟨e1, _⟩ <;> rw [e1] at hnear <;> linarith

/-! ### bounds -/

theorem sum_range_getD (w : List ℝ) : ∑ i ∈ Finset.range w.length, w.getD i 0 = w.sum := by
  rw [← sum_map_getD_range w]
  simp [Finset.sum, Finset.range, Multiset.range]

theorem unit_eq : unit p = 1 / 2 ^ p := by
  unfold unit
  rw [zpow_neg, zpow_natCast, one_div]

theorem pow_bounds (m : Nat) (h : (m : ℝ) * unit p ≤ 1 / 2) :
    (1 + unit p) ^ m * (1 - m * unit p) ≤ 1 ∧ (1 + unit p) ^ m ≤ 1 + 2 * (m * unit p) := by
  have hu := Rounding.unit_pos (p := p)
  have key : (1 + unit p) ^ m * (1 - m * unit p) ≤ 1 := by
    rcases Nat.eq_zero_or_pos m with rfl | hm
    · simp
    have hu1 : unit p ≤ 1 / 2 := by
      have : (1 : ℝ) ≤ m := by exact_mod_cast hm
      nlinarith
    have hb := one_add_mul_le_pow (show (-2 : ℝ) ≤ -unit p by linarith) m
    have h1 : (1 + unit p) ^ m * (1 + -unit p) ^ m ≤ 1 := by
      rw [← mul_pow]
      exact pow_le_one₀ (by nlinarith) (by nlinarith)
    have h2 : (0 : ℝ) ≤ (1 + unit p) ^ m := by positivity
    nlinarith
  refine ⟨key, ?_⟩
  have h2 : (0 : ℝ) ≤ (1 + unit p) ^ m := by positivity
  have h3 : (0 : ℝ) ≤ m * unit p := by positivity
  generalize (m : ℝ) * unit p = a at *
  generalize (1 + unit p) ^ m = g at *
  nlinarith

theorem sum_nonpos' {l : List ℝ} (h : ∀ x ∈ l, x ≤ 0) : l.sum ≤ 0 := by
  induction l with
  | nil => simp
  | cons a l ih =>
    rw [List.sum_cons]
    linarith [h a (by simp), ih (fun x hx => h x (by simp [hx]))]

theorem abs_div_sub {x y N : ℝ} (hN : 0 < N) : |x / N - y| = |x - N * y| / N := by
  rw [show x / N - y = (x - N * y) / N by field_simp, abs_div, abs_of_pos hN]

/-- The surplus of the normalised weights before the main loop. -/
theorem start_surplus (R : Rounding p) (w : List ℝ) (hw : ∀ x ∈ w, 0 ≤ x ∧ IsFloat p x)
    (hn : w.length ≤ 2 ^ p) (hpos : ∃ x ∈ w, 0 < x) (h : ((w.length + 2 : ℕ) : ℝ) * unit p ≤ 1 / 2) :
    -(w.length * ((w.length + 2 : ℕ) * unit p)) ≤
      ∑ i ∈ Finset.range w.length, ((fakeR R.rnd w).getD i 0 - 1) ∧
    ∑ i ∈ Finset.range w.length, |(fakeR R.rnd w).getD i 0 - w.length * (w.getD i 0 / w.sum)| ≤
      w.length * (2 * ((w.length + 2 : ℕ) * unit p)) := by
  obtain ⟨b1, b2⟩ := pow_bounds (p := p) (w.length + 2) h
  have hW : 0 < w.sum := by
    obtain ⟨y, hy, hy0⟩ := hpos
    exact hy0.trans_le (List.single_le_sum (fun a ha => (hw a ha).1) y hy)
  have hsum : ∑ i ∈ Finset.range w.length, (w.length : ℝ) * (w.getD i 0 / w.sum) = w.length := by
    rw [← Finset.mul_sum, ← Finset.sum_div, sum_range_getD, div_self hW.ne', mul_one]
  have hs0 : 0 ≤ ((w.length + 2 : ℕ) : ℝ) * unit p := by
    have := Rounding.unit_pos (p := p)
    positivity
  have hall : ∀ i ∈ Finset.range w.length,
      0 ≤ (w.length : ℝ) * (w.getD i 0 / w.sum) ∧
      w.length * (w.getD i 0 / w.sum) * (1 - (w.length + 2 : ℕ) * unit p) ≤ (fakeR R.rnd w).getD i 0 ∧
      (fakeR R.rnd w).getD i 0 ≤
        w.length * (w.getD i 0 / w.sum) * (1 + 2 * ((w.length + 2 : ℕ) * unit p)) := by
    intro i hi
    have hi' := Finset.mem_range.1 hi
    rw [fakeR_getD _ _ hi']
    have hg : w.getD i 0 = w[i] := by simp [List.getD_eq_getElem?_getD, hi']
    rw [hg]
    obtain ⟨f1, f2, f3, f4⟩ := fake_bounds R w hw hn hpos w[i] (List.getElem_mem _)
    have hx0 := (hw w[i] (List.getElem_mem _)).1
    have ht : 0 ≤ (w.length : ℝ) * (w[i] / w.sum) := by positivity
    generalize (w.length : ℝ) * (w[i] / w.sum) = t at *
    generalize R.rnd (w[i] * normR R.rnd w) = f at *
    generalize ((w.length + 2 : ℕ) : ℝ) * unit p = a at *
    refine ⟨ht, ?_, ?_⟩
    · have : t * (1 - a) ≤ f * ((1 + unit p) ^ (w.length + 2) * (1 - a)) := by
        rw [← mul_assoc]
        exact mul_le_mul_of_nonneg_right f4 (by linarith)
      nlinarith
    · exact f3.trans (mul_le_mul_of_nonneg_left b2 ht)
  constructor
  · rw [Finset.sum_sub_distrib]
    have : ∑ i ∈ Finset.range w.length,
        w.length * (w.getD i 0 / w.sum) * (1 - (w.length + 2 : ℕ) * unit p) ≤
        ∑ i ∈ Finset.range w.length, (fakeR R.rnd w).getD i 0 :=
      Finset.sum_le_sum fun i hi => (hall i hi).2.1
    rw [← Finset.sum_mul, hsum] at this
    simp only [Finset.sum_const, Finset.card_range, nsmul_eq_mul, mul_one]
    linarith
  · refine (Finset.sum_le_sum (g := fun i => w.length * (w.getD i 0 / w.sum) *
      (2 * ((w.length + 2 : ℕ) * unit p))) ?_).trans ?_
    · intro i hi
      obtain ⟨h1, h2, h3⟩ := hall i hi
      generalize (w.length : ℝ) * (w.getD i 0 / w.sum) = t at *
      generalize ((w.length + 2 : ℕ) : ℝ) * unit p = a at *
      rw [abs_le]
      constructor <;> nlinarith
    · rw [← Finset.sum_mul, hsum]

/-! ### C119, zero weights -/

/-- **C119**, zero weights: with rounded arithmetic and `n` weights, `2 n (n + 2) < 2 ^ p`, a draw
returns an index of positive weight.  For `float` (`p = 24`) this is `n <= 2895`. -/
theorem C119_zero_never_drawn_partial (R : Rounding p) (w : List ℝ) (hw : ∀ x ∈ w, 0 ≤ x ∧ IsFloat p x)
    (hpos : ∃ x ∈ w, 0 < x) (hn : 2 * (w.length * (w.length + 2)) < 2 ^ p) (u : ℝ × ℝ)
    (hu : u ∈ Set.Ico (0 : ℝ) 1 ×ˢ Set.Ico (0 : ℝ) 1) (huf : IsFloat p u.1) :
    ∃ i, sampleAtR R.rnd w u = some i ∧ i < w.length ∧ 0 < w.getD i 0 := by
  obtain ⟨⟨hu0, hu1⟩, hv0, hv1⟩ := hu
  have hne : w ≠ [] := by rintro rfl; obtain ⟨x, hx, _⟩ := hpos; simp at hx
  have hn1 : 1 ≤ w.length := List.length_pos_of_ne_nil hne
  have hnp : w.length ≤ 2 ^ p := by nlinarith
  have hup := Rounding.unit_pos (p := p)
  have hkey : 2 * ((w.length : ℝ) * ((w.length + 2 : ℕ) * unit p)) < 1 := by
    have h1 : (2 * (w.length * (w.length + 2)) : ℝ) < 2 ^ p := by exact_mod_cast hn
    have h2 : (2 : ℝ) ^ p * unit p = 1 := by rw [unit_eq]; field_simp
    have := mul_lt_mul_of_pos_right h1 hup
    rw [h2] at this
    push_cast
    linarith
  have hn1' : (1 : ℝ) ≤ w.length := by exact_mod_cast hn1
  have hs0 : 0 ≤ ((w.length + 2 : ℕ) : ℝ) * unit p := by positivity
  have hhalf : ((w.length + 2 : ℕ) : ℝ) * unit p ≤ 1 / 2 := by nlinarith
  have hM : ∀ x ∈ w, 0 ≤ R.rnd (x * normR R.rnd w) ∧ R.rnd (x * normR R.rnd w) ≤ w.length + 1 := by
    intro x hx
    obtain ⟨f1, f2, -, -⟩ := fake_bounds R w hw hnp hpos x hx
    refine ⟨f1, f2.trans ?_⟩
    push_cast at hkey hhalf
    have : unit p ≤ 1 / 2 := by nlinarith
    nlinarith
  obtain ⟨st, pr, e, inv, -, hd, lpr, hpr⟩ := aliasInitR_spec R w hne hM (fun _ => True)
    (fun _ _ _ => trivial) (fun _ _ _ _ _ _ _ _ _ => trivial)
  have hdrift := inv.drift
  have hstart := (start_surplus R w hw hnp hpos hhalf).1
  -- weights and normalised weights
  have hfw : ∀ i, i < w.length → 0 < (fakeR R.rnd w).getD i 0 → 0 < w.getD i 0 := by
    intro i hi hf
    have hg : w.getD i 0 = w[i] := by simp [List.getD_eq_getElem?_getD, hi]
    rw [hg]
    refine lt_of_le_of_ne (hw _ (List.getElem_mem _)).1 ?_
    intro h0
    rw [fakeR_getD _ _ hi, ← h0, zero_mul, R.zero] at hf
    exact lt_irrefl _ hf
  -- an open cell has positive weight
  have hopen : ∀ i ∈ st.small ++ st.large, 0 < st.fake.getD i 0 := by
    intro i hi
    by_contra hneg
    have hsm : i ∈ st.small := by
      rcases List.mem_append.1 hi with h | h
      · exact h
      · linarith [(inv.large_ge i h).1]
    have hle : st.large = [] := by
      rcases hd with hd | hd
      · rw [hd] at hsm; simp at hsm
      · exact hd
    have hsur : surplus st ≤ -1 := by
      unfold surplus
      rw [hle, List.append_nil]
      obtain ⟨a, b, hab⟩ := List.append_of_mem hsm
      have hbnd : ∀ l : List Nat, (∀ j ∈ l, j ∈ st.small) →
          (l.map (fun i => st.fake.getD i 0 - 1)).sum ≤ 0 := by
        intro l hl
        refine sum_nonpos' ?_
        intro y hy
        obtain ⟨j, hj, rfl⟩ := List.mem_map.1 hy
        linarith [(inv.small_lt j (hl j hj)).2]
      have h1 := hbnd a (fun j hj => by rw [hab]; simp [hj])
      have h2 := hbnd b (fun j hj => by rw [hab]; simp [hj])
      rw [hab, List.map_append, List.sum_append, List.map_cons, List.sum_cons]
      linarith [not_lt.1 hneg]
    have hlen : (0 : ℝ) ≤ (st.small ++ st.large).length := Nat.cast_nonneg _
    have hδ : 0 ≤ unit p * (1 + ((w.length : ℝ) + 1)) := by positivity
    have hd2 : ((w.length : ℝ) - (st.small ++ st.large).length) * (unit p * (1 + (w.length + 1))) ≤
        w.length * ((w.length + 2 : ℕ) * unit p) := by
      push_cast
      nlinarith
    have := (abs_le.1 hdrift).1
    linarith
  have hj : ⌊R.rnd (R.rnd (w.length : ℝ) * u.1)⌋₊ < w.length := by
    rw [Nat.floor_lt (R.nonneg (mul_nonneg (R.nonneg (Nat.cast_nonneg _)) hu0))]
    exact index_lt R hn1 hnp huf hu1
  simp only [sampleAtR, e, Option.bind_eq_bind, Option.bind_some, aliasSample]
  generalize ⌊R.rnd (R.rnd (w.length : ℝ) * u.1)⌋₊ = j at hj
  rw [getElem?_eq_getD pr j 0 (by omega), getElem?_eq_getD st.aliases j 0 (by rw [inv.shape.lals]; exact hj)]
  simp only [Option.bind_some, hpr]
  unfold pDone
  by_cases ho : j ∈ st.small ++ st.large
  · rw [if_pos ho, if_pos hv1]
    exact ⟨j, rfl, hj, hfw j hj ((hopen j ho).trans_le (inv.zopen j ho))⟩
  · obtain ⟨c1, c2, c3, c4, c5⟩ := inv.closed j hj ho
    rw [if_neg ho]
    split
    · rename_i hlt
      exact ⟨j, rfl, hj, hfw j hj (by linarith)⟩
    · exact ⟨_, rfl, c4, hfw _ c4 (by linarith)⟩

/-- **C119**, distribution: with `n` weights, `2 (n + 2) <= 2 ^ p`, the probabilities that the computed
table gives to the indices differ from `w i / sum w` by at most `8 (n + 2) / 2 ^ p` in total. -/
theorem C119_distribution (R : Rounding p) (w : List ℝ) (hw : ∀ x ∈ w, 0 ≤ x ∧ IsFloat p x)
    (hpos : ∃ x ∈ w, 0 < x) (hn : 2 * (w.length + 2) ≤ 2 ^ p) :
    ∃ pr al, aliasInitR R.rnd w = some (pr, al) ∧ pr.length = w.length ∧ al.length = w.length ∧
      (∀ j, j < w.length → 0 ≤ pr.getD j 0 ∧ pr.getD j 0 ≤ 1) ∧
      (∀ j, j < w.length → pr.getD j 0 < 1 → al.getD j 0 < w.length) ∧
      ∑ i ∈ Finset.range w.length,
        |mass w.length (fun j => pr.getD j 0) (fun j => al.getD j 0) i / w.length -
          w.getD i 0 / w.sum| ≤ 8 * ((w.length : ℝ) + 2) / 2 ^ p := by
  have hne : w ≠ [] := by rintro rfl; obtain ⟨x, hx, _⟩ := hpos; simp at hx
  have hn1 : 1 ≤ w.length := List.length_pos_of_ne_nil hne
  have hnp : w.length ≤ 2 ^ p := by omega
  have hup := Rounding.unit_pos (p := p)
  have hn1' : (1 : ℝ) ≤ w.length := by exact_mod_cast hn1
  have hs0 : 0 ≤ ((w.length + 2 : ℕ) : ℝ) * unit p := by positivity
  have hhalf : ((w.length + 2 : ℕ) : ℝ) * unit p ≤ 1 / 2 := by
    have h1 : (2 * (w.length + 2) : ℝ) ≤ 2 ^ p := by exact_mod_cast hn
    have h2 : (2 : ℝ) ^ p * unit p = 1 := by rw [unit_eq]; field_simp
    have := mul_le_mul_of_nonneg_right h1 hup.le
    rw [h2] at this
    push_cast
    linarith
  have hM : ∀ x ∈ w, 0 ≤ R.rnd (x * normR R.rnd w) ∧ R.rnd (x * normR R.rnd w) ≤ 2 * w.length := by
    intro x hx
    obtain ⟨f1, f2, -, -⟩ := fake_bounds R w hw hnp hpos x hx
    refine ⟨f1, f2.trans ?_⟩
    push_cast at hhalf
    have : unit p ≤ 1 / 6 := by nlinarith
    have : (1 + unit p) ^ 2 ≤ 2 := by nlinarith
    nlinarith
  obtain ⟨st, pr, e, inv, -, hd, lpr, hpr⟩ := aliasInitR_spec R w hne hM (fun _ => True)
    (fun _ _ _ => trivial) (fun _ _ _ _ _ _ _ _ _ => trivial)
  obtain ⟨hst1, hst2⟩ := start_surplus R w hw hnp hpos hhalf
  refine ⟨pr, st.aliases, e, lpr, inv.shape.lals, ?_, ?_, ?_⟩
  · intro j hj
    rw [hpr]
    unfold pDone
    split
    · exact ⟨zero_le_one, le_rfl⟩
    · rename_i ho
      obtain ⟨c1, c2, -⟩ := inv.closed j hj ho
      exact ⟨c1, c2.le⟩
  · intro j hj hlt
    rw [hpr] at hlt
    unfold pDone at hlt
    split at hlt
    · exact absurd hlt (lt_irrefl _)
    · rename_i ho
      exact (inv.closed j hj ho).2.2.2.1
  · have hfun : (fun j => pr.getD j 0) = pDone st := funext hpr
    rw [hfun]
    -- the open cells have surplus of one sign
    have hop : ∑ i ∈ Finset.range w.length,
        |if i ∈ st.small ++ st.large then st.fake.getD i 0 - 1 else 0| = |surplus st| := by
      have h1 : ∑ i ∈ Finset.range w.length,
          |if i ∈ st.small ++ st.large then st.fake.getD i 0 - 1 else 0| =
          ((st.small ++ st.large).map (fun i => |st.fake.getD i 0 - 1|)).sum := by
        have hsub : (st.small ++ st.large).toFinset ⊆ Finset.range w.length := by
          intro i hi
          exact Finset.mem_range.2 (inv.shape.lt i (List.mem_toFinset.1 hi))
        rw [← List.sum_toFinset _ inv.shape.nodup, ← Finset.sum_subset hsub]
        · apply Finset.sum_congr rfl
          intro i hi
          rw [if_pos (List.mem_toFinset.1 hi)]
        · intro i _ hi
          rw [if_neg (fun h => hi (List.mem_toFinset.2 h)), abs_zero]
      rw [h1]
      unfold surplus
      rcases hd with hd | hd
      · rw [hd, List.nil_append]
        have : st.large.map (fun i => |st.fake.getD i 0 - 1|) =
            st.large.map (fun i => st.fake.getD i 0 - 1) := by
          apply List.map_congr_left
          intro i hi
          exact abs_of_nonneg (by linarith [(inv.large_ge i hi).1])
        rw [this, abs_of_nonneg]
        refine List.sum_nonneg ?_
        intro y hy
        obtain ⟨i, hi, rfl⟩ := List.mem_map.1 hy
        linarith [(inv.large_ge i hi).1]
      · rw [hd, List.append_nil]
        have : st.small.map (fun i => |st.fake.getD i 0 - 1|) =
            st.small.map (fun i => -(st.fake.getD i 0 - 1)) := by
          apply List.map_congr_left
          intro i hi
          exact abs_of_nonpos (by linarith [(inv.small_lt i hi).2])
        rw [this, abs_of_nonpos]
        · generalize st.small = l
          induction l with
          | nil => simp
          | cons a l ih => simp only [List.map_cons, List.sum_cons, ih]; ring
        · refine sum_nonpos' ?_
          intro y hy
          obtain ⟨i, hi, rfl⟩ := List.mem_map.1 hy
          linarith [(inv.small_lt i hi).2]
    have hlen : (0 : ℝ) ≤ (st.small ++ st.large).length := Nat.cast_nonneg _
    have hδ : 0 ≤ unit p * (1 + 2 * (w.length : ℝ)) := by positivity
    have hcut : ((w.length : ℝ) - (st.small ++ st.large).length) * (unit p * (1 + 2 * w.length)) ≤
        w.length * (unit p * (1 + 2 * w.length)) := mul_le_mul_of_nonneg_right (by linarith) hδ
    have hcr := inv.credit_le.trans hcut
    have hdr := inv.drift.trans hcut
    -- total surplus at the start
    have hW : 0 < w.sum := by
      obtain ⟨y, hy, hy0⟩ := hpos
      exact hy0.trans_le (List.single_le_sum (fun a ha => (hw a ha).1) y hy)
    have hS0 : |∑ i ∈ Finset.range w.length, ((fakeR R.rnd w).getD i 0 - 1)| ≤
        w.length * (2 * ((w.length + 2 : ℕ) * unit p)) := by
      have hsum : ∑ i ∈ Finset.range w.length, (w.length : ℝ) * (w.getD i 0 / w.sum) = w.length := by
        rw [← Finset.mul_sum, ← Finset.sum_div, sum_range_getD, div_self hW.ne', mul_one]
      have : ∑ i ∈ Finset.range w.length, ((fakeR R.rnd w).getD i 0 - 1) =
          ∑ i ∈ Finset.range w.length,
            ((fakeR R.rnd w).getD i 0 - w.length * (w.getD i 0 / w.sum)) := by
        rw [Finset.sum_sub_distrib, Finset.sum_sub_distrib, hsum]
        simp
      rw [this]
      exact (Finset.abs_sum_le_sum_abs _ _).trans hst2
    have hsur : |surplus st| ≤ w.length * (unit p * (1 + 2 * w.length)) +
        w.length * (2 * ((w.length + 2 : ℕ) * unit p)) := by
      have := abs_sub_abs_le_abs_sub (surplus st)
        (∑ i ∈ Finset.range w.length, ((fakeR R.rnd w).getD i 0 - 1))
      linarith
    have htot : ∑ i ∈ Finset.range w.length,
        |mass w.length (pDone st) (fun j => st.aliases.getD j 0) i - w.length * (w.getD i 0 / w.sum)| ≤
        w.length * (unit p * (1 + 2 * w.length)) + |surplus st| +
          w.length * (2 * ((w.length + 2 : ℕ) * unit p)) := by
      refine le_trans (b := ∑ i ∈ Finset.range w.length, (|credit w.length st i - (fakeR R.rnd w).getD i 0| +
        |if i ∈ st.small ++ st.large then st.fake.getD i 0 - 1 else 0| +
        |(fakeR R.rnd w).getD i 0 - w.length * (w.getD i 0 / w.sum)|)) ?_ ?_
      · apply Finset.sum_le_sum
        intro i _
        have hm : mass w.length (pDone st) (fun j => st.aliases.getD j 0) i -
            w.length * (w.getD i 0 / w.sum) = (credit w.length st i - (fakeR R.rnd w).getD i 0) -
            (if i ∈ st.small ++ st.large then st.fake.getD i 0 - 1 else 0) +
            ((fakeR R.rnd w).getD i 0 - w.length * (w.getD i 0 / w.sum)) := by
          unfold credit; ring
        rw [hm]
        exact (abs_add_le _ _).trans (add_le_add_left (abs_sub _ _) _)
      · rw [Finset.sum_add_distrib, Finset.sum_add_distrib, hop]
        linarith
    have hscale : ∑ i ∈ Finset.range w.length,
        |mass w.length (pDone st) (fun j => st.aliases.getD j 0) i / w.length - w.getD i 0 / w.sum| =
        (∑ i ∈ Finset.range w.length,
          |mass w.length (pDone st) (fun j => st.aliases.getD j 0) i -
            w.length * (w.getD i 0 / w.sum)|) / w.length := by
      rw [Finset.sum_div]
      apply Finset.sum_congr rfl
      intro i _
      exact abs_div_sub (by linarith)
    rw [hscale, div_le_iff₀ (by linarith)]
    have hb : 8 * ((w.length : ℝ) + 2) / 2 ^ p = 8 * ((w.length : ℝ) + 2) * unit p := by
      rw [unit_eq]; ring
    rw [hb]
    push_cast at *
    nlinarith

/-! ### C119, k-means++ -/

open Verif.KMeans Verif.Rounding in
/-- The features of a sample, as the rounded distance takes them. -/
noncomputable def feat {nf : Nat} (x : Fin nf → ℝ) (k : Nat) : ℝ := if h : k < nf then x ⟨k, h⟩ else 0

open Verif.Rounding in
/-- Rounded distance between two samples; `o` is the order of summation chosen for the two. -/
noncomputable def fdist {nf : Nat} (R : Rounding p) (o : (Fin nf → ℝ) → (Fin nf → ℝ) → Order)
    (x c : Fin nf → ℝ) : ℝ := distR R (o x c) (feat x) (feat c)

theorem rnd_eq_zero (R : Rounding p) {x : ℝ} (h : R.rnd x = 0) : x = 0 := by
  have := (R.rel_error x).2
  rw [h] at this
  simpa using this

open Verif.Rounding in
theorem fdist_eq_zero {nf : Nat} (R : Rounding p) (hp : 1 ≤ p)
    {o : (Fin nf → ℝ) → (Fin nf → ℝ) → Order} (ho : ∀ x c, (o x c).Sums nf) {x c : Fin nf → ℝ}
    (h : fdist R o x c = 0) : x = c := by
  funext ⟨a, ha⟩
  have h1 := abs_le_distR R hp (u := feat x) (v := feat c) (sums_mem (ho x c) ha)
  have h2 : distR R (o x c) (feat x) (feat c) = 0 := h
  rw [h2] at h1
  have h3 : R.rnd (feat x a - feat c a) = 0 := abs_eq_zero.1 (le_antisymm h1 (abs_nonneg _))
  have h4 := rnd_eq_zero R h3
  simp only [feat, ha, dif_pos] at h4
  linarith

open Verif.Rounding in
theorem eval_zero (R : Rounding p) (t : Nat → ℝ) (ht : ∀ k, t k = 0) (o : Order) : o.eval R t = 0 := by
  induction o with
  | term k => simp only [Order.eval, ht, R.zero]
  | add a b iha ihb => simp only [Order.eval, iha, ihb, add_zero, R.zero]
  | fma a k iha => simp only [Order.eval, iha, ht, add_zero, R.zero]

open Verif.Rounding in
theorem fdist_self {nf : Nat} (R : Rounding p) (o : (Fin nf → ℝ) → (Fin nf → ℝ) → Order)
    (x : Fin nf → ℝ) : fdist R o x x = 0 := by
  unfold fdist distR
  rw [eval_zero R _ _ (o x x)]
  · simp [R.zero]
  · intro k
    cases k <;> simp [term, R.zero]

open Verif.KMeans Verif.Rounding in
theorem minLoop_float {nf : Nat} (R : Rounding p) (o : (Fin nf → ℝ) → (Fin nf → ℝ) → Order)
    (x : Fin nf → ℝ) : ∀ (cs : List (Fin nf → ℝ)) (md : ℝ), 0 ≤ md → IsFloat p md →
    0 ≤ minLoop (fdist R o) x cs md ∧ IsFloat p (minLoop (fdist R o) x cs md)
  | [], md, h0, hf => ⟨h0, hf⟩
  | c :: cs, md, h0, hf => by
    simp only [minLoop]
    refine minLoop_float R o x cs _ ?_ ?_
    · split
      · exact distR_nonneg R _ _ _
      · exact h0
    · split
      · exact R.isFloat _
      · exact hf

open Verif.KMeans Verif.Rounding in
theorem plusPlusLoop_rounded {nf : Nat} (R : Rounding p) (hp : 1 ≤ p)
    (o : (Fin nf → ℝ) → (Fin nf → ℝ) → Order) (ho : ∀ x c, (o x c).Sums nf) (inf : ℝ) (hinf0 : 0 < inf)
    (hinf : IsFloat p inf) (xs l : List (Fin nf → ℝ)) (hn : 2 * (xs.length * (xs.length + 2)) < 2 ^ p)
    (hl : l.Nodup) (hsub : ∀ v ∈ l, v ∈ xs) (u : Nat → ℝ × ℝ)
    (hu : ∀ i, u i ∈ Set.Ico (0 : ℝ) 1 ×ˢ Set.Ico (0 : ℝ) 1) (huf : ∀ i, IsFloat p (u i).1) :
    ∀ (k : Nat) (cs : List (Fin nf → ℝ)), cs.Nodup → (∀ c ∈ cs, c ∈ xs) → cs.length + k ≤ l.length →
      ∃ r, plusPlusLoop inf (fdist R o) (fun i w => sampleAtR R.rnd w (u i)) xs k cs = some r ∧
        r.Nodup ∧ (∀ c ∈ r, c ∈ xs) ∧ r.length = cs.length + k
  | 0, cs, hnd, hm, _ => ⟨cs, rfl, hnd, hm, rfl⟩
  | k + 1, cs, hnd, hm, hle => by
    obtain ⟨y, hy, hyc⟩ : ∃ y ∈ l, y ∉ cs := by
      by_contra hcon
      have : l ⊆ cs := fun y hy => by
        by_contra hyc
        exact hcon ⟨y, hy, hyc⟩
      have := (List.subperm_of_subset hl this).length_le
      omega
    have hw0 : ∀ w ∈ nearestDistances inf (fdist R o) xs cs, 0 ≤ w ∧ IsFloat p w := by
      intro w hw
      obtain ⟨x, _, rfl⟩ := List.mem_map.1 hw
      exact minLoop_float R o x cs inf hinf0.le hinf
    have hpos : ∃ w ∈ nearestDistances inf (fdist R o) xs cs, 0 < w := by
      refine ⟨minLoop (fdist R o) y cs inf, List.mem_map.2 ⟨y, hsub y hy, rfl⟩, ?_⟩
      refine lt_minLoop (fdist R o) y 0 cs inf hinf0 ?_
      intro c hc
      refine lt_of_le_of_ne (distR_nonneg R _ _ _) ?_
      intro h
      exact hyc (fdist_eq_zero R hp ho h.symm ▸ hc)
    obtain ⟨i, e, hil, hiw⟩ := C119_zero_never_drawn_partial R _ hw0 hpos
      (by simpa [nearestDistances] using hn) (u k) (hu k) (huf k)
    have hix : i < xs.length := by simpa [nearestDistances] using hil
    have hnot : xs[i] ∉ cs := by
      intro hmem
      have : (nearestDistances inf (fdist R o) xs cs).getD i 0 = minLoop (fdist R o) xs[i] cs inf := by
        simp [nearestDistances, List.getD_eq_getElem?_getD, hix]
      rw [this] at hiw
      have h2 := (minLoop_le (fdist R o) xs[i] cs inf).2 _ hmem
      rw [fdist_self] at h2
      exact absurd hiw (not_lt.2 h2)
    obtain ⟨r, er, h1, h2, h3⟩ := plusPlusLoop_rounded R hp o ho inf hinf0 hinf xs l hn hl hsub u hu huf k
      (cs ++ [xs[i]])
      (by
        rw [List.nodup_append]
        refine ⟨hnd, by simp, ?_⟩
        intro a ha b hb
        rw [List.mem_singleton] at hb
        subst hb
        rintro rfl
        exact hnot ha) (by
        intro c hc
        rcases List.mem_append.1 hc with hc | hc
        · exact hm c hc
        · rw [List.mem_singleton] at hc
          subst hc
          exact List.getElem_mem hix) (by simp; omega)
    refine ⟨r, ?_, h1, h2, by simp at h3; omega⟩
    simp only [plusPlusLoop, e, Option.bind_eq_bind, Option.bind_some, List.getElem?_eq_getElem hix, er]

open Verif.KMeans Verif.Rounding in
/-- **C119**, k-means++: with rounded distances, weights and probabilities, on `n` samples with at
least `k` distinct ones and `2 n (n + 2) < 2 ^ p`, k pairwise different samples are drawn, whatever the
numbers drawn by the generator. -/
theorem C119_kmeanspp_distinct_partial {nf : Nat} (R : Rounding p) (hp : 1 ≤ p)
    (o : (Fin nf → ℝ) → (Fin nf → ℝ) → Order) (ho : ∀ x c, (o x c).Sums nf) (inf : ℝ) (hinf0 : 0 < inf)
    (hinf : IsFloat p inf) (xs : List (Fin nf → ℝ)) (hn : 2 * (xs.length * (xs.length + 2)) < 2 ^ p)
    (k : Nat) (hk : 1 ≤ k)
    (hdist : ∃ l : List (Fin nf → ℝ), l.Nodup ∧ (∀ v ∈ l, v ∈ xs) ∧ k ≤ l.length)
    (first : Nat) (hfirst : first < xs.length) (u : Nat → ℝ × ℝ)
    (hu : ∀ i, u i ∈ Set.Ico (0 : ℝ) 1 ×ˢ Set.Ico (0 : ℝ) 1) (huf : ∀ i, IsFloat p (u i).1) :
    ∃ r, plusPlus inf (fdist R o) (fun i w => sampleAtR R.rnd w (u i)) first xs k = some r ∧
      r.length = k ∧ r.Nodup ∧ ∀ c ∈ r, c ∈ xs := by
  obtain ⟨l, hl, hsub, hlen⟩ := hdist
  obtain ⟨r, e, h1, h2, h3⟩ := plusPlusLoop_rounded R hp o ho inf hinf0 hinf xs l hn hl hsub u hu huf
    (k - 1) [xs[first]] (by simp) (by simp) (by simp; omega)
  refine ⟨r, ?_, by simp at h3; omega, h1, h2⟩
  simp only [plusPlus, List.getElem?_eq_getElem hfirst, Option.bind_eq_bind, Option.bind_some, e]

/-! ### C119, many weights -/

theorem classify_suffix (fake : List ℝ) : ∀ (i : Nat) (small large s l : List Nat),
    classify fake i small large = some (s, l) → ∃ pre, s = pre ++ small := by
  intro i
  induction i with
  | zero =>
    intro small large s l h
    simp only [classify, Option.some.injEq, Prod.mk.injEq] at h
    exact ⟨[], by simp [h.1]⟩
  | succ i ih =>
    intro small large s l h
    rw [classify] at h
    cases hv : fake[i]? with
    | none => simp [hv] at h
    | some v =>
      simp only [hv, Option.bind_eq_bind, Option.bind_some] at h
      split at h
      · obtain ⟨pre, e⟩ := ih _ _ _ _ h
        exact ⟨pre ++ [i], by simp [e]⟩
      · exact ih _ _ _ _ h

/-- When the normalised weights sum to less than `n - 1` by more than the errors of the main loop, the
last index is left over if its normalised weight is below 1: it is drawn with probability `1 / n`. -/
theorem last_left_over (R : Rounding p) (w : List ℝ) (m : Nat) (hm : w.length = m + 1) {M : ℝ}
    (hM0 : 0 ≤ M)
    (h0 : ∀ x ∈ w, 0 ≤ R.rnd (x * normR R.rnd w) ∧ R.rnd (x * normR R.rnd w) ≤ M)
    (hlast : (fakeR R.rnd w).getD m 0 < 1)
    (hsum : ∑ i ∈ Finset.range w.length, ((fakeR R.rnd w).getD i 0 - 1) +
      w.length * (unit p * (1 + M)) < -1) :
    ∃ pr al, aliasInitR R.rnd w = some (pr, al) ∧ pr[m]? = some 1 := by
  have hup := Rounding.unit_pos (p := p)
  have h1 : ∀ s l, classify (fakeR R.rnd w) w.length [] [] = some (s, l) →
      ∃ pre, (startR R.rnd w s l).small = pre ++ [m] := by
    intro s l h
    rw [hm, classify, getElem?_eq_getD _ m 0 (by simp [fakeR, hm])] at h
    simp only [Option.bind_eq_bind, Option.bind_some, if_pos hlast] at h
    exact classify_suffix _ _ _ _ _ _ h
  have h2 : ∀ st s l small large, RInv p w.length M (fun i => (fakeR R.rnd w).getD i 0) st →
      st.small = s :: small → st.large = l :: large → (∃ pre, st.small = pre ++ [m]) →
      ∃ pre, (stepSt st s l small large
        (R.rnd (st.fake.getD l 0 + R.rnd (st.fake.getD s 0 - 1)))).small = pre ++ [m] := by
    intro st s l small large inv hs hl hp
    obtain ⟨pre, hp⟩ := hp
    rw [hs] at hp
    cases pre with
    | nil =>
      exfalso
      simp only [List.nil_append, List.cons.injEq] at hp
      have hsur : -1 ≤ surplus st := by
        unfold surplus
        rw [hs, hp.1, hp.2, List.map_append, List.sum_append]
        have h1 := (inv.small_lt m (by rw [hs, hp.1]; simp)).1
        have h2 : 0 ≤ (st.large.map (fun i => st.fake.getD i 0 - 1)).sum := by
          refine List.sum_nonneg ?_
          intro y hy
          obtain ⟨i, hi, rfl⟩ := List.mem_map.1 hy
          linarith [(inv.large_ge i hi).1]
        simp only [List.map_cons, List.map_nil, List.sum_cons, List.sum_nil]
        linarith
      have hdr := (abs_le.1 inv.drift).2
      have hlen : (0 : ℝ) ≤ (st.small ++ st.large).length := Nat.cast_nonneg _
      have hδ : 0 ≤ unit p * (1 + M) := by positivity
      have hcut : ((w.length : ℝ) - (st.small ++ st.large).length) * (unit p * (1 + M)) ≤
          w.length * (unit p * (1 + M)) := mul_le_mul_of_nonneg_right (by linarith) hδ
      linarith
    | cons a pre =>
      simp only [List.cons_append, List.cons.injEq] at hp
      simp only [stepSt]
      split
      · exact ⟨l :: pre, by simp [hp.2]⟩
      · exact ⟨pre, hp.2⟩
  obtain ⟨st, pr, e, inv, ⟨pre, hpre⟩, -, lpr, hpr⟩ := aliasInitR_spec R w
    (by rintro rfl; simp at hm) h0 (fun st => ∃ pre, st.small = pre ++ [m]) h1 h2
  refine ⟨pr, _, e, ?_⟩
  rw [getElem?_eq_getD pr m 0 (by omega), hpr]
  simp [pDone, hpre]

theorem foldl_replicate (f : ℝ → ℝ → ℝ) (x : ℝ) : ∀ (k : Nat) (g : Nat → ℝ),
    (∀ j, j < k → f (g j) x = g (j + 1)) → (List.replicate k x).foldl f (g 0) = g k := by
  intro k
  induction k with
  | zero => intro g _; rfl
  | succ k ih =>
    intro g h
    rw [List.replicate_succ, List.foldl_cons, h 0 (by omega)]
    exact ih (fun j => g (j + 1)) (fun j hj => h (j + 1) (by omega))

/-- Above `2 ^ 24` a `float` is an even number: adding 5/4 adds 2. -/
theorem rnd_even (R : Rounding 24) {m : ℤ} (h1 : 2 ^ 23 ≤ m) (h2 : m < 2 ^ 24) :
    R.rnd (2 * m + 5 / 4) = 2 * m + 2 := by
  have h1' : (2 ^ 23 : ℝ) ≤ m := by exact_mod_cast h1
  have hy : IsFloat 24 (2 * (m : ℝ) + 2) :=
    ⟨m + 1, 1, by rw [abs_of_nonneg (by linarith [show (0 : ℤ) ≤ 2 ^ 23 by norm_num])]; omega, by
      push_cast; ring⟩
  have hn := R.nearest (2 * m + 5 / 4) _ hy
  obtain ⟨a, e, ha, hr⟩ := R.isFloat (2 * m + 5 / 4)
  rw [show (2 * (m : ℝ) + 2) - (2 * m + 5 / 4) = 3 / 4 by ring,
    abs_of_pos (by norm_num : (0 : ℝ) < 3 / 4)] at hn
  obtain ⟨g1, g2⟩ := abs_le.1 hn
  have ha' : (a : ℝ) ≤ 2 ^ 24 := by exact_mod_cast (abs_le.1 ha).2
  have he : 1 ≤ e := by
    by_contra hcon
    have hz : (2 : ℝ) ^ e ≤ 1 := zpow_le_one_of_nonpos₀ (by norm_num) (by omega)
    have hz0 := two_zpow_pos e
    have : (a : ℝ) * (2 : ℝ) ^ e ≤ 2 ^ 24 := by
      rcases le_or_gt 0 (a : ℝ) with h | h
      · nlinarith
      · nlinarith
    rw [← hr] at this
    norm_num at *
    linarith
  obtain ⟨t, rfl⟩ := Int.le.dest he
  rw [zpow_add₀ (by norm_num), zpow_one, zpow_natCast] at hr
  have hr2 : R.rnd (2 * m + 5 / 4) = ((2 * (a * 2 ^ t) : ℤ) : ℝ) := by
    rw [hr]; push_cast; ring
  rw [hr2] at g1 g2 ⊢
  have k1 : (((2 * m : ℤ)) : ℝ) < ((2 * (a * 2 ^ t) : ℤ) : ℝ) := by push_cast at *; linarith
  have k2 : ((2 * (a * 2 ^ t) : ℤ) : ℝ) < ((2 * m + 3 : ℤ) : ℝ) := by push_cast at *; linarith
  have k1' := Int.cast_lt.1 k1
  have k2' := Int.cast_lt.1 k2
  have : (2 * (a * 2 ^ t) : ℤ) = 2 * m + 2 := by omega
  rw [this]; push_cast; ring

/-- 8191 weights of 2050, 8192 weights of 5/4, and one weight 0. -/
noncomputable def manyWeights : List ℝ :=
  List.replicate 8191 2050 ++ (List.replicate 8192 (5 / 4) ++ [0])

theorem manyWeights_length : manyWeights.length = 16384 := by
  simp only [manyWeights, List.length_append, List.length_replicate, List.length_singleton]

/-- The computed sum exceeds the exact one (16801790) by 6144. -/
theorem manyWeights_sum (R : Rounding 24) : sumR R.rnd manyWeights = 16807934 := by
  unfold sumR manyWeights
  rw [List.foldl_append, List.foldl_append]
  have s1 : (List.replicate 8191 (2050 : ℝ)).foldl (fun s x => R.rnd (s + x)) 0 = 16791550 := by
    have := foldl_replicate (fun s x => R.rnd (s + x)) 2050 8191 (fun j => 2050 * j) (by
      intro j hj
      have hf : IsFloat 24 (2050 * (j : ℝ) + 2050) := by
        refine ⟨1025 * (j + 1), 1, ?_, by push_cast; ring⟩
        rw [abs_of_nonneg (by positivity)]
        have : (j : ℤ) < 8191 := by exact_mod_cast hj
        norm_num
        linarith
      show R.rnd (2050 * (j : ℝ) + 2050) = _
      rw [R.of_isFloat hf]
      push_cast; ring)
    simp only [Nat.cast_zero, mul_zero] at this
    rw [this]; norm_num
  have s2 : (List.replicate 8192 (5 / 4 : ℝ)).foldl (fun s x => R.rnd (s + x)) 16791550 = 16807934 := by
    have := foldl_replicate (fun s x => R.rnd (s + x)) (5 / 4) 8192 (fun j => 16791550 + 2 * j) (by
      intro j hj
      have := rnd_even R (m := 8395775 + j) (by linarith [show (0 : ℤ) ≤ j by positivity])
        (by have : (j : ℤ) < 8192 := by exact_mod_cast hj
            norm_num
            linarith)
      push_cast at this ⊢
      show R.rnd (16791550 + 2 * (j : ℝ) + 5 / 4) = _
      rw [show (16791550 : ℝ) + 2 * j + 5 / 4 = 2 * (8395775 + j) + 5 / 4 by ring, this]
      ring)
    simp only [Nat.cast_zero, mul_zero, add_zero] at this
    rw [this]; norm_num
  rw [s1, s2]
  simp only [List.foldl_cons, List.foldl_nil, add_zero]
  refine R.of_isFloat ⟨8403967, 1, by norm_num, by norm_num⟩

/-- The normalised weights of `manyWeights`. -/
theorem manyWeights_fake (R : Rounding 24) : ∃ A B : ℝ,
    fakeR R.rnd manyWeights = List.replicate 8191 A ++ (List.replicate 8192 B ++ [0]) ∧
      0 ≤ A ∧ 0 ≤ B ∧ A ≤ 2 ∧ B ≤ 2 ∧ 8191 * A + 8192 * B ≤ 16379 ∧
      ∀ x ∈ manyWeights, 0 ≤ R.rnd (x * normR R.rnd manyWeights) ∧
        R.rnd (x * normR R.rnd manyWeights) ≤ 2 := by
  have hu : unit 24 = 1 / 2 ^ 24 := unit_eq
  have h16 : R.rnd (16384 : ℝ) = 16384 :=
    R.of_isFloat ⟨1, 14, by norm_num, by norm_num⟩
  have hN : normR R.rnd manyWeights = R.rnd (16384 / 16807934) := by
    unfold normR
    rw [manyWeights_sum, manyWeights_length, Nat.cast_ofNat, h16]
  have hq : (0 : ℝ) ≤ 16384 / 16807934 := by norm_num
  have n0 : 0 ≤ normR R.rnd manyWeights := by rw [hN]; exact R.nonneg hq
  have n1 : normR R.rnd manyWeights ≤ 16384 / 16807934 * (1 + unit 24) := by
    rw [hN]; exact R.rnd_le_mul hq
  generalize hNN : normR R.rnd manyWeights = N at *
  have a0 : 0 ≤ R.rnd (2050 * N) := R.nonneg (by positivity)
  have b0 : 0 ≤ R.rnd (5 / 4 * N) := R.nonneg (by positivity)
  have a1 := R.rnd_le_mul (show 0 ≤ 2050 * N by positivity)
  have b1 := R.rnd_le_mul (show 0 ≤ 5 / 4 * N by positivity)
  rw [hu] at n1 a1 b1
  have a2 : R.rnd (2050 * N) ≤ 2 := by norm_num at *; linarith
  have b2 : R.rnd (5 / 4 * N) ≤ 2 := by norm_num at *; linarith
  refine ⟨R.rnd (2050 * N), R.rnd (5 / 4 * N), ?_, a0, b0, a2, b2, ?_, ?_⟩
  · unfold fakeR
    rw [hNN]
    simp only [manyWeights, List.map_append, List.map_replicate, List.map_cons, List.map_nil, zero_mul,
      R.zero]
  · norm_num at *; linarith
  · intro x hx
    simp only [manyWeights, List.mem_append, List.mem_replicate, List.mem_singleton] at hx
    rcases hx with ⟨_, rfl⟩ | ⟨_, rfl⟩ | rfl
    · exact ⟨a0, a2⟩
    · exact ⟨b0, b2⟩
    · rw [zero_mul, R.zero]; norm_num

/-- A draw from `manyWeights` that returns the index of weight zero. -/
theorem manyWeights_draw (R : Rounding 24) (v : ℝ) (hv : v < 1) :
    sampleAtR R.rnd manyWeights (16383 / 16384, v) = some 16383 := by
  obtain ⟨A, B, hf, hA, hB, hA2, hB2, hAB, hall⟩ := manyWeights_fake R
  have hsum : ∑ i ∈ Finset.range manyWeights.length, ((fakeR R.rnd manyWeights).getD i 0 - 1) =
      8191 * A + 8192 * B - 16384 := by
    have hl : manyWeights.length = (fakeR R.rnd manyWeights).length := by simp [fakeR]
    rw [Finset.sum_sub_distrib, hl, sum_range_getD, ← hl, manyWeights_length, hf]
    simp only [List.sum_append, List.sum_replicate, List.sum_singleton, Finset.sum_const,
      Finset.card_range, nsmul_eq_mul]
    norm_num
  have hlast : (fakeR R.rnd manyWeights).getD 16383 0 = 0 := by
    rw [hf, List.getD_eq_getElem?_getD, List.getElem?_append_right (by simp only [List.length_replicate]; norm_num),
      List.getElem?_append_right (by simp only [List.length_replicate]; norm_num)]
    simp only [List.length_replicate]
    rfl
  obtain ⟨pr, al, e, hpr⟩ := last_left_over R manyWeights 16383 manyWeights_length
    (show (0 : ℝ) ≤ 2 by norm_num) hall (by rw [hlast]; norm_num) (by
      rw [hsum, manyWeights_length, unit_eq]
      norm_num
      linarith)
  have hidx : ⌊R.rnd (R.rnd (manyWeights.length : ℝ) * (16383 / 16384))⌋₊ = 16383 := by
    rw [manyWeights_length]
    have h1 : R.rnd ((16384 : ℕ) : ℝ) = 16384 :=
      R.of_isFloat ⟨1, 14, by norm_num, by norm_num⟩
    have h2 : R.rnd ((16384 : ℝ) * (16383 / 16384)) = ((16383 : ℕ) : ℝ) := by
      rw [show (16384 : ℝ) * (16383 / 16384) = ((16383 : ℕ) : ℝ) by norm_num]
      exact R.of_isFloat (isFloat_natCast (by norm_num))
    rw [h1, h2, Nat.floor_natCast]
  simp only [sampleAtR, e, Option.bind_eq_bind, Option.bind_some, aliasSample, hidx, hpr, if_pos hv]

/-- **C119**, zero weights, false for more weights: whatever the rule for ties, `VosesAliasMethod<float>`
on 16384 weights draws an index of weight 0.  The computed sum is too large, the normalised weights sum
to less than `n - 1`, and the last index is left in `small` when `large` is empty. -/
theorem C119_zero_drawn_counterexample (R : Rounding 24) :
    (∀ x ∈ manyWeights, 0 ≤ x ∧ IsFloat 24 x) ∧ (∃ x ∈ manyWeights, 0 < x) ∧
      manyWeights.getD 16383 0 = 0 ∧
      ∀ v, v < 1 → sampleAtR R.rnd manyWeights (16383 / 16384, v) = some 16383 := by
  refine ⟨?_, ⟨2050, ?_, by norm_num⟩, ?_, fun v hv => manyWeights_draw R v hv⟩
  · intro x hx
    simp only [manyWeights, List.mem_append, List.mem_replicate, List.mem_singleton] at hx
    rcases hx with ⟨_, rfl⟩ | ⟨_, rfl⟩ | rfl
    · exact ⟨by norm_num, 2050, 0, by norm_num, by norm_num⟩
    · exact ⟨by norm_num, 5, -2, by norm_num, by norm_num⟩
    · exact ⟨le_rfl, isFloat_zero⟩
  · exact List.mem_append_left _ (List.mem_replicate.2 ⟨by norm_num, rfl⟩)
  · unfold manyWeights
    rw [List.getD_eq_getElem?_getD, List.getElem?_append_right (by simp only [List.length_replicate]; norm_num),
      List.getElem?_append_right (by simp only [List.length_replicate]; norm_num)]
    simp only [List.length_replicate]
    rfl

/-! ### C119, k-means++ on many samples -/

/-- 8191 samples at 2050, 8192 at 5/4 and one at 0. -/
noncomputable def manySamples : List (Fin 1 → ℝ) :=
  List.replicate 8191 (fun _ => 2050) ++ (List.replicate 8192 (fun _ => 5 / 4) ++ [fun _ => 0])

open Verif.Rounding in
theorem fdist_one (R : Rounding 24) (x : ℝ) (hx : 0 ≤ x) (h1 : IsFloat 24 x) (h2 : IsFloat 24 (x * x)) :
    fdist (nf := 1) R (fun _ _ => .add (.term 0) (.term 1)) (fun _ => x) (fun _ => 0) = x := by
  unfold fdist distR
  simp only [Order.eval, term, feat, dif_pos (show 0 < 1 by norm_num), sub_zero, R.zero, zero_add]
  rw [R.of_isFloat h1, R.of_isFloat h2, R.of_isFloat h2, Real.sqrt_mul_self hx, R.of_isFloat h1]

open Verif.KMeans Verif.Rounding in
theorem manySamples_weights (R : Rounding 24) (inf : ℝ) (hinf : 2050 < inf) :
    nearestDistances inf (fdist R (fun _ _ => .add (.term 0) (.term 1))) manySamples [fun _ => 0] =
      manyWeights := by
  have d1 := fdist_one R 2050 (by norm_num) ⟨2050, 0, by norm_num, by norm_num⟩
    ⟨4202500, 0, by norm_num, by norm_num⟩
  have d2 := fdist_one R (5 / 4) (by norm_num) ⟨5, -2, by norm_num, by norm_num⟩
    ⟨25, -4, by norm_num, by norm_num⟩
  have d3 := fdist_one R 0 le_rfl isFloat_zero (by simpa using isFloat_zero)
  simp only [nearestDistances, manySamples, manyWeights, List.map_append, List.map_replicate, List.map_cons,
    List.map_nil, minLoop]
  rw [d1, d2, d3, if_pos hinf, if_pos (by linarith), if_pos (by linarith)]

open Verif.KMeans Verif.Rounding in
/-- **C119**, k-means++, false for more samples: on 16384 samples of one `float` feature, of three
different values, k-means++ asked for two centroids returns the same sample twice. -/
theorem C119_kmeanspp_counterexample (R : Rounding 24) (inf : ℝ) (hinf : 2050 < inf) (v : ℝ)
    (hv : v < 1) :
    plusPlus inf (fdist R (fun _ _ => .add (.term 0) (.term 1)))
      (fun _ w => sampleAtR R.rnd w (16383 / 16384, v)) 16383 manySamples 2 =
        some [fun _ => 0, fun _ => 0] := by
  have hlast : manySamples[16383]? = some (fun _ => 0) := by
    unfold manySamples
    rw [List.getElem?_append_right (by simp only [List.length_replicate]; norm_num),
      List.getElem?_append_right (by simp only [List.length_replicate]; norm_num)]
    simp only [List.length_replicate]
    rfl
  simp only [plusPlus, hlast, Option.bind_eq_bind, Option.bind_some, plusPlusLoop,
    manySamples_weights R inf hinf, manyWeights_draw R v hv, List.singleton_append]

/-! ### concrete cases -/

/-- The hypotheses of `C119_zero_never_drawn_partial` on three weights, one of them 0. -/
example : let w : List ℝ := [1, 0, 5 / 4]
    (∀ x ∈ w, 0 ≤ x ∧ IsFloat 24 x) ∧ (∃ x ∈ w, 0 < x) ∧ 2 * (w.length * (w.length + 2)) < 2 ^ 24 := by
  refine ⟨?_, ⟨1, by simp, by norm_num⟩, by decide⟩
  intro x hx
  simp only [List.mem_cons, List.not_mem_nil, or_false] at hx
  rcases hx with rfl | rfl | rfl
  · exact ⟨by norm_num, 1, 0, by norm_num, by norm_num⟩
  · exact ⟨le_rfl, isFloat_zero⟩
  · exact ⟨by norm_num, 5, -2, by norm_num, by norm_num⟩

/-- The largest numbers of weights for `float` and `double`. -/
example : 2 * (2895 * (2895 + 2)) < 2 ^ 24 ∧ 2 * (67108862 * (67108862 + 2)) < 2 ^ 53 := by norm_num

/-- Numbers drawn by the generator: numbers of the format of [0, 1). -/
example : ((1 / 4 : ℝ), (3 / 4 : ℝ)) ∈ Set.Ico (0 : ℝ) 1 ×ˢ Set.Ico (0 : ℝ) 1 ∧ IsFloat 24 (1 / 4) := by
  refine ⟨by constructor <;> norm_num, 1, -2, by norm_num, by norm_num⟩

end Verif.Random
