import Verif.Model.Rounding
import Verif.Lemmas.KDTree
import Mathlib.Data.Int.Log
import Mathlib.Tactic.Linarith
import Mathlib.Tactic.Positivity
import Mathlib.Tactic.Ring
import Mathlib.Tactic.FieldSimp
import Mathlib.Tactic.NormNum

namespace Verif.Rounding

variable {p : Nat}

theorem two_zpow_pos (e : ℤ) : (0 : ℝ) < (2 : ℝ) ^ e := zpow_pos (by norm_num) e

theorem round_mono' {a b : ℝ} (h : a ≤ b) : round a ≤ round b := by
  rw [round_eq, round_eq]
  exact Int.floor_mono (by linarith)

theorem isFloat_zero : IsFloat p 0 := ⟨0, 0, by simp, by simp⟩

theorem isFloat_zpow (e : ℤ) : IsFloat p ((2 : ℝ) ^ e) :=
  ⟨1, e, by simpa using one_le_pow₀ (by norm_num), by simp⟩

theorem IsFloat.neg {x : ℝ} (h : IsFloat p x) : IsFloat p (-x) := by
  obtain ⟨m, e, h1, h2⟩ := h
  exact ⟨-m, e, by simpa using h1, by rw [h2]; push_cast; ring⟩

theorem IsFloat.abs {x : ℝ} (h : IsFloat p x) : IsFloat p |x| := by
  rcases abs_choice x with h' | h' <;> rw [h']
  · exact h
  · exact h.neg

namespace Rounding

variable (R : Rounding p)

theorem of_isFloat {x : ℝ} (h : IsFloat p x) : R.rnd x = x := by
  have := R.nearest x x h
  simp at this
  linarith

theorem mono {x y : ℝ} (h : x ≤ y) : R.rnd x ≤ R.rnd y := by
  by_contra hc
  push_neg at hc
  have h1 := R.nearest x (R.rnd y) (R.isFloat y)
  have h2 := R.nearest y (R.rnd x) (R.isFloat x)
  have hxy : x < y := lt_of_le_of_ne h (by rintro rfl; exact lt_irrefl _ hc)
  generalize R.rnd x = a at *
  generalize R.rnd y = b at *
  rw [abs_le] at h1 h2
  rcases abs_cases (b - x) with ⟨e1, _⟩ | ⟨e1, _⟩ <;> rcases abs_cases (a - y) with ⟨e2, _⟩ | ⟨e2, _⟩ <;>
    rw [e1] at h1 <;> rw [e2] at h2 <;> linarith [h1.1, h1.2, h2.1, h2.2]

theorem zero : R.rnd 0 = 0 := R.of_isFloat isFloat_zero

theorem nonneg {x : ℝ} (h : 0 ≤ x) : 0 ≤ R.rnd x := by
  have := R.mono h
  rwa [R.zero] at this

theorem abs (x : ℝ) : |R.rnd x| = R.rnd |x| := by
  rcases le_total 0 x with h | h
  · rw [abs_of_nonneg h, abs_of_nonneg (R.nonneg h)]
  · rw [abs_of_nonpos h, R.neg, abs_of_nonpos]
    have := R.mono h
    rwa [R.zero] at this

/-- Absolute error of rounding. -/
theorem error {x : ℝ} {e : ℤ} (h : |x| ≤ (2 : ℝ) ^ e) : |R.rnd x - x| ≤ (2 : ℝ) ^ (e - p - 1) := by
  have hq : (0 : ℝ) < (2 : ℝ) ^ (e - p) := two_zpow_pos _
  have hy : IsFloat p (round (x / (2 : ℝ) ^ (e - p)) * (2 : ℝ) ^ (e - p)) := by
    refine ⟨round (x / (2 : ℝ) ^ (e - p)), e - p, ?_, rfl⟩
    have h1 : |x / (2 : ℝ) ^ (e - p)| ≤ (2 : ℝ) ^ p := by
      rw [abs_div, abs_of_pos hq, div_le_iff₀ hq, ← zpow_natCast, ← zpow_add₀ (by norm_num)]
      simpa using h
    have h2 := abs_le.1 h1
    rw [abs_le]
    constructor
    · have h3 : ((-(2 : ℤ) ^ p : ℤ) : ℝ) ≤ x / (2 : ℝ) ^ (e - p) := by push_cast; linarith [h2.1]
      have := round_mono' h3
      rwa [round_intCast] at this
    · have h3 : x / (2 : ℝ) ^ (e - p) ≤ (((2 : ℤ) ^ p : ℤ) : ℝ) := by push_cast; linarith [h2.2]
      have := round_mono' h3
      rwa [round_intCast] at this
  refine (R.nearest x _ hy).trans ?_
  have h3 := abs_sub_round (x / (2 : ℝ) ^ (e - p))
  have h4 : round (x / (2 : ℝ) ^ (e - p)) * (2 : ℝ) ^ (e - p) - x =
      -(x / (2 : ℝ) ^ (e - p) - round (x / (2 : ℝ) ^ (e - p))) * (2 : ℝ) ^ (e - p) := by
    have : x = x / (2 : ℝ) ^ (e - p) * (2 : ℝ) ^ (e - p) := by field_simp
    nth_rewrite 2 [this]
    ring
  rw [h4, abs_mul, abs_neg, abs_of_pos hq, zpow_sub_one₀ (by norm_num)]
  have := mul_le_mul_of_nonneg_right h3 hq.le
  linarith

theorem unit_pos : 0 < unit p := two_zpow_pos _

/-- Relative error of rounding with respect to the exact and to the rounded value. -/
theorem rel_error (x : ℝ) : |R.rnd x - x| ≤ unit p * |x| ∧ |R.rnd x - x| ≤ unit p * |R.rnd x| := by
  by_cases hx : x = 0
  · subst hx; simp [R.zero]
  · have hpos : 0 < |x| := abs_pos.2 hx
    have h1 : (2 : ℝ) ^ Int.log 2 |x| ≤ |x| := by exact_mod_cast Int.zpow_log_le_self (by norm_num) hpos
    have h2 : |x| < (2 : ℝ) ^ (Int.log 2 |x| + 1) := by
      exact_mod_cast Int.lt_zpow_succ_log_self (b := 2) (by norm_num) |x|
    have h3 := R.error h2.le
    have h4 : (2 : ℝ) ^ (Int.log 2 |x| + 1 - p - 1) = unit p * (2 : ℝ) ^ Int.log 2 |x| := by
      unfold unit
      rw [← zpow_add₀ (by norm_num)]
      congr 1; ring
    have h5 : (2 : ℝ) ^ Int.log 2 |x| ≤ |R.rnd x| := by
      rw [R.abs, ← R.of_isFloat (isFloat_zpow (Int.log 2 |x|))]
      exact R.mono h1
    rw [h4] at h3
    exact ⟨h3.trans (mul_le_mul_of_nonneg_left h1 unit_pos.le),
      h3.trans (mul_le_mul_of_nonneg_left h5 unit_pos.le)⟩

theorem le_rnd_mul {x : ℝ} (h : 0 ≤ x) : x ≤ R.rnd x * (1 + unit p) := by
  have h1 := (R.rel_error x).2
  rw [abs_of_nonneg (R.nonneg h)] at h1
  have := (abs_le.1 h1).1
  linarith

theorem rnd_le_mul {x : ℝ} (h : 0 ≤ x) : R.rnd x ≤ x * (1 + unit p) := by
  have h1 := (R.rel_error x).1
  rw [abs_of_nonneg h] at h1
  have := (abs_le.1 h1).2
  linarith

/-- Normal form of a positive number of the format. -/
theorem normal (hp : 1 ≤ p) {d : ℝ} (hd : IsFloat p d) (h0 : 0 < d) :
    ∃ m e : ℤ, 2 ^ (p - 1) ≤ m ∧ m < 2 ^ p ∧ d = m * (2 : ℝ) ^ e := by
  have h1 : (2 : ℝ) ^ Int.log 2 d ≤ d := by exact_mod_cast Int.zpow_log_le_self (by norm_num) h0
  have h2 : d < (2 : ℝ) ^ (Int.log 2 d + 1) := by
    exact_mod_cast Int.lt_zpow_succ_log_self (b := 2) (by norm_num) d
  generalize Int.log 2 d = E at h1 h2
  obtain ⟨m, e, hm, hd⟩ := hd
  have he := two_zpow_pos e
  have hm0 : 0 < m := by
    rw [hd] at h0
    exact_mod_cast (pos_iff_pos_of_mul_pos h0).2 he
  -- the exponent of the representation is at least the one wanted
  have hle : E + 1 - p ≤ e ∨ e < E + 1 - p := le_or_gt _ _
  have hdiv : ∃ m' : ℤ, d = m' * (2 : ℝ) ^ (E + 1 - p) := by
    rcases hle with hle | hlt
    · obtain ⟨k, hk⟩ := Int.le.dest hle
      refine ⟨m * 2 ^ k, ?_⟩
      rw [hd, ← hk, zpow_add₀ (by norm_num)]
      push_cast
      rw [zpow_natCast]; ring
    · -- the number is `2 ^ E`
      have h3 : (m : ℝ) ≤ (2 : ℝ) ^ (p : ℤ) := by
        rw [zpow_natCast]
        have := (abs_le.1 hm).2
        exact_mod_cast this
      have h4 : d ≤ (2 : ℝ) ^ ((p : ℤ) + e) := by
        rw [hd, zpow_add₀ (by norm_num)]
        exact mul_le_mul_of_nonneg_right h3 he.le
      have h5 : (2 : ℝ) ^ ((p : ℤ) + e) ≤ (2 : ℝ) ^ E := zpow_le_zpow_right₀ (by norm_num) (by omega)
      have h6 : d = (2 : ℝ) ^ E := le_antisymm (h4.trans h5) h1
      refine ⟨2 ^ (p - 1), ?_⟩
      rw [h6]
      push_cast
      rw [← zpow_natCast, ← zpow_add₀ (by norm_num)]
      congr 1
      omega
  obtain ⟨m', hd'⟩ := hdiv
  have hq := two_zpow_pos (E + 1 - p)
  refine ⟨m', E + 1 - p, ?_, ?_, hd'⟩
  · have h3 : (2 : ℝ) ^ E = (2 : ℝ) ^ (p - 1) * (2 : ℝ) ^ (E + 1 - p) := by
      rw [← zpow_natCast, ← zpow_add₀ (by norm_num)]
      congr 1
      omega
    rw [hd', h3] at h1
    have := le_of_mul_le_mul_right h1 hq
    exact_mod_cast this
  · have h3 : (2 : ℝ) ^ (E + 1) = (2 : ℝ) ^ p * (2 : ℝ) ^ (E + 1 - p) := by
      rw [← zpow_natCast, ← zpow_add₀ (by norm_num)]
      congr 1
      omega
    rw [hd', h3] at h2
    have := lt_of_mul_lt_mul_right h2 hq.le
    exact_mod_cast this

/-- There is no number of the format between a number that is not a power of two and the one just
below it. -/
theorem pred {m e : ℤ} (h1 : 2 ^ (p - 1) < m) {r : ℝ} (hp : 1 ≤ p) (hr : IsFloat p r)
    (h : r < m * (2 : ℝ) ^ e) : r ≤ (m - 1) * (2 : ℝ) ^ e := by
  obtain ⟨m', e', hm', rfl⟩ := hr
  have he := two_zpow_pos e
  rcases le_or_gt e e' with hle | hlt
  · obtain ⟨k, hk⟩ := Int.le.dest hle
    have h2 : (m' : ℝ) * (2 : ℝ) ^ e' = ((m' * 2 ^ k : ℤ) : ℝ) * (2 : ℝ) ^ e := by
      rw [← hk, zpow_add₀ (by norm_num), zpow_natCast]
      push_cast; ring
    rw [h2] at h ⊢
    have h3 : (m' * 2 ^ k : ℤ) < m := by exact_mod_cast lt_of_mul_lt_mul_right h he.le
    refine mul_le_mul_of_nonneg_right ?_ he.le
    have h4 : (m' * 2 ^ k : ℤ) ≤ m - 1 := by omega
    exact_mod_cast h4
  · have h3 : (m' : ℝ) ≤ (2 : ℝ) ^ (p : ℤ) := by
      rw [zpow_natCast]
      have := (abs_le.1 hm').2
      exact_mod_cast this
    have h4 : (m' : ℝ) * (2 : ℝ) ^ e' ≤ (2 : ℝ) ^ ((p : ℤ) + e') := by
      rw [zpow_add₀ (by norm_num)]
      exact mul_le_mul_of_nonneg_right h3 (two_zpow_pos e').le
    have h5 : (2 : ℝ) ^ ((p : ℤ) + e') ≤ (2 : ℝ) ^ (((p - 1 : ℕ) : ℤ) + e) :=
      zpow_le_zpow_right₀ (by norm_num) (by omega)
    refine h4.trans (h5.trans ?_)
    rw [zpow_add₀ (by norm_num), zpow_natCast]
    refine mul_le_mul_of_nonneg_right ?_ he.le
    have h6 : (2 : ℤ) ^ (p - 1) ≤ m - 1 := by omega
    exact_mod_cast h6

/-- The square root of the square, both rounded, is not smaller than the number. -/
theorem le_sqrt_sq (hp : 1 ≤ p) {d : ℝ} (hd : IsFloat p d) (h0 : 0 ≤ d) :
    d ≤ R.rnd (Real.sqrt (R.rnd (d * d))) := by
  rcases eq_or_lt_of_le h0 with rfl | hpos
  · exact R.nonneg (Real.sqrt_nonneg _)
  obtain ⟨m, e, hm1, hm2, hme⟩ := normal hp hd hpos
  have he := two_zpow_pos e
  rcases eq_or_lt_of_le hm1 with heq | hlt
  · -- power of two
    have h1 : d = (2 : ℝ) ^ (((p - 1 : ℕ) : ℤ) + e) := by
      rw [hme, ← heq, zpow_add₀ (by norm_num), zpow_natCast]; push_cast; rfl
    have h2 : IsFloat p (d * d) := by
      rw [h1, ← zpow_add₀ (by norm_num)]; exact isFloat_zpow _
    rw [R.of_isFloat h2, Real.sqrt_mul_self h0, R.of_isFloat hd]
  · by_contra hc
    push_neg at hc
    have hs0 : 0 ≤ R.rnd (d * d) := R.nonneg (by positivity)
    have herr : |R.rnd (d * d) - d * d| ≤ (2 : ℝ) ^ (2 * e + p - 1) := by
      have h1 : |d * d| ≤ (2 : ℝ) ^ (2 * e + 2 * p) := by
        rw [abs_of_nonneg (by positivity)]
        have h2 : d ≤ (2 : ℝ) ^ (e + p) := by
          rw [hme, zpow_add₀ (by norm_num), mul_comm, zpow_natCast]
          refine mul_le_mul_of_nonneg_left ?_ he.le
          exact_mod_cast hm2.le
        calc d * d ≤ (2 : ℝ) ^ (e + p) * (2 : ℝ) ^ (e + p) := mul_le_mul h2 h2 h0 (two_zpow_pos _).le
          _ = (2 : ℝ) ^ (2 * e + 2 * p) := by
            rw [← zpow_add₀ (by norm_num)]; congr 1; ring
      have := R.error h1
      have h3 : (2 * e + 2 * p - p - 1 : ℤ) = 2 * e + p - 1 := by ring
      rwa [h3] at this
    generalize R.rnd (d * d) = s at *
    have hr := pred hlt hp (R.isFloat (Real.sqrt s)) (hme ▸ hc)
    have hn := R.nearest (Real.sqrt s) d hd
    generalize R.rnd (Real.sqrt s) = r at *
    have hsq := Real.mul_self_sqrt hs0
    have hsn := Real.sqrt_nonneg s
    generalize Real.sqrt s = q at *
    have hr' : r ≤ d - (2 : ℝ) ^ e := by rw [hme]; linarith
    have hq : q ≤ d - (2 : ℝ) ^ e / 2 := by
      rw [abs_le] at hn
      rcases abs_cases (d - q) with ⟨e1, _⟩ | ⟨e1, _⟩ <;> rw [e1] at hn <;> linarith [hn.1, hn.2]
    -- `s` is too small
    have h1 : s ≤ (d - (2 : ℝ) ^ e / 2) * (d - (2 : ℝ) ^ e / 2) := by
      rw [← hsq]; exact mul_le_mul hq hq hsn (by linarith)
    have h2 := (abs_le.1 herr).1
    have h3 : (2 : ℝ) ^ (2 * e + p - 1) = (2 : ℝ) ^ (p - 1) * ((2 : ℝ) ^ e * (2 : ℝ) ^ e) := by
      rw [← zpow_natCast, ← zpow_add₀ (by norm_num), ← zpow_add₀ (by norm_num)]
      congr 1
      omega
    have h4 : (2 : ℝ) ^ (p - 1) + 1 ≤ (m : ℝ) := by exact_mod_cast hlt
    rw [h3] at h2
    have h5 := mul_le_mul_of_nonneg_right h4 (mul_pos he he).le
    have h6 : d * (2 : ℝ) ^ e = m * ((2 : ℝ) ^ e * (2 : ℝ) ^ e) := by rw [hme]; ring
    have h7 := mul_pos he he
    nlinarith [h1, h2, h5, h6, h7]

end Rounding

end Verif.Rounding
