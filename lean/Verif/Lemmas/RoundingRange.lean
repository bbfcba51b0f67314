import Verif.Model.RoundingRange
import Verif.Lemmas.RoundingDist

/-
Facts about the format of bounded range.
-/

namespace Verif.Rounding

variable {p : Nat} {emax : ℤ}

theorem isFloatE_zero : IsFloatE p emax 0 := ⟨0, emin p emax, by simp, le_refl _, by simp⟩

theorem isFloatE_zpow {e : ℤ} (h : emin p emax ≤ e) : IsFloatE p emax ((2 : ℝ) ^ e) :=
  ⟨1, e, by simpa using one_le_pow₀ (by norm_num), h, by simp⟩

theorem IsFloatE.isFloat {x : ℝ} (h : IsFloatE p emax x) : IsFloat p x := by
  obtain ⟨m, e, h1, _, h2⟩ := h
  exact ⟨m, e, h1, h2⟩

theorem IsFloatE.neg {x : ℝ} (h : IsFloatE p emax x) : IsFloatE p emax (-x) := by
  obtain ⟨m, e, h1, h2, h3⟩ := h
  exact ⟨-m, e, by simpa using h1, h2, by rw [h3]; push_cast; ring⟩

theorem IsFloatE.abs {x : ℝ} (h : IsFloatE p emax x) : IsFloatE p emax |x| := by
  rcases abs_choice x with h' | h' <;> rw [h']
  · exact h
  · exact h.neg

/-- Every number of the format is a multiple of the smallest one. -/
theorem IsFloatE.mult {x : ℝ} (h : IsFloatE p emax x) : ∃ n : ℤ, x = n * (2 : ℝ) ^ emin p emax := by
  obtain ⟨m, e, _, h2, rfl⟩ := h
  obtain ⟨k, hk⟩ := Int.le.dest h2
  refine ⟨m * 2 ^ k, ?_⟩
  rw [← hk, zpow_add₀ (by norm_num), zpow_natCast]
  push_cast
  ring

/-- Small multiples of the smallest number belong to the format. -/
theorem isFloatE_mult {n : ℤ} (h : |(n : ℝ)| ≤ 2 ^ p) : IsFloatE p emax (n * (2 : ℝ) ^ emin p emax) :=
  ⟨n, emin p emax, by exact_mod_cast h, le_refl _, rfl⟩

/-- The smallest normal number. -/
noncomputable def tiny (emax : ℤ) : ℝ := (2 : ℝ) ^ (2 - emax)

theorem tiny_eq : tiny emax = 2 ^ (p - 1 : ℤ) * (2 : ℝ) ^ emin p emax := by
  unfold tiny emin
  rw [← zpow_add₀ (by norm_num)]
  congr 1
  ring

namespace RoundingE

variable (R : RoundingE p emax)

theorem of_isFloat {x : ℝ} (h : IsFloatE p emax x) : R.rnd x = x := by
  have := R.nearest x x h
  simp at this
  linarith

theorem mono {x y : ℝ} (h : x ≤ y) : R.rnd x ≤ R.rnd y := by
  by_contra hc
  push Not at hc
  have h1 := R.nearest x (R.rnd y) (R.isFloat y)
  have h2 := R.nearest y (R.rnd x) (R.isFloat x)
  have hxy : x < y := lt_of_le_of_ne h (by rintro rfl; exact lt_irrefl _ hc)
  generalize R.rnd x = a at *
  generalize R.rnd y = b at *
  rcases abs_cases (a - x) with ⟨e1, _⟩ | ⟨e1, _⟩ <;> rcases abs_cases (b - x) with ⟨e2, _⟩ | ⟨e2, _⟩ <;>
    rcases abs_cases (b - y) with ⟨e3, _⟩ | ⟨e3, _⟩ <;> rcases abs_cases (a - y) with ⟨e4, _⟩ | ⟨e4, _⟩ <;>
    linarith

theorem zero : R.rnd 0 = 0 := R.of_isFloat isFloatE_zero

theorem nonneg {x : ℝ} (h : 0 ≤ x) : 0 ≤ R.rnd x := by
  have := R.mono h
  rwa [R.zero] at this

theorem abs (x : ℝ) : |R.rnd x| = R.rnd |x| := by
  rcases le_total 0 x with h | h
  · rw [abs_of_nonneg h, abs_of_nonneg (R.nonneg h)]
  · rw [abs_of_nonpos h, R.neg, abs_of_nonpos]
    have := R.mono h
    rwa [R.zero] at this

/-- The same rounding where no underflow occurs, continued to the small numbers by the rounding `R0` with
unbounded exponent. -/
noncomputable def normal (hp : 1 ≤ p) (R0 : Rounding p) : Rounding p where
  rnd x := if tiny emax ≤ |x| then R.rnd x else R0.rnd x
  isFloat x := by
    split
    · exact (R.isFloat x).isFloat
    · exact R0.isFloat x
  nearest x y hy := by
    split
    · rename_i h
      obtain ⟨m, e, hm, rfl⟩ := hy
      by_cases he : emin p emax ≤ e
      · exact R.nearest x _ ⟨m, e, hm, he, rfl⟩
      · push Not at he
        have hN : IsFloatE p emax (tiny emax) := isFloatE_zpow (by unfold emin; omega)
        have hle : |(m : ℝ) * (2 : ℝ) ^ e| ≤ tiny emax := by
          rw [abs_mul, abs_of_pos (two_zpow_pos e), tiny_eq (p := p)]
          have h1 : |(m : ℝ)| ≤ (2 : ℝ) ^ (p : ℤ) := by rw [zpow_natCast]; exact_mod_cast hm
          have h2 : (2 : ℝ) ^ e ≤ (2 : ℝ) ^ (emin p emax - 1) :=
            zpow_le_zpow_right₀ (by norm_num) (by omega)
          calc |(m : ℝ)| * (2 : ℝ) ^ e ≤ (2 : ℝ) ^ (p : ℤ) * (2 : ℝ) ^ (emin p emax - 1) :=
                mul_le_mul h1 h2 (two_zpow_pos e).le (two_zpow_pos _).le
            _ = _ := by rw [← zpow_add₀ (by norm_num), ← zpow_add₀ (by norm_num)]; congr 1; ring
        obtain ⟨l1, l2⟩ := abs_le.1 hle
        rcases le_total 0 x with hx | hx
        · rw [abs_of_nonneg hx] at h
          refine (R.nearest x _ hN).trans ?_
          rw [abs_of_nonpos (by linarith), abs_of_nonpos (by linarith)]
          linarith
        · rw [abs_of_nonpos hx] at h
          refine (R.nearest x _ hN.neg).trans ?_
          rw [abs_of_nonneg (by linarith), abs_of_nonneg (by linarith)]
          linarith
    · exact R0.nearest x y hy
  neg x := by
    rw [abs_neg]
    split
    · exact R.neg x
    · exact R0.neg x

theorem normal_eq (hp : 1 ≤ p) (R0 : Rounding p) {x : ℝ} (h : tiny emax ≤ |x|) :
    (R.normal hp R0).rnd x = R.rnd x := if_pos h

/-- Sums of numbers of the format do not underflow. -/
theorem normal_mult (hp : 1 ≤ p) (R0 : Rounding p) {x : ℝ} (n : ℤ) (h : x = n * (2 : ℝ) ^ emin p emax) :
    (R.normal hp R0).rnd x = R.rnd x := by
  by_cases hx : tiny emax ≤ |x|
  · exact R.normal_eq hp R0 hx
  · push Not at hx
    have hf : IsFloatE p emax x := by
      rw [h]
      refine isFloatE_mult ?_
      rw [h, abs_mul, abs_of_pos (two_zpow_pos _), tiny_eq (p := p)] at hx
      have h1 := lt_of_mul_lt_mul_right hx (two_zpow_pos _).le
      have h2 : (2 : ℝ) ^ (p - 1 : ℤ) ≤ (2 : ℝ) ^ (p : ℤ) := zpow_le_zpow_right₀ (by norm_num) (by omega)
      rw [zpow_natCast] at h2
      linarith
    rw [R.of_isFloat hf, (R.normal hp R0).of_isFloat hf.isFloat]

theorem normal_add (hp : 1 ≤ p) (R0 : Rounding p) {a b : ℝ} (ha : IsFloatE p emax a)
    (hb : IsFloatE p emax b) : (R.normal hp R0).rnd (a + b) = R.rnd (a + b) := by
  obtain ⟨m, h1⟩ := ha.mult
  obtain ⟨n, h2⟩ := hb.mult
  refine R.normal_mult hp R0 (m + n) ?_
  rw [h1, h2]
  push_cast
  ring

theorem normal_sub (hp : 1 ≤ p) (R0 : Rounding p) {a b : ℝ} (ha : IsFloatE p emax a)
    (hb : IsFloatE p emax b) : (R.normal hp R0).rnd (a - b) = R.rnd (a - b) := by
  rw [sub_eq_add_neg]
  exact R.normal_add hp R0 ha hb.neg

/-- A rounded value is off by at most half of the smallest number where the spacing is that number. -/
theorem small_error {x : ℝ} (hp : 1 ≤ p) (h : |x| ≤ tiny emax) :
    |R.rnd x - x| ≤ (2 : ℝ) ^ (emin p emax - 1) := by
  have hq := two_zpow_pos (emin p emax)
  have hy : IsFloatE p emax (round (x / (2 : ℝ) ^ emin p emax) * (2 : ℝ) ^ emin p emax) := by
    refine isFloatE_mult ?_
    rw [tiny_eq (p := p)] at h
    have h1 : |x / (2 : ℝ) ^ emin p emax| ≤ (2 : ℝ) ^ (p - 1 : ℤ) := by
      rwa [abs_div, abs_of_pos hq, div_le_iff₀ hq]
    have h2 : (2 : ℝ) ^ (p - 1 : ℤ) = ((2 ^ (p - 1) : ℤ) : ℝ) := by
      push_cast
      rw [← zpow_natCast]
      congr 1
      omega
    rw [h2, abs_le] at h1
    have h3 := round_mono' h1.2
    have h4 := round_mono' h1.1
    rw [round_intCast] at h3
    rw [show -((2 ^ (p - 1) : ℤ) : ℝ) = ((-(2 ^ (p - 1)) : ℤ) : ℝ) by push_cast; ring, round_intCast] at h4
    have h5 : |round (x / (2 : ℝ) ^ emin p emax)| ≤ 2 ^ p := by
      have : (2 : ℤ) ^ (p - 1) ≤ 2 ^ p := pow_le_pow_right₀ (by norm_num) (by omega)
      rw [abs_le]
      constructor <;> omega
    exact_mod_cast h5
  refine (R.nearest x _ hy).trans ?_
  have h := abs_sub_round (x / (2 : ℝ) ^ emin p emax)
  have e : (round (x / (2 : ℝ) ^ emin p emax) : ℝ) * (2 : ℝ) ^ emin p emax - x =
      -(x / (2 : ℝ) ^ emin p emax - round (x / (2 : ℝ) ^ emin p emax)) * (2 : ℝ) ^ emin p emax := by
    field_simp
    ring
  rw [e, abs_mul, abs_neg, abs_of_pos hq, zpow_sub_one₀ (by norm_num)]
  nlinarith

/-- Square roots do not underflow. -/
theorem normal_sqrt (hp : 1 ≤ p) (R0 : Rounding p) (hE : (p : ℤ) + 1 ≤ emax) {s : ℝ} (hs : IsFloatE p emax s)
    (h0 : 0 ≤ s) : (R.normal hp R0).rnd (Real.sqrt s) = R.rnd (Real.sqrt s) := by
  rcases eq_or_lt_of_le h0 with rfl | hpos
  · rw [Real.sqrt_zero, R.zero, (R.normal hp R0).zero]
  · refine R.normal_eq hp R0 ?_
    rw [abs_of_nonneg (Real.sqrt_nonneg _)]
    refine Real.le_sqrt_of_sq_le ?_
    obtain ⟨n, rfl⟩ := hs.mult
    have hq := two_zpow_pos (emin p emax)
    have hn : 0 < (n : ℝ) := by
      by_contra h
      push Not at h
      nlinarith
    have hn1 : (1 : ℝ) ≤ n := by
      have : 0 < n := by exact_mod_cast hn
      exact_mod_cast this
    have h1 : tiny emax ^ 2 ≤ (2 : ℝ) ^ emin p emax := by
      unfold tiny emin
      rw [← zpow_natCast, ← zpow_mul]
      exact zpow_le_zpow_right₀ (by norm_num) (by push_cast; omega)
    nlinarith

/-- A computed square root survives squaring and taking the root again, underflow or not. -/
theorem le_sqrt_sq (hp : 1 ≤ p) (R0 : Rounding p) (hE : (p : ℤ) + 1 ≤ emax) (heven : Even emax) {s : ℝ}
    (hs : IsFloatE p emax s) (h0 : 0 ≤ s) :
    R.rnd (Real.sqrt s) ≤ R.rnd (Real.sqrt (R.rnd (R.rnd (Real.sqrt s) * R.rnd (Real.sqrt s)))) := by
  rcases eq_or_lt_of_le h0 with rfl | hpos
  · rw [Real.sqrt_zero, R.zero]
    exact R.nonneg (Real.sqrt_nonneg _)
  have hN := R.normal_sqrt hp R0 hE hs h0
  set N := R.normal hp R0 with hNdef
  set b := R.rnd (Real.sqrt s) with hb
  have hb0 : 0 ≤ b := R.nonneg (Real.sqrt_nonneg _)
  have hbf : IsFloatE p emax b := R.isFloat _
  have hr0 : 0 ≤ R.rnd (b * b) := R.nonneg (mul_self_nonneg _)
  by_cases hbig : tiny emax ≤ b * b
  · have h1 := N.le_sqrt_sq hp hbf.isFloat hb0
    have h2 : N.rnd (b * b) = R.rnd (b * b) := R.normal_eq hp R0 (by rwa [abs_of_nonneg (mul_self_nonneg _)])
    rw [h2, R.normal_sqrt hp R0 hE (R.isFloat _) hr0] at h1
    exact h1
  · push Not at hbig
    by_contra hc
    push Not at hc
    have hrs : R.rnd (b * b) < s := by
      by_contra h
      push Not at h
      exact absurd (R.mono (Real.sqrt_le_sqrt h)) (not_le.2 hc)
    obtain ⟨m, hm⟩ := (R.isFloat (b * b)).mult
    obtain ⟨n, hn⟩ := hs.mult
    have hq := two_zpow_pos (emin p emax)
    have hgap : R.rnd (b * b) + (2 : ℝ) ^ emin p emax ≤ s := by
      rw [hm, hn] at hrs ⊢
      have h1 := lt_of_mul_lt_mul_right hrs hq.le
      have h2 : m + 1 ≤ n := by exact_mod_cast h1
      have h3 : (m : ℝ) + 1 ≤ n := by exact_mod_cast h2
      nlinarith
    have hnear := R.nearest (b * b) s hs
    have hfar : b * b + (2 : ℝ) ^ emin p emax / 2 ≤ s := by
      rcases abs_cases (R.rnd (b * b) - b * b) with ⟨e1, _⟩ | ⟨e1, _⟩ <;>
        rcases abs_cases (s - b * b) with ⟨e2, _⟩ | ⟨e2, _⟩ <;> linarith
    have hs0 : 0 < Real.sqrt s := Real.sqrt_pos.2 hpos
    have hss : Real.sqrt s * Real.sqrt s = s := Real.mul_self_sqrt h0
    have hlog1 : (2 : ℝ) ^ Int.log 2 (Real.sqrt s) ≤ Real.sqrt s := by
      exact_mod_cast Int.zpow_log_le_self (b := 2) (by norm_num) hs0
    have hlog2 : Real.sqrt s < (2 : ℝ) ^ (Int.log 2 (Real.sqrt s) + 1) := by
      exact_mod_cast Int.lt_zpow_succ_log_self (b := 2) (by norm_num) (Real.sqrt s)
    generalize Int.log 2 (Real.sqrt s) = E at hlog1 hlog2
    have hbE : (2 : ℝ) ^ E ≤ b := by
      have := N.mono hlog1
      rw [N.of_isFloat (isFloat_zpow E), hN] at this
      exact this
    have herr : |b - Real.sqrt s| ≤ (2 : ℝ) ^ (E + 1 - p - 1) := by
      have := N.error (x := Real.sqrt s) (e := E + 1) (by rw [abs_of_pos hs0]; exact hlog2.le)
      rwa [hN] at this
    have hE2 : 2 * E < 2 - emax := by
      have h1 : (2 : ℝ) ^ (E + E) ≤ b * b := by
        rw [zpow_add₀ (by norm_num)]
        exact mul_le_mul hbE hbE (two_zpow_pos E).le hb0
      have h2 := h1.trans_lt hbig
      have h3 := (zpow_lt_zpow_iff_right₀ (by norm_num : (1 : ℝ) < 2)).1 h2
      omega
    obtain ⟨c, hc'⟩ := heven
    have hE3 : 2 * E ≤ -emax := by omega
    have hlt : b < Real.sqrt s := by
      by_contra h
      push Not at h
      have := mul_le_mul h h hs0.le hb0
      linarith
    rw [abs_of_neg (by linarith)] at herr
    have hsum : Real.sqrt s + b < (2 : ℝ) ^ (E + 2) := by
      rw [show E + 2 = (E + 1) + 1 by ring, zpow_add_one₀ (by norm_num)]
      linarith
    have hprod : s - b * b < (2 : ℝ) ^ (E + 1 - p - 1) * (2 : ℝ) ^ (E + 2) := by
      have h1 : s - b * b = (Real.sqrt s - b) * (Real.sqrt s + b) := by
        nlinarith [hss]
      rw [h1]
      have hp1 := two_zpow_pos (E + 1 - p - 1)
      have hp2 : 0 < Real.sqrt s + b := by linarith
      nlinarith
    rw [← zpow_add₀ (by norm_num)] at hprod
    have hfin : (2 : ℝ) ^ (E + 1 - (p : ℤ) - 1 + (E + 2)) ≤ (2 : ℝ) ^ (emin p emax - 1) :=
      zpow_le_zpow_right₀ (by norm_num) (by unfold emin; omega)
    rw [zpow_sub_one₀ (by norm_num)] at hfin
    linarith

end RoundingE

/-! ### the distance without the upper limit -/

/-- The rounded sum when nothing overflows. -/
noncomputable def Order.evalU (R : RoundingE p emax) (t : Nat → ℝ) : Order → ℝ
  | .term k => R.rnd (t k)
  | .add a b => R.rnd (a.evalU R t + b.evalU R t)
  | .fma a k => R.rnd (a.evalU R t + t k)

/-- One computed difference when nothing overflows. -/
noncomputable def diffU (R : RoundingE p emax) (u v : Nat → ℝ) : Nat → ℝ
  | 0 => 0
  | k + 1 => |R.rnd (u k - v k)|

/-- Its square, not rounded. -/
noncomputable def termU (R : RoundingE p emax) (u v : Nat → ℝ) (k : Nat) : ℝ := diffU R u v k * diffU R u v k

variable (R : RoundingE p emax)

theorem clip_of_lt {y : ℝ} (h : y < (2 : ℝ) ^ emax) : clip emax y = (y : WithTop ℝ) := if_pos h

theorem clip_of_le {y : ℝ} (h : (2 : ℝ) ^ emax ≤ y) : clip emax y = ⊤ := if_neg (not_lt.2 h)

theorem clip_mono {y z : ℝ} (h : y ≤ z) : clip emax y ≤ clip emax z := by
  rcases lt_or_ge z ((2 : ℝ) ^ emax) with hz | hz
  · rw [clip_of_lt hz, clip_of_lt (h.trans_lt hz)]
    exact_mod_cast h
  · rw [clip_of_le hz]
    exact le_top

theorem termU_nonneg (u v : Nat → ℝ) (k : Nat) : 0 ≤ termU R u v k := mul_self_nonneg _

theorem Order.evalU_ge {t : Nat → ℝ} (h0 : ∀ k, 0 ≤ t k) (o : Order) :
    0 ≤ o.evalU R t ∧ IsFloatE p emax (o.evalU R t) ∧ ∀ k ∈ o.terms, R.rnd (t k) ≤ o.evalU R t := by
  induction o with
  | term k => exact ⟨R.nonneg (h0 k), R.isFloat _, by simp [Order.terms, Order.evalU]⟩
  | add a b iha ihb =>
    refine ⟨R.nonneg (add_nonneg iha.1 ihb.1), R.isFloat _, ?_⟩
    have ha : a.evalU R t ≤ R.rnd (a.evalU R t + b.evalU R t) := by
      have := R.mono (show a.evalU R t ≤ a.evalU R t + b.evalU R t by linarith [ihb.1])
      rwa [R.of_isFloat iha.2.1] at this
    have hb : b.evalU R t ≤ R.rnd (a.evalU R t + b.evalU R t) := by
      have := R.mono (show b.evalU R t ≤ a.evalU R t + b.evalU R t by linarith [iha.1])
      rwa [R.of_isFloat ihb.2.1] at this
    intro k hk
    rcases List.mem_append.1 hk with hk | hk
    · exact (iha.2.2 k hk).trans ha
    · exact (ihb.2.2 k hk).trans hb
  | fma a j iha =>
    refine ⟨R.nonneg (add_nonneg iha.1 (h0 j)), R.isFloat _, ?_⟩
    have ha : a.evalU R t ≤ R.rnd (a.evalU R t + t j) := by
      have := R.mono (show a.evalU R t ≤ a.evalU R t + t j by linarith [h0 j])
      rwa [R.of_isFloat iha.2.1] at this
    intro k hk
    rcases List.mem_append.1 hk with hk | hk
    · exact (iha.2.2 k hk).trans ha
    · rw [List.mem_singleton.1 hk]
      exact R.mono (by linarith [iha.1])

theorem one_le_top (hE : 0 ≤ emax) : (1 : ℝ) ≤ (2 : ℝ) ^ emax := one_le_zpow₀ (by norm_num) hE

theorem emin_le (hp : 1 ≤ p) (hE : 1 ≤ emax) : emin p emax ≤ emax := by unfold emin; omega

/-- A difference that overflows has a square that overflows. -/
theorem sq_top (hp : 1 ≤ p) (hE : 1 ≤ emax) {d a : ℝ} (hd : (2 : ℝ) ^ emax ≤ d) (ha : 0 ≤ a) :
    (2 : ℝ) ^ emax ≤ R.rnd (a + d * d) := by
  have h1 := one_le_top (emax := emax) (by omega)
  have h2 : (2 : ℝ) ^ emax ≤ a + d * d := by nlinarith
  have := R.mono h2
  rwa [R.of_isFloat (isFloatE_zpow (emin_le hp hE))] at this

theorem Order.evalE_eq (hp : 1 ≤ p) (hE : 1 ≤ emax) {d : Nat → WithTop ℝ} {d' : Nat → ℝ}
    (hd : ∀ k, d k = clip emax (d' k)) (o : Order) :
    o.evalE R d = clip emax (o.evalU R (fun k => d' k * d' k)) := by
  have h0 : ∀ k, 0 ≤ (fun k => d' k * d' k) k := fun k => mul_self_nonneg _
  induction o with
  | term k =>
    simp only [Order.evalE, Order.evalU, hd]
    rcases lt_or_ge (d' k) ((2 : ℝ) ^ emax) with h | h
    · rw [clip_of_lt h]
      rfl
    · have := sq_top R hp hE h (le_refl 0)
      rw [zero_add] at this
      rw [clip_of_le h, clip_of_le this]
      rfl
  | add a b iha ihb =>
    obtain ⟨a0, af, _⟩ := a.evalU_ge R h0
    obtain ⟨b0, bf, _⟩ := b.evalU_ge R h0
    simp only [Order.evalE, Order.evalU, iha, ihb]
    generalize a.evalU R (fun k => d' k * d' k) = x at *
    generalize b.evalU R (fun k => d' k * d' k) = y at *
    have ha : x ≤ R.rnd (x + y) := by
      have := R.mono (show x ≤ x + y by linarith)
      rwa [R.of_isFloat af] at this
    have hb : y ≤ R.rnd (x + y) := by
      have := R.mono (show y ≤ x + y by linarith)
      rwa [R.of_isFloat bf] at this
    rcases lt_or_ge x ((2 : ℝ) ^ emax) with h1 | h1
    · rcases lt_or_ge y ((2 : ℝ) ^ emax) with h2 | h2
      · rw [clip_of_lt h1, clip_of_lt h2]
        rfl
      · rw [clip_of_lt h1, clip_of_le h2, clip_of_le (h2.trans hb)]
        rfl
    · rw [clip_of_le h1, clip_of_le (h1.trans ha)]
      rfl
  | fma a k iha =>
    obtain ⟨a0, af, _⟩ := a.evalU_ge R h0
    simp only [Order.evalE, Order.evalU, iha, hd]
    generalize a.evalU R (fun k => d' k * d' k) = x at *
    have hk := mul_self_nonneg (d' k)
    have ha : x ≤ R.rnd (x + d' k * d' k) := by
      have := R.mono (show x ≤ x + d' k * d' k by linarith)
      rwa [R.of_isFloat af] at this
    rcases lt_or_ge (d' k) ((2 : ℝ) ^ emax) with h1 | h1
    · rcases lt_or_ge x ((2 : ℝ) ^ emax) with h2 | h2
      · rw [clip_of_lt h1, clip_of_lt h2]
        rfl
      · rw [clip_of_lt h1, clip_of_le h2, clip_of_le (h2.trans ha)]
        rfl
    · rw [clip_of_le h1, clip_of_le (sq_top R hp hE h1 a0)]
      rfl

theorem diffE_eq (u v : Nat → ℝ) (k : Nat) : diffE R u v k = clip emax (diffU R u v k) := by
  cases k with
  | zero =>
    show ((0 : ℝ) : WithTop ℝ) = clip emax 0
    rw [clip_of_lt (two_zpow_pos _)]
  | succ k => rfl

/-- The computed sum of squares when nothing overflows. -/
noncomputable def sumU (o : Order) (u v : Nat → ℝ) : ℝ := o.evalU R (termU R u v)

theorem sumU_nonneg (o : Order) (u v : Nat → ℝ) : 0 ≤ sumU R o u v :=
  (o.evalU_ge R (termU_nonneg R u v)).1

theorem sumU_isFloat (o : Order) (u v : Nat → ℝ) : IsFloatE p emax (sumU R o u v) :=
  (o.evalU_ge R (termU_nonneg R u v)).2.1

/-- The computed distance: the root of the computed sum, or infinity when that sum overflows. -/
theorem distE_eq (hp : 1 ≤ p) (hE : 2 ≤ emax) (o : Order) (u v : Nat → ℝ) :
    distE R o u v = if sumU R o u v < (2 : ℝ) ^ emax then ((R.rnd (Real.sqrt (sumU R o u v)) : ℝ) : WithTop ℝ)
      else ⊤ := by
  unfold distE
  rw [o.evalE_eq R hp (by omega) (diffE_eq R u v)]
  change sqrtE R (clip emax (sumU R o u v)) = _
  split
  · rename_i h
    rw [clip_of_lt h]
    refine clip_of_lt ?_
    have h0 := sumU_nonneg R o u v
    have hf := sumU_isFloat R o u v
    generalize sumU R o u v = s at *
    rcases le_total s 1 with h1 | h1
    · have h2 : Real.sqrt s ≤ (2 : ℝ) ^ (0 : ℤ) := by
        rw [zpow_zero]
        exact Real.sqrt_le_one.2 h1
      have h3 := R.mono h2
      rw [R.of_isFloat (isFloatE_zpow (by unfold emin; omega))] at h3
      refine h3.trans_lt ?_
      exact zpow_lt_zpow_right₀ (by norm_num) (by omega)
    · have h2 : Real.sqrt s ≤ s := by
        rw [Real.sqrt_le_left h0]
        nlinarith
      have h3 := R.mono h2
      rw [R.of_isFloat hf] at h3
      exact h3.trans_lt h
  · rename_i h
    rw [clip_of_le (not_lt.1 h)]
    rfl

/-- A sample that is off by at least `g` in one coordinate is not computed to be nearer than any computed
distance that does not exceed `g`. -/
theorem distE_ge (hp : 1 ≤ p) (R0 : Rounding p) (hE : (p : ℤ) + 1 ≤ emax) (heven : Even emax)
    {o o' : Order} {u v u' v' : Nat → ℝ} {a : Nat} (ha : a + 1 ∈ o.terms) {g : ℝ} (hg0 : 0 ≤ g)
    (hg : g ≤ |R.rnd (u a - v a)|) (hf : distE R o' u' v' ≤ clip emax g) :
    distE R o' u' v' ≤ distE R o u v := by
  have hE1 : 2 ≤ emax := by omega
  rw [distE_eq R hp hE1 o u v]
  split
  · rename_i hS
    have hterm := (o.evalU_ge R (termU_nonneg R u v)).2.2 _ ha
    change R.rnd (|R.rnd (u a - v a)| * |R.rnd (u a - v a)|) ≤ sumU R o u v at hterm
    have hgS : R.rnd (g * g) ≤ sumU R o u v := by
      refine (R.mono ?_).trans hterm
      exact mul_le_mul hg hg hg0 (abs_nonneg _)
    have hgtop : g < (2 : ℝ) ^ emax := by
      by_contra h
      push Not at h
      have h1 := one_le_top (emax := emax) (by omega)
      have h2 := R.mono (show (2 : ℝ) ^ emax ≤ g * g by nlinarith)
      rw [R.of_isFloat (isFloatE_zpow (emin_le hp (by omega)))] at h2
      linarith
    rw [clip_of_lt hgtop] at hf
    rw [distE_eq R hp hE1 o' u' v'] at hf ⊢
    split at hf
    · rename_i hS'
      rw [if_pos hS']
      have hfg : R.rnd (Real.sqrt (sumU R o' u' v')) ≤ g := by exact_mod_cast hf
      have h1 := R.le_sqrt_sq hp R0 hE heven (sumU_isFloat R o' u' v') (sumU_nonneg R o' u' v')
      have hf0 : 0 ≤ R.rnd (Real.sqrt (sumU R o' u' v')) := R.nonneg (Real.sqrt_nonneg _)
      have h2 : R.rnd (R.rnd (Real.sqrt (sumU R o' u' v')) * R.rnd (Real.sqrt (sumU R o' u' v'))) ≤
          sumU R o u v := (R.mono (mul_le_mul hfg hfg hf0 hg0)).trans hgS
      have h3 := h1.trans (R.mono (Real.sqrt_le_sqrt h2))
      exact_mod_cast h3
    · exact absurd hf (by simp)
  · exact le_top

end Verif.Rounding
