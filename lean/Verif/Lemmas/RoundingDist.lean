import Verif.Lemmas.Rounding
import Mathlib.Algebra.BigOperators.Group.List.Basic

namespace Verif.Rounding

open Verif.Sorting

variable {p : Nat} (R : Rounding p)

/-! ### equality -/

/-- Rounding the difference keeps what quickselect needs of the equality test. -/
theorem goodEq_eqR {eps : ℝ} (he : 0 ≤ eps) : GoodEq (eqR R eps) := by
  refine ⟨fun a => by simpa [eqR, R.zero] using he, ?_⟩
  intro a b c hab h
  by_cases hac : a ≤ c
  · exact Or.inl hac
  · push Not at hac
    refine Or.inr ?_
    rcases h with h | h
    · exact absurd (hab.trans h) (not_le.2 hac)
    · simp only [eqR, decide_eq_true_eq, R.abs] at h ⊢
      refine (R.mono ?_).trans h
      rw [abs_sub_comm, abs_sub_comm c b, abs_of_pos (by linarith)]
      exact (by linarith : a - c ≤ b - c).trans (le_abs_self _)

theorem eqR_tol {eps a b : ℝ} (h : eqR R eps a b = true) : |b - a| ≤ eps * (1 + unit p) := by
  simp only [eqR, decide_eq_true_eq, R.abs] at h
  refine (R.le_rnd_mul (abs_nonneg _)).trans ?_
  exact mul_le_mul_of_nonneg_right h (by linarith [Rounding.unit_pos (p := p)])

/-! ### sums -/

theorem one_le_f : 1 ≤ 1 + unit p := by linarith [Rounding.unit_pos (p := p)]

theorem Order.one_le_length (o : Order) : 1 ≤ o.terms.length := by
  induction o with
  | term k => simp [Order.terms]
  | add a b iha ihb => simp only [Order.terms, List.length_append]; omega
  | fma a k iha => simp only [Order.terms, List.length_append]; omega

/-- A rounded sum of products that are not negative is a number of the format, and at least each of its
rounded terms. -/
theorem Order.eval_ge {t : Nat → ℝ} (h0 : ∀ k, 0 ≤ t k) (o : Order) :
    0 ≤ o.eval R t ∧ IsFloat p (o.eval R t) ∧ ∀ k ∈ o.terms, R.rnd (t k) ≤ o.eval R t := by
  induction o with
  | term k => exact ⟨R.nonneg (h0 k), R.isFloat _, by simp [Order.terms, Order.eval]⟩
  | add a b iha ihb =>
    refine ⟨R.nonneg (add_nonneg iha.1 ihb.1), R.isFloat _, ?_⟩
    have ha : a.eval R t ≤ R.rnd (a.eval R t + b.eval R t) := by
      have := R.mono (by linarith [ihb.1] : a.eval R t ≤ a.eval R t + b.eval R t)
      rwa [R.of_isFloat iha.2.1] at this
    have hb : b.eval R t ≤ R.rnd (a.eval R t + b.eval R t) := by
      have := R.mono (by linarith [iha.1] : b.eval R t ≤ a.eval R t + b.eval R t)
      rwa [R.of_isFloat ihb.2.1] at this
    intro k hk
    simp only [Order.terms, List.mem_append] at hk
    rcases hk with hk | hk
    · exact (iha.2.2 k hk).trans ha
    · exact (ihb.2.2 k hk).trans hb
  | fma a j iha =>
    refine ⟨R.nonneg (add_nonneg iha.1 (h0 j)), R.isFloat _, ?_⟩
    have ha : a.eval R t ≤ R.rnd (a.eval R t + t j) := by
      have := R.mono (by linarith [h0 j] : a.eval R t ≤ a.eval R t + t j)
      rwa [R.of_isFloat iha.2.1] at this
    intro k hk
    simp only [Order.terms, List.mem_append, List.mem_singleton] at hk
    rcases hk with hk | rfl
    · exact (iha.2.2 k hk).trans ha
    · exact R.mono (by linarith [iha.1])

/-- Error of a rounded sum of products that are not negative, relative to their exact sum. -/
theorem Order.eval_error {t : Nat → ℝ} (h0 : ∀ k, 0 ≤ t k) (o : Order) :
    0 ≤ (o.terms.map t).sum ∧ 0 ≤ o.eval R t ∧
    o.eval R t ≤ (o.terms.map t).sum * (1 + unit p) ^ o.terms.length ∧
    (o.terms.map t).sum ≤ o.eval R t * (1 + unit p) ^ o.terms.length := by
  have hf := one_le_f (p := p)
  have hu : 0 ≤ 1 + unit p := by linarith
  induction o with
  | term k =>
    simp only [Order.terms, Order.eval, List.map_cons, List.map_nil, List.sum_cons, List.sum_nil, add_zero,
      List.length_singleton, pow_one]
    exact ⟨h0 k, R.nonneg (h0 k), R.rnd_le_mul (h0 k), R.le_rnd_mul (h0 k)⟩
  | add a b iha ihb =>
    obtain ⟨a0, a1, a2, a3⟩ := iha
    obtain ⟨b0, b1, b2, b3⟩ := ihb
    have la := a.one_le_length
    have lb := b.one_le_length
    simp only [Order.terms, Order.eval, List.map_append, List.sum_append, List.length_append]
    have ea : (1 + unit p) ^ a.terms.length ≤ (1 + unit p) ^ (a.terms.length + b.terms.length - 1) :=
      pow_le_pow_right₀ hf (by omega)
    have eb : (1 + unit p) ^ b.terms.length ≤ (1 + unit p) ^ (a.terms.length + b.terms.length - 1) :=
      pow_le_pow_right₀ hf (by omega)
    have e : (1 + unit p) ^ (a.terms.length + b.terms.length) =
        (1 + unit p) ^ (a.terms.length + b.terms.length - 1) * (1 + unit p) := by
      rw [← pow_succ]; congr 1; omega
    rw [e]
    generalize (1 + unit p) ^ (a.terms.length + b.terms.length - 1) = F at *
    have s0 : 0 ≤ a.eval R t + b.eval R t := add_nonneg a1 b1
    refine ⟨add_nonneg a0 b0, R.nonneg s0, ?_, ?_⟩
    · refine (R.rnd_le_mul s0).trans ?_
      rw [← mul_assoc]
      refine mul_le_mul_of_nonneg_right ?_ hu
      rw [add_mul]
      exact add_le_add (a2.trans (mul_le_mul_of_nonneg_left ea a0))
        (b2.trans (mul_le_mul_of_nonneg_left eb b0))
    · have hF : 0 ≤ F := le_trans (pow_nonneg hu _) ea
      have h1 : (a.terms.map t).sum + (b.terms.map t).sum ≤ (a.eval R t + b.eval R t) * F := by
        rw [add_mul]
        exact add_le_add (a3.trans (mul_le_mul_of_nonneg_left ea a1))
          (b3.trans (mul_le_mul_of_nonneg_left eb b1))
      refine h1.trans ((mul_le_mul_of_nonneg_right (R.le_rnd_mul s0) hF).trans (le_of_eq (by ring)))
  | fma a k iha =>
    obtain ⟨a0, a1, a2, a3⟩ := iha
    have hk := h0 k
    simp only [Order.terms, Order.eval, List.map_append, List.sum_append, List.length_append, List.map_cons,
      List.map_nil, List.sum_cons, List.sum_nil, add_zero, List.length_singleton, pow_succ]
    have hF : 1 ≤ (1 + unit p) ^ a.terms.length := one_le_pow₀ hf
    generalize (1 + unit p) ^ a.terms.length = F at *
    have s0 : 0 ≤ a.eval R t + t k := add_nonneg a1 hk
    refine ⟨add_nonneg a0 hk, R.nonneg s0, ?_, ?_⟩
    · refine (R.rnd_le_mul s0).trans ?_
      rw [← mul_assoc]
      refine mul_le_mul_of_nonneg_right ?_ hu
      nlinarith
    · have h1 : (a.terms.map t).sum + t k ≤ (a.eval R t + t k) * F := by nlinarith
      refine h1.trans ((mul_le_mul_of_nonneg_right (R.le_rnd_mul s0) (by linarith)).trans (le_of_eq (by ring)))

/-! ### distances -/

theorem term_nonneg (u v : Nat → ℝ) (k : Nat) : 0 ≤ term R u v k := by
  cases k with
  | zero => exact le_refl _
  | succ k => exact mul_self_nonneg _

theorem term_comm (u v : Nat → ℝ) : term R u v = term R v u := by
  funext k
  cases k with
  | zero => rfl
  | succ k =>
    have : R.rnd (u k - v k) = -R.rnd (v k - u k) := by rw [← R.neg]; congr 1; ring
    simp only [term, this]
    ring

/-- The computed distance is symmetric when the order of summation is the same. -/
theorem distR_comm (o : Order) (u v : Nat → ℝ) : distR R o u v = distR R o v u := by
  unfold distR; rw [term_comm]

theorem distR_nonneg (o : Order) (u v : Nat → ℝ) : 0 ≤ distR R o u v :=
  R.nonneg (Real.sqrt_nonneg _)

/-- The computed distance is never smaller than the computed difference of one coordinate. -/
theorem abs_le_distR (hp : 1 ≤ p) {o : Order} {u v : Nat → ℝ} {a : Nat} (ha : a + 1 ∈ o.terms) :
    |R.rnd (u a - v a)| ≤ distR R o u v := by
  have hd : IsFloat p |R.rnd (u a - v a)| := (R.isFloat _).abs
  refine (R.le_sqrt_sq hp hd (abs_nonneg _)).trans (R.mono (Real.sqrt_le_sqrt ?_))
  have := (o.eval_ge R (term_nonneg R u v)).2.2 _ ha
  rw [abs_mul_abs_self]
  exact this

/-- Error of one term. -/
theorem term_error (u v : Nat → ℝ) (k : Nat) :
    term R u v (k + 1) ≤ (u k - v k) ^ 2 * (1 + unit p) ^ 2 ∧
    (u k - v k) ^ 2 ≤ term R u v (k + 1) * (1 + unit p) ^ 2 := by
  have hu : 0 ≤ 1 + unit p := by linarith [one_le_f (p := p)]
  have e : term R u v (k + 1) = |R.rnd (u k - v k)| * |R.rnd (u k - v k)| := by
    rw [abs_mul_abs_self]; rfl
  have h1 := R.rnd_le_mul (abs_nonneg (u k - v k))
  have h2 := R.le_rnd_mul (abs_nonneg (u k - v k))
  rw [← R.abs] at h1 h2
  rw [e, ← sq_abs]
  have w0 := abs_nonneg (R.rnd (u k - v k))
  have t0 := abs_nonneg (u k - v k)
  generalize |R.rnd (u k - v k)| = w at *
  generalize |u k - v k| = t at *
  generalize 1 + unit p = f at *
  constructor
  · have : w * w ≤ (t * f) * (t * f) := mul_le_mul h1 h1 w0 (mul_nonneg t0 hu)
    nlinarith
  · have : t * t ≤ (w * f) * (w * f) := mul_le_mul h2 h2 t0 (mul_nonneg w0 hu)
    nlinarith

/-- The exact squared Euclidean distance of the first `nf` coordinates. -/
theorem terms_sum {nf : Nat} {o : Order} (ho : o.terms.Perm (List.range (nf + 1))) (t : Nat → ℝ)
    (h0 : t 0 = 0) : (o.terms.map t).sum = ((List.range nf).map (fun k => t (k + 1))).sum := by
  rw [(ho.map t).sum_eq, List.range_succ_eq_map]
  simp [h0, Function.comp_def]

theorem sum_map_le {l : List Nat} {f g : Nat → ℝ} {c : ℝ} (h : ∀ k, f k ≤ g k * c) :
    (l.map f).sum ≤ (l.map g).sum * c := by
  induction l with
  | nil => simp
  | cons a l ih => simp only [List.map_cons, List.sum_cons, add_mul]; exact add_le_add (h a) ih

/-- Error of the computed Euclidean distance, on the squares: within a factor `(1 + u) ^ (nf + 5)`
both ways. -/
theorem distR_error {nf : Nat} {o : Order} (ho : o.terms.Perm (List.range (nf + 1)))
    (u v : Nat → ℝ) :
    distR R o u v ^ 2 ≤ ((List.range nf).map (fun k => (u k - v k) ^ 2)).sum * (1 + unit p) ^ (nf + 5) ∧
    ((List.range nf).map (fun k => (u k - v k) ^ 2)).sum ≤ distR R o u v ^ 2 * (1 + unit p) ^ (nf + 5) := by
  have hu : 0 ≤ 1 + unit p := by linarith [one_le_f (p := p)]
  obtain ⟨-, s0, e1, e2⟩ := o.eval_error R (term_nonneg R u v)
  have hlen : o.terms.length = nf + 1 := by rw [ho.length_eq]; simp
  rw [terms_sum ho _ rfl, hlen] at e1 e2
  have t1 := sum_map_le (l := List.range nf) (fun k => (term_error R u v k).1)
  have t2 := sum_map_le (l := List.range nf) (fun k => (term_error R u v k).2)
  unfold distR
  generalize ((List.range nf).map (fun k => (u k - v k) ^ 2)).sum = S at *
  generalize ((List.range nf).map (fun k => term R u v (k + 1))).sum = T at *
  generalize o.eval R (term R u v) = s at *
  have h1 := R.rnd_le_mul (Real.sqrt_nonneg s)
  have h2 := R.le_rnd_mul (Real.sqrt_nonneg s)
  have c0 := R.nonneg (Real.sqrt_nonneg s)
  have hs := Real.sq_sqrt s0
  have q0 := Real.sqrt_nonneg s
  generalize R.rnd (Real.sqrt s) = c at *
  generalize Real.sqrt s = q at *
  have e5 : (1 + unit p) ^ (nf + 5) = (1 + unit p) ^ 2 * (1 + unit p) ^ (nf + 1) * (1 + unit p) ^ 2 := by
    rw [← pow_add, ← pow_add]; congr 1; omega
  have hF : 0 ≤ (1 + unit p) ^ (nf + 1) := pow_nonneg hu _
  rw [e5]
  generalize (1 + unit p) ^ (nf + 1) = F at *
  generalize 1 + unit p = f at *
  have hf2' : 0 ≤ f ^ 2 := pow_nonneg hu _
  have hf2 : 0 ≤ f ^ 2 := pow_nonneg hu _
  constructor
  · have a1 : c ^ 2 ≤ (q * f) ^ 2 := pow_le_pow_left₀ c0 h1 2
    have a2 : s ≤ S * f ^ 2 * F := e1.trans (mul_le_mul_of_nonneg_right t1 hF)
    have a3 := mul_le_mul_of_nonneg_right a2 hf2
    rw [mul_pow, hs] at a1
    calc c ^ 2 ≤ s * f ^ 2 := a1
      _ ≤ _ := a3
      _ = _ := by ring
  · have a1 : q ^ 2 ≤ (c * f) ^ 2 := pow_le_pow_left₀ q0 h2 2
    have a2 : S ≤ s * F * f ^ 2 := t2.trans (mul_le_mul_of_nonneg_right e2 hf2')
    rw [mul_pow, hs] at a1
    have a3 := mul_le_mul_of_nonneg_right a1 (mul_nonneg hF hf2')
    calc S ≤ s * F * f ^ 2 := a2
      _ = s * (F * f ^ 2) := by ring
      _ ≤ _ := a3
      _ = _ := by ring

end Verif.Rounding
