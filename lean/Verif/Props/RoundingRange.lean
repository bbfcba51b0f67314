import Verif.Lemmas.RoundingRange
import Verif.Props.Rounding

/-
Property C122: searches and DBSCAN in a floating format of bounded range.

C77 rounds every operation with an unbounded exponent.  Here squares may underflow, and differences, squares
and sums may overflow to infinity, as in IEEE 754 single and double precision.
-/

namespace Verif.Rounding

open Verif.KDTree Verif.Search Verif.Buffer Verif.Sorting

set_option linter.unusedSectionVars false

variable {p : Nat} {emax : ℤ} (R : RoundingE p emax)

/-! ### the distance -/

/-- Relative error of rounding, with what is lost to underflow. -/
theorem rnd_error (hp : 1 ≤ p) {y : ℝ} (hy : 0 ≤ y) :
    R.rnd y ≤ (y + (2 : ℝ) ^ (emin p emax - 1)) * (1 + unit p) ∧
    y ≤ (R.rnd y + (2 : ℝ) ^ (emin p emax - 1)) * (1 + unit p) := by
  have hf := one_le_f (p := p)
  have hδ := two_zpow_pos (emin p emax - 1)
  have hr := R.nonneg hy
  by_cases hbig : tiny emax ≤ y
  · have h3 := (R.normal hp (away p hp)).rnd_le_mul hy
    have h4 := (R.normal hp (away p hp)).le_rnd_mul hy
    rw [R.normal_eq hp _ (by rwa [abs_of_nonneg hy])] at h3 h4
    exact ⟨by nlinarith, by nlinarith⟩
  · push Not at hbig
    have h3 := R.small_error hp (x := y) (by rw [abs_of_nonneg hy]; exact hbig.le)
    obtain ⟨h5, h6⟩ := abs_le.1 h3
    exact ⟨by nlinarith, by nlinarith⟩

/-- The computed sum of products against the exact one. -/
theorem Order.evalU_error (hp : 1 ≤ p) {t : Nat → ℝ} (h0 : ∀ k, 0 ≤ t k) (o : Order) :
    0 ≤ (o.terms.map t).sum ∧
    o.evalU R t ≤ ((o.terms.map t).sum + o.terms.length * (2 : ℝ) ^ (emin p emax - 1)) *
      (1 + unit p) ^ o.terms.length ∧
    (o.terms.map t).sum ≤ (o.evalU R t + o.terms.length * (2 : ℝ) ^ (emin p emax - 1)) *
      (1 + unit p) ^ o.terms.length := by
  have hf := one_le_f (p := p)
  have hδ := two_zpow_pos (emin p emax - 1)
  have hu : 0 ≤ 1 + unit p := by linarith
  induction o with
  | term k =>
    simp only [Order.terms, Order.evalU, List.map_cons, List.map_nil, List.sum_cons, List.sum_nil, add_zero,
      List.length_singleton, pow_one, Nat.cast_one, one_mul]
    exact ⟨h0 k, rnd_error R hp (h0 k)⟩
  | add a b iha ihb =>
    obtain ⟨a0, a2, a3⟩ := iha
    obtain ⟨b0, b2, b3⟩ := ihb
    obtain ⟨a1, af, _⟩ := a.evalU_ge R h0
    obtain ⟨b1, bf, _⟩ := b.evalU_ge R h0
    have la := a.one_le_length
    have lb := b.one_le_length
    simp only [Order.terms, Order.evalU, List.map_append, List.sum_append, List.length_append, Nat.cast_add]
    have ea : (1 + unit p) ^ a.terms.length ≤ (1 + unit p) ^ (a.terms.length + b.terms.length - 1) :=
      pow_le_pow_right₀ hf (by omega)
    have eb : (1 + unit p) ^ b.terms.length ≤ (1 + unit p) ^ (a.terms.length + b.terms.length - 1) :=
      pow_le_pow_right₀ hf (by omega)
    have e : (1 + unit p) ^ (a.terms.length + b.terms.length) =
        (1 + unit p) ^ (a.terms.length + b.terms.length - 1) * (1 + unit p) := by
      rw [← pow_succ]; congr 1; omega
    rw [e]
    have hla : (0 : ℝ) ≤ a.terms.length * (2 : ℝ) ^ (emin p emax - 1) := by positivity
    have hlb : (0 : ℝ) ≤ b.terms.length * (2 : ℝ) ^ (emin p emax - 1) := by positivity
    have hF : 1 ≤ (1 + unit p) ^ (a.terms.length + b.terms.length - 1) := one_le_pow₀ hf
    generalize (1 + unit p) ^ (a.terms.length + b.terms.length - 1) = F at *
    have s0 : 0 ≤ a.evalU R t + b.evalU R t := add_nonneg a1 b1
    have hr1 := (R.normal hp (away p hp)).rnd_le_mul s0
    have hr2 := (R.normal hp (away p hp)).le_rnd_mul s0
    rw [R.normal_add hp (away p hp) af bf] at hr1 hr2
    rw [add_mul (a.terms.length : ℝ)]
    generalize (a.terms.length : ℝ) * (2 : ℝ) ^ (emin p emax - 1) = A at *
    generalize (b.terms.length : ℝ) * (2 : ℝ) ^ (emin p emax - 1) = B at *
    refine ⟨add_nonneg a0 b0, ?_, ?_⟩
    · refine hr1.trans ?_
      rw [← mul_assoc]
      refine mul_le_mul_of_nonneg_right ?_ hu
      have h1 := a2.trans (mul_le_mul_of_nonneg_left ea (add_nonneg a0 hla))
      have h2 := b2.trans (mul_le_mul_of_nonneg_left eb (add_nonneg b0 hlb))
      linarith
    · have h1 := a3.trans (mul_le_mul_of_nonneg_left ea (add_nonneg a1 hla))
      have h2 := b3.trans (mul_le_mul_of_nonneg_left eb (add_nonneg b1 hlb))
      have h3 : a.evalU R t + b.evalU R t + (A + B) ≤
          (R.rnd (a.evalU R t + b.evalU R t) + (A + B)) * (1 + unit p) := by nlinarith
      have h4 := mul_le_mul_of_nonneg_right h3 (by linarith : 0 ≤ F)
      nlinarith
  | fma a k iha =>
    obtain ⟨a0, a2, a3⟩ := iha
    obtain ⟨a1, af, _⟩ := a.evalU_ge R h0
    have hk := h0 k
    simp only [Order.terms, Order.evalU, List.map_append, List.sum_append, List.length_append, List.map_cons,
      List.map_nil, List.sum_cons, List.sum_nil, add_zero, List.length_singleton, pow_succ, Nat.cast_add,
      Nat.cast_one, add_mul, one_mul]
    have hla : (0 : ℝ) ≤ a.terms.length * (2 : ℝ) ^ (emin p emax - 1) := by positivity
    have hF : 1 ≤ (1 + unit p) ^ a.terms.length := one_le_pow₀ hf
    generalize (1 + unit p) ^ a.terms.length = F at *
    have s0 : 0 ≤ a.evalU R t + t k := add_nonneg a1 hk
    obtain ⟨hr1, hr2⟩ := rnd_error R hp s0
    generalize (a.terms.length : ℝ) * (2 : ℝ) ^ (emin p emax - 1) = A at *
    generalize (2 : ℝ) ^ (emin p emax - 1) = δ at *
    refine ⟨add_nonneg a0 hk, ?_, ?_⟩
    · refine hr1.trans ?_
      have h1 : a.evalU R t + t k + δ ≤ ((a.terms.map t).sum + t k + (A + δ)) * F := by nlinarith
      have h2 := mul_le_mul_of_nonneg_right h1 hu
      linarith
    · have h1 : (a.terms.map t).sum + t k ≤ (a.evalU R t + t k + A) * F := by nlinarith
      have h3 : a.evalU R t + t k + A ≤ (R.rnd (a.evalU R t + t k) + (A + δ)) * (1 + unit p) := by nlinarith
      have h4 := mul_le_mul_of_nonneg_right h3 (by linarith : 0 ≤ F)
      nlinarith

theorem termU_error (hp : 1 ≤ p) (u v : Nat → ℝ) (k : Nat) (hu : IsFloatE p emax (u k))
    (hv : IsFloatE p emax (v k)) :
    termU R u v (k + 1) ≤ (u k - v k) ^ 2 * (1 + unit p) ^ 2 ∧
    (u k - v k) ^ 2 ≤ termU R u v (k + 1) * (1 + unit p) ^ 2 := by
  have h := term_error (R.normal hp (away p hp)) u v k
  have e : term (R.normal hp (away p hp)) u v (k + 1) = termU R u v (k + 1) := by
    simp only [term, termU, diffU]
    rw [R.normal_sub hp (away p hp) hu hv, abs_mul_abs_self]
  rwa [e] at h

theorem sum_map_le' {l : List Nat} {f g : Nat → ℝ} {c : ℝ} (h : ∀ k ∈ l, f k ≤ g k * c) :
    (l.map f).sum ≤ (l.map g).sum * c := by
  induction l with
  | nil => simp
  | cons a l ih =>
    simp only [List.map_cons, List.sum_cons, add_mul]
    exact add_le_add (h a List.mem_cons_self) (ih (fun k hk => h k (List.mem_cons_of_mem _ hk)))

/-- The computed sum of squares against the true one. -/
theorem sumU_error (hp : 1 ≤ p) {nf : Nat} {o : Order} (ho : o.Sums nf) {u v : Nat → ℝ}
    (hu : ∀ k < nf, IsFloatE p emax (u k)) (hv : ∀ k < nf, IsFloatE p emax (v k)) :
    sumU R o u v ≤ (1 + unit p) ^ (nf + 3) *
      (trueDist nf u v ^ 2 + (nf + 1) * (2 : ℝ) ^ (emin p emax - 1)) ∧
    trueDist nf u v ^ 2 ≤ (1 + unit p) ^ (nf + 3) *
      (sumU R o u v + (nf + 1) * (2 : ℝ) ^ (emin p emax - 1)) := by
  have hf := one_le_f (p := p)
  have hδ := two_zpow_pos (emin p emax - 1)
  have hT : trueDist nf u v ^ 2 = ((List.range nf).map (fun k => (u k - v k) ^ 2)).sum := by
    unfold trueDist
    refine Real.sq_sqrt (List.sum_nonneg ?_)
    intro y hy
    obtain ⟨k, _, rfl⟩ := List.mem_map.1 hy
    exact sq_nonneg _
  obtain ⟨A0, e1, e2⟩ := o.evalU_error R hp (termU_nonneg R u v)
  have hlen : o.terms.length = nf + 1 := by rw [ho.length_eq]; simp
  rw [terms_sum ho _ (by simp [termU, diffU])] at A0 e1 e2
  rw [hlen] at e1 e2
  have t1 := sum_map_le' (l := List.range nf) (f := fun k => termU R u v (k + 1))
    (g := fun k => (u k - v k) ^ 2) (fun k hk =>
      (termU_error R hp u v k (hu k (List.mem_range.1 hk)) (hv k (List.mem_range.1 hk))).1)
  have t2 := sum_map_le' (l := List.range nf) (g := fun k => termU R u v (k + 1))
    (f := fun k => (u k - v k) ^ 2) (fun k hk =>
      (termU_error R hp u v k (hu k (List.mem_range.1 hk)) (hv k (List.mem_range.1 hk))).2)
  have S0 := sumU_nonneg R o u v
  change sumU R o u v ≤ _ at e1
  change _ ≤ (sumU R o u v + _) * _ at e2
  rw [hT, show nf + 3 = (nf + 1) + 2 by ring, pow_add]
  push_cast at e1 e2
  have hn : (0 : ℝ) ≤ (nf + 1) * (2 : ℝ) ^ (emin p emax - 1) := by positivity
  have hF : 1 ≤ (1 + unit p) ^ (nf + 1) := one_le_pow₀ hf
  have hG : 1 ≤ (1 + unit p) ^ 2 := one_le_pow₀ hf
  generalize (1 + unit p) ^ (nf + 1) = F at *
  generalize (1 + unit p) ^ 2 = G at *
  generalize ((List.range nf).map (fun k => (u k - v k) ^ 2)).sum = T at *
  generalize ((List.range nf).map (fun k => termU R u v (k + 1))).sum = A at *
  generalize ((nf : ℝ) + 1) * (2 : ℝ) ^ (emin p emax - 1) = Δ at *
  generalize sumU R o u v = S at *
  constructor
  · have h1 : A + Δ ≤ (T + Δ) * G := by nlinarith
    calc S ≤ (A + Δ) * F := e1
      _ ≤ ((T + Δ) * G) * F := mul_le_mul_of_nonneg_right h1 (by linarith)
      _ = _ := by ring
  · calc T ≤ A * G := t2
      _ ≤ ((S + Δ) * F) * G := mul_le_mul_of_nonneg_right e2 (by linarith)
      _ = _ := by ring

/-- **C122.** The computed Euclidean distance of coordinates of the format, with gradual underflow and
overflow.  A finite result is within the factor `(1 + u) ^ (nf + 5)` of the true distance both ways, on the
squares, with at most `(nf + 1) * 2 ^ (emin - 1)` lost to underflow; an infinite one needs a true squared distance
within the same error of `2 ^ emax`. -/
theorem C122_distance_error (hp : 1 ≤ p) (hE : (p : ℤ) + 1 ≤ emax) {nf : Nat} {o : Order} (ho : o.Sums nf)
    {u v : Nat → ℝ} (hu : ∀ k < nf, IsFloatE p emax (u k)) (hv : ∀ k < nf, IsFloatE p emax (v k)) :
    (∀ D : ℝ, distE R o u v = (D : WithTop ℝ) → 0 ≤ D ∧
      D ^ 2 ≤ (1 + unit p) ^ (nf + 5) * (trueDist nf u v ^ 2 + (nf + 1) * (2 : ℝ) ^ (emin p emax - 1)) ∧
      trueDist nf u v ^ 2 ≤ (1 + unit p) ^ (nf + 5) * (D ^ 2 + (nf + 1) * (2 : ℝ) ^ (emin p emax - 1))) ∧
    (distE R o u v = ⊤ →
      (2 : ℝ) ^ emax ≤ (1 + unit p) ^ (nf + 5) * (trueDist nf u v ^ 2 + (nf + 1) * (2 : ℝ) ^ (emin p emax - 1))) := by
  have hf := one_le_f (p := p)
  obtain ⟨h1, h2⟩ := sumU_error R hp ho hu hv
  have hS0 := sumU_nonneg R o u v
  have hSf := sumU_isFloat R o u v
  have hn : (0 : ℝ) ≤ (nf + 1) * (2 : ℝ) ^ (emin p emax - 1) := by positivity
  have hT := sq_nonneg (trueDist nf u v)
  have e5 : (1 + unit p) ^ (nf + 5) = (1 + unit p) ^ (nf + 3) * (1 + unit p) ^ 2 := by rw [← pow_add]
  have hF : 1 ≤ (1 + unit p) ^ (nf + 3) := one_le_pow₀ hf
  have hG : 1 ≤ (1 + unit p) ^ 2 := one_le_pow₀ hf
  rw [distE_eq R hp (by omega), e5]
  have hr1 := (R.normal hp (away p hp)).rnd_le_mul (Real.sqrt_nonneg (sumU R o u v))
  have hr2 := (R.normal hp (away p hp)).le_rnd_mul (Real.sqrt_nonneg (sumU R o u v))
  rw [R.normal_sqrt hp _ hE hSf hS0] at hr1 hr2
  have hq := Real.sq_sqrt hS0
  have hq0 := Real.sqrt_nonneg (sumU R o u v)
  have hr0 := R.nonneg hq0
  generalize Real.sqrt (sumU R o u v) = q at *
  generalize sumU R o u v = S at *
  generalize R.rnd q = D at *
  generalize ((nf : ℝ) + 1) * (2 : ℝ) ^ (emin p emax - 1) = Δ at *
  generalize trueDist nf u v ^ 2 = T at *
  generalize (1 + unit p) ^ (nf + 3) = F at *
  have hD1 : D ^ 2 ≤ S * (1 + unit p) ^ 2 := by
    rw [← hq, ← mul_pow]
    exact pow_le_pow_left₀ hr0 hr1 2
  have hD2 : S ≤ D ^ 2 * (1 + unit p) ^ 2 := by
    rw [← hq, ← mul_pow]
    exact pow_le_pow_left₀ hq0 hr2 2
  generalize (1 + unit p) ^ 2 = G at *
  have hFT : F * (T + Δ) ≤ F * G * (T + Δ) := by
    refine mul_le_mul_of_nonneg_right ?_ (by linarith)
    nlinarith
  constructor
  · intro D' hD'
    split at hD'
    · have : D = D' := by exact_mod_cast hD'
      subst this
      refine ⟨hr0, ?_, ?_⟩
      · calc D ^ 2 ≤ S * G := hD1
          _ ≤ (F * (T + Δ)) * G := mul_le_mul_of_nonneg_right h1 (by linarith)
          _ = _ := by ring
      · have h3 : S + Δ ≤ (D ^ 2 + Δ) * G := by nlinarith
        calc T ≤ F * (S + Δ) := h2
          _ ≤ F * ((D ^ 2 + Δ) * G) := mul_le_mul_of_nonneg_left h3 (by linarith)
          _ = _ := by ring
    · exact absurd hD' (by simp)
  · intro hD'
    split at hD'
    · exact absurd hD' (by simp)
    · rename_i h
      exact (not_lt.1 h).trans (h1.trans hFT)

/-- **C122.** Away from underflow and overflow the computed distance is the one of C77: some rounding with
unbounded exponent gives the same distances. -/
theorem C122_agree (hp : 1 ≤ p) (hE : (p : ℤ) + 1 ≤ emax) :
    ∃ N : Rounding p, ∀ (nf : Nat) (o : Order) (u v : Nat → ℝ), o.Sums nf →
      (∀ k < nf, IsFloatE p emax (u k) ∧ IsFloatE p emax (v k) ∧
        (u k = v k ∨ (2 : ℝ) ^ (2 - emax) ≤ R.rnd (u k - v k) ^ 2)) →
      distE R o u v ≠ ⊤ → distE R o u v = ((distR N o u v : ℝ) : WithTop ℝ) := by
  refine ⟨R.normal hp (away p hp), fun nf o u v ho h ht => ?_⟩
  set N := R.normal hp (away p hp) with hN
  have hterm : ∀ k ∈ o.terms, termU R u v k = term N u v k ∧ (termU R u v k = 0 ∨ tiny emax ≤ termU R u v k) := by
    intro k hk
    have hk' := List.mem_range.1 (ho.mem_iff.1 hk)
    cases k with
    | zero => simp [termU, diffU, term]
    | succ k =>
      obtain ⟨h1, h2, h3⟩ := h k (by omega)
      simp only [termU, diffU, term]
      rw [hN, R.normal_sub hp _ h1 h2, abs_mul_abs_self]
      refine ⟨rfl, ?_⟩
      rcases h3 with h3 | h3
      · left
        rw [h3, sub_self, R.zero, mul_zero]
      · right
        rw [← sq]
        exact h3
  have hsum : ∀ o' : Order, (∀ k ∈ o'.terms, k ∈ o.terms) →
      o'.evalU R (termU R u v) = o'.eval N (term N u v) := by
    intro o' ho'
    induction o' with
    | term k =>
      obtain ⟨h1, h2⟩ := hterm k (ho' k (by simp [Order.terms]))
      simp only [Order.evalU, Order.eval]
      rw [← h1]
      rcases h2 with h2 | h2
      · rw [h2, R.zero, N.zero]
      · exact (R.normal_eq hp _ (h2.trans (le_abs_self _))).symm
    | add a b iha ihb =>
      simp only [Order.evalU, Order.eval]
      rw [← R.normal_add hp (away p hp) (a.evalU_ge R (termU_nonneg R u v)).2.1
        (b.evalU_ge R (termU_nonneg R u v)).2.1, iha (fun k hk => ho' k (by simp [Order.terms, hk])),
        ihb (fun k hk => ho' k (by simp [Order.terms, hk]))]
    | fma a k iha =>
      obtain ⟨h1, h2⟩ := hterm k (ho' k (by simp [Order.terms]))
      obtain ⟨a0, af, _⟩ := a.evalU_ge R (termU_nonneg R u v)
      simp only [Order.evalU, Order.eval]
      rw [← h1, ← iha (fun k hk => ho' k (by simp [Order.terms, hk]))]
      rcases h2 with h2 | h2
      · rw [h2, add_zero, R.of_isFloat af, N.of_isFloat af.isFloat]
      · exact (R.normal_eq hp _ ((by linarith : tiny emax ≤ a.evalU R (termU R u v) + termU R u v k).trans
          (le_abs_self _))).symm
  rw [distE_eq R hp (by omega)] at ht ⊢
  split
  · rw [← R.normal_sqrt hp (away p hp) hE (sumU_isFloat R o u v) (sumU_nonneg R o u v)]
    unfold distR sumU
    rw [hsum o (fun k hk => hk)]
  · rename_i hlt
    rw [if_neg hlt] at ht
    exact absurd rfl ht

/-! ### searches -/

theorem clip_zero : clip emax 0 = ((0 : ℝ) : WithTop ℝ) := clip_of_lt (two_zpow_pos _)

theorem goodEq_eqE {eps : ℝ} (he : 0 ≤ eps) : GoodEq (eqE R eps) := by
  refine ⟨fun a => ?_, ?_⟩
  · simp only [eqE, subE, sub_self, R.zero, abs_zero, clip_zero, decide_eq_true_eq]
    exact_mod_cast he
  · intro a b c hab h
    by_cases hac : a ≤ c
    · exact Or.inl hac
    · push Not at hac
      refine Or.inr ?_
      rcases h with h | h
      · exact absurd (hab.trans h) (not_le.2 hac)
      · simp only [eqE, decide_eq_true_eq, subE, R.abs] at h ⊢
        refine (clip_mono (R.mono ?_)).trans h
        rw [abs_sub_comm, abs_sub_comm c b, abs_of_pos (by linarith)]
        exact (by linarith : a - c ≤ b - c).trans (le_abs_self _)

theorem eqE_tol (hp : 1 ≤ p) {eps a b : ℝ} (ha : IsFloatE p emax a) (hb : IsFloatE p emax b)
    (h : eqE R eps a b = true) : |b - a| ≤ eps * (1 + unit p) := by
  have h : clip emax |R.rnd (b - a)| ≤ (eps : WithTop ℝ) := of_decide_eq_true h
  have h1 : |R.rnd (b - a)| ≤ eps := by
    rcases lt_or_ge |R.rnd (b - a)| ((2 : ℝ) ^ emax) with h2 | h2
    · rw [clip_of_lt h2] at h
      exact_mod_cast h
    · rw [clip_of_le h2] at h
      exact absurd h (by simp)
  rw [← R.normal_sub hp (away p hp) hb ha, (R.normal hp (away p hp)).abs] at h1
  refine ((R.normal hp (away p hp)).le_rnd_mul (abs_nonneg _)).trans ?_
  exact mul_le_mul_of_nonneg_right h1 (by linarith [Rounding.unit_pos (p := p)])

/-- Pruning when the two sides of a plane are ordered exactly. -/
theorem pruneOk_sepE (hp : 1 ≤ p) (hE : (p : ℤ) + 1 ≤ emax) (heven : Even emax) {nf : Nat}
    {x : Nat → Nat → ℝ} {q : Nat → ℝ} {o : Nat → Order} (ho : ∀ i, (o i).Sums nf)
    {cand : Nat → Option (WithTop ℝ)} (hc : ∀ i d, cand i = some d → d = distE R (o i) (x i) q) :
    PruneOkAt x q (gapE R) cand (fun a i p => a < nf ∧ x i a ≤ x p a + 2 * 0)
      (fun a p i => a < nf ∧ x p a ≤ x i a + 2 * 0) Eq := by
  intro a p' i d f hd hf hs hg
  obtain ⟨j, hj⟩ := hf
  have h1 := hc i d hd
  have h2 := hc j f hj
  subst h1 h2
  symm
  rw [max_eq_left_iff]
  have key : a < nf → |x p' a - q a| ≤ |x i a - q a| →
      distE R (o j) (x j) q ≤ distE R (o i) (x i) q := by
    intro ha h
    refine distE_ge R hp (away p hp) hE heven (sums_mem (ho i) ha) (abs_nonneg _) ?_ hg
    rw [R.abs, R.abs]
    exact R.mono h
  rcases hs with ⟨h1, h2, h3⟩ | ⟨h1, h2, h3⟩
  · refine key h2 ?_
    rw [abs_of_pos (by linarith), abs_of_pos (by linarith)]
    linarith
  · refine key h2 ?_
    rw [abs_of_nonpos (by linarith), abs_of_nonpos (by linarith)]
    linarith

/-- **C122**, data whose coordinates on each axis are equal or not equal for `common::equality`: building with
any options and searching returns `k` samples that are nearest for the computed distances, exactly, although
distances may underflow to zero and overflow to infinity. -/
theorem C122_knn_separated (hp : 1 ≤ p) (hE : (p : ℤ) + 1 ≤ emax) (heven : Even emax) (eps : ℝ)
    (he : 0 ≤ eps) (nf : Nat) (x : Nat → Nat → ℝ) (q : Nat → ℝ) (o : Nat → Order) (ho : ∀ i, (o i).Sums nf)
    (hsep : ∀ a i j, x i a = x j a ∨ eqE R eps (x i a) (x j a) = false)
    (policy : List Nat → Nat → Box ℝ → Nat) (bucketSize maxDepth : Nat)
    (hpol : ∀ idx d box, policy idx d box < nf) (vmax vlowest : ℝ) (inf : WithTop ℝ) (idx : List Nat)
    (k : Nat) (hk : 1 ≤ k) (hk2 : k < 2 ^ 64) :
    ∃ idx' t b, make (eqE R eps) x policy bucketSize maxDepth nf vmax vlowest idx = some (idx', t) ∧
      search x q (staticOps x q (gapE R) (candAll (fun i => distE R (o i) (x i) q))) t
        (Buffer.mk inf k) = some b ∧
      b.indices.length = b.distances.length ∧
      IsKNearest k (b.indices.zip b.distances) (idx.map (fun i => (i, distE R (o i) (x i) q))) := by
  obtain ⟨idx', t, e, hpm, hi, _, hs, _, ha, _⟩ :=
    make_tol (goodEq_eqE R he) 0 (le_refl _) x (fun a i j h => by
      rcases hsep a i j with h' | h'
      · simp [h']
      · rw [h'] at h
        exact absurd h (by simp)) policy bucketSize maxDepth nf hpol vmax vlowest idx
  obtain ⟨b, kept, es, _, h1, h2, ⟨rest, hr1, hr2⟩, hl, _⟩ :=
    search_result_full_at (sim_static x q _ (candAll (fun i => distE R (o i) (x i) q))) (fun _ => rfl)
      (pruneOk_sepE R hp hE heven ho (fun i d h => by simp [candAll] at h; exact h.symm)) hk2
      (Or.inl (by omega)) t (splitBy_axes hs ha) (fun _ _ => trivial) (Buffer.mk inf k) trivial rfl
  have hcp := cands_perm (cand := candAll (fun i => distE R (o i) (x i) q))
    (show t.indices.Perm idx from hi ▸ hpm)
  simp only [id] at h1 h2
  refine ⟨idx', t, b, e, es, by rw [h1, h2]; simp, ?_⟩
  rw [h1, h2, zip_map_fst_snd, ← cands_all]
  refine ⟨⟨rest, hr1.trans hcp, ?_⟩, by rw [hl, hcp.length_eq, capEff_of_pos hk]⟩
  intro a ha b hb
  obtain ⟨d', rfl, h⟩ := hr2 a ha b hb
  exact h

/-- The computed difference of one coordinate against a finite computed distance. -/
theorem abs_le_distE (hp : 1 ≤ p) (hE : (p : ℤ) + 1 ≤ emax) (heven : Even emax) {o : Order}
    {u v : Nat → ℝ} {a : Nat} (ha : a + 1 ∈ o.terms) {D : ℝ} (hD : distE R o u v = (D : WithTop ℝ)) :
    0 ≤ D ∧ D ≤ (2 : ℝ) ^ (emax / 2) ∧ |R.rnd (u a - v a)| ≤ max D ((2 : ℝ) ^ (1 - emax / 2)) := by
  obtain ⟨c, hc⟩ := heven
  have hc2 : emax / 2 = c := by omega
  rw [hc2]
  rw [distE_eq R hp (by omega)] at hD
  split at hD
  · rename_i hlt
    have hD' : R.rnd (Real.sqrt (sumU R o u v)) = D := by exact_mod_cast hD
    have h0 := sumU_nonneg R o u v
    refine ⟨hD' ▸ R.nonneg (Real.sqrt_nonneg _), ?_, ?_⟩
    · have h1 : Real.sqrt (sumU R o u v) ≤ (2 : ℝ) ^ c := by
        rw [Real.sqrt_le_left (two_zpow_pos c).le, sq, ← zpow_add₀ (by norm_num), ← hc]
        exact hlt.le
      have h2 := R.mono h1
      rwa [R.of_isFloat (isFloatE_zpow (by unfold emin; omega)), hD'] at h2
    · have hterm := (o.evalU_ge R (termU_nonneg R u v)).2.2 _ ha
      change R.rnd (|R.rnd (u a - v a)| * |R.rnd (u a - v a)|) ≤ sumU R o u v at hterm
      have hwf : IsFloatE p emax |R.rnd (u a - v a)| := (R.isFloat _).abs
      have w0 := abs_nonneg (R.rnd (u a - v a))
      generalize |R.rnd (u a - v a)| = w at *
      by_cases hbig : tiny emax ≤ w * w
      · refine le_max_of_le_left ?_
        have h1 := (R.normal hp (away p hp)).le_sqrt_sq hp hwf.isFloat w0
        rw [R.normal_eq hp _ (x := w * w) (by rwa [abs_of_nonneg (mul_self_nonneg w)]),
          R.normal_sqrt hp _ hE (R.isFloat _) (R.nonneg (mul_self_nonneg w))] at h1
        rw [← hD']
        exact h1.trans (R.mono (Real.sqrt_le_sqrt hterm))
      · push Not at hbig
        refine le_max_of_le_right ?_
        have h1 : tiny emax = (2 : ℝ) ^ (1 - c) * (2 : ℝ) ^ (1 - c) := by
          unfold tiny
          rw [← zpow_add₀ (by norm_num)]
          congr 1
          omega
        rw [h1] at hbig
        exact (abs_le_of_sq_le_sq' (by nlinarith) (two_zpow_pos _).le).2
  · exact absurd hD (by simp)

/-- Pruning in general. -/
theorem pruneOk_E (hp : 1 ≤ p) (hE : (p : ℤ) + 1 ≤ emax) (h4 : 4 ≤ emax) (heven : Even emax) {eps : ℝ}
    (he : 0 ≤ eps) (he1 : eps ≤ 1) {nf : Nat} {x : Nat → Nat → ℝ} {q : Nat → ℝ}
    (hx : ∀ i a, IsFloatE p emax (x i a)) (hq : ∀ a, IsFloatE p emax (q a))
    {o : Nat → Order} (ho : ∀ i, (o i).Sums nf)
    {cand : Nat → Option (WithTop ℝ)} (hc : ∀ i d, cand i = some d → d = distE R (o i) (x i) q) :
    PruneOkAt x q (gapE R) cand
      (fun a i p' => a < nf ∧ x i a ≤ x p' a + 2 * (eps * (1 + unit p)))
      (fun a p' i => a < nf ∧ x p' a ≤ x i a + 2 * (eps * (1 + unit p)))
      (fun d d' => d' ≤ d ∨ ∀ D : ℝ, d = (D : WithTop ℝ) →
        d' ≤ (((1 + unit p) ^ 2 * (max D ((2 : ℝ) ^ (1 - emax / 2)) + 2 * eps) : ℝ) : WithTop ℝ)) := by
  intro a p' i d f hd hf hs hg
  have h1 := hc i d hd
  subst h1
  rcases le_total f (distE R (o i) (x i) q) with hle | hle
  · exact Or.inl (by rw [max_eq_left hle])
  refine Or.inr fun D hD => ?_
  rw [max_eq_right hle]
  have hu : 1 ≤ 1 + unit p := one_le_f
  have hu2 : unit p ≤ 1 := by
    unfold unit
    exact zpow_le_one_of_nonpos₀ (by norm_num) (by omega)
  set N := R.normal hp (away p hp)
  have key : a < nf → |x p' a - q a| ≤ |x i a - q a| + 2 * (eps * (1 + unit p)) →
      |R.rnd (x p' a - q a)| ≤ (1 + unit p) ^ 2 * (max D ((2 : ℝ) ^ (1 - emax / 2)) + 2 * eps) ∧
      0 ≤ D ∧ D ≤ (2 : ℝ) ^ (emax / 2) := by
    intro ha h
    obtain ⟨d0, d1, d2⟩ := abs_le_distE R hp hE heven (sums_mem (ho i) ha) hD
    refine ⟨?_, d0, d1⟩
    rw [← R.normal_sub hp (away p hp) (hx p' a) (hq a), N.abs]
    rw [← R.normal_sub hp (away p hp) (hx i a) (hq a), N.abs] at d2
    refine (N.rnd_le_mul (abs_nonneg _)).trans ?_
    have h1 := N.le_rnd_mul (abs_nonneg (x i a - q a))
    have h3 := mul_le_mul_of_nonneg_right d2 (by linarith : (0 : ℝ) ≤ 1 + unit p)
    calc |x p' a - q a| * (1 + unit p)
        ≤ (max D ((2 : ℝ) ^ (1 - emax / 2)) * (1 + unit p) + 2 * (eps * (1 + unit p))) * (1 + unit p) :=
          mul_le_mul_of_nonneg_right (by linarith) (by linarith)
      _ = _ := by ring
  have key2 : a < nf → |x p' a - q a| ≤ |x i a - q a| + 2 * (eps * (1 + unit p)) →
      f ≤ (((1 + unit p) ^ 2 * (max D ((2 : ℝ) ^ (1 - emax / 2)) + 2 * eps) : ℝ) : WithTop ℝ) := by
    intro ha h
    obtain ⟨h1, h2, h3⟩ := key ha h
    refine hg.trans ?_
    unfold gapE subE
    rw [clip_of_lt]
    · exact_mod_cast h1
    · refine h1.trans_lt ?_
      obtain ⟨c, hc⟩ := heven
      have hc2 : emax / 2 = c := by omega
      rw [hc2] at h3 ⊢
      have hpow : (2 : ℝ) ^ emax = (2 : ℝ) ^ c * (2 : ℝ) ^ c := by rw [hc, zpow_add₀ (by norm_num)]
      have hc4 : (4 : ℝ) ≤ (2 : ℝ) ^ c := by
        have : (2 : ℝ) ^ (2 : ℤ) ≤ (2 : ℝ) ^ c := zpow_le_zpow_right₀ (by norm_num) (by omega)
        norm_num at this
        exact this
      have hsmall : (2 : ℝ) ^ (1 - c) ≤ (2 : ℝ) ^ c := zpow_le_zpow_right₀ (by norm_num) (by omega)
      have hmax : max D ((2 : ℝ) ^ (1 - c)) ≤ (2 : ℝ) ^ c := max_le h3 hsmall
      rw [hpow]
      have hu3 : unit p ≤ 1 / 2 := by
        have : (2 : ℝ) ^ (-(p : ℤ)) ≤ (2 : ℝ) ^ (-1 : ℤ) := zpow_le_zpow_right₀ (by norm_num) (by omega)
        unfold unit
        norm_num at this ⊢
        exact this
      have hsq : (1 + unit p) ^ 2 ≤ 9 / 4 := by
        have := Rounding.unit_pos (p := p)
        nlinarith
      have hle : (1 + unit p) ^ 2 * (max D ((2 : ℝ) ^ (1 - c)) + 2 * eps) ≤ 9 / 4 * ((2 : ℝ) ^ c + 2) := by
        refine mul_le_mul hsq (by linarith) ?_ (by norm_num)
        have := le_max_left D ((2 : ℝ) ^ (1 - c))
        linarith
      nlinarith
  have he' : 0 ≤ eps * (1 + unit p) := mul_nonneg he (by linarith)
  rcases hs with ⟨h1, h2, h3⟩ | ⟨h1, h2, h3⟩
  · refine key2 h2 ?_
    rw [abs_of_pos (by linarith)]
    linarith [le_abs_self (x i a - q a)]
  · refine key2 h2 ?_
    rw [abs_of_nonpos (by linarith)]
    linarith [neg_abs_le (x i a - q a)]

/-- **C122**, any data of the format: the search returns `min k n` samples with their computed distances, and
no sample left out is closer than a returned one by more than the factor `(1 + u) ^ 2` and `2 * eps`, for the
computed distances, where computed distances below `2 ^ (1 - emax / 2)` (2^-511 for double) count as that. -/
theorem C122_knn (hp : 1 ≤ p) (hE : (p : ℤ) + 1 ≤ emax) (h4 : 4 ≤ emax) (heven : Even emax) (eps : ℝ)
    (he : 0 ≤ eps) (he1 : eps ≤ 1) (nf : Nat) (x : Nat → Nat → ℝ) (q : Nat → ℝ)
    (hx : ∀ i a, IsFloatE p emax (x i a)) (hq : ∀ a, IsFloatE p emax (q a))
    (o : Nat → Order) (ho : ∀ i, (o i).Sums nf)
    (policy : List Nat → Nat → Box ℝ → Nat) (bucketSize maxDepth : Nat)
    (hpol : ∀ idx d box, policy idx d box < nf) (vmax vlowest : ℝ) (inf : WithTop ℝ) (idx : List Nat)
    (k : Nat) (hk : 1 ≤ k) (hk2 : k < 2 ^ 64) :
    ∃ idx' t b rest, make (eqE R eps) x policy bucketSize maxDepth nf vmax vlowest idx = some (idx', t) ∧
      search x q (staticOps x q (gapE R) (candAll (fun i => distE R (o i) (x i) q))) t
        (Buffer.mk inf k) = some b ∧
      b.distances = b.indices.map (fun i => distE R (o i) (x i) q) ∧
      (b.indices ++ rest).Perm idx ∧ b.indices.length = min k idx.length ∧
      ∀ i ∈ b.indices, ∀ j ∈ rest, ∀ D : ℝ, distE R (o j) (x j) q = (D : WithTop ℝ) →
        distE R (o i) (x i) q ≤
          (((1 + unit p) ^ 2 * (max D ((2 : ℝ) ^ (1 - emax / 2)) + 2 * eps) : ℝ) : WithTop ℝ) := by
  obtain ⟨idx', t, e, hpm, hi, _, hs, _, ha, _⟩ :=
    make_tol (goodEq_eqE R he) (eps * (1 + unit p))
      (mul_nonneg he (by linarith [one_le_f (p := p)])) x
      (fun a i j h => eqE_tol R hp (hx i a) (hx j a) h) policy bucketSize maxDepth nf hpol vmax vlowest idx
  obtain ⟨b, kept, es, _, h1, h2, ⟨rest, hr1, hr2⟩, hl, _⟩ :=
    search_result_full_at (sim_static x q _ (candAll (fun i => distE R (o i) (x i) q)))
      (fun d => Or.inl (le_refl d))
      (pruneOk_E R hp hE h4 heven he he1 hx hq ho (fun i d h => by simp [candAll] at h; exact h.symm)) hk2
      (Or.inl (by omega)) t (splitBy_axes hs ha) (fun _ _ => trivial) (Buffer.mk inf k) trivial rfl
  have hcp := cands_perm (cand := candAll (fun i => distE R (o i) (x i) q))
    (show t.indices.Perm idx from hi ▸ hpm)
  have hall := hr1.trans hcp
  rw [cands_all] at hall
  have hval : ∀ c ∈ kept ++ rest, c.2 = distE R (o c.1) (x c.1) q := by
    intro c hc
    obtain ⟨i, _, rfl⟩ := List.mem_map.1 (hall.mem_iff.1 hc)
    rfl
  simp only [id] at h1 h2
  have hidx := hall.map Prod.fst
  rw [List.map_append, List.map_map] at hidx
  simp only [Function.comp_def, List.map_id'] at hidx
  refine ⟨idx', t, b, rest.map Prod.fst, e, es, ?_, ?_, ?_, ?_⟩
  · rw [h1, h2, List.map_map]
    exact List.map_congr_left (fun c hc => hval c (List.mem_append_left _ hc))
  · rw [h1]; exact hidx
  · rw [h1, List.length_map, hl, hcp.length_eq, capEff_of_pos hk, cands_all, List.length_map]
  · intro i hi j hj D hD
    rw [h1] at hi
    obtain ⟨a, ha, rfl⟩ := List.mem_map.1 hi
    obtain ⟨c, hc, rfl⟩ := List.mem_map.1 hj
    obtain ⟨d', h, h'⟩ := hr2 a ha c hc
    rw [hval a (List.mem_append_left _ ha), hval c (List.mem_append_right _ hc)] at *
    refine h'.trans ?_
    rcases h with h | h
    · rw [hD] at h
      refine h.trans ?_
      have hf : 1 ≤ (1 + unit p) ^ 2 := one_le_pow₀ one_le_f
      have hm := le_max_left D ((2 : ℝ) ^ (1 - emax / 2))
      have hm0 : 0 ≤ max D ((2 : ℝ) ^ (1 - emax / 2)) := le_max_of_le_right (two_zpow_pos _).le
      have hreal : D ≤ (1 + unit p) ^ 2 * (max D ((2 : ℝ) ^ (1 - emax / 2)) + 2 * eps) := by nlinarith
      exact_mod_cast hreal
    · exact h D hD

/-- Gaps that overflow: the samples behind such a plane are at an infinite computed distance. -/
theorem gapBelowOr_E (hp : 1 ≤ p) (hE : (p : ℤ) + 1 ≤ emax) (h6 : 6 ≤ emax) (heven : Even emax) {eps : ℝ}
    (he : 0 ≤ eps) (he1 : eps ≤ 1) {nf : Nat} {x : Nat → Nat → ℝ} {q : Nat → ℝ}
    {o : Nat → Order} (ho : ∀ i, (o i).Sums nf) (radius : WithTop ℝ) :
    GapBelowOr x q (gapE R) ⊤ (candBall (fun i => distE R (o i) (x i) q) radius)
      (fun a i p' => a < nf ∧ x i a ≤ x p' a + 2 * (eps * (1 + unit p))) := by
  intro p' a
  refine ⟨le_top, fun hle => ?_⟩
  rcases lt_or_ge |R.rnd (x p' a - q a)| ((2 : ℝ) ^ emax) with h | h
  · left
    unfold gapE subE
    rw [clip_of_lt h]
    exact WithTop.coe_lt_top _
  · right
    rintro i ⟨ha, hi⟩
    have hu := Rounding.unit_pos (p := p)
    have hu1 : unit p ≤ 1 := by
      unfold unit
      exact zpow_le_one_of_nonpos₀ (by norm_num) (by omega)
    obtain ⟨c, hc⟩ := heven
    have hgap : (2 : ℝ) ^ (emax - 1) ≤ q a - x p' a := by
      by_contra hcon
      push Not at hcon
      rw [R.abs, abs_of_nonpos (by linarith)] at h
      have h1 := R.mono (show -(x p' a - q a) ≤ (2 : ℝ) ^ (emax - 1) by linarith)
      rw [R.of_isFloat (isFloatE_zpow (by unfold emin; omega))] at h1
      have h2 : (2 : ℝ) ^ (emax - 1) < (2 : ℝ) ^ emax := zpow_lt_zpow_right₀ (by norm_num) (by omega)
      linarith
    have hfar : (2 : ℝ) ^ c ≤ |x i a - q a| := by
      have e1 : (2 : ℝ) ^ (emax - 1) = (2 : ℝ) ^ c * (2 : ℝ) ^ (c - 1) := by
        rw [← zpow_add₀ (by norm_num)]
        congr 1
        omega
      have e2 : (4 : ℝ) ≤ (2 : ℝ) ^ (c - 1) := by
        have : (2 : ℝ) ^ (2 : ℤ) ≤ (2 : ℝ) ^ (c - 1) := zpow_le_zpow_right₀ (by norm_num) (by omega)
        norm_num at this
        exact this
      have e3 : (4 : ℝ) ≤ (2 : ℝ) ^ c := by
        have : (2 : ℝ) ^ (2 : ℤ) ≤ (2 : ℝ) ^ c := zpow_le_zpow_right₀ (by norm_num) (by omega)
        norm_num at this
        exact this
      have e4 : eps * (1 + unit p) ≤ 2 := by nlinarith
      have e5 : 0 ≤ eps * (1 + unit p) := by positivity
      refine le_trans ?_ (neg_le_abs _)
      nlinarith
    have hw := R.mono hfar
    rw [R.of_isFloat (isFloatE_zpow (by unfold emin; omega)), ← R.abs] at hw
    have htop : distE R (o i) (x i) q = ⊤ := by
      rw [distE_eq R hp (by omega), if_neg]
      rw [not_lt]
      refine le_trans ?_
        (((o i).evalU_ge R (termU_nonneg R (x i) q)).2.2 _ (sums_mem (ho i) ha))
      change (2 : ℝ) ^ emax ≤ R.rnd (|R.rnd (x i a - q a)| * |R.rnd (x i a - q a)|)
      have h1 : (2 : ℝ) ^ emax ≤ |R.rnd (x i a - q a)| * |R.rnd (x i a - q a)| := by
        have h0 : (2 : ℝ) ^ emax = (2 : ℝ) ^ c * (2 : ℝ) ^ c := by rw [← zpow_add₀ (by norm_num), ← hc]
        rw [h0]
        exact mul_le_mul hw hw (two_zpow_pos c).le (abs_nonneg _)
      have h2 := R.mono h1
      rwa [R.of_isFloat (isFloatE_zpow (emin_le hp (by omega)))] at h2
    simp [candBall, htop]

/-- A radius search on data of the format, in terms of computed distances. -/
theorem radius_E (hp : 1 ≤ p) (hE : (p : ℤ) + 1 ≤ emax) (h6 : 6 ≤ emax) (heven : Even emax) {eps : ℝ}
    (he : 0 ≤ eps) (he1 : eps ≤ 1) {nf : Nat} {x : Nat → Nat → ℝ} (q : Nat → ℝ)
    {o : Nat → Order} (ho : ∀ i, (o i).Sums nf) (radius : WithTop ℝ) {t : KDTree.Tree ℝ}
    (hs : t.SplitBy (fun a i p' => a < nf ∧ x i a ≤ x p' a + 2 * (eps * (1 + unit p)))
      (fun a p' i => a < nf ∧ x p' a ≤ x i a + 2 * (eps * (1 + unit p))))
    (hn : t.indices.length < 2 ^ 64) :
    ∃ b, search x q (staticOps x q (gapE R) (candBall (fun i => distE R (o i) (x i) q) radius)) t
        (Buffer.mk ⊤ 0) = some b ∧
      b.distances = b.indices.map (fun i => distE R (o i) (x i) q) ∧
      b.indices.Perm (t.indices.filter (fun i => distE R (o i) (x i) q < radius)) := by
  obtain ⟨b, kept, es, _, h1, h2, ⟨rest, hr1, _⟩, hl, _⟩ :=
    search_result_full_at (sim_static x q (gapE R) (candBall (fun i => distE R (o i) (x i) q) radius))
      (near := fun _ _ => True) (fun _ => trivial) (fun _ _ _ _ _ _ _ _ _ => trivial) (inf := ⊤) (cap := 0)
      (by simp [sizeMod]) (Or.inr (Or.inl (gapBelowOr_E R hp hE h6 heven he he1 ho radius))) t hs
      (fun _ _ => trivial) (Buffer.mk ⊤ 0) trivial rfl
  simp only [id] at h1 h2
  rw [cands_ball] at hr1 hl
  have hlen := List.length_filter_le (fun i => decide (distE R (o i) (x i) q < radius)) t.indices
  have hrest : rest = [] := by
    apply List.length_eq_zero_iff.1
    have h3 := hr1.length_eq
    simp only [List.length_append, List.length_map] at h3 hl
    simp only [capEff, sizeMod, if_true] at hl
    omega
  subst hrest
  rw [List.append_nil] at hr1
  have hval : ∀ c ∈ kept, c.2 = distE R (o c.1) (x c.1) q := by
    intro c hc
    obtain ⟨i, _, rfl⟩ := List.mem_map.1 (hr1.mem_iff.1 hc)
    rfl
  refine ⟨b, es, ?_, ?_⟩
  · rw [h1, h2, List.map_map]
    exact List.map_congr_left (fun c hc => hval c hc)
  · have := hr1.map Prod.fst
    rw [List.map_map] at this
    simpa [h1, Function.comp_def] using this

/-- **C122**, radius search: exactly the samples whose computed distance is below the radius, whatever
overflows; hence, for a radius whose square does not overflow, every sample whose true distance is below it by
the error, and none whose true distance is above it by the error. -/
theorem C122_radius (hp : 1 ≤ p) (hE : (p : ℤ) + 1 ≤ emax) (h6 : 6 ≤ emax) (heven : Even emax) (eps : ℝ)
    (he : 0 ≤ eps) (he1 : eps ≤ 1) (nf : Nat) (x : Nat → Nat → ℝ) (q : Nat → ℝ)
    (hx : ∀ i a, IsFloatE p emax (x i a)) (hq : ∀ a, IsFloatE p emax (q a))
    (o : Nat → Order) (ho : ∀ i, (o i).Sums nf) (radius : ℝ) (hr0 : 0 ≤ radius)
    (policy : List Nat → Nat → Box ℝ → Nat) (bucketSize maxDepth : Nat)
    (hpol : ∀ idx d box, policy idx d box < nf) (vmax vlowest : ℝ) (idx : List Nat)
    (hn : idx.length < 2 ^ 64) :
    ∃ idx' t b, make (eqE R eps) x policy bucketSize maxDepth nf vmax vlowest idx = some (idx', t) ∧
      search x q (staticOps x q (gapE R)
        (candBall (fun i => distE R (o i) (x i) q) (radius : WithTop ℝ))) t (Buffer.mk ⊤ 0) = some b ∧
      b.distances = b.indices.map (fun i => distE R (o i) (x i) q) ∧
      b.indices.Perm (idx.filter (fun i => distE R (o i) (x i) q < (radius : WithTop ℝ))) ∧
      (radius ^ 2 ≤ (2 : ℝ) ^ emax → ∀ i ∈ idx,
        (1 + unit p) ^ (nf + 5) * (trueDist nf (x i) q ^ 2 + (nf + 1) * (2 : ℝ) ^ (emin p emax - 1)) < radius ^ 2 →
        i ∈ b.indices) ∧
      ∀ i ∈ b.indices, i ∈ idx ∧
        trueDist nf (x i) q ^ 2 ≤ (1 + unit p) ^ (nf + 5) * (radius ^ 2 + (nf + 1) * (2 : ℝ) ^ (emin p emax - 1)) := by
  obtain ⟨idx', t, e, hpm, hi, _, hs, _, ha, _⟩ :=
    make_tol (goodEq_eqE R he) (eps * (1 + unit p))
      (mul_nonneg he (by linarith [one_le_f (p := p)])) x
      (fun a i j h => eqE_tol R hp (hx i a) (hx j a) h) policy bucketSize maxDepth nf hpol vmax vlowest idx
  have hpi : t.indices.Perm idx := hi ▸ hpm
  obtain ⟨b, h1, h2, h3⟩ := radius_E R hp hE h6 heven he he1 q ho (radius : WithTop ℝ)
    (splitBy_axes hs ha) (by rw [hpi.length_eq]; exact hn)
  have h4 := h3.trans (hpi.filter _)
  refine ⟨idx', t, b, e, h1, h2, h4, fun hrad i hi hlt => ?_, fun i hi => ?_⟩
  · refine h4.mem_iff.2 (List.mem_filter.2 ⟨hi, ?_⟩)
    obtain ⟨e1, e2⟩ := C122_distance_error R hp hE (ho i) (u := x i) (v := q) (fun k _ => hx i k)
      (fun k _ => hq k)
    rw [decide_eq_true_eq]
    cases hD : distE R (o i) (x i) q with
    | top => linarith [e2 hD]
    | coe D =>
      obtain ⟨d0, d1, _⟩ := e1 D hD
      have : D < radius := lt_of_pow_lt_pow_left₀ 2 hr0 (d1.trans_lt hlt)
      exact_mod_cast this
  · have h5 := List.mem_filter.1 (h4.mem_iff.1 hi)
    refine ⟨h5.1, ?_⟩
    obtain ⟨e1, e2⟩ := C122_distance_error R hp hE (ho i) (u := x i) (v := q) (fun k _ => hx i k)
      (fun k _ => hq k)
    have h6 := h5.2
    rw [decide_eq_true_eq] at h6
    cases hD : distE R (o i) (x i) q with
    | top => rw [hD] at h6; exact absurd h6 (by simp)
    | coe D =>
      rw [hD] at h6
      obtain ⟨d0, _, d2⟩ := e1 D hD
      have h7 : D < radius := by exact_mod_cast h6
      have h8 : D ^ 2 ≤ radius ^ 2 := pow_le_pow_left₀ d0 h7.le 2
      have hF : 0 ≤ (1 + unit p) ^ (nf + 5) := pow_nonneg (by linarith [one_le_f (p := p)]) _
      exact d2.trans (mul_le_mul_of_nonneg_left (by linarith) hF)

/-! ### DBSCAN -/

theorem distE_comm (hp : 1 ≤ p) (hE : 2 ≤ emax) (o : Order) (u v : Nat → ℝ) :
    distE R o u v = distE R o v u := by
  have : termU R u v = termU R v u := by
    funext k
    cases k with
    | zero => rfl
    | succ k =>
      have : R.rnd (u k - v k) = -R.rnd (v k - u k) := by rw [← R.neg]; congr 1; ring
      simp only [termU, diffU, this, abs_neg]
  rw [distE_eq R hp hE, distE_eq R hp hE]
  unfold sumU
  rw [this]

/-- The computed distances between the samples. -/
noncomputable def distsE (o : Order) (x : Nat → Nat → ℝ) (i j : Nat) : WithTop ℝ := distE R o (x j) (x i)

/-- Within the radius, for the computed distances. -/
noncomputable def withinE (o : Order) (x : Nat → Nat → ℝ) (radius : WithTop ℝ) (i j : Nat) : Bool :=
  decide (distsE R o x i j < radius)

/-- **C122**, DBSCAN: on data of the format, for a tree built with any options, the labels are those that C76
specifies and they meet all guarantees of C23-C26, for the computed distances, whatever underflows or
overflows. -/
theorem C122_dbscan (hp : 1 ≤ p) (hE : (p : ℤ) + 1 ≤ emax) (h6 : 6 ≤ emax) (heven : Even emax) (eps : ℝ)
    (he : 0 ≤ eps) (he1 : eps ≤ 1) (nf n : Nat) (hn : n < 2 ^ 64) (x : Nat → Nat → ℝ)
    (hx : ∀ i a, IsFloatE p emax (x i a)) (o : Order) (ho : o.Sums nf) (radius : WithTop ℝ)
    (policy : List Nat → Nat → Box ℝ → Nat) (bucketSize maxDepth : Nat)
    (hpol : ∀ idx d box, policy idx d box < nf) (vmax vlowest : ℝ)
    (idx : List Nat) (hidx : idx.Perm (List.range n)) (minSamples : Nat) :
    ∃ idx' t label,
      make (eqE R eps) x policy bucketSize maxDepth nf vmax vlowest idx = some (idx', t) ∧
      DBSCAN.predictTree x (gapE R) (distsE R o x) radius ⊤ t minSamples n = some label ∧
      DBSCAN.Guarantees n (withinE R o x radius) minSamples label ∧
      ∀ i < n, DBSCAN.IsLabel n (withinE R o x radius) minSamples i
        (label.getD i 0) := by
  obtain ⟨idx', t, e, hpm, hi, _, hs, _, ha, _⟩ :=
    make_tol (goodEq_eqE R he) (eps * (1 + unit p))
      (mul_nonneg he (by linarith [one_le_f (p := p)])) x
      (fun a i j h => eqE_tol R hp (hx i a) (hx j a) h) policy bucketSize maxDepth nf hpol vmax vlowest idx
  have hpi : t.indices.Perm (List.range n) := (hi ▸ hpm : t.indices.Perm idx).trans hidx
  have hlen : t.indices.length = n := by rw [hpi.length_eq, List.length_range]
  have hN : ∀ i j, withinE R o x radius i j =
      withinE R o x radius j i := by
    intro i j
    unfold withinE distsE
    rw [distE_comm R hp (by omega)]
  have hq : DBSCAN.QueryOk n (withinE R o x radius)
      (DBSCAN.radiusQuery x (gapE R) (distsE R o x) radius ⊤ t) := by
    intro i _
    obtain ⟨b, h1, _, h3⟩ := radius_E R hp hE h6 heven he he1 (x i) (fun _ => ho) radius
      (splitBy_axes hs ha) (by rw [hlen]; exact hn)
    refine ⟨b.indices, ?_, h3.trans (hpi.filter _)⟩
    have h1' : search x (x i) (staticOps x (x i) (gapE R) (candBall (distsE R o x i) radius)) t
        (Buffer.mk ⊤ 0) = some b := h1
    simp [DBSCAN.radiusQuery, h1']
  obtain ⟨label, h1, h2⟩ := DBSCAN.predict_guarantees (minSamples := minSamples) hN hq
  obtain ⟨label', h1', _, h2'⟩ := DBSCAN.predict_label (minSamples := minSamples) hN hq
  rw [h1] at h1'
  obtain rfl := Option.some.inj h1'
  exact ⟨idx', t, label, e, h1, h2, h2'⟩

/-! ### what underflow and overflow do -/

/-- `nf = 1`: the initial value and one square. -/
def order1 : Order := .add (.term 0) (.term 1)

theorem order1_sums : order1.Sums 1 := by unfold Order.Sums; decide

theorem trueDist_one (v : ℝ) (hv : 0 ≤ v) : trueDist 1 (fun _ => v) (fun _ => 0) = v := by
  unfold trueDist
  simp [List.range_succ, Real.sqrt_sq hv]

/-- **C122**, underflow, in double precision: two numbers of the format that differ by `2 ^ (-600)` are at the
computed distance 0, below the computed difference of their only coordinate. -/
theorem C122_underflow_counterexample (R : RoundingE 53 1024) :
    distE R order1 (fun _ => (2 : ℝ) ^ (-600 : ℤ)) (fun _ => 0) = ((0 : ℝ) : WithTop ℝ) ∧
    gapE R ((2 : ℝ) ^ (-600 : ℤ)) 0 = (((2 : ℝ) ^ (-600 : ℤ) : ℝ) : WithTop ℝ) ∧
    trueDist 1 (fun _ => (2 : ℝ) ^ (-600 : ℤ)) (fun _ => 0) = (2 : ℝ) ^ (-600 : ℤ) := by
  have hv := two_zpow_pos (-600 : ℤ)
  have hfl : R.rnd ((2 : ℝ) ^ (-600 : ℤ) - 0) = (2 : ℝ) ^ (-600 : ℤ) := by
    rw [sub_zero]
    exact R.of_isFloat (isFloatE_zpow (by unfold emin; norm_num))
  refine ⟨?_, ?_, trueDist_one _ hv.le⟩
  · have hsq : R.rnd ((2 : ℝ) ^ (-600 : ℤ) * (2 : ℝ) ^ (-600 : ℤ)) = 0 := by
      rw [← zpow_add₀ (by norm_num)]
      have hy := two_zpow_pos (-600 + -600 : ℤ)
      have h1 := R.nearest ((2 : ℝ) ^ (-600 + -600 : ℤ)) 0 isFloatE_zero
      have h2 := R.nonneg hy.le
      have h3 : (2 : ℝ) ^ (-600 + -600 : ℤ) * 2 < (2 : ℝ) ^ (emin 53 1024) := by
        rw [← zpow_add_one₀ (by norm_num)]
        exact zpow_lt_zpow_right₀ (by norm_num) (by unfold emin; norm_num)
      obtain ⟨m, hm⟩ := (R.isFloat ((2 : ℝ) ^ (-600 + -600 : ℤ))).mult
      have hq := two_zpow_pos (emin 53 1024)
      generalize (2 : ℝ) ^ (-600 + -600 : ℤ) = y at *
      generalize (2 : ℝ) ^ (emin 53 1024) = e at *
      rw [zero_sub, abs_neg, abs_of_pos hy] at h1
      have h4 := (abs_le.1 h1).2
      rw [hm] at h2 h4 ⊢
      have h5 : (m : ℝ) < 1 := by
        by_contra hc
        push Not at hc
        nlinarith
      have h6 : (0 : ℝ) ≤ m := by
        by_contra hc
        push Not at hc
        nlinarith
      have h7 : m = 0 := by
        have a1 : m < 1 := by exact_mod_cast h5
        have a2 : 0 ≤ m := by exact_mod_cast h6
        omega
      simp [h7]
    have hS : sumU R order1 (fun _ => (2 : ℝ) ^ (-600 : ℤ)) (fun _ => 0) = 0 := by
      simp only [sumU, order1, Order.evalU, termU, diffU, hfl, abs_of_pos hv, hsq, mul_zero, add_zero, R.zero]
    rw [distE_eq R (by norm_num) (by norm_num), hS, if_pos (two_zpow_pos _), Real.sqrt_zero, R.zero]
  · unfold gapE subE
    rw [hfl, abs_of_pos hv]
    exact clip_of_lt (zpow_lt_zpow_right₀ (by norm_num) (by norm_num))

/-- **C122**, overflow, in double precision: numbers of the format at distance `2 ^ 600` are at an infinite
computed distance, so no radius search finds the one from the other. -/
theorem C122_overflow_counterexample (R : RoundingE 53 1024) :
    distE R order1 (fun _ => (2 : ℝ) ^ (600 : ℤ)) (fun _ => 0) = ⊤ ∧
    gapE R ((2 : ℝ) ^ (600 : ℤ)) 0 = (((2 : ℝ) ^ (600 : ℤ) : ℝ) : WithTop ℝ) ∧
    trueDist 1 (fun _ => (2 : ℝ) ^ (600 : ℤ)) (fun _ => 0) = (2 : ℝ) ^ (600 : ℤ) := by
  have hv := two_zpow_pos (600 : ℤ)
  have hfl : R.rnd ((2 : ℝ) ^ (600 : ℤ) - 0) = (2 : ℝ) ^ (600 : ℤ) := by
    rw [sub_zero]
    exact R.of_isFloat (isFloatE_zpow (by unfold emin; norm_num))
  refine ⟨?_, ?_, trueDist_one _ hv.le⟩
  · have hsq : R.rnd ((2 : ℝ) ^ (600 : ℤ) * (2 : ℝ) ^ (600 : ℤ)) = (2 : ℝ) ^ (1200 : ℤ) := by
      rw [← zpow_add₀ (by norm_num)]
      exact R.of_isFloat (isFloatE_zpow (by unfold emin; norm_num))
    have hS : sumU R order1 (fun _ => (2 : ℝ) ^ (600 : ℤ)) (fun _ => 0) = (2 : ℝ) ^ (1200 : ℤ) := by
      simp only [sumU, order1, Order.evalU, termU, diffU, hfl, abs_of_pos hv, hsq, mul_zero, zero_add, R.zero]
      exact R.of_isFloat (isFloatE_zpow (by unfold emin; norm_num))
    rw [distE_eq R (by norm_num) (by norm_num), hS, if_neg]
    rw [not_lt]
    exact zpow_le_zpow_right₀ (by norm_num) (by norm_num)
  · unfold gapE subE
    rw [hfl, abs_of_pos hv]
    exact clip_of_lt (zpow_lt_zpow_right₀ (by norm_num) (by norm_num))

/-! ### such a rounding exists, and concrete cases -/

/-- The spacing at a positive number. -/
noncomputable def spacing (p : Nat) (emax : ℤ) (x : ℝ) : ℤ := max (Int.log 2 x - p + 1) (emin p emax)

/-- Round a positive number: the nearest multiple of the spacing. -/
noncomputable def rndPosE (p : Nat) (emax : ℤ) (x : ℝ) : ℝ :=
  round (x / (2 : ℝ) ^ spacing p emax x) * (2 : ℝ) ^ spacing p emax x

theorem rndPosE_isFloat {x : ℝ} (hx : 0 < x) : IsFloatE p emax (rndPosE p emax x) := by
  refine ⟨round (x / (2 : ℝ) ^ spacing p emax x), spacing p emax x, ?_, le_max_right _ _, rfl⟩
  have hs := two_zpow_pos (spacing p emax x)
  have h1 : x < (2 : ℝ) ^ (Int.log 2 x + 1) := by
    simpa using Int.lt_zpow_succ_log_self (b := 2) (by norm_num) x
  have hE : Int.log 2 x - p + 1 ≤ spacing p emax x := le_max_left _ _
  generalize spacing p emax x = E at *
  have h2 : x / (2 : ℝ) ^ E ≤ ((2 ^ p : ℤ) : ℝ) := by
    rw [div_le_iff₀ hs]
    refine h1.le.trans ?_
    push_cast
    rw [← zpow_natCast, ← zpow_add₀ (by norm_num)]
    exact zpow_le_zpow_right₀ (by norm_num) (by omega)
  have h3 := round_mono' h2
  rw [round_intCast] at h3
  have h4 : 0 ≤ round (x / (2 : ℝ) ^ E) := by
    have := round_mono' (div_nonneg hx.le hs.le : 0 ≤ x / (2 : ℝ) ^ E)
    simpa using this
  rw [abs_of_nonneg h4]
  exact h3

theorem rndPosE_nearest (hp : 1 ≤ p) {x y : ℝ} (hx : 0 < x) (hy : IsFloatE p emax y) :
    |rndPosE p emax x - x| ≤ |y - x| := by
  obtain ⟨m, f, hm, hfe, rfl⟩ := hy
  have hs := two_zpow_pos (spacing p emax x)
  have hmul : ∀ n : ℤ, |rndPosE p emax x - x| ≤ |n * (2 : ℝ) ^ spacing p emax x - x| := by
    intro n
    have h := round_le (x / (2 : ℝ) ^ spacing p emax x) n
    have h' := mul_le_mul_of_nonneg_right h hs.le
    rw [← abs_of_pos hs, ← abs_mul, ← abs_mul, abs_of_pos hs, sub_mul, sub_mul,
      div_mul_cancel₀ _ hs.ne', abs_sub_comm, abs_sub_comm x] at h'
    exact h'
  have hlow : (2 : ℝ) ^ (Int.log 2 x) ≤ x := by
    simpa using Int.zpow_log_le_self (b := 2) (by norm_num) hx
  by_cases hf : spacing p emax x ≤ f
  · have e : (m : ℝ) * (2 : ℝ) ^ f =
        ((m * 2 ^ (f - spacing p emax x).toNat : ℤ) : ℝ) * (2 : ℝ) ^ spacing p emax x := by
      push_cast
      rw [mul_assoc, ← zpow_natCast, ← zpow_add₀ (by norm_num)]
      congr 2
      omega
    rw [e]
    exact hmul _
  · have hE : spacing p emax x = Int.log 2 x - p + 1 := by
      unfold spacing at hf ⊢
      omega
    rw [hE] at hmul hf
    have h1 := hmul (2 ^ (p - 1))
    have e : ((2 ^ (p - 1) : ℤ) : ℝ) * (2 : ℝ) ^ (Int.log 2 x - p + 1) = (2 : ℝ) ^ (Int.log 2 x) := by
      push_cast
      rw [← zpow_natCast, ← zpow_add₀ (by norm_num)]
      congr 1
      omega
    rw [e] at h1
    refine h1.trans ?_
    have hy : (m : ℝ) * (2 : ℝ) ^ f ≤ (2 : ℝ) ^ (Int.log 2 x) := by
      have h2 : (m : ℝ) ≤ (2 : ℝ) ^ (p : ℤ) := by
        have : m ≤ 2 ^ p := (le_abs_self m).trans hm
        rw [zpow_natCast]
        exact_mod_cast this
      calc (m : ℝ) * (2 : ℝ) ^ f ≤ (2 : ℝ) ^ (p : ℤ) * (2 : ℝ) ^ f :=
            mul_le_mul_of_nonneg_right h2 (two_zpow_pos f).le
        _ = (2 : ℝ) ^ ((p : ℤ) + f) := by rw [zpow_add₀ (by norm_num)]
        _ ≤ _ := zpow_le_zpow_right₀ (by norm_num) (by omega)
    rw [abs_of_nonpos (by linarith), abs_of_nonpos (by linarith)]
    linarith

/-- Rounding to nearest, ties away from zero, with gradual underflow. -/
noncomputable def awayE (p : Nat) (emax : ℤ) (hp : 1 ≤ p) : RoundingE p emax where
  rnd x := if 0 < x then rndPosE p emax x else if x < 0 then -rndPosE p emax (-x) else 0
  isFloat x := by
    split
    · exact rndPosE_isFloat (by assumption)
    · split
      · exact (rndPosE_isFloat (by linarith)).neg
      · exact isFloatE_zero
  nearest x y hy := by
    split
    · exact rndPosE_nearest hp (by assumption) hy
    · split
      · have := rndPosE_nearest hp (x := -x) (by linarith) hy.neg
        rw [← abs_neg, ← abs_neg (y - x)]
        convert this using 2 <;> ring
      · have : x = 0 := by linarith
        simp [this]
  neg x := by
    rcases lt_trichotomy x 0 with h | h | h
    · simp [h, h.le, not_lt.2 h.le]
    · simp [h]
    · simp [h, not_lt.2 h.le]

/-- Concrete case of `C122_knn`: double precision, two features, coordinates so small that all squares
underflow and so large that they overflow. -/
example :=
  C122_knn (awayE 53 1024 (by norm_num)) (by norm_num) (by norm_num) (by norm_num) (by decide)
    ((2 : ℝ) ^ (-52 : ℤ)) (two_zpow_pos _).le (zpow_le_one_of_nonpos₀ (by norm_num) (by norm_num)) 2
    (fun i _ => (2 : ℝ) ^ (if i = 0 then -600 else if i = 1 then 600 else 0 : ℤ)) (fun _ => 0)
    (fun i _ => isFloatE_zpow (by unfold emin; split <;> [norm_num; (split <;> norm_num)]))
    (fun _ => isFloatE_zero)
    (fun _ => .fma (.fma (.term 0) 1) 2) (fun _ => by unfold Order.Sums; decide)
    (fun _ d _ => d % 2) 1 10 (fun _ _ _ => Nat.mod_lt _ (by norm_num)) 0 0 ⊤ [0, 1, 2] 2
    (by norm_num) (by norm_num)

/-- Concrete case of the separation hypothesis of `C122_knn_separated`: single precision, samples at 0 and
`2 ^ 100`, whose squares overflow. -/
example (R : RoundingE 24 128) (eps : ℝ) (he : 0 ≤ eps) (he1 : eps ≤ 1) (i j : Nat) :
    (if i = 0 then (0 : ℝ) else (2 : ℝ) ^ (100 : ℤ)) = (if j = 0 then (0 : ℝ) else (2 : ℝ) ^ (100 : ℤ)) ∨
      eqE R eps (if i = 0 then 0 else (2 : ℝ) ^ (100 : ℤ)) (if j = 0 then 0 else (2 : ℝ) ^ (100 : ℤ)) = false := by
  have hfl : R.rnd ((2 : ℝ) ^ (100 : ℤ)) = (2 : ℝ) ^ (100 : ℤ) :=
    R.of_isFloat (isFloatE_zpow (by unfold emin; norm_num))
  have hpos := two_zpow_pos (100 : ℤ)
  have hbig : (1 : ℝ) < (2 : ℝ) ^ (100 : ℤ) := one_lt_zpow₀ (by norm_num) (by norm_num)
  have hlt : (2 : ℝ) ^ (100 : ℤ) < (2 : ℝ) ^ (128 : ℤ) := zpow_lt_zpow_right₀ (by norm_num) (by norm_num)
  have key : ¬ clip 128 ((2 : ℝ) ^ (100 : ℤ)) ≤ (eps : WithTop ℝ) := by
    rw [clip_of_lt hlt, not_le]
    exact_mod_cast he1.trans_lt hbig
  by_cases hi : i = 0 <;> by_cases hj : j = 0
  · exact Or.inl (by rw [if_pos hi, if_pos hj])
  · refine Or.inr (decide_eq_false ?_)
    rw [if_pos hi, if_neg hj, subE, sub_zero, hfl, abs_of_pos hpos]
    exact key
  · refine Or.inr (decide_eq_false ?_)
    rw [if_neg hi, if_pos hj, subE, zero_sub, R.neg, hfl, abs_neg, abs_of_pos hpos]
    exact key
  · exact Or.inl (by rw [if_neg hi, if_neg hj])

end Verif.Rounding
