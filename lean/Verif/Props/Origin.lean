import Verif.Model.Origin
import Verif.Lemmas.Distances
import Verif.Props.Distances

/-
Properties C81 (distances from the origin and translation) and C82 (`cosine_similarity`).
-/

namespace Verif.Distances

open Verif.Sorting

theorem transformReduce1_eq {K : Type} [AddCommMonoid K] (f : K → K) :
    ∀ (l : List K) (acc : K), transformReduce1 f l acc = acc + (l.map f).sum := by
  intro l
  induction l with
  | nil => intro acc; simp [transformReduce1]
  | cons a l ih => intro acc; simp only [transformReduce1, ih, List.map_cons, List.sum_cons, add_assoc]

theorem translate_eq {K : Type} [Sub K] : ∀ (l r : List K), r.length ≤ l.length →
    translate l r = some (List.zipWith (fun a b => b - a) l r) := by
  intro l
  induction l with
  | nil => intro r h; cases r with
    | nil => rfl
    | cons b r => simp at h
  | cons a l ih =>
    intro r h
    cases r with
    | nil => rfl
    | cons b r => simp [translate, ih r (by simpa using h)]

theorem zipWith_replicate {K L : Type} (f : K → K → L) (z : K) : ∀ l : List K,
    List.zipWith f l (List.replicate l.length z) = l.map (fun a => f a z) := by
  intro l
  induction l with
  | nil => rfl
  | cons a l ih => simp [List.replicate_succ, ih]

/-- **C81**: a distance from the origin is the distance to the zero vector. -/
theorem C81_euclidean_origin (l : List ℝ) :
    euclidean l (List.replicate l.length 0) = some (euclideanFromOrigin l) := by
  rw [euclidean_eq (by simp), zipWith_replicate]
  simp [euclideanFromOrigin, squaredFromOrigin, transformReduce1_eq]

/-- **C81**, the same for the squared distance over any ring. -/
theorem C81_squared_origin {K : Type} [Ring K] (l : List K) :
    squaredEuclidean l (List.replicate l.length 0) = some (squaredFromOrigin l) := by
  rw [squaredEuclidean_eq (by simp), zipWith_replicate]
  simp [squaredFromOrigin, transformReduce1_eq]

/-- **C81**, the same for signed integers, for the value the function computes.  What is missing: the
caller cannot read that value, since the declared return type `decltype(std::declval<T>())` is `T&&`
(Distances.hpp:78-81) and the reference is to a temporary that is destroyed on return. -/
theorem C81_manhattan_origin_partial {K : Type} [Ring K] [LinearOrder K] (l : List K) :
    manhattan l (List.replicate l.length 0) = some (manhattanFromOrigin l) := by
  rw [manhattan_eq (by simp), zipWith_replicate]
  simp [manhattanFromOrigin, transformReduce1_eq]

/-- **C81**: translating the right range by the left one and measuring from the origin gives the
distance of the two ranges. -/
theorem C81_translate (l r : List ℝ) (h : l.length = r.length) :
    ∃ t, translate l r = some t ∧ t.length = r.length ∧
      (∀ (i : Nat) (a b : ℝ), l[i]? = some a → r[i]? = some b → t[i]? = some (b - a)) ∧
      euclidean l r = some (euclideanFromOrigin t) := by
  refine ⟨_, translate_eq l r h.ge, by simp [h], ?_, ?_⟩
  · intro i a b ha hb
    simp [List.getElem?_zipWith, ha, hb]
  · rw [euclidean_eq h.le, euclideanFromOrigin, squaredFromOrigin, transformReduce1_eq, zero_add,
      List.map_zipWith]
    congr 4
    funext a b
    ring

/-- **C81**, the same for signed integers, with the restriction of `C81_manhattan_origin_partial`. -/
theorem C81_translate_manhattan_partial {K : Type} [Ring K] [LinearOrder K] [IsStrictOrderedRing K]
    (l r : List K) (h : l.length = r.length) :
    ∃ t, translate l r = some t ∧ manhattan l r = some (manhattanFromOrigin t) := by
  refine ⟨_, translate_eq l r h.ge, ?_⟩
  rw [manhattan_eq h.le, manhattanFromOrigin, transformReduce1_eq, zero_add, List.map_zipWith]
  congr 3
  funext a b
  exact abs_sub_comm a b

/-- **C81**, `_partial`: `unsigned_manhattan_distance_from_origin` is the distance to the zero
vector when no value is negative.  Missing: its `static_assert` accepts only signed types, and there
the claim is false (`C81_unsigned_counterexample`). -/
theorem C81_unsigned_origin_partial (l : List ℤ) (h : ∀ a ∈ l, 0 ≤ a) :
    manhattan l (List.replicate l.length 0) = some (unsignedFromOrigin l) := by
  rw [C81_manhattan_origin_partial, manhattanFromOrigin, unsignedFromOrigin, transformReduce1_eq,
    transformReduce1_eq]
  congr 3
  exact List.map_congr_left (fun a ha => abs_of_nonneg (h a ha))

/-- **C81** is false of `unsigned_manhattan_distance_from_origin`: `{-3, 1}` is at "distance" `-2`,
and `{-3, 3}` at distance `0`. -/
theorem C81_unsigned_counterexample :
    unsignedFromOrigin ([-3, 1] : List ℤ) = -2 ∧ unsignedFromOrigin ([-3, 3] : List ℤ) = 0 ∧
      manhattan ([-3, 1] : List ℤ) [0, 0] = some 4 ∧ manhattan ([-3, 3] : List ℤ) [0, 0] = some 6 := by
  decide +kernel

/-! ### cosine similarity -/

theorem dot_eq {l r : List ℝ} (h : l.length ≤ r.length) :
    dot l r = some ((List.zipWith (fun a b => a * b) l r).sum) := by
  simp [dot, transformReduce_eq _ l r 0 h]

theorem dot_inner (n : Nat) (l r : List ℝ) (hl : l.length = n) (hr : r.length = n) :
    (List.zipWith (fun a b => a * b) l r).sum = inner ℝ (toPoint n l hl) (toPoint n r hr) := by
  rw [zipWith_sum_fin _ l r n hl hr, PiLp.inner_apply]
  refine Finset.sum_congr rfl ?_
  intro i _
  simp [toPoint, mul_comm]

theorem sqrt_dot_norm (n : Nat) (l : List ℝ) (hl : l.length = n) :
    Real.sqrt (List.zipWith (fun a b => a * b) l l).sum = ‖toPoint n l hl‖ := by
  rw [dot_inner n l l hl hl, norm_eq_sqrt_real_inner]

/-- The product of the Euclidean lengths of two vectors, the quantity compared with `eps`. -/
noncomputable def lengths (l r : List ℝ) : ℝ := euclideanFromOrigin l * euclideanFromOrigin r

theorem fromOrigin_norm (n : Nat) (l : List ℝ) (hl : l.length = n) :
    euclideanFromOrigin l = ‖toPoint n l hl‖ := by
  rw [← sqrt_dot_norm, euclideanFromOrigin, squaredFromOrigin, transformReduce1_eq, zero_add,
    List.zipWith_self]

theorem lengths_nonneg (l r : List ℝ) : 0 ≤ lengths l r :=
  mul_nonneg (Real.sqrt_nonneg _) (Real.sqrt_nonneg _)

theorem cosine_eq (eps : ℝ) (n : Nat) (l r : List ℝ) (hl : l.length = n) (hr : r.length = n) :
    cosine eps l r = some (if lengths l r ≤ eps then ⊤ else
      ((inner ℝ (toPoint n l hl) (toPoint n r hr) / (‖toPoint n l hl‖ * ‖toPoint n r hr‖) : ℝ)
        : WithTop ℝ)) := by
  have e1 : lengths l r = ‖toPoint n l hl‖ * ‖toPoint n r hr‖ := by
    rw [lengths, fromOrigin_norm n l hl, fromOrigin_norm n r hr]
  simp only [cosine, dot_eq (hl.trans hr.symm).le, dot_eq (le_refl l.length),
    dot_eq (le_refl r.length), Option.bind_eq_bind, Option.bind_some, divisionOrInfinity, eqEps,
    sqrt_dot_norm n l hl, sqrt_dot_norm n r hr, dot_inner n l r hl hr, decide_eq_true_eq, zero_sub,
    abs_neg, ← e1, abs_of_nonneg (lengths_nonneg l r)]

theorem toPoint_eq_zero (n : Nat) (l : List ℝ) (hl : l.length = n) :
    toPoint n l hl = 0 ↔ ∀ a ∈ l, a = 0 := by
  constructor
  · intro h a ha
    obtain ⟨i, hi, rfl⟩ := List.getElem_of_mem ha
    have := congrArg (fun (v : EuclideanSpace ℝ (Fin n)) => v ⟨i, by omega⟩) h
    simpa [toPoint] using this
  · intro h
    ext i
    simpa [toPoint] using h _ (List.getElem_mem _)

theorem toPoint_smul (n : Nat) (c : ℝ) (l : List ℝ) (hl : l.length = n) :
    toPoint n (l.map (fun a => c * a)) (by simpa using hl) = c • toPoint n l hl := by
  ext i
  simp [toPoint]

theorem toPoint_inj (n : Nat) (l r : List ℝ) (hl : l.length = n) (hr : r.length = n)
    (h : toPoint n l hl = toPoint n r hr) : l = r := by
  apply List.ext_getElem (by omega)
  intro i h1 h2
  have := congrArg (fun (v : EuclideanSpace ℝ (Fin n)) => v ⟨i, by omega⟩) h
  simpa [toPoint] using this

/-- **C82**: the outcome is `infinity` exactly when the product of the lengths is at most `eps`, and
a number of `[-1, 1]` otherwise. -/
theorem C82_range (eps : ℝ) (l r : List ℝ) (h : l.length = r.length) :
    (lengths l r ≤ eps → cosine eps l r = some ⊤) ∧
    (eps < lengths l r → ∃ v : ℝ, cosine eps l r = some (v : WithTop ℝ) ∧ -1 ≤ v ∧ v ≤ 1) := by
  rw [cosine_eq eps r.length l r h rfl]
  refine ⟨fun hle => by rw [if_pos hle], fun hlt => ?_⟩
  rw [if_neg (not_le.2 hlt)]
  exact ⟨_, rfl, abs_le.1 (abs_real_inner_div_norm_mul_norm_le_one _ _)⟩

/-- **C82**: the similarity is symmetric. -/
theorem C82_symmetric (eps : ℝ) (l r : List ℝ) (h : l.length = r.length) :
    cosine eps l r = cosine eps r l := by
  rw [cosine_eq eps r.length l r h rfl, cosine_eq eps r.length r l rfl h,
    show lengths r l = lengths l r from mul_comm _ _, real_inner_comm,
    mul_comm ‖toPoint r.length r rfl‖]

/-- **C82**: the similarity is `1` exactly for positive multiples of each other. -/
theorem C82_parallel (eps : ℝ) (h0 : 0 ≤ eps) (l r : List ℝ) (h : l.length = r.length)
    (hlen : eps < lengths l r) :
    cosine eps l r = some ((1 : ℝ) : WithTop ℝ) ↔ ∃ c : ℝ, 0 < c ∧ r = l.map (fun a => c * a) := by
  rw [cosine_eq eps r.length l r h rfl, if_neg (not_le.2 hlen), Option.some.injEq, WithTop.coe_inj,
    real_inner_div_norm_mul_norm_eq_one_iff]
  have hne : toPoint r.length l h ≠ 0 := by
    intro hz
    rw [lengths, fromOrigin_norm r.length l h, hz, norm_zero, zero_mul] at hlen
    linarith
  constructor
  · rintro ⟨-, c, hc, he⟩
    refine ⟨c, hc, toPoint_inj r.length _ _ rfl (by simpa using h) ?_⟩
    rw [he, toPoint_smul _ _ _ h]
  · rintro ⟨c, hc, he⟩
    refine ⟨hne, c, hc, ?_⟩
    rw [← toPoint_smul _ _ _ h]
    congr 1

/-- **C82**: the similarity is `-1` exactly for negative multiples of each other. -/
theorem C82_opposite (eps : ℝ) (h0 : 0 ≤ eps) (l r : List ℝ) (h : l.length = r.length)
    (hlen : eps < lengths l r) :
    cosine eps l r = some ((-1 : ℝ) : WithTop ℝ) ↔
      ∃ c : ℝ, c < 0 ∧ r = l.map (fun a => c * a) := by
  rw [cosine_eq eps r.length l r h rfl, if_neg (not_le.2 hlen), Option.some.injEq, WithTop.coe_inj,
    real_inner_div_norm_mul_norm_eq_neg_one_iff]
  have hne : toPoint r.length l h ≠ 0 := by
    intro hz
    rw [lengths, fromOrigin_norm r.length l h, hz, norm_zero, zero_mul] at hlen
    linarith
  constructor
  · rintro ⟨-, c, hc, he⟩
    refine ⟨c, hc, toPoint_inj r.length _ _ rfl (by simpa using h) ?_⟩
    rw [he, toPoint_smul _ _ _ h]
  · rintro ⟨c, hc, he⟩
    refine ⟨hne, c, hc, ?_⟩
    rw [← toPoint_smul _ _ _ h]
    congr 1

/-- **C82**, `_partial`: the similarity does not change when the vectors are scaled by positive
factors, as long as the product of the lengths stays above `eps` before and after.  Missing: the
restriction to that case, without which the claim is false (`C82_small_counterexample`). -/
theorem C82_scale_partial (eps : ℝ) (l r : List ℝ) (h : l.length = r.length) (a b : ℝ)
    (ha : 0 < a) (hb : 0 < b) (h1 : eps < lengths l r)
    (h2 : eps < lengths (l.map (fun x => a * x)) (r.map (fun x => b * x))) :
    cosine eps (l.map (fun x => a * x)) (r.map (fun x => b * x)) = cosine eps l r := by
  rw [cosine_eq eps r.length l r h rfl,
    cosine_eq eps r.length (l.map (fun x => a * x)) (r.map (fun x => b * x)) (by simpa using h)
      (by simp), if_neg (not_le.2 h1), if_neg (not_le.2 h2), toPoint_smul _ _ _ h,
    toPoint_smul _ _ _ rfl, real_inner_smul_left, real_inner_smul_right, norm_smul, norm_smul,
    Real.norm_of_nonneg ha.le, Real.norm_of_nonneg hb.le]
  congr 2
  have : a * ‖toPoint r.length l h‖ * (b * ‖toPoint r.length r rfl‖) =
      (a * b) * (‖toPoint r.length l h‖ * ‖toPoint r.length r rfl‖) := by ring
  rw [this, ← mul_assoc, mul_div_mul_left _ _ (mul_pos ha hb).ne']

theorem fromOrigin_single (x : ℝ) (hx : 0 ≤ x) : euclideanFromOrigin [x] = x := by
  simp [euclideanFromOrigin, squaredFromOrigin, transformReduce1, Real.sqrt_mul_self hx]

/-- **C82**: the comment of the code promises `infinity` "if the denominator is zero".  For every
positive `eps` there are non-zero vectors, equal to each other, whose similarity is `infinity`, and
a positive multiple of them has similarity `1`: scaling changes the outcome. -/
theorem C82_small_counterexample (eps : ℝ) (h0 : 0 < eps) :
    ∃ x : ℝ, 0 < x ∧ cosine eps [x] [x] = some ⊤ ∧
      ∃ c : ℝ, 0 < c ∧ cosine eps [c * x] [c * x] = some ((1 : ℝ) : WithTop ℝ) := by
  have hx : 0 < Real.sqrt eps := Real.sqrt_pos.2 h0
  refine ⟨Real.sqrt eps, hx, ?_, 2, by norm_num, ?_⟩
  · refine (C82_range eps _ _ rfl).1 ?_
    rw [lengths, fromOrigin_single _ hx.le, Real.mul_self_sqrt h0.le]
  · refine (C82_parallel eps h0.le _ _ rfl ?_).2 ⟨1, by norm_num, by simp⟩
    rw [lengths, fromOrigin_single _ (by positivity)]
    have := Real.mul_self_sqrt h0.le
    nlinarith

/-! Concrete cases. -/

example : translate ([1, 2] : List ℤ) [4, 0] = some [3, -2] := by decide +kernel
example : manhattanFromOrigin ([3, -2] : List ℤ) = 5 ∧ manhattan ([1, 2] : List ℤ) [4, 0] = some 5 := by
  decide +kernel
example : translate ([1] : List ℤ) [4, 0] = none := by decide +kernel

/-- The hypotheses of `C82_parallel` hold for `(1, 2)` and `(2, 4)` with `eps = 1`. -/
example : cosine 1 [1, 2] [2, 4] = some ((1 : ℝ) : WithTop ℝ) := by
  refine (C82_parallel 1 (by norm_num) [1, 2] [2, 4] rfl ?_).2 ⟨2, by norm_num, by norm_num⟩
  simp only [lengths, euclideanFromOrigin, squaredFromOrigin, transformReduce1]
  rw [← Real.sqrt_mul (by norm_num)]
  apply Real.lt_sqrt_of_sq_lt
  norm_num

/-- Orthogonal vectors have similarity `0`. -/
example : cosine 0 [1, 0] [0, 1] = some ((0 : ℝ) : WithTop ℝ) := by
  simp [cosine, dot, transformReduce, divisionOrInfinity, eqEps]

end Verif.Distances
