import Verif.Lemmas.Distances
import Mathlib.Analysis.InnerProductSpace.PiL2
import Mathlib.Algebra.Order.Ring.Int

/-
Property C56: common/math/heuristics/Distances.hpp.
Feature vectors are lists of equal length.
-/

namespace Verif.Distances

/-- Specification: `d` (partial, `none` = undefined behaviour) is a metric on vectors of equal
length, and the difference of two coordinates never exceeds it. -/
structure IsMetric {K : Type} [AddCommMonoid K] [LinearOrder K] (d : List K → List K → Option K)
    (coord : K → K → K) : Prop where
  defined : ∀ l r : List K, l.length = r.length → ∃ v, d l r = some v ∧ 0 ≤ v ∧ (v = 0 ↔ l = r)
  symm : ∀ l r : List K, l.length = r.length → d l r = d r l
  triangle : ∀ l m r : List K, l.length = m.length → m.length = r.length →
    ∀ u v w, d l r = some u → d l m = some v → d m r = some w → u ≤ v + w
  coord_le : ∀ l r : List K, l.length = r.length → ∀ (i : Nat) (a b v : K),
    l[i]? = some a → r[i]? = some b →
    d l r = some v → coord a b ≤ v

/-- **C56**, `manhattan_distance`. -/
theorem C56_manhattan {K : Type} [Ring K] [LinearOrder K] [IsStrictOrderedRing K] :
    IsMetric (K := K) manhattan (fun a b => |a - b|) := by
  have hz : ∀ a b : K, |a - b| = 0 ↔ a = b := fun a b => by rw [abs_eq_zero, sub_eq_zero]
  refine ⟨?_, ?_, ?_, ?_⟩
  · intro l r h
    exact ⟨_, manhattan_eq h.le, sum_zipWith_nonneg _ (fun _ _ => abs_nonneg _) _ _,
      sum_zipWith_eq_zero _ (fun _ _ => abs_nonneg _) hz l r h⟩
  · intro l r h
    rw [manhattan_eq h.le, manhattan_eq h.ge, sum_zipWith_comm _ (fun a b => abs_sub_comm a b)]
  · intro l m r h1 h2 u v w hu hv hw
    rw [manhattan_eq (h1.trans h2).le] at hu
    rw [manhattan_eq h1.le] at hv
    rw [manhattan_eq h2.le] at hw
    rw [← Option.some.inj hu, ← Option.some.inj hv, ← Option.some.inj hw]
    exact sum_zipWith_triangle _ (fun a b c => abs_sub_le a b c) l m r h1 h2
  · intro l r h i a b v ha hb hv
    rw [manhattan_eq h.le] at hv
    rw [← Option.some.inj hv]
    exact coord_le_sum (fun a b : K => |a - b|) (fun _ _ => abs_nonneg _) l r i a b ha hb

/-- **C56**, `unsigned_manhattan_distance` (sum not wrapping). -/
theorem C56_unsigned_manhattan :
    IsMetric unsignedManhattan (fun a b => ((a : ℤ) - b).natAbs) := by
  refine ⟨?_, ?_, ?_, ?_⟩
  · intro l r h
    exact ⟨_, unsignedManhattan_eq h.le, Nat.zero_le _,
      sum_zipWith_eq_zero _ (fun _ _ => Nat.zero_le _) (fun a b => by split <;> omega) l r h⟩
  · intro l r h
    rw [unsignedManhattan_eq h.le, unsignedManhattan_eq h.ge,
      sum_zipWith_comm _ (fun a b => by split <;> split <;> omega)]
  · intro l m r h1 h2 u v w hu hv hw
    rw [unsignedManhattan_eq (h1.trans h2).le] at hu
    rw [unsignedManhattan_eq h1.le] at hv
    rw [unsignedManhattan_eq h2.le] at hw
    rw [← Option.some.inj hu, ← Option.some.inj hv, ← Option.some.inj hw]
    exact sum_zipWith_triangle _ (fun a b c => by split <;> split <;> split <;> omega) l m r h1 h2
  · intro l r h i a b v ha hb hv
    rw [unsignedManhattan_eq h.le] at hv
    rw [← Option.some.inj hv]
    refine le_trans ?_ (coord_le_sum (fun a b : Nat => if a > b then a - b else b - a)
      (fun _ _ => Nat.zero_le _) l r i a b ha hb)
    split <;> omega

theorem zipWith_sum_fin (f : ℝ → ℝ → ℝ) : ∀ (l r : List ℝ) (n : Nat) (hl : l.length = n)
    (hr : r.length = n),
    (List.zipWith f l r).sum = ∑ i : Fin n, f (l[i]'(by omega)) (r[i]'(by omega)) := by
  intro l
  induction l with
  | nil => intro r n hl hr; subst hl; simp
  | cons a l ih =>
    intro r n hl hr
    cases r with
    | nil => subst hl; simp at hr
    | cons b r =>
      cases n with
      | zero => simp at hl
      | succ n =>
        simp only [List.length_cons, Nat.add_right_cancel_iff] at hl hr
        rw [Fin.sum_univ_succ, List.zipWith_cons_cons, List.sum_cons, ih r n hl hr]
        rfl

/-- A list as a point of Euclidean space. -/
noncomputable def toPoint (n : Nat) (l : List ℝ) (hl : l.length = n) : EuclideanSpace ℝ (Fin n) :=
  WithLp.toLp 2 (fun i => l[i]'(by omega))

theorem sqrt_eq_dist (n : Nat) (l r : List ℝ) (hl : l.length = n) (hr : r.length = n) :
    Real.sqrt (List.zipWith (fun a b => (a - b) * (a - b)) l r).sum =
      dist (toPoint n l hl) (toPoint n r hr) := by
  rw [EuclideanSpace.dist_eq, zipWith_sum_fin _ l r n hl hr]
  congr 1
  refine Finset.sum_congr rfl ?_
  intro i _
  simp only [toPoint, Real.dist_eq, sq_abs]
  ring

/-- **C56**, `euclidean_distance`. -/
theorem C56_euclidean : IsMetric euclidean (fun a b => |a - b|) := by
  refine ⟨?_, ?_, ?_, ?_⟩
  · intro l r h
    refine ⟨_, euclidean_eq h.le, Real.sqrt_nonneg _, ?_⟩
    rw [Real.sqrt_eq_zero (sum_zipWith_nonneg (fun a b : ℝ => (a - b) * (a - b))
      (fun _ _ => mul_self_nonneg _) l r)]
    exact sum_zipWith_eq_zero (fun a b : ℝ => (a - b) * (a - b)) (fun _ _ => mul_self_nonneg _)
      (fun a b => by rw [mul_self_eq_zero, sub_eq_zero]) l r h
  · intro l r h
    rw [euclidean_eq h.le, euclidean_eq h.ge,
      sum_zipWith_comm (fun a b : ℝ => (a - b) * (a - b)) (fun a b => by ring)]
  · intro l m r h1 h2 u v w hu hv hw
    rw [euclidean_eq (h1.trans h2).le] at hu
    rw [euclidean_eq h1.le] at hv
    rw [euclidean_eq h2.le] at hw
    rw [← Option.some.inj hu, ← Option.some.inj hv, ← Option.some.inj hw]
    rw [sqrt_eq_dist r.length l r (h1.trans h2) rfl, sqrt_eq_dist r.length l m (h1.trans h2) h2,
      sqrt_eq_dist r.length m r h2 rfl]
    exact dist_triangle _ _ _
  · intro l r h i a b v ha hb hv
    rw [euclidean_eq h.le] at hv
    rw [← Option.some.inj hv]
    exact abs_le_euclidean ha hb

/-- Reading past the end of a shorter right range is undefined behaviour in the model. -/
theorem C56_short_right_undefined {K : Type} [Ring K] [LinearOrder K] :
    ∀ l r : List K, r.length < l.length → manhattan l r = none := by
  have : ∀ (l r : List K) (acc : K), r.length < l.length →
      transformReduce (fun a b => |a - b|) l r acc = none := by
    intro l
    induction l with
    | nil => intro r acc h; simp at h
    | cons a l ih =>
      intro r acc h
      cases r with
      | nil => rfl
      | cons b r => exact ih r _ (by simpa using h)
  exact fun l r h => this l r 0 h

/-! Concrete cases. -/

example : manhattan ([1, -2, 3] : List ℤ) [4, 0, 3] = some 5 := by decide +kernel
example : unsignedManhattan [1, 2, 3] [4, 0, 3] = some 5 := by decide +kernel
example : squaredEuclidean ([1, -2, 3] : List ℤ) [4, 2, 3] = some 25 := by decide +kernel

end Verif.Distances
