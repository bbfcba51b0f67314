import Verif.Model.Distances
import Mathlib.Algebra.BigOperators.Group.List.Basic
import Mathlib.Algebra.Order.BigOperators.Group.List
import Mathlib.Tactic.Linarith
import Mathlib.Tactic.Ring

namespace Verif.Distances

theorem transformReduce_eq {K : Type} [AddCommMonoid K] (f : K → K → K) :
    ∀ (l r : List K) (acc : K), l.length ≤ r.length →
      transformReduce f l r acc = some (acc + (List.zipWith f l r).sum) := by
  intro l
  induction l with
  | nil => intro r acc _; simp [transformReduce]
  | cons a l ih =>
    intro r acc h
    cases r with
    | nil => simp at h
    | cons b r =>
      simp only [List.length_cons, Nat.add_le_add_iff_right] at h
      simp only [transformReduce, ih r _ h, List.zipWith_cons_cons, List.sum_cons, add_assoc]

section Generic

variable {K : Type} [AddCommMonoid K] [LinearOrder K] [IsOrderedCancelAddMonoid K] (f : K → K → K)

theorem sum_zipWith_nonneg (hf : ∀ a b, 0 ≤ f a b) (l r : List K) :
    0 ≤ (List.zipWith f l r).sum := by
  apply List.sum_nonneg
  intro z hz
  obtain ⟨i, hi, rfl⟩ := List.getElem_of_mem hz
  simp only [List.getElem_zipWith]
  exact hf _ _

theorem coord_le_sum (hf : ∀ a b, 0 ≤ f a b) :
    ∀ (l r : List K) (i : Nat) (a b : K), l[i]? = some a → r[i]? = some b →
      f a b ≤ (List.zipWith f l r).sum := by
  intro l
  induction l with
  | nil => intro r i a b h; simp at h
  | cons c l ih =>
    intro r i a b ha hb
    cases r with
    | nil => simp at hb
    | cons d r =>
      simp only [List.zipWith_cons_cons, List.sum_cons]
      cases i with
      | zero =>
        simp only [List.getElem?_cons_zero, Option.some.injEq] at ha hb
        subst ha; subst hb
        exact le_add_of_nonneg_right (sum_zipWith_nonneg f hf l r)
      | succ i =>
        simp only [List.getElem?_cons_succ] at ha hb
        exact (ih r i a b ha hb).trans (le_add_of_nonneg_left (hf c d))

theorem sum_zipWith_eq_zero (hf : ∀ a b, 0 ≤ f a b) (hz : ∀ a b, f a b = 0 ↔ a = b) :
    ∀ (l r : List K), l.length = r.length → ((List.zipWith f l r).sum = 0 ↔ l = r) := by
  intro l
  induction l with
  | nil => intro r h; cases r with
    | nil => simp
    | cons b r => simp at h
  | cons a l ih =>
    intro r h
    cases r with
    | nil => simp at h
    | cons b r =>
      simp only [List.length_cons, Nat.add_right_cancel_iff] at h
      simp only [List.zipWith_cons_cons, List.sum_cons, List.cons.injEq]
      rw [add_eq_zero_iff_of_nonneg (hf a b) (sum_zipWith_nonneg f hf l r), hz, ih r h]

theorem sum_zipWith_comm (hc : ∀ a b, f a b = f b a) (l r : List K) :
    (List.zipWith f l r).sum = (List.zipWith f r l).sum := by
  rw [List.zipWith_comm]
  congr 2
  funext a b
  exact hc b a

theorem sum_zipWith_triangle (ht : ∀ a b c, f a c ≤ f a b + f b c) :
    ∀ (l m r : List K), l.length = m.length → m.length = r.length →
      (List.zipWith f l r).sum ≤ (List.zipWith f l m).sum + (List.zipWith f m r).sum := by
  intro l
  induction l with
  | nil => intro m r h1 h2; cases m <;> cases r <;> simp_all
  | cons a l ih =>
    intro m r h1 h2
    cases m with
    | nil => simp at h1
    | cons b m =>
      cases r with
      | nil => simp at h2
      | cons c r =>
        simp only [List.length_cons, Nat.add_right_cancel_iff] at h1 h2
        simp only [List.zipWith_cons_cons, List.sum_cons]
        calc f a c + (List.zipWith f l r).sum
            ≤ (f a b + f b c) + ((List.zipWith f l m).sum + (List.zipWith f m r).sum) :=
              add_le_add (ht a b c) (ih m r h1 h2)
          _ = _ := add_add_add_comm _ _ _ _

end Generic

theorem manhattan_eq {K : Type} [Ring K] [LinearOrder K] {l r : List K} (h : l.length ≤ r.length) :
    manhattan l r = some ((List.zipWith (fun a b => |a - b|) l r).sum) := by
  simp [manhattan, transformReduce_eq _ l r 0 h]

theorem unsignedManhattan_eq {l r : List Nat} (h : l.length ≤ r.length) :
    unsignedManhattan l r =
      some ((List.zipWith (fun a b => if a > b then a - b else b - a) l r).sum) := by
  simp [unsignedManhattan, transformReduce_eq _ l r 0 h]

theorem squaredEuclidean_eq {K : Type} [Ring K] {l r : List K} (h : l.length ≤ r.length) :
    squaredEuclidean l r = some ((List.zipWith (fun a b => (a - b) * (a - b)) l r).sum) := by
  simp [squaredEuclidean, transformReduce_eq _ l r 0 h]

theorem euclidean_eq {l r : List ℝ} (h : l.length ≤ r.length) :
    euclidean l r = some (Real.sqrt (List.zipWith (fun a b => (a - b) * (a - b)) l r).sum) := by
  simp [euclidean, squaredEuclidean_eq h]

theorem abs_le_euclidean {l r : List ℝ} {i : Nat} {a b : ℝ} (ha : l[i]? = some a)
    (hb : r[i]? = some b) :
    |a - b| ≤ Real.sqrt (List.zipWith (fun a b => (a - b) * (a - b)) l r).sum := by
  apply Real.le_sqrt_of_sq_le
  rw [sq_abs, sq]
  exact coord_le_sum (fun a b : ℝ => (a - b) * (a - b)) (fun a b => mul_self_nonneg _) l r i a b ha hb

end Verif.Distances
