import Verif.Lemmas.Sorting
import Mathlib.Data.Rat.Defs
import Mathlib.Algebra.Order.Ring.Rat

/-
Properties C04-C07: common/algorithms/Sorting.hpp.
`eqExact` is the library equality for integral data, `eqEps eps` the one for floating data.
-/

namespace Verif.Sorting

variable {K : Type} [LinearOrder K]

/-- **C04.** With at least three indices, the returned position `r` is one of `0`, `(n-1)/2`,
`n-1`, and its value lies between the values at the two other positions `l` and `m`. -/
theorem C04_median_of_three (key : Nat → K) (idx : List Nat) (h : 3 ≤ idx.length) :
    ∃ l m r x y z, medianIndexOfThree key idx = some r ∧
      [l, r, m].Perm [0, (idx.length - 1) / 2, idx.length - 1] ∧
      idx[l]? = some x ∧ idx[r]? = some y ∧ idx[m]? = some z ∧ key x ≤ key y ∧ key y ≤ key z := by
  obtain ⟨l, m, r, x, y, z, e, hh, h1⟩ := medianIndexOfThree_spec key idx h
  refine ⟨l, m, r, x, y, z, e, ?_, h1⟩
  generalize (idx.length - 1) / 2 = b at hh ⊢
  generalize idx.length - 1 = c at hh ⊢
  rcases hh with ⟨rfl, rfl, rfl⟩ | ⟨rfl, rfl, rfl⟩ | ⟨rfl, rfl, rfl⟩ | ⟨rfl, rfl, rfl⟩ |
    ⟨rfl, rfl, rfl⟩ | ⟨rfl, rfl, rfl⟩
  all_goals
    classical
    rw [List.perm_iff_count]
    intro a
    simp only [List.count_cons, List.count_nil] <;> omega

/-- **C04**, short ranges: position 0. -/
theorem C04_median_short (key : Nat → K) (idx : List Nat) (h : idx.length < 3) :
    medianIndexOfThree key idx = some 0 := by
  simp [medianIndexOfThree, h]

/-- **C05.** On every non-empty range and for every pivot position, the partition terminates
without an out-of-range access, permutes the indices, and the returned position holds the pivot
value with nothing larger before it and nothing smaller after it; the values before it are even
strictly smaller (equal values go to the right). -/
theorem C05_partition (key : Nat → K) (idx : List Nat) (pv : Nat) (hpv : pv < idx.length) :
    ∃ idx' p x, partition eqExact key idx pv = some (idx', p) ∧ idx'.Perm idx ∧
      idx'[p]? = some x ∧ key x = key idx[pv] ∧ SplitAt (· ≤ ·) key idx' p ∧
      ∀ i y, i < p → idx'[i]? = some y → key y < key x := by
  obtain ⟨idx', p, x, e, hp, hx, hk, h1, h2⟩ := partition_spec key idx pv hpv (goodEq_exact.refl _)
  exact ⟨idx', p, x, e, hp, hx, hk, ⟨x, hx, fun i y hi hy => (h1 i y hi hy).le,
    fun i y hi hy => leE_exact.1 (h2 i y hi hy)⟩, h1⟩

/-- **C05**, floating data: the values after the pivot may be smaller, but by at most `eps`. -/
theorem C05_partition_float {F : Type} [Field F] [LinearOrder F] [IsStrictOrderedRing F]
    (eps : F) (he : 0 ≤ eps) (key : Nat → F) (idx : List Nat) (pv : Nat) (hpv : pv < idx.length) :
    ∃ idx' p x, partition (eqEps eps) key idx pv = some (idx', p) ∧ idx'.Perm idx ∧
      idx'[p]? = some x ∧ key x = key idx[pv] ∧
      (∀ i y, i < p → idx'[i]? = some y → key y < key x) ∧
      (∀ i y, p < i → idx'[i]? = some y → key x ≤ key y + eps) := by
  obtain ⟨idx', p, x, e, hp, hx, hk, h1, h2⟩ := partition_spec key idx pv hpv ((goodEq_eps he).refl _)
  exact ⟨idx', p, x, e, hp, hx, hk, h1, fun i y hi hy => (leE_eps he).1 (h2 i y hi hy)⟩

/-- The floating slack is real: with values `[1, 9/10]`, `eps = 1/5` and pivot position 0, the
value after the pivot is strictly smaller than the pivot. -/
theorem C05_float_counterexample :
    partition (eqEps (1 / 5 : ℚ)) (fun i => if i = 0 then 1 else 9 / 10) [0, 1] 0 =
      some ([0, 1], 0) := by
  decide +kernel

/-- **C06.** `quickselect` terminates, permutes the indices, returns the range `[k, k+1)` and
splits the range at position `k`. -/
theorem C06_quickselect (key : Nat → K) (idx : List Nat) (k : Nat) (hk : k < idx.length) :
    ∃ idx', quickselect eqExact key idx k = some (idx', k, k + 1) ∧ idx'.Perm idx ∧
      SplitAt (· ≤ ·) key idx' k := by
  obtain ⟨P, x, Q, e, hl, hp, h1, h2⟩ := quickselect_spec goodEq_exact key idx k hk
  refine ⟨_, e, hp, x, by rw [← hl]; simp, ?_, ?_⟩
  · intro i y hi hy
    rw [List.getElem?_append_left (by omega)] at hy
    exact leE_exact.1 (h1 y (List.mem_of_getElem? hy))
  · intro i y hi hy
    rw [List.getElem?_append_right (by omega)] at hy
    rw [show i - P.length = (i - P.length - 1) + 1 by omega, List.getElem?_cons_succ] at hy
    exact leE_exact.1 (h2 y (List.mem_of_getElem? hy))

/-- **C06**, order statistic: the value at position `k` of the result is the `k`-th smallest
value of the input (at most `k` input values are smaller, more than `k` are not larger). -/
theorem C06_quickselect_order_statistic (key : Nat → K) (idx : List Nat) (k : Nat)
    (hk : k < idx.length) :
    ∃ idx' x, quickselect eqExact key idx k = some (idx', k, k + 1) ∧ idx'[k]? = some x ∧
      x ∈ idx ∧ idx.countP (fun y => key y < key x) ≤ k ∧
      k < idx.countP (fun y => key y ≤ key x) := by
  obtain ⟨P, x, Q, e, hl, hp, h1, h2⟩ := quickselect_spec goodEq_exact key idx k hk
  refine ⟨_, x, e, by rw [← hl]; simp, hp.mem_iff.1 (by simp), ?_, ?_⟩
  · rw [← hp.countP_eq, List.countP_append, List.countP_cons]
    have hQ : Q.countP (fun y => decide (key y < key x)) = 0 := by
      rw [List.countP_eq_zero]
      intro b hb
      simpa using leE_exact.1 (h2 b hb)
    have hP : P.countP (fun y => decide (key y < key x)) ≤ P.length := List.countP_le_length
    simp only [hQ, lt_self_iff_false, decide_false, Bool.false_eq_true, if_false]
    omega
  · rw [← hp.countP_eq, List.countP_append, List.countP_cons]
    have hP : P.countP (fun y => decide (key y ≤ key x)) = P.length := by
      rw [List.countP_eq_length]
      intro a ha
      simpa using leE_exact.1 (h1 a ha)
    simp only [hP, le_refl, decide_true, if_true]
    omega

/-- **C06**, floating data: same split up to `eps`. -/
theorem C06_quickselect_float {F : Type} [Field F] [LinearOrder F] [IsStrictOrderedRing F]
    (eps : F) (he : 0 ≤ eps) (key : Nat → F) (idx : List Nat) (k : Nat) (hk : k < idx.length) :
    ∃ P x Q, quickselect (eqEps eps) key idx k = some (P ++ x :: Q, k, k + 1) ∧ P.length = k ∧
      (P ++ x :: Q).Perm idx ∧
      (∀ a ∈ P, key a ≤ key x + eps) ∧ (∀ b ∈ Q, key x ≤ key b + eps) := by
  obtain ⟨P, x, Q, e, hl, hp, h1, h2⟩ := quickselect_spec (goodEq_eps he) key idx k hk
  exact ⟨P, x, Q, e, hl, hp, fun a ha => (leE_eps he).1 (h1 a ha),
    fun b hb => (leE_eps he).1 (h2 b hb)⟩

/-- **C07.** `quicksort` terminates (recursion depth at most the number of indices), permutes
the indices and sorts them by value. -/
theorem C07_quicksort (key : Nat → K) (idx : List Nat) (pv : Nat) (hpv : pv < idx.length) :
    ∃ idx' p, quicksort eqExact key (idx.length + 1) idx pv = some (idx', p) ∧ idx'.Perm idx ∧
      idx'.Pairwise (fun a b => key a ≤ key b) := by
  obtain ⟨idx', p, e, hp, hs⟩ :=
    quicksort_spec goodEq_exact key (idx.length + 1) idx pv (fun _ => hpv) (by omega)
  exact ⟨idx', p, e, hp, hs.imp (fun h => leE_exact.1 h)⟩

/-- **C07**, floating data: any two entries are in order up to `eps` (the slack does not
accumulate with the recursion depth). -/
theorem C07_quicksort_float {F : Type} [Field F] [LinearOrder F] [IsStrictOrderedRing F]
    (eps : F) (he : 0 ≤ eps) (key : Nat → F) (idx : List Nat) (pv : Nat) (hpv : pv < idx.length) :
    ∃ idx' p, quicksort (eqEps eps) key (idx.length + 1) idx pv = some (idx', p) ∧
      idx'.Perm idx ∧ idx'.Pairwise (fun a b => key a ≤ key b + eps) := by
  obtain ⟨idx', p, e, hp, hs⟩ :=
    quicksort_spec (goodEq_eps he) key (idx.length + 1) idx pv (fun _ => hpv) (by omega)
  exact ⟨idx', p, e, hp, hs.imp (fun h => (leE_eps he).1 h)⟩

/-! Non-vacuity: concrete runs with duplicates. -/

example : quicksort eqExact (fun i => [5, 3, 5, 1, 3, 9, 1].getD i 0) 8 [0, 1, 2, 3, 4, 5, 6] 2 =
    some ([3, 6, 1, 4, 2, 0, 5], 4) := by decide +kernel

example : (quickselect eqExact (fun i => [5, 3, 5, 1, 3, 9, 1].getD i 0) [0, 1, 2, 3, 4, 5, 6] 3).isSome
    := by decide +kernel

end Verif.Sorting
