import Verif.Lemmas.KMedoids
import Verif.Lemmas.Smallest
import Mathlib.Algebra.Order.Ring.Int
import Mathlib.Algebra.Order.Ring.Rat

/-
Property C45: the n-th nearest medoids.
-/

namespace Verif.KMedoids

open Spec

section

variable {K : Type} [LinearOrder K]

theorem nth_row (vmax : K) (eq : K → K → Bool) (l : List K) (nth : Nat)
    (h1 : 1 ≤ nth) (h3 : nth ≤ 3) (hl : nth ≤ l.length) (hv : ∀ v ∈ l, v < vmax)
    (ht : nth = 1 ∨ NoTies eq l) :
    let i := if nth = 1 then (first vmax l).1
      else if nth = 2 then (second vmax eq l).i2 else (third vmax eq l).i3
    let x := if nth = 1 then (first vmax l).2
      else if nth = 2 then (second vmax eq l).d2 else (third vmax eq l).d3
    (l.insertionSort (· ≤ ·))[nth - 1]? = some x ∧ l[i]? = some x := by
  have hne : l ≠ [] := by rintro rfl; simp at hl; omega
  rcases (by omega : nth = 1 ∨ nth = 2 ∨ nth = 3) with rfl | rfl | rfl
  · obtain ⟨h, -⟩ := first_spec vmax l hne hv
    simp only [if_true]
    rw [sort_smallest h]
    exact ⟨rfl, h.2.1⟩
  · obtain ⟨a, b⟩ := second_spec vmax eq l hl hv (ht.resolve_left (by omega))
    obtain ⟨rest, e⟩ := sort_two a b
    simp only [show (2 : Nat) ≠ 1 by omega, if_false, if_true]
    rw [e]
    exact ⟨rfl, b.2.1⟩
  · obtain ⟨a, b, c⟩ := third_spec vmax eq l hl hv (ht.resolve_left (by omega))
    obtain ⟨rest, e⟩ := sort_three a b c
    simp only [show (3 : Nat) ≠ 1 by omega, show (3 : Nat) ≠ 2 by omega, if_false]
    rw [e]
    exact ⟨rfl, c.2.1⟩

/-- **C45** (partial: no ties among the distances of a sample to the medoids for the second and third
nearest, and every distance below the greatest value).  For every table, list of medoids and `nth` up
to three and to the number of medoids, both helpers return one entry per sample, the distance is the
`nth` smallest and the position is the position of a medoid at that distance. -/
theorem C45_nth_partial (vmax : K) (eq : K → K → Bool) (d : Nat → Nat → K) (n : Nat) (ms : List Nat)
    (nth : Nat) (h1 : 1 ≤ nth) (h3 : nth ≤ 3) (hk : nth ≤ ms.length)
    (hv : ∀ o, o < n → ∀ m ∈ ms, d m o < vmax)
    (ht : nth = 1 ∨ ∀ o, o < n → NoTies eq (dists d ms o)) :
    ∃ is ds, nthIndices vmax eq d n ms nth = some is ∧ nthDistances vmax eq d n ms nth = some ds ∧
      is.length = n ∧ ds.length = n ∧
      ∀ o, o < n → ∃ (i m : Nat) (x : K), is[o]? = some i ∧ ds[o]? = some x ∧
        ((dists d ms o).insertionSort (· ≤ ·))[nth - 1]? = some x ∧ ms[i]? = some m ∧ d m o = x := by
  have hne : ms ≠ [] := by rintro rfl; simp at hk; omega
  have key : ∀ o, o < n → _ := fun o ho => nth_row vmax eq (dists d ms o) nth h1 h3
    (by simpa [dists] using hk)
    (by
      intro v hv'
      simp only [dists, List.mem_map] at hv'
      obtain ⟨m, hm, rfl⟩ := hv'
      exact hv o ho m hm)
    (ht.imp id fun h => h o ho)
  refine ⟨(List.range n).map fun o => if nth = 1 then (first vmax (dists d ms o)).1
      else if nth = 2 then (second vmax eq (dists d ms o)).i2 else (third vmax eq (dists d ms o)).i3,
    (List.range n).map fun o => if nth = 1 then (first vmax (dists d ms o)).2
      else if nth = 2 then (second vmax eq (dists d ms o)).d2 else (third vmax eq (dists d ms o)).d3,
    ?_, ?_, by simp, by simp, ?_⟩
  · rw [nthIndices, if_neg (by omega), if_neg hne]
    rcases (by omega : nth = 1 ∨ nth = 2 ∨ nth = 3) with rfl | rfl | rfl
    · simp only [if_true, nearestIndices, if_neg hne]; rfl
    · simp only [show (2 : Nat) ≠ 1 by omega, if_false, if_true]; rfl
    · simp only [show (3 : Nat) ≠ 1 by omega, show (3 : Nat) ≠ 2 by omega, if_false, if_true]; rfl
  · rw [nthDistances, if_neg (by omega), if_neg hne]
    rcases (by omega : nth = 1 ∨ nth = 2 ∨ nth = 3) with rfl | rfl | rfl
    · simp only [if_true, nearestDistances, if_neg hne]; rfl
    · simp only [show (2 : Nat) ≠ 1 by omega, if_false, if_true]; rfl
    · simp only [show (3 : Nat) ≠ 1 by omega, show (3 : Nat) ≠ 2 by omega, if_false, if_true]; rfl
  · intro o ho
    obtain ⟨a, b⟩ := key o ho
    rw [dists, List.getElem?_map, Option.map_eq_some_iff] at b
    obtain ⟨m, hm, e⟩ := b
    refine ⟨_, m, _, ?_, ?_, a, hm, e⟩
    · simp only [List.getElem?_map, List.getElem?_range ho, Option.map_some]; rfl
    · simp only [List.getElem?_map, List.getElem?_range ho, Option.map_some]

/-- The nearest medoid is the first of the medoids at the smallest distance, ties or not: this is what
`predict` returns. -/
theorem C45_predict (vmax : K) (d : Nat → Nat → K) (n : Nat) (ms : List Nat) (hk : ms ≠ [])
    (hv : ∀ o, o < n → ∀ m ∈ ms, d m o < vmax) :
    ∃ is, nearestIndices vmax d n ms = some is ∧ is.length = n ∧
      ∀ o, o < n → ∃ (i m : Nat), is[o]? = some i ∧ ms[i]? = some m ∧
        (∀ m' ∈ ms, d m o ≤ d m' o) ∧ ∀ (j m' : Nat), j < i → ms[j]? = some m' → d m o < d m' o := by
  refine ⟨_, if_neg hk, by simp, fun o ho => ?_⟩
  obtain ⟨⟨-, a, b⟩, c⟩ := first_spec vmax (dists d ms o) (by simpa [dists] using hk) (by
      intro v hv'
      simp only [dists, List.mem_map] at hv'
      obtain ⟨m, hm, rfl⟩ := hv'
      exact hv o ho m hm)
  have a' := a
  rw [dists, List.getElem?_map, Option.map_eq_some_iff] at a'
  obtain ⟨m, hm, e⟩ := a'
  refine ⟨_, m, by simp only [List.getElem?_map, List.getElem?_range ho, Option.map_some]; rfl, hm, ?_,
    ?_⟩
  · intro m' hm'
    obtain ⟨j, hj, rfl⟩ := List.mem_iff_getElem.1 hm'
    rw [e]
    exact b j _ (by simp) (by simp [dists, List.getElem?_eq_getElem hj])
  · intro j m' hj hm'
    rw [e]
    exact c j _ hj (by simp [dists, hm'])

/-- Requests for the 0-th nearest, for more than the number of medoids and for more than the third
nearest are rejected. -/
theorem C45_rejected (vmax : K) (eq : K → K → Bool) (d : Nat → Nat → K) (n : Nat) (ms : List Nat)
    (nth : Nat) :
    (nthIndices vmax eq d n ms nth = none ↔ nth = 0 ∨ ms.length < nth ∨ 3 < nth) ∧
      (nthDistances vmax eq d n ms nth = none ↔ nth = 0 ∨ ms.length < nth ∨ 3 < nth) := by
  have hne : ¬(nth = 0 ∨ ms.length < nth) → ms ≠ [] := by
    rintro h rfl
    simp at h
  unfold nthIndices nthDistances
  by_cases h : nth = 0 ∨ ms.length < nth
  · simp only [if_pos h, true_iff]
    tauto
  · simp only [if_neg h, if_neg (hne h), nearestIndices, nearestDistances]
    rcases (by omega : nth = 1 ∨ nth = 2 ∨ nth = 3 ∨ 3 < nth) with rfl | rfl | rfl | h4
    · simp [hne h]
    · simp; omega
    · simp; omega
    · have a1 : nth ≠ 1 := by omega
      have a2 : nth ≠ 2 := by omega
      have a3 : nth ≠ 3 := by omega
      simp [a1, a2, a3, h4]

end

/-- Four medoids at the distances 7, 3, 9 and 5 of sample 0: the second nearest is position 3. -/
example : nthIndices (1000 : ℤ) (fun a b => decide (a = b)) (fun m _ => [7, 3, 9, 5].getD m 0) 1
    [0, 1, 2, 3] 2 = some [3] ∧
    NoTies (fun a b : ℤ => decide (a = b)) (dists (fun m _ => [7, 3, 9, 5].getD m 0) [0, 1, 2, 3] 0) := by
  refine ⟨by decide +kernel, ?_⟩
  have e : dists (fun m _ => ([7, 3, 9, 5] : List ℤ).getD m 0) [0, 1, 2, 3] 0 = [7, 3, 9, 5] := by
    decide +kernel
  rw [e]
  intro i j x y hij hx hy
  have hi := lt_of_some hx
  have hj := lt_of_some hy
  simp only [List.length_cons, List.length_nil] at hi hj
  rcases (by omega : i = 0 ∨ i = 1 ∨ i = 2 ∨ i = 3) with rfl | rfl | rfl | rfl <;>
  rcases (by omega : j = 0 ∨ j = 1 ∨ j = 2 ∨ j = 3) with rfl | rfl | rfl | rfl <;>
  simp at hij hx hy <;> subst hx hy <;> simp

/-- With ties the statement is false: two medoids at the distance 1 of a sample, the helpers report the
greatest value as the second distance and position 0, the nearest medoid itself, as second nearest. -/
theorem C45_ties_counterexample :
    let d : Nat → Nat → ℤ := fun _ _ => 1
    nthDistances 1000 (fun a b => decide (a = b)) d 1 [0, 1] 2 = some [1000] ∧
      nthIndices 1000 (fun a b => decide (a = b)) d 1 [0, 1] 2 = some [0] ∧
      nthIndices 1000 (fun a b => decide (a = b)) d 1 [0, 1] 1 = some [0] ∧
      ((dists d [0, 1] 0).insertionSort (· ≤ ·))[1]? = some 1 := by
  decide +kernel

end Verif.KMedoids
