import Verif.Lemmas.NthDistinct
import Verif.Props.KMedoids

/-
Property C45 when several medoids are at the same distance of a sample.
-/

namespace Verif.KMedoids

open Spec

variable {K : Type} [LinearOrder K]

/-- **C45**, with ties: the n-th nearest distance is the n-th smallest of the different distances, and the
position is the first one with that distance.  When a sample has fewer than `nth` different distances the
result is the greatest value of the type and position 0.  (`eq` is exact on the distances: integral data,
or distances that are equal or more than the tolerance apart.) -/
theorem C45_ties (vmax : K) (eq : K → K → Bool) (d : Nat → Nat → K) (n : Nat) (ms : List Nat)
    (nth : Nat) (h1 : 1 ≤ nth) (h3 : nth ≤ 3) (hk : nth ≤ ms.length)
    (hv : ∀ o, o < n → ∀ m ∈ ms, d m o < vmax)
    (he : ∀ o, o < n → ∀ m ∈ ms, ∀ m' ∈ ms, (eq (d m o) (d m' o) = true ↔ d m o = d m' o)) :
    ∃ is ds, nthIndices vmax eq d n ms nth = some is ∧ nthDistances vmax eq d n ms nth = some ds ∧
      is.length = n ∧ ds.length = n ∧
      ∀ o, o < n →
        (∀ x, (distinct (dists d ms o))[nth - 1]? = some x →
          ds[o]? = some x ∧ is[o]? = some ((dists d ms o).idxOf x)) ∧
        ((distinct (dists d ms o)).length < nth → ds[o]? = some vmax ∧ is[o]? = some 0) := by
  have hne : ms ≠ [] := by rintro rfl; simp at hk; omega
  have key : ∀ o, o < n → DInv vmax (dists d ms o) (third vmax eq (dists d ms o)) := by
    intro o ho
    refine third_distinct vmax eq _ ?_ ?_
    · intro v hv'
      obtain ⟨m, hm, rfl⟩ := List.mem_map.1 hv'
      exact hv o ho m hm
    · intro v hv' w hw'
      obtain ⟨m, hm, rfl⟩ := List.mem_map.1 hv'
      obtain ⟨m', hm', rfl⟩ := List.mem_map.1 hw'
      exact he o ho m hm m' hm'
  have two : ∀ l : List K, (⟨(third vmax eq l).i1, (third vmax eq l).d1, (third vmax eq l).i2,
      (third vmax eq l).d2⟩ : Rec K) = second vmax eq l := fun l => thirdLoop_two eq l 0 _
  have one : ∀ l : List K, (third vmax eq l).i1 = (first vmax l).1 ∧ (third vmax eq l).d1 = (first vmax l).2 := by
    intro l
    have h := second_first vmax eq l 0 ⟨0, vmax, 0, vmax⟩
    have h2 := two l
    rw [show second vmax eq l = secondLoop eq 0 l ⟨0, vmax, 0, vmax⟩ from rfl] at h2
    rw [← h2] at h
    exact h
  have fin : ∀ (f : Nat → Nat × K), (∀ o, o < n → f o = slot vmax (dists d ms o) (distinct (dists d ms o)) (nth - 1)) →
      ∀ o, o < n →
        (∀ x, (distinct (dists d ms o))[nth - 1]? = some x →
          ((List.range n).map fun o => (f o).2)[o]? = some x ∧
            ((List.range n).map fun o => (f o).1)[o]? = some ((dists d ms o).idxOf x)) ∧
        ((distinct (dists d ms o)).length < nth →
          ((List.range n).map fun o => (f o).2)[o]? = some vmax ∧
            ((List.range n).map fun o => (f o).1)[o]? = some 0) := by
    intro f hf o ho
    simp only [List.getElem?_map, List.getElem?_range ho, Option.map_some, hf o ho]
    constructor
    · intro x hx
      rw [slot_some hx]
      exact ⟨rfl, rfl⟩
    · intro h
      rw [slot_none (List.getElem?_eq_none (by omega))]
      exact ⟨rfl, rfl⟩
  unfold nthIndices nthDistances
  simp only [if_neg (show ¬(nth = 0 ∨ ms.length < nth) by omega), if_neg hne]
  rcases (by omega : nth = 1 ∨ nth = 2 ∨ nth = 3) with rfl | rfl | rfl
  · simp only [if_true, nearestIndices, nearestDistances, if_neg hne]
    refine ⟨_, _, rfl, rfl, by simp, by simp, fin (fun o => first vmax (row d ms o)) fun o ho => ?_⟩
    rw [← (key o ho).one, (one _).1, (one _).2]
    rfl
  · simp only [if_true, if_neg (show ¬(2 : Nat) = 1 by omega)]
    refine ⟨_, _, rfl, rfl, by simp, by simp, fin (fun o => ((second vmax eq (row d ms o)).i2,
      (second vmax eq (row d ms o)).d2)) fun o ho => ?_⟩
    rw [← (key o ho).two]
    have := two (dists d ms o)
    change (((second vmax eq (dists d ms o)).i2, (second vmax eq (dists d ms o)).d2) : Nat × K) = _
    rw [← this]
  · simp only [if_true, if_neg (show ¬(3 : Nat) = 1 by omega), if_neg (show ¬(3 : Nat) = 2 by omega)]
    refine ⟨_, _, rfl, rfl, by simp, by simp, fin (fun o => ((third vmax eq (row d ms o)).i3,
      (third vmax eq (row d ms o)).d3)) fun o ho => ?_⟩
    exact (key o ho).three

/-- The case of `C45_ties`: distances 4, 2, 4, 2, 7 have the different values 2, 4, 7, at the positions 1,
0 and 4; with the medoids 1 and 3 only there is no second nearest. -/
example :
    let d : Nat → Nat → ℤ := fun m _ => [4, 2, 4, 2, 7].getD m 0
    let eq : ℤ → ℤ → Bool := fun a b => decide (a = b)
    distinct (dists d [0, 1, 2, 3, 4] 0) = [2, 4, 7] ∧
    nthDistances 100 eq d 1 [0, 1, 2, 3, 4] 2 = some [4] ∧ nthIndices 100 eq d 1 [0, 1, 2, 3, 4] 2 = some [0] ∧
    nthDistances 100 eq d 1 [0, 1, 2, 3, 4] 3 = some [7] ∧ nthIndices 100 eq d 1 [0, 1, 2, 3, 4] 3 = some [4] ∧
    nthDistances 100 eq d 1 [1, 3] 2 = some [100] ∧ nthIndices 100 eq d 1 [1, 3] 2 = some [0] := by
  decide +kernel

end Verif.KMedoids
