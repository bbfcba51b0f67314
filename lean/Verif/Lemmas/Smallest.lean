import Verif.Spec.KMedoids
import Mathlib.Tactic.Common
import Mathlib.Data.List.Sort

/-
The nearest, second and third nearest positions of a list give the beginning of the sorted list.
-/

namespace Verif.KMedoids

open Spec

variable {K : Type} [LinearOrder K]

theorem sort_smallest {l : List K} {i : Nat} {x : K} (h : Smallest l [] i x) :
    l.insertionSort (· ≤ ·) = x :: (l.eraseIdx i).insertionSort (· ≤ ·) := by
  have hi : i < l.length := by
    by_contra hn
    have := h.2.1
    rw [List.getElem?_eq_none (by omega)] at this
    cases this
  have hx : l[i] = x := by
    have := h.2.1
    rwa [List.getElem?_eq_getElem hi, Option.some.injEq] at this
  have hp : (l.insertionSort (· ≤ ·)).Perm (x :: (l.eraseIdx i).insertionSort (· ≤ ·)) := by
    refine (List.perm_insertionSort _ _).trans ?_
    refine List.Perm.trans ?_ (List.Perm.cons _ (List.perm_insertionSort _ _).symm)
    rw [← hx]
    exact (List.getElem_cons_eraseIdx_perm hi).symm
  refine List.Perm.eq_of_pairwise (le := (· ≤ ·)) (fun a b _ _ => le_antisymm)
    (List.pairwise_insertionSort _ _) ?_ hp
  rw [List.pairwise_cons]
  refine ⟨fun y hy => ?_, List.pairwise_insertionSort _ _⟩
  have hy' := (List.perm_insertionSort _ _).mem_iff.1 hy
  have hy'' := List.mem_of_mem_eraseIdx hy'
  obtain ⟨j, hj, rfl⟩ := List.mem_iff_getElem.1 hy''
  exact h.2.2 j _ (by simp) (List.getElem?_eq_getElem hj)

/-- Where the position `j` goes when position `i` is erased. -/
def shift (i j : Nat) : Nat := if j < i then j else j - 1

theorem shift_getElem? (l : List K) (i j : Nat) (h : j ≠ i) : (l.eraseIdx i)[shift i j]? = l[j]? := by
  unfold shift
  rw [List.getElem?_eraseIdx]
  split
  · rfl
  · rename_i hj
    rw [if_neg (by omega)]
    congr 1
    omega

theorem smallest_erase {l : List K} {skip : List Nat} {i j : Nat} {x : K} (hi : i ∉ skip)
    (h : Smallest l (i :: skip) j x) : Smallest (l.eraseIdx i) (skip.map (shift i)) (shift i j) x := by
  obtain ⟨h1, h2, h3⟩ := h
  simp only [List.mem_cons, not_or] at h1 h3
  refine ⟨?_, by rw [shift_getElem? _ _ _ h1.1]; exact h2, ?_⟩
  · intro hm
    obtain ⟨q, hq, e⟩ := List.mem_map.1 hm
    have hqi : q ≠ i := fun e' => hi (e' ▸ hq)
    have : q = j := by
      unfold shift at e
      have := h1.1
      split at e <;> split at e <;> omega
    exact h1.2 (this ▸ hq)
  · intro q y hq hy
    have hs : shift i (if q < i then q else q + 1) = q := by
      unfold shift
      by_cases hqi : q < i
      · rw [if_pos hqi, if_pos hqi]
      · rw [if_neg hqi, if_neg (by omega)]
        omega
    have hne : (if q < i then q else q + 1) ≠ i := by split <;> omega
    refine h3 (if q < i then q else q + 1) y ⟨hne, ?_⟩ ?_
    · intro hm
      apply hq
      rw [List.mem_map]
      exact ⟨_, hm, hs⟩
    · rw [← shift_getElem? l i _ hne, hs]
      exact hy

theorem sort_two {l : List K} {i1 i2 : Nat} {x1 x2 : K} (h1 : Smallest l [] i1 x1)
    (h2 : Smallest l [i1] i2 x2) : ∃ rest, l.insertionSort (· ≤ ·) = x1 :: x2 :: rest := by
  have h2' := smallest_erase (by simp) h2
  rw [sort_smallest h1, sort_smallest h2']
  exact ⟨_, rfl⟩

theorem sort_three {l : List K} {i1 i2 i3 : Nat} {x1 x2 x3 : K} (h1 : Smallest l [] i1 x1)
    (h2 : Smallest l [i1] i2 x2) (h3 : Smallest l [i1, i2] i3 x3) :
    ∃ rest, l.insertionSort (· ≤ ·) = x1 :: x2 :: x3 :: rest := by
  have hne : i1 ≠ i2 := by
    have := h2.1
    simp only [List.mem_singleton] at this
    omega
  have h2' := smallest_erase (by simp) h2
  have h3' := smallest_erase (by simpa using hne) h3
  simp only [List.map_cons, List.map_nil] at h3' h2'
  have h3'' := smallest_erase (by simp) h3'
  rw [sort_smallest h1, sort_smallest h2', sort_smallest h3'']
  exact ⟨_, rfl⟩

end Verif.KMedoids
