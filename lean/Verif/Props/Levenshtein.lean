import Verif.Lemmas.Levenshtein

/-
Property C57: levenshtein_distance.
-/

namespace Verif.Levenshtein

variable {α : Type} [DecidableEq α]

/-- **C57.** For every pair of sequences the two-row programme makes no out-of-range access and
returns the least number of single insertions, deletions and substitutions that turn one sequence
into the other. -/
theorem C57_edit_distance (left right : List α) :
    ∃ n, levenshtein left right = some n ∧ IsEditDistance left right n :=
  ⟨_, levenshtein_eq left right, isEditDistance_dist left right⟩

/-- **C57**, metric: symmetric, zero exactly on equal sequences, triangle inequality. -/
theorem C57_metric :
    (∀ l r : List α, levenshtein l r = levenshtein r l) ∧
    (∀ l r : List α, levenshtein l r = some 0 ↔ l = r) ∧
    (∀ l m r : List α, ∀ u v w, levenshtein l r = some u → levenshtein l m = some v →
      levenshtein m r = some w → u ≤ v + w) := by
  have hsymm : ∀ {n : Nat} {l r : List α}, Align n l r → Align n r l := by
    intro n l r h
    induction h with
    | nil => exact .nil
    | ins b _ ih => exact ih.del b
    | del a _ ih => exact ih.ins a
    | same a _ ih => exact ih.same a
    | subst a b _ ih => exact ih.subst b a
  refine ⟨?_, ?_, ?_⟩
  · intro l r
    rw [levenshtein_eq, levenshtein_eq]
    congr 1
    exact Nat.le_antisymm (dist_le_of_align (hsymm (align_dist r l)))
      (dist_le_of_align (hsymm (align_dist l r)))
  · intro l r
    rw [levenshtein_eq, Option.some.injEq]
    constructor
    · intro h
      have h1 := (align_dist l r).edits
      rw [h] at h1
      cases h1
      rfl
    · rintro rfl
      exact Nat.le_zero.1 (dist_le_of_align (Align.refl l))
  · intro l m r u v w hu hv hw
    rw [levenshtein_eq, Option.some.injEq] at hu hv hw
    subst hu hv hw
    obtain ⟨j, hj, h⟩ := (align_dist l m).trans (align_dist m r)
    exact Nat.le_trans (dist_le_of_align h) hj

/-- Concrete case: "kitten" and "sitting". -/
example : levenshtein "kitten".toList "sitting".toList = some 3 := by decide +kernel

end Verif.Levenshtein
