/-
Specification of the edit distance, independent of the dynamic programme: single edits anywhere in
the sequence.
-/

namespace Verif.Levenshtein

variable {α : Type}

/-- One insertion, deletion or substitution at any position. -/
inductive Edit : List α → List α → Prop
  | insert (p s : List α) (a : α) : Edit (p ++ s) (p ++ a :: s)
  | delete (p s : List α) (a : α) : Edit (p ++ a :: s) (p ++ s)
  | substitute (p s : List α) (a b : α) : Edit (p ++ a :: s) (p ++ b :: s)

/-- `Edits n l r`: `n` single edits lead from `l` to `r`. -/
inductive Edits : Nat → List α → List α → Prop
  | refl (l : List α) : Edits 0 l l
  | step {n : Nat} {l m r : List α} : Edit l m → Edits n m r → Edits (n + 1) l r

/-- `n` is the least number of edits that lead from `l` to `r`. -/
def IsEditDistance (l r : List α) (n : Nat) : Prop :=
  Edits n l r ∧ ∀ k, Edits k l r → n ≤ k

end Verif.Levenshtein
