import Mathlib.Data.List.Perm.Basic
import Mathlib.Order.Defs.LinearOrder

/-
Specification for the neighbour buffers, independent of the model.
-/

namespace Verif.Buffer

variable {D : Type} [LinearOrder D]

/-- `kept` is a selection of `k` nearest candidates out of `all`: the candidates of `all` are those
of `kept` and some others (with multiplicity), none of the others is closer than one of `kept`, and
`kept` has as many candidates as possible, at most `k`. -/
def IsKNearest (k : Nat) (kept all : List (Nat × D)) : Prop :=
  (∃ rest, (kept ++ rest).Perm all ∧ ∀ a ∈ kept, ∀ b ∈ rest, a.2 ≤ b.2) ∧
    kept.length = min k all.length

end Verif.Buffer
