import Verif.Model.Silhouette
import Verif.Model.Rounding

/-
common/math/heuristics/SilhouetteMethod.hpp on floating data with rounded arithmetic: the functions of
Model/Silhouette.lean for a value type whose operations round.
-/

namespace Verif.Silhouette

open Verif.Rounding (Rounding)

/-- A floating type with its infinity (`ElementType` of SilhouetteMethod.hpp:78, 146, 224). -/
def Flt {p : Nat} (_ : Rounding p) : Type := WithTop ℝ

variable {p : Nat} {R : Rounding p}

noncomputable instance : LinearOrder (Flt R) := inferInstanceAs (LinearOrder (WithTop ℝ))

/-- `+=` (SilhouetteMethod.hpp:100, 168) and the additions of `std::accumulate` (267). -/
noncomputable instance : Add (Flt R) := ⟨fun a b => WithTop.map₂ (fun x y => R.rnd (x + y)) a b⟩

noncomputable instance : Zero (Flt R) := ⟨((0 : ℝ) : WithTop ℝ)⟩

noncomputable instance : One (Flt R) := ⟨((1 : ℝ) : WithTop ℝ)⟩

/-- A finite value. -/
def Flt.mk (R : Rounding p) (x : ℝ) : Flt R := (x : WithTop ℝ)

/-- The other operations: a quotient by infinity is 0, a count is converted to the type
(SilhouetteMethod.hpp:110, 181, 247-251, 267). -/
noncomputable def fltOps (R : Rounding p) : Ops (Flt R) where
  sub a b := WithTop.map₂ (fun x y => R.rnd (x - y)) a b
  div a b :=
    match a, b with
    | some x, some y => Flt.mk R (R.rnd (x / y))
    | some _, none => Flt.mk R 0
    | none, _ => (⊤ : WithTop ℝ)
  ofNat n := Flt.mk R (R.rnd n)
  inf := (⊤ : WithTop ℝ)

end Verif.Silhouette
