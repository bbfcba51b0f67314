import Verif.Model.NonFinite
import Verif.Model.MachineInt

/-
Model of `common::equality` and of the membership tests built on it (common/Utils.hpp:411-428,
624-683).
-/

namespace Verif.Equality

open Verif.NonFinite Verif.MachineInt

/-- The common type of two integral operands of `==` (the usual arithmetic conversions, applied by
`a == b` in common/Utils.hpp:413-414): both are promoted; the wider type wins, and an unsigned type
that is at least as wide as the other one wins.  Types of the same width and signedness (`long` and
`long long`) are not told apart. -/
def commonType (t u : IntType) : IntType :=
  let t := t.promoted
  let u := u.promoted
  if t.signed = u.signed then (if t.bits < u.bits then u else t)
  else if t.signed then (if t.bits ≤ u.bits then u else t)
  else (if u.bits ≤ t.bits then t else u)

/-- `common::equality` on a value of type `t` and a value of type `u`, both integral
(common/Utils.hpp:411-414). -/
def equalityInt (t u : IntType) (a b : ℤ) : Bool :=
  decide ((commonType t u).convert a = (commonType t u).convert b)

/-- `common::inequality` (common/Utils.hpp:425-428) on integral values. -/
def inequalityInt (t u : IntType) (a b : ℤ) : Bool := !equalityInt t u a b

/-- `a == b` on floating values: false when either side is NaN.  The two zeros are one value here. -/
def ieeeEq {F : Type} [DecidableEq F] : Flt F → Flt F → Bool
  | .fin a, .fin b => decide (a = b)
  | .neg, .neg => true
  | .pos, .pos => true
  | _, _ => false

/-- `std::find_if`: the position of the first element that satisfies the predicate, or the length
of the range. -/
def findIf {α : Type*} (p : α → Bool) : List α → Nat
  | [] => 0
  | a :: l => if p a then 0 else findIf p l + 1

/-- `is_element_in` (common/Utils.hpp:624-631) on floating values: `std::find` compares with `==`. -/
def isElementIn {F : Type} [DecidableEq F] (l : List (Flt F)) (x : Flt F) : Bool :=
  !decide (findIf (fun y => ieeeEq y x) l = l.length)

/-- `is_element_not_in` (common/Utils.hpp:633-640). -/
def isElementNotIn {F : Type} [DecidableEq F] (l : List (Flt F)) (x : Flt F) : Bool :=
  decide (findIf (fun y => ieeeEq y x) l = l.length)

/-- `is_element_in_first` (common/Utils.hpp:652-662): compares with `common::equality`. -/
def isElementInFirst {F V : Type} [Lattice F] [AddGroup F] [DecidableLE F] (eps : F)
    (l : List (Flt F × V)) (x : Flt F) : Bool :=
  !decide (findIf (fun p => eqFlt eps x p.1) l = l.length)

/-- `is_element_not_in_first` (common/Utils.hpp:674-683). -/
def isElementNotInFirst {F V : Type} [Lattice F] [AddGroup F] [DecidableLE F] (eps : F)
    (l : List (Flt F × V)) (x : Flt F) : Bool :=
  decide (findIf (fun p => eqFlt eps x p.1) l = l.length)

end Verif.Equality
