import Mathlib.Order.Defs.LinearOrder

/-
Specification vocabulary for the sorting routines, independent of the algorithms.
-/

namespace Verif.Sorting

variable {K : Type} [LinearOrder K]

/-- `a` is not larger than `b`, up to the equality test `eqv` of the library. -/
def LeE (eqv : K → K → Bool) (a b : K) : Prop := a ≤ b ∨ eqv a b = true

/-- What the proofs need of the library's equality test: it is reflexive, and being "not larger
up to equality" is inherited by smaller values.  Both exact equality and `|b - a| <= eps`
satisfy it. -/
structure GoodEq (eqv : K → K → Bool) : Prop where
  refl : ∀ a, eqv a a = true
  mono : ∀ a b c, a ≤ b → LeE eqv b c → LeE eqv a c

/-- Position `p` of `idx` splits the range: nothing larger before, nothing smaller after. -/
def SplitAt (le : K → K → Prop) (key : Nat → K) (idx : List Nat) (p : Nat) : Prop :=
  ∃ x, idx[p]? = some x ∧
    (∀ i y, i < p → idx[i]? = some y → le (key y) (key x)) ∧
    (∀ i y, p < i → idx[i]? = some y → le (key x) (key y))

end Verif.Sorting
