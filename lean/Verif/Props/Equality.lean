import Verif.Model.Equality
import Mathlib.Order.WithBot
import Mathlib.Tactic.Linarith
import Mathlib.Tactic.NormNum

/-
C109: the comparisons the library is built on.  What `common::equality` decides on integral values of
different types and on floating values, and what the membership tests return.
-/

namespace Verif.Equality

open Verif.NonFinite Verif.MachineInt Verif.Sorting

/-! ### The order of floating values -/

/-- A floating value other than NaN as an element of the ordered set with the two infinities. -/
def extended {F : Type} : Flt F → Option (WithBot (WithTop F))
  | .nan => none
  | .neg => some ⊥
  | .fin v => some ((v : WithTop F) : WithBot (WithTop F))
  | .pos => some ((⊤ : WithTop F) : WithBot (WithTop F))

section Order

variable {F : Type} [LinearOrder F]

/-- **C109.** `<=` on floating values is the order with the two infinities at the ends, and false as
soon as one side is NaN. -/
theorem C109_le (a b : Flt F) :
    a ≤ b ↔ ∃ x y, extended a = some x ∧ extended b = some y ∧ x ≤ y := by
  change Flt.le a b = true ↔ _
  cases a <;> cases b <;> simp [Flt.le, extended]

/-- **C109.** `<` likewise. -/
theorem C109_lt (a b : Flt F) :
    a < b ↔ ∃ x y, extended a = some x ∧ extended b = some y ∧ x < y := by
  change Flt.lt a b = true ↔ _
  cases a <;> cases b <;> simp [Flt.lt, extended]
  exact WithBot.coe_lt_coe.2 (WithTop.coe_lt_top _)

/-- **C109.** `==` likewise. -/
theorem C109_ieee (a b : Flt F) :
    ieeeEq a b = true ↔ ∃ x, extended a = some x ∧ extended b = some x := by
  cases a <;> cases b <;> simp [ieeeEq, extended]
  exact eq_comm

end Order

/-! ### `common::equality` on floating values -/

section Floating

variable {F : Type} [Field F] [LinearOrder F] [IsStrictOrderedRing F]

/-- **C109.** `common::equality` holds of two floating values exactly when both are finite and their
distance is at most the epsilon: it is never true of an infinity or of NaN, not even compared with
itself. -/
theorem C109_equality (eps : F) (a b : Flt F) :
    eqFlt eps a b = true ↔ ∃ x y, a = .fin x ∧ b = .fin y ∧ |x - y| ≤ eps := by
  simp only [eqFlt, decide_eq_true_eq]
  change Flt.le _ _ = true ↔ _
  cases a <;> cases b <;> simp [Flt.gap, Flt.sub, Flt.abs, Flt.le]
  rw [abs_sub_comm]

/-- **C109.** A value is equal to itself exactly when it is finite. -/
theorem C109_self (eps : F) (he : 0 ≤ eps) (a : Flt F) :
    eqFlt eps a a = true ↔ ∃ x, a = .fin x := by
  rw [C109_equality]
  constructor
  · rintro ⟨x, _, h, _⟩; exact ⟨x, h⟩
  · rintro ⟨x, h⟩; exact ⟨x, x, h, h, by simpa⟩

/-- **C109.** The order of the arguments does not matter. -/
theorem C109_symm (eps : F) (a b : Flt F) : eqFlt eps a b = eqFlt eps b a := by
  rw [Bool.eq_iff_iff, C109_equality, C109_equality]
  constructor <;> rintro ⟨x, y, h1, h2, h⟩ <;> exact ⟨y, x, h2, h1, by rwa [abs_sub_comm]⟩

/-- Any two neighbours are equal in the sense of `common::equality`. -/
def Linked (eps : F) : F → List F → Prop
  | _, [] => True
  | a, b :: l => eqFlt eps (.fin a) (.fin b) = true ∧ Linked eps b l

/-- **C109.** The ends of a chain of equal values are at most as many epsilons apart as the chain has
steps. -/
theorem C109_chain (eps : F) (l : List F) (a : F) (h : Linked eps a l) :
    |a - l.getLastD a| ≤ l.length * eps := by
  induction l generalizing a with
  | nil => simp
  | cons b l ih =>
    obtain ⟨h1, h2⟩ := h
    obtain ⟨x, y, hx, hy, h1⟩ := (C109_equality ..).1 h1
    cases hx; cases hy
    have e : (b :: l).getLastD a = l.getLastD b := by cases l <;> rfl
    rw [e]
    have := ih b h2
    have t := abs_sub_le a b (l.getLastD b)
    push_cast [List.length_cons]
    linarith

/-- **C109.** And every such distance occurs: the relation is not transitive, its closure joins all
finite values that are a multiple of the epsilon apart. -/
theorem C109_chain_sharp (eps : F) (he : 0 ≤ eps) (a : F) (n : Nat) :
    ∃ l, l.length = n ∧ Linked eps a l ∧ l.getLastD a = a + n * eps := by
  induction n generalizing a with
  | zero => exact ⟨[], rfl, trivial, by simp⟩
  | succ n ih =>
    obtain ⟨l, h1, h2, h3⟩ := ih (a + eps)
    refine ⟨(a + eps) :: l, by simp [h1], ⟨?_, h2⟩, ?_⟩
    · rw [C109_equality]
      exact ⟨a, a + eps, rfl, rfl, by rw [abs_sub_comm]; simp [abs_of_nonneg he]⟩
    · have e : ((a + eps) :: l).getLastD a = l.getLastD (a + eps) := by cases l <;> rfl
      rw [e, h3]; push_cast; ring

/-- **C109.** Values from 2 on: the neighbours of such a floating value are at least `2 * eps` away
(`eps` is the distance from 1 to the next value), so between multiples of `2 * eps` the comparison is
exact. -/
theorem C109_coarse (eps : F) (he : 0 < eps) (m n : ℤ) :
    eqFlt eps (.fin (m * (2 * eps))) (.fin (n * (2 * eps))) = true ↔ m = n := by
  rw [C109_equality]
  constructor
  · rintro ⟨x, y, hx, hy, h⟩
    cases hx; cases hy
    by_contra hne
    have h1 : (1 : F) ≤ |(m : F) - n| := by
      have : (1 : ℤ) ≤ |m - n| := Int.one_le_abs (sub_ne_zero.2 hne)
      exact_mod_cast this
    rw [← sub_mul, abs_mul, abs_of_pos (by linarith : (0 : F) < 2 * eps)] at h
    nlinarith
  · rintro rfl
    exact ⟨_, _, rfl, rfl, by simpa using he.le⟩

/-- **C109.** Small values: all values of magnitude at most half the epsilon are equal to each other
and to zero, whatever their ratio. -/
theorem C109_small (eps a b : F) (ha : |a| ≤ eps / 2) (hb : |b| ≤ eps / 2) :
    eqFlt eps (.fin a) (.fin b) = true := by
  rw [C109_equality]
  refine ⟨a, b, rfl, rfl, ?_⟩
  have ha := abs_le.1 ha
  have hb := abs_le.1 hb
  exact abs_le.2 ⟨by linarith, by linarith⟩

end Floating

/-! ### Membership -/

theorem findIf_eq_length {α : Type*} (p : α → Bool) (l : List α) :
    findIf p l = l.length ↔ ∀ a ∈ l, p a = false := by
  induction l with
  | nil => simp [findIf]
  | cons a l ih =>
    cases h : p a <;> simp [findIf, h, ih]

/-- **C109.** `is_element_in`: the value is found exactly when it is one of the range, and is not
NaN; infinities are found. -/
theorem C109_is_element_in {F : Type} [LinearOrder F] (l : List (Flt F)) (x : Flt F) :
    isElementIn l x = true ↔ x ≠ .nan ∧ x ∈ l := by
  simp only [isElementIn, Bool.not_eq_true', decide_eq_false_iff_not, findIf_eq_length]
  push Not
  constructor
  · rintro ⟨y, hy, h⟩
    simp only [Bool.not_eq_false] at h
    cases x <;> cases y <;> simp_all [ieeeEq]
  · rintro ⟨h1, h2⟩
    refine ⟨x, h2, ?_⟩
    cases x <;> simp_all [ieeeEq]

/-- **C109.** `is_element_not_in` is the opposite. -/
theorem C109_is_element_not_in {F : Type} [LinearOrder F] (l : List (Flt F)) (x : Flt F) :
    isElementNotIn l x = !isElementIn l x := by
  simp [isElementNotIn, isElementIn]

/-- **C109.** `is_element_in_first`: the value is found exactly when it is finite and the range has a
finite value within the epsilon of it. -/
theorem C109_is_element_in_first {F V : Type} [Field F] [LinearOrder F] [IsStrictOrderedRing F]
    (eps : F) (l : List (Flt F × V)) (x : Flt F) :
    isElementInFirst eps l x = true ↔
      ∃ v w r, x = .fin v ∧ (Flt.fin w, r) ∈ l ∧ |v - w| ≤ eps := by
  simp only [isElementInFirst, Bool.not_eq_true', decide_eq_false_iff_not, findIf_eq_length]
  push Not
  constructor
  · rintro ⟨⟨y, r⟩, hy, h⟩
    simp only [ne_eq, Bool.not_eq_false] at h
    obtain ⟨v, w, hv, hw, h'⟩ := (C109_equality ..).1 h
    subst hw
    exact ⟨v, w, r, hv, hy, h'⟩
  · rintro ⟨v, w, r, hv, hw, h⟩
    refine ⟨_, hw, ?_⟩
    simp only [ne_eq, Bool.not_eq_false]
    exact (C109_equality ..).2 ⟨v, w, hv, rfl, h⟩

/-- **C109.** `is_element_not_in_first` is the opposite. -/
theorem C109_is_element_not_in_first {F V : Type} [Field F] [LinearOrder F] [IsStrictOrderedRing F]
    (eps : F) (l : List (Flt F × V)) (x : Flt F) :
    isElementNotInFirst eps l x = !isElementInFirst eps l x := by
  simp [isElementNotInFirst, isElementInFirst]

/-- **C109.** The two membership tests disagree both ways: infinity is an element of a range that
holds it, but not a first component of a pair of a range that holds it; a value next to an element is
no element, but a first component. -/
theorem C109_membership_counterexample :
    isElementIn [Flt.fin (1 : ℚ), .pos] .pos = true ∧
      isElementInFirst (1 / 100) [(Flt.fin (1 : ℚ), 0), (.pos, 0)] .pos = false ∧
      isElementIn [Flt.fin (1 : ℚ)] (.fin (101 / 100)) = false ∧
      isElementInFirst (1 / 100) [(Flt.fin (1 : ℚ), 0)] (.fin (101 / 100)) = true := by
  decide +kernel

/-! ### `common::equality` on integral values -/

/-- The values of a type. -/
def InRange (t : IntType) (a : ℤ) : Prop :=
  if t.signed then -2 ^ (t.bits - 1) ≤ a ∧ a < 2 ^ (t.bits - 1) else 0 ≤ a ∧ a < 2 ^ t.bits

theorem InRange.promoted {t : IntType} {a : ℤ} (h : InRange t a) (hb : 0 < t.bits) :
    InRange t.promoted a := by
  obtain ⟨n, s⟩ := t
  unfold IntType.promoted
  split
  · rename_i hn
    simp only at hn hb
    have h1 : (2 : ℤ) ^ n ≤ 2 ^ 31 := pow_le_pow_right₀ (by norm_num) (by omega)
    have h2 : (2 : ℤ) ^ (n - 1) ≤ 2 ^ 31 := pow_le_pow_right₀ (by norm_num) (by omega)
    cases s <;> simp only [InRange, if_true, Bool.false_eq_true, if_false] at h ⊢ <;> norm_num <;>
      constructor <;> linarith
  · exact h

theorem promoted_pos {t : IntType} (hb : 0 < t.bits) : 0 < t.promoted.bits := by
  unfold IntType.promoted; split <;> simp_all

theorem InRange.wider {t u : IntType} {a : ℤ} (h : InRange t a) (hs : t.signed = u.signed)
    (hb : t.bits ≤ u.bits) : InRange u a := by
  obtain ⟨n, s⟩ := t
  obtain ⟨m, r⟩ := u
  simp only at hs hb
  subst hs
  have h1 : (2 : ℤ) ^ n ≤ 2 ^ m := pow_le_pow_right₀ (by norm_num) hb
  have h2 : (2 : ℤ) ^ (n - 1) ≤ 2 ^ (m - 1) := pow_le_pow_right₀ (by norm_num) (by omega)
  cases s <;> simp only [InRange, if_true, Bool.false_eq_true, if_false] at h ⊢ <;>
      constructor <;> linarith

theorem convert_inRange {t : IntType} {a : ℤ} (h : InRange t a) (hb : 0 < t.bits) :
    t.convert a = a := by
  obtain ⟨n, s⟩ := t
  cases s
  · simp only [InRange, Bool.false_eq_true, if_false] at h
    simp only [IntType.convert, Bool.false_eq_true, if_false]
    exact Int.emod_eq_of_lt h.1 h.2
  · simp only [InRange, if_true] at h
    simp only [IntType.convert, if_true]
    simp only at hb
    obtain ⟨m, rfl⟩ : ∃ m, n = m + 1 := ⟨n - 1, by omega⟩
    simp only [Nat.add_sub_cancel] at h
    have e : ((2 ^ (m + 1) : Nat) : ℤ) = 2 * 2 ^ m := by push_cast; ring
    exact Int.bmod_eq_of_le (by rw [e]; omega) (by rw [e]; omega)

theorem commonType_comm (t u : IntType) : commonType t u = commonType u t := by
  unfold commonType
  generalize t.promoted = t
  generalize u.promoted = u
  obtain ⟨n, s⟩ := t
  obtain ⟨m, r⟩ := u
  cases s <;> cases r <;> simp only [Bool.false_eq_true, Bool.true_eq_false, if_true, if_false] <;>
    (repeat' split) <;> first | rfl | (congr 1; omega) | omega

theorem commonType_pos {t u : IntType} (ht : 0 < t.bits) (hu : 0 < u.bits) :
    0 < (commonType t u).bits := by
  have h1 := promoted_pos ht
  have h2 := promoted_pos hu
  unfold commonType
  dsimp only
  (repeat' split) <;> assumption

/-- A value fits into the common type, unless it is negative and the common type is unsigned. -/
theorem InRange.common {t u : IntType} {a : ℤ} (ht : 0 < t.bits) (h : InRange t a)
    (hs : (commonType t u).signed = true ∨ 0 ≤ a) : InRange (commonType t u) a := by
  have h1 := h.promoted ht
  have h0 := promoted_pos ht
  unfold commonType at hs ⊢
  dsimp only at hs ⊢
  generalize t.promoted = t at *
  generalize u.promoted = u at *
  clear h
  split
  · rename_i e
    split
    · exact h1.wider e (by omega)
    · exact h1
  · rename_i e
    rw [if_neg e] at hs
    split
    · rename_i e1
      rw [if_pos e1] at hs
      split
      · rename_i e2
        rw [if_pos e2] at hs
        have eu : u.signed = false := by revert e; rw [e1]; cases u.signed <;> simp
        have ha : 0 ≤ a := by
          rcases hs with hs | hs
          · rw [eu] at hs; simp at hs
          · exact hs
        simp only [InRange, e1, if_true] at h1
        simp only [InRange, eu, Bool.false_eq_true, if_false]
        have : (2 : ℤ) ^ (t.bits - 1) ≤ 2 ^ u.bits := pow_le_pow_right₀ (by norm_num) (by omega)
        exact ⟨ha, by linarith⟩
      · exact h1
    · rename_i e1
      split
      · exact h1
      · rename_i e2
        have et : t.signed = false := by simpa using e1
        have eu : u.signed = true := by revert e; rw [et]; cases u.signed <;> simp
        simp only [InRange, et, Bool.false_eq_true, if_false] at h1
        simp only [InRange, eu, if_true]
        have : (2 : ℤ) ^ t.bits ≤ 2 ^ (u.bits - 1) := pow_le_pow_right₀ (by norm_num) (by omega)
        have : (0 : ℤ) < 2 ^ (u.bits - 1) := by positivity
        exact ⟨by linarith, by linarith⟩

/-- **C109.** Integral values: `common::equality` is equality of the values when the common type is
signed or neither value is negative, in particular for values of one type. -/
theorem C109_integral {t u : IntType} {a b : ℤ} (ht : 0 < t.bits) (hu : 0 < u.bits)
    (ha : InRange t a) (hb : InRange u b)
    (hs : (commonType t u).signed = true ∨ (0 ≤ a ∧ 0 ≤ b)) :
    equalityInt t u a b = true ↔ a = b := by
  have h0 := commonType_pos ht hu
  have h1 := convert_inRange (ha.common (u := u) ht (hs.imp id (·.1))) h0
  have h2 := convert_inRange (commonType_comm u t ▸ hb.common (u := t) hu
    (by rw [commonType_comm]; exact hs.imp id (·.2)) : InRange (commonType t u) b) h0
  simp [equalityInt, h1, h2]

/-- **C109.** Values of one type. -/
theorem C109_integral_same {t : IntType} {a b : ℤ} (ht : 0 < t.bits)
    (ha : InRange t a) (hb : InRange t b) : equalityInt t t a b = true ↔ a = b := by
  refine C109_integral ht ht ha hb ?_
  cases hs : t.promoted.signed
  · have h1 := ha.promoted ht
    have h2 := hb.promoted ht
    simp only [InRange, hs, Bool.false_eq_true, if_false] at h1 h2
    exact Or.inr ⟨h1.1, h2.1⟩
  · refine Or.inl ?_
    simp [commonType, hs]

/-- **C109.** A negative value compared with a value of an unsigned type that is at least as wide (a
sample index, a count): the two are equal when they differ by `2 ^ bits`. -/
theorem C109_integral_mixed {t u : IntType} {a b : ℤ} (ht : 0 < t.bits) (hu : 0 < u.bits)
    (ha : InRange t a) (hb : InRange u b) (hs : (commonType t u).signed = false) (hn : a < 0)
    (hb0 : 0 ≤ b) :
    equalityInt t u a b = true ↔ b = a + 2 ^ (commonType t u).bits := by
  have h0 := commonType_pos ht hu
  have h2 := convert_inRange (commonType_comm u t ▸ hb.common (u := t) hu (Or.inr hb0) :
    InRange (commonType t u) b) h0
  have h1 := ha.promoted ht
  -- the left operand is signed and at most as wide
  have hw : -2 ^ (commonType t u).bits ≤ a := by
    have hts : t.promoted.signed = true := by
      by_contra hc
      simp only [InRange, Bool.not_eq_true] at hc h1
      rw [hc] at h1
      simp only [Bool.false_eq_true, if_false] at h1
      omega
    have hbits : t.promoted.bits ≤ (commonType t u).bits := by
      unfold commonType
      dsimp only
      rw [hts]
      (repeat' split) <;> omega
    simp only [InRange, hts, if_true] at h1
    have : (2 : ℤ) ^ (t.promoted.bits - 1) ≤ 2 ^ (commonType t u).bits :=
      pow_le_pow_right₀ (by norm_num) (by omega)
    linarith
  have e : (commonType t u).convert a = a + 2 ^ (commonType t u).bits := by
    simp only [IntType.convert, hs, Bool.false_eq_true, if_false]
    generalize (2 : ℤ) ^ (commonType t u).bits = N at *
    rw [← Int.add_emod_right, Int.emod_eq_of_lt] <;> omega
  simp only [equalityInt, h2, e, decide_eq_true_eq]
  exact eq_comm

/-- **C109.** `inequality` is the negation. -/
theorem C109_inequality (t u : IntType) (a b : ℤ) :
    inequalityInt t u a b = true ↔ ¬ equalityInt t u a b = true := by
  simp [inequalityInt]

/-- **C109.** `common::equality(-1, std::numeric_limits<std::size_t>::max())` is true, and so is
`common::equality(-1, 4294967295u)`; compared as 16-bit values the same bits differ. -/
theorem C109_mixed_counterexample :
    equalityInt ⟨32, true⟩ ⟨64, false⟩ (-1) (2 ^ 64 - 1) = true ∧
      equalityInt ⟨32, true⟩ ⟨32, false⟩ (-1) 4294967295 = true ∧
      equalityInt ⟨16, true⟩ ⟨16, false⟩ (-1) 65535 = false := by
  decide +kernel

/-! Non-vacuity. -/

example : eqFlt (1 / 100 : ℚ) (.fin 1) (.fin (201 / 200)) = true ∧
    eqFlt (1 / 100 : ℚ) (.fin 1) (.fin (203 / 200)) = false ∧
    eqFlt (1 / 100 : ℚ) .pos .pos = false := by decide +kernel

example : Linked (1 / 100 : ℚ) 1 [101 / 100, 51 / 50] := by
  refine ⟨?_, ?_, trivial⟩ <;> decide +kernel

example : |(1 / 300 : ℚ)| ≤ (1 / 100) / 2 ∧ |(-1 / 200 : ℚ)| ≤ (1 / 100) / 2 := by
  constructor <;> norm_num [abs_le]

example : InRange ⟨8, true⟩ (-3) ∧ InRange ⟨16, false⟩ 7 ∧
    (commonType ⟨8, true⟩ ⟨16, false⟩).signed = true ∧
    (commonType ⟨32, true⟩ ⟨64, false⟩).signed = false := by
  norm_num [InRange, commonType, IntType.promoted]

end Verif.Equality
