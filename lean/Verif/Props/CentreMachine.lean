import Verif.Model.CentreMachine
import Verif.Props.Bounds
import Verif.Props.MachineInt

/-
C121: centre and size of a segment in machine arithmetic; C22 for `LowerBoundAndLength` with integral
values.
-/

namespace Verif.Bounds

open Verif.MachineInt

/-! ### arithmetic -/

theorem center_bounds (l u : ℤ) :
    2 * centerInt l u ≤ l + u ∧ l + u ≤ 2 * (centerInt l u + 1) ∧
      (0 ≤ l + u → 2 * centerInt l u + 1 ≥ l + u ∧ 0 ≤ centerInt l u) := by
  unfold centerInt
  split
  · have : (l + u).tdiv 2 = -((-(l + u)) / 2) := by
      rw [← Int.tdiv_eq_ediv_of_nonneg (by omega), Int.neg_tdiv]; omega
    rw [this]; omega
  · rw [Int.tdiv_eq_ediv_of_nonneg (by omega)]; omega

theorem convert_of_range {t : IntType} (hb : 1 ≤ t.bits) {z : ℤ} (h0 : t.min ≤ z) (h : z ≤ t.max) :
    t.convert z = z := by
  by_cases hz : 0 ≤ z
  · exact convert_of_le hb hz h
  · have hs : t.signed = true := by
      by_contra hs
      simp only [IntType.min, hs] at h0
      exact hz (by simpa using h0)
    simp only [IntType.convert, hs, if_true]
    simp only [IntType.min, IntType.max, hs, if_true] at h0 h
    obtain ⟨m, hm⟩ : ∃ m, t.bits = m + 1 := ⟨t.bits - 1, by omega⟩
    rw [hm] at h0 h ⊢
    simp only [Nat.add_sub_cancel] at h0 h
    have e : ((2 ^ (m + 1) : Nat) : ℤ) = 2 * 2 ^ m := by push_cast; ring
    exact Int.bmod_eq_of_le (by rw [e]; omega) (by rw [e]; omega)

/-- The greatest value of a promoted signed type. -/
theorem promoted_max_large {t : IntType} (hs : t.promoted.signed = true) : 2 ^ 31 - 1 ≤ t.promoted.max := by
  unfold IntType.promoted at hs ⊢
  split
  · simp [IntType.max]
  · rename_i hb
    simp only [hb, if_false] at hs
    simp only [IntType.max, hs, if_true]
    have : (2 : ℤ) ^ 31 ≤ 2 ^ (t.bits - 1) := pow_le_pow_right₀ (by norm_num) (by omega)
    omega

theorem centerMachine_signed {t r : IntType} (hs : t.promoted.signed = true) (l u : ℤ) :
    centerMachine t r l u =
      if t.promoted.min ≤ l + u ∧ l + u ≤ t.promoted.max then some (r.convert (centerInt l u)) else none := by
  have hm := min_signed hs
  have hl := promoted_max_large hs
  obtain ⟨h1, h2, h3⟩ := center_bounds l u
  have e : centerInt l u = if l + u < 0 then (l + u).tdiv 2 - 1 else (l + u).tdiv 2 := rfl
  unfold centerMachine
  rw [result_signed hs]
  split
  · rename_i h
    simp only [Option.bind_eq_bind, Option.bind_some]
    by_cases hn : l + u < 0
    · rw [if_pos hn] at e ⊢
      rw [← e, result_of_le (by omega) (by omega)]
      rfl
    · rw [if_neg hn] at e ⊢
      rw [← e]
  · rfl

/-- Types of at most 16 bits: all sums are far inside the range of `int`. -/
theorem narrow_range {t : IntType} (hb : t.bits ≤ 16) : t.promoted.signed = true ∧
    t.promoted.max = 2 ^ 31 - 1 ∧ t.promoted.min = -2 ^ 31 ∧ -2 ^ 15 ≤ t.min ∧ t.max ≤ 2 ^ 16 - 1 := by
  have e : t.promoted = ⟨32, true⟩ := by simp [IntType.promoted, show t.bits < 32 by omega]
  rw [e]
  have h1 : (2 : ℤ) ^ (t.bits - 1) ≤ 2 ^ 15 := pow_le_pow_right₀ (by norm_num) (by omega)
  have h2 : (2 : ℤ) ^ t.bits ≤ 2 ^ 16 := pow_le_pow_right₀ (by norm_num) (by omega)
  refine ⟨rfl, rfl, rfl, ?_, ?_⟩
  · unfold IntType.min; split <;> omega
  · unfold IntType.max; split <;> omega

theorem wide_promoted {t : IntType} (hb : 32 ≤ t.bits) : t.promoted = t := by
  simp [IntType.promoted, show ¬ t.bits < 32 by omega]

/-- Conversion of a value that is one below the least value of a signed type. -/
theorem convert_below {t : IntType} (hs : t.signed = true) (hb : 1 ≤ t.bits) :
    t.convert (t.min - 1) = t.max := by
  simp only [IntType.convert, IntType.min, IntType.max, hs, if_true]
  obtain ⟨m, hm⟩ : ∃ m, t.bits = m + 1 := ⟨t.bits - 1, by omega⟩
  rw [hm, Nat.add_sub_cancel]
  have e : ((2 ^ (m + 1) : Nat) : ℤ) = 2 * 2 ^ m := by push_cast; ring
  have hp : (1 : ℤ) ≤ 2 ^ m := one_le_pow₀ (by norm_num)
  rw [← Int.add_bmod_right, show -2 ^ m - 1 + ((2 ^ (m + 1) : Nat) : ℤ) = 2 ^ m - 1 by rw [e]; omega]
  exact Int.bmod_eq_of_le (by rw [e]; omega) (by rw [e]; omega)

/-- Conversion of a value that is at most one range above the greatest value of a signed type. -/
theorem convert_above {t : IntType} (hs : t.signed = true) (hb : 1 ≤ t.bits) {z : ℤ} (h : t.max < z)
    (h2 : z ≤ 2 * t.max + 1) : t.convert z = z - 2 ^ t.bits := by
  simp only [IntType.max, hs, if_true] at h h2
  simp only [IntType.convert, hs, if_true]
  obtain ⟨m, hm⟩ : ∃ m, t.bits = m + 1 := ⟨t.bits - 1, by omega⟩
  rw [hm] at h h2 ⊢
  rw [Nat.add_sub_cancel] at h h2
  have e : ((2 ^ (m + 1) : Nat) : ℤ) = 2 * 2 ^ m := by push_cast; ring
  have e2 : (2 : ℤ) ^ (m + 1) = 2 * 2 ^ m := by ring
  have hh := Int.add_bmod_right (z - 2 ^ (m + 1)) (2 ^ (m + 1))
  rw [show z - 2 ^ (m + 1) + ((2 ^ (m + 1) : Nat) : ℤ) = z by rw [e, e2]; omega] at hh
  rw [hh]
  exact Int.bmod_eq_of_le (by rw [e, e2]; omega) (by rw [e, e2]; omega)

/-! ### C121 -/

/-- **C121**, types of 8 and 16 bits: the centre is the exact value of C63, except that for signed types
the segment of the least value alone has the *greatest* value as its centre. -/
theorem C121_centre_narrow {t : IntType} (hb : 1 ≤ t.bits) (hb2 : t.bits ≤ 16) (s : Seg ℤ)
    (h1 : t.min ≤ s.lower) (h2 : s.lower ≤ s.upper) (h3 : s.upper ≤ t.max) :
    s.centroidMachine t = some (if t.signed = true ∧ s.upper = t.min then t.max
      else centerInt s.lower s.upper) := by
  obtain ⟨hs, e1, e2, h4, h5⟩ := narrow_range hb2
  have hm := min_nonpos t
  have hM := max_nonneg t
  obtain ⟨c1, c2, c3⟩ := center_bounds s.lower s.upper
  unfold Seg.centroidMachine
  rw [centerMachine_signed hs, if_pos (by rw [e1, e2]; omega)]
  congr 1
  split
  · rename_i h
    have hl : s.lower = t.min := by omega
    have : centerInt s.lower s.upper = t.min - 1 := by
      rw [hl, h.2]
      have hn : t.min < 0 := by
        have := min_signed h.1
        omega
      unfold centerInt
      rw [if_pos (by omega), show t.min + t.min = t.min * 2 by ring, Int.mul_tdiv_cancel _ (by norm_num)]
    rw [this]
    exact convert_below h.1 hb
  · rename_i h
    by_cases h0 : t.signed = true
    · exact convert_of_range hb (by have : s.upper ≠ t.min := fun hh => h ⟨h0, hh⟩; omega) (by omega)
    · have : t.min = 0 := by simp [IntType.min, h0]
      exact convert_of_range hb (by omega) (by omega)

/-- **C121**, signed types of 32 bits and more: the centre is the exact value of C63 when the sum of the
bounds is a value of the type, and the behaviour is undefined (signed overflow) otherwise. -/
theorem C121_centre_signed {t : IntType} (hb : 32 ≤ t.bits) (hs : t.signed = true) (s : Seg ℤ) :
    s.centroidMachine t = if t.min ≤ s.lower + s.upper ∧ s.lower + s.upper ≤ t.max then
      some (centerInt s.lower s.upper) else none := by
  have e := wide_promoted hb
  have hl := promoted_max_large (t := t) (by rw [e]; exact hs)
  have hm := min_signed hs
  rw [e] at hl
  obtain ⟨c1, c2, c3⟩ := center_bounds s.lower s.upper
  unfold Seg.centroidMachine
  rw [centerMachine_signed (by rw [e]; exact hs), e]
  split
  · rw [convert_of_range (by omega) (by omega) (by omega)]
  · rfl

/-- **C121**, unsigned types of 32 bits and more: the centre is the exact one when the sum of the bounds is
a value of the type; otherwise the sum wraps around and the centre is *below* the segment. -/
theorem C121_centre_unsigned {t : IntType} (hb : 32 ≤ t.bits) (hs : t.signed = false) (s : Seg ℤ)
    (h1 : 0 ≤ s.lower) (h2 : s.lower ≤ s.upper) (h3 : s.upper ≤ t.max) :
    ∃ c, s.centroidMachine t = some c ∧
      (s.lower + s.upper ≤ t.max → c = centerInt s.lower s.upper ∧ s.contains c = true) ∧
      (t.max < s.lower + s.upper → c = centerInt s.lower s.upper - 2 ^ (t.bits - 1) ∧ c < s.lower) := by
  have e := wide_promoted hb
  have hmax : t.max = 2 ^ t.bits - 1 := by simp [IntType.max, hs]
  have hmin : t.min = 0 := by simp [IntType.min, hs]
  obtain ⟨m, hm⟩ : ∃ m, t.bits = m + 1 := ⟨t.bits - 1, by omega⟩
  have e2 : (2 : ℤ) ^ t.bits = 2 * 2 ^ m := by rw [hm]; ring
  have e3 : (2 : ℤ) ^ (t.bits - 1) = 2 ^ m := by rw [hm, Nat.add_sub_cancel]
  have hp : (1 : ℤ) ≤ 2 ^ m := one_le_pow₀ (by norm_num)
  unfold Seg.centroidMachine centerMachine
  rw [e]
  have hr : t.result (s.lower + s.upper) = some ((s.lower + s.upper) % 2 ^ t.bits) := by
    simp [IntType.result, hs]
  have hc : centerInt s.lower s.upper = (s.lower + s.upper) / 2 := by
    unfold centerInt
    rw [if_neg (by omega), Int.tdiv_eq_ediv_of_nonneg (by omega)]
  rw [hr, hc]
  simp only [Option.bind_eq_bind, Option.bind_some]
  have h0 : 0 ≤ (s.lower + s.upper) % 2 ^ t.bits := Int.emod_nonneg _ (by omega)
  have hlt : (s.lower + s.upper) % 2 ^ t.bits < 2 ^ t.bits := Int.emod_lt_of_pos _ (by omega)
  rw [if_neg (by omega), Int.tdiv_eq_ediv_of_nonneg h0,
    convert_of_range (by omega) (by omega) (by omega)]
  refine ⟨_, rfl, fun h => ?_, fun h => ?_⟩
  · rw [Int.emod_eq_of_lt (by omega) (by omega)]
    refine ⟨rfl, (contains_iff s _).2 ⟨?_, ?_⟩⟩ <;> omega
  · have : (s.lower + s.upper) % 2 ^ t.bits = s.lower + s.upper - 2 * 2 ^ m := by
      rw [← Int.sub_emod_right, e2, Int.emod_eq_of_lt (by omega) (by omega)]
    rw [this, e3]
    omega

/-- **C121**, size, types of 8 and 16 bits: the exact value of C63 when it is a value of the type;
otherwise the value is reduced and the size is negative (signed types only, see
`C121_counterexamples`). -/
theorem C121_size_narrow {t : IntType} (hb : 2 ≤ t.bits) (hb2 : t.bits ≤ 16) (s : Seg ℤ)
    (h1 : t.min ≤ s.lower) (h2 : s.lower ≤ s.upper) (h3 : s.upper ≤ t.max) (h4 : t.min < s.upper) :
    ∃ d, s.toBoundMachine t = some d ∧
      (sizeInt s.lower s.upper ≤ t.max → d = sizeInt s.lower s.upper) ∧
      (t.max < sizeInt s.lower s.upper → t.signed = true → d = sizeInt s.lower s.upper - 2 ^ t.bits ∧ d < 0) ∧
      (t.signed = false → sizeInt s.lower s.upper ≤ t.max) := by
  obtain ⟨hs, e1, e2, h5, h6⟩ := narrow_range hb2
  have hc := C121_centre_narrow (by omega) hb2 s h1 h2 h3
  rw [if_neg (by omega)] at hc
  obtain ⟨c1, c2, c3⟩ := center_bounds s.lower s.upper
  have hm := min_nonpos t
  have hM := max_nonneg t
  unfold Seg.centroidMachine at hc
  unfold Seg.toBoundMachine sizeMachine
  rw [hc]
  simp only [Option.bind_eq_bind, Option.bind_some]
  rw [result_of_le (by rw [e2]; omega) (by rw [e1]; omega)]
  simp only [Option.bind_some]
  rw [result_of_le (by rw [e2]; omega) (by rw [e1]; omega)]
  simp only [Option.bind_some]
  refine ⟨_, rfl, fun h => ?_, fun h hh => ?_, fun h => ?_⟩
  · exact convert_of_range (by omega) (by unfold sizeInt at *; omega) h
  · have hn := min_signed hh
    have hp4 : (2 : ℤ) ^ 1 ≤ 2 ^ (t.bits - 1) := pow_le_pow_right₀ (by norm_num) (by omega)
    have hmax : t.max = 2 ^ (t.bits - 1) - 1 := by simp [IntType.max, hh]
    have hx : t.convert (1 + s.upper - centerInt s.lower s.upper) =
        1 + s.upper - centerInt s.lower s.upper - 2 ^ t.bits :=
      convert_above hh (by omega) h (by unfold sizeInt at h; omega)
    have hp : (2 : ℤ) ^ t.bits = 2 * t.max + 2 := by
      simp only [IntType.max, hh, if_true]
      rw [show t.bits = t.bits - 1 + 1 by omega, pow_succ, Nat.add_sub_cancel]
      ring
    refine ⟨hx, ?_⟩
    rw [hx, hp]
    unfold sizeInt at h
    omega
  · have hz : t.min = 0 := by simp [IntType.min, h]
    have h4 : (2 : ℤ) ^ 2 ≤ 2 ^ t.bits := pow_le_pow_right₀ (by norm_num) hb
    have hmax : t.max = 2 ^ t.bits - 1 := by simp [IntType.max, h]
    have := c3 (by omega)
    unfold sizeInt
    omega

/-- **C121**, size, signed types of 32 bits and more: the exact value of C63, or undefined: exactly when
the sum of the bounds, one more than the upper bound, or the size is no value of the type. -/
theorem C121_size_signed {t : IntType} (hb : 32 ≤ t.bits) (hs : t.signed = true) (s : Seg ℤ)
    (h1 : t.min ≤ s.lower) (h2 : s.lower ≤ s.upper) (h3 : s.upper ≤ t.max) :
    s.toBoundMachine t = if t.min ≤ s.lower + s.upper ∧ s.lower + s.upper ≤ t.max ∧ s.upper < t.max ∧
      sizeInt s.lower s.upper ≤ t.max then some (sizeInt s.lower s.upper) else none := by
  have ed : sizeInt s.lower s.upper = 1 + s.upper - centerInt s.lower s.upper := rfl
  have e := wide_promoted hb
  have hc := C121_centre_signed hb hs s
  have hm := min_signed hs
  have hM := max_nonneg t
  obtain ⟨c1, c2, c3⟩ := center_bounds s.lower s.upper
  unfold Seg.centroidMachine at hc
  unfold Seg.toBoundMachine sizeMachine
  rw [hc, e]
  by_cases hsum : t.min ≤ s.lower + s.upper ∧ s.lower + s.upper ≤ t.max
  · rw [if_pos hsum]
    simp only [Option.bind_eq_bind, Option.bind_some]
    rw [result_signed hs]
    by_cases hu : s.upper < t.max
    · rw [if_pos (by omega), Option.bind_some, result_signed hs]
      by_cases hz : sizeInt s.lower s.upper ≤ t.max
      · rw [if_pos (by unfold sizeInt at hz; omega), if_pos ⟨hsum.1, hsum.2, hu, hz⟩, Option.bind_some,
          convert_of_range (by omega) (by omega) (by omega), ed]
      · rw [if_neg (by unfold sizeInt at hz; omega), if_neg (by tauto)]
        rfl
    · rw [if_neg (by omega), if_neg (by tauto)]
      rfl
  · rw [if_neg hsum, if_neg (by tauto)]
    rfl

/-- **C121**, size, unsigned types of 32 bits and more: exact when the sum of the bounds is a value of the
type (also where `1 + upper` wraps around). -/
theorem C121_size_unsigned {t : IntType} (hb : 32 ≤ t.bits) (hs : t.signed = false) (s : Seg ℤ)
    (h1 : 0 ≤ s.lower) (h2 : s.lower ≤ s.upper) (h3 : s.lower + s.upper ≤ t.max) :
    s.toBoundMachine t = some (sizeInt s.lower s.upper) := by
  have e := wide_promoted hb
  obtain ⟨c, hc, hc2, -⟩ := C121_centre_unsigned hb hs s h1 h2 (by omega)
  rw [(hc2 h3).1] at hc
  obtain ⟨c1, c2, c3⟩ := center_bounds s.lower s.upper
  obtain ⟨c4, c5⟩ := c3 (by omega)
  have hmax : t.max = 2 ^ t.bits - 1 := by simp [IntType.max, hs]
  have hmin : t.min = 0 := by simp [IntType.min, hs]
  have hp : (2 : ℤ) ^ 32 ≤ 2 ^ t.bits := pow_le_pow_right₀ (by norm_num) hb
  unfold Seg.centroidMachine at hc
  unfold Seg.toBoundMachine sizeMachine
  rw [hc, e]
  simp only [IntType.result, hs, Bool.false_eq_true, if_false, Option.bind_eq_bind, Option.bind_some]
  rw [Int.emod_sub_emod, Int.emod_eq_of_lt (by omega) (by omega),
    convert_of_range (by omega) (by omega) (by omega)]
  rfl

/-- **C121**, what goes wrong at the ends of the types: the centre of `int8_t` [-128, -128] is 127, the size of
`int8_t` [-128, 127] is -127, the centre of `uint32_t` [4000000000, 4000000002] is 1852516353, the centre of
`int` [2000000000, 2000000002] and the size of `int` [0, 2147483647] are undefined. -/
theorem C121_counterexamples :
    (Seg.mk (-128 : ℤ) (-128)).centroidMachine ⟨8, true⟩ = some 127 ∧
    (Seg.mk (-128 : ℤ) 127).toBoundMachine ⟨8, true⟩ = some (-127) ∧
    (Seg.mk (4000000000 : ℤ) 4000000002).centroidMachine ⟨32, false⟩ = some 1852516353 ∧
    (Seg.mk (2000000000 : ℤ) 2000000002).centroidMachine ⟨32, true⟩ = none ∧
    (Seg.mk (0 : ℤ) 2147483647).toBoundMachine ⟨32, true⟩ = none := by
  decide

/-! ### segments with a lower bound and a length -/

/-- **C22**, `LowerBoundAndLength` with integral values (`_partial`: it does not contain its upper bound, see
`C22_segment_length_int_counterexample`): the segment holds the values from the lower bound to one below
the upper bound, so none when the length is 0; a segment that is not empty holds its lower bound and,
unless the sum of its first and last value is negative and even, its centre, which is the largest integer
not above the midpoint of the first and the last value. -/
theorem C22_segment_length_int_partial (s : SegLen ℤ) :
    (∀ v, s.containsInt v = true ↔ s.lower ≤ v ∧ v < s.upper) ∧
    (1 ≤ s.length → s.containsInt s.lower = true) ∧
    (1 ≤ s.length → 0 ≤ s.lower + (s.upper - 1) ∨ (s.lower + (s.upper - 1)) % 2 = 1 →
      s.containsInt s.centroidInt = true ∧ IsFloorMid s.lower (s.upper - 1) s.centroidInt) := by
  have key : ∀ v, s.containsInt v = true ↔ s.lower ≤ v ∧ v < s.upper := by
    intro v
    unfold SegLen.containsInt SegLen.lower SegLen.upper
    simp only [Bool.not_eq_true', Bool.or_eq_false_iff, decide_eq_false_iff_not]
    omega
  refine ⟨key, fun h => ?_, fun h hp => ?_⟩
  · rw [key]; unfold SegLen.lower SegLen.upper; omega
  · obtain ⟨⟨h1, h2⟩, h3, h4⟩ := (C63_centre_partial s.lower (s.upper - 1)
      (by unfold SegLen.lower SegLen.upper; omega)).1 hp
    have e : s.centroidInt = centerInt s.lower (s.upper - 1) := rfl
    rw [key, e]
    exact ⟨by omega, h1, h2⟩

/-- **C121**, `LowerBoundAndLength`, types of 8 and 16 bits: membership, centre and size are exact, without
exception, since they are computed with type `int`. -/
theorem C121_length_narrow {t : IntType} (hb2 : t.bits ≤ 16) (s : SegLen ℤ)
    (h1 : t.min ≤ s.first) (h2 : s.first ≤ t.max) (h3 : t.min ≤ s.length) (h4 : s.length ≤ t.max) :
    (∀ v, s.containsMachine t v = some (s.containsInt v)) ∧
    s.centroidMachine t = some s.centroidInt ∧
    s.toBoundMachine t = some (sizeInt s.lower (s.upper - 1)) := by
  obtain ⟨hs, e1, e2, h5, h6⟩ := narrow_range hb2
  have hP : t.promoted = ⟨32, true⟩ := by simp [IntType.promoted, show t.bits < 32 by omega]
  have hl : s.lastMachine t = some (s.first + s.length - 1) := by
    unfold SegLen.lastMachine
    rw [result_of_le (by omega) (by omega)]
    exact result_of_le (by omega) (by omega)
  obtain ⟨c1, c2, c3⟩ := center_bounds s.first (s.first + s.length - 1)
  have hc : centerMachine t t.promoted s.first (s.first + s.length - 1) =
      some (centerInt s.first (s.first + s.length - 1)) := by
    rw [centerMachine_signed hs, if_pos (by omega), convert_of_range (by rw [hP]; decide) (by omega) (by omega)]
  refine ⟨fun v => ?_, ?_, ?_⟩
  · unfold SegLen.containsMachine SegLen.containsInt
    by_cases hv : v < s.first
    · simp [hv]
    · simp [hv, hl]
  · unfold SegLen.centroidMachine SegLen.centroidInt
    rw [hl]
    exact hc
  · unfold SegLen.toBoundMachine sizeMachine
    rw [hl]
    simp only [Option.bind_eq_bind, Option.bind_some]
    rw [hc]
    simp only [Option.bind_some]
    rw [result_of_le (by omega) (by omega)]
    simp only [Option.bind_some]
    rw [result_of_le (by omega) (by omega)]
    simp only [Option.bind_some]
    rw [convert_of_range (by rw [hP]; decide) (by omega) (by omega)]
    rfl

/-- **C121**, `LowerBoundAndLength`, unsigned types of 32 bits and more: when the upper bound is a value of the
type and the segment is not empty, membership is exact. -/
theorem C121_length_unsigned {t : IntType} (hb : 32 ≤ t.bits) (hs : t.signed = false) (s : SegLen ℤ)
    (h1 : 0 ≤ s.first) (h3 : 0 ≤ s.length) (h4 : s.upper ≤ t.max) (h5 : 1 ≤ s.upper) (v : ℤ) :
    s.containsMachine t v = some (s.containsInt v) := by
  have e := wide_promoted hb
  have hmax : t.max = 2 ^ t.bits - 1 := by simp [IntType.max, hs]
  unfold SegLen.upper at h4 h5
  have hl : s.lastMachine t = some (s.first + s.length - 1) := by
    unfold SegLen.lastMachine
    simp only [e, IntType.result, hs, Bool.false_eq_true, if_false, Option.bind_eq_bind, Option.bind_some]
    rw [Int.emod_sub_emod, Int.emod_eq_of_lt (by omega) (by omega)]
  unfold SegLen.containsMachine SegLen.containsInt
  by_cases hv : v < s.first
  · simp [hv]
  · simp [hv, hl]

/-- **C121**, `LowerBoundAndLength`, signed types of 32 bits and more: a value below the lower bound is
rejected without further arithmetic; for the others membership is exact, or undefined: exactly when the upper
bound, or one less, is no value of the type. -/
theorem C121_length_signed {t : IntType} (hb : 32 ≤ t.bits) (hs : t.signed = true) (s : SegLen ℤ) (v : ℤ) :
    s.containsMachine t v = if v < s.lower then some false
      else if t.min < s.upper ∧ s.upper ≤ t.max then some (s.containsInt v) else none := by
  have e := wide_promoted hb
  have hl : s.lastMachine t =
      if t.min < s.upper ∧ s.upper ≤ t.max then some (s.first + s.length - 1) else none := by
    unfold SegLen.lastMachine SegLen.upper
    rw [e, result_signed hs]
    by_cases h1 : t.min ≤ s.first + s.length ∧ s.first + s.length ≤ t.max
    · rw [if_pos h1]
      simp only [Option.bind_eq_bind, Option.bind_some]
      rw [result_signed hs]
      by_cases h2 : t.min < s.first + s.length
      · rw [if_pos (by omega), if_pos (by omega)]
      · rw [if_neg (by omega), if_neg (by omega)]
    · rw [if_neg h1, if_neg (by omega)]
      rfl
  unfold SegLen.containsMachine SegLen.containsInt
  rw [hl]
  unfold SegLen.lower
  by_cases hv : v < s.first
  · simp [hv]
  · simp only [hv, if_false]
    by_cases h1 : t.min < s.upper ∧ s.upper ≤ t.max
    · simp [h1]
    · rw [if_neg h1, if_neg h1]; rfl

/-- **C121**, finding: for every unsigned type of 32 bits or more the empty segment
`LowerBoundAndLength(0, 0)` contains every value of the type. -/
theorem C121_empty_counterexample {t : IntType} (hb : 32 ≤ t.bits) (hs : t.signed = false) (v : ℤ)
    (h1 : 0 ≤ v) (h2 : v ≤ t.max) :
    (SegLen.mk (0 : ℤ) 0).containsMachine t v = some true ∧ (SegLen.mk (0 : ℤ) 0).containsInt v = false := by
  have e := wide_promoted hb
  have hmax : t.max = 2 ^ t.bits - 1 := by simp [IntType.max, hs]
  have hl : (SegLen.mk (0 : ℤ) 0).lastMachine t = some (2 ^ t.bits - 1) := by
    unfold SegLen.lastMachine
    simp only [e, IntType.result, hs, Bool.false_eq_true, if_false, Option.bind_eq_bind, Option.bind_some]
    rw [Int.emod_sub_emod, ← Int.add_emod_right, Int.emod_eq_of_lt (by omega) (by omega)]
    congr 1
  constructor
  · unfold SegLen.containsMachine
    rw [if_neg (by simp only []; omega), hl]
    simp only [Option.bind_eq_bind, Option.bind_some]
    rw [decide_eq_false (by omega)]
    rfl
  · by_contra hh
    have := ((C22_segment_length_int_partial (SegLen.mk (0 : ℤ) 0)).1 v).1 (by simpa using hh)
    simp only [SegLen.lower, SegLen.upper] at this
    omega

/-- The hypotheses are met by ordinary segments. -/
example : (Seg.mk (-3 : ℤ) 4).centroidMachine ⟨8, true⟩ = some 0 ∧
    (Seg.mk (-3 : ℤ) 4).toBoundMachine ⟨16, true⟩ = some 5 ∧
    (Seg.mk (-4 : ℤ) 3).centroidMachine ⟨32, true⟩ = some (-1) ∧
    (Seg.mk (10 : ℤ) 4294967285).toBoundMachine ⟨32, false⟩ = some 2147483639 ∧
    (SegLen.mk (100 : ℤ) 100).centroidMachine ⟨8, true⟩ = some 149 ∧
    (SegLen.mk (-5 : ℤ) 4).centroidMachine ⟨64, true⟩ = some (-4) ∧
    (SegLen.mk (3 : ℤ) 4).containsMachine ⟨64, false⟩ 6 = some true ∧
    (SegLen.mk (3 : ℤ) 4).containsMachine ⟨64, false⟩ 7 = some false := by
  decide

end Verif.Bounds
