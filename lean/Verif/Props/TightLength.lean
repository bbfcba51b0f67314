import Verif.Model.TightLength
import Verif.Props.MachineInt
import Mathlib.Tactic.Linarith
import Mathlib.Algebra.Order.Ring.Defs
import Mathlib.Algebra.Order.Ring.Int

/-
C106: `make_tight_segment` with `LowerBoundAndLength`.
-/

namespace Verif.Bounds

open Verif.MachineInt (IntType)

/-- `r` is the greatest rise of a sequence: the greatest difference of a value to an earlier one (or to
itself). -/
def GreatestRise {K : Type} [LE K] [Sub K] (vals : List K) (r : K) : Prop :=
  (∃ (i j : Nat) (a b : K), i ≤ j ∧ vals[i]? = some a ∧ vals[j]? = some b ∧ b - a = r) ∧
  ∀ (i j : Nat) (a b : K), i ≤ j → vals[i]? = some a → vals[j]? = some b → b - a ≤ r

section Exact

variable {K : Type} [CommRing K] [LinearOrder K] [IsStrictOrderedRing K]

/-- What is known of the segment after at least one value. -/
structure TightInv (vals : List K) (s : SegLen K) : Prop where
  mem : s.first ∈ vals
  least : ∀ v ∈ vals, s.first ≤ v
  rise : GreatestRise vals s.length

theorem TightInv.nonneg {vals : List K} {s : SegLen K} (h : TightInv vals s) : 0 ≤ s.length := by
  obtain ⟨i, hi⟩ := List.mem_iff_getElem?.1 h.mem
  have := h.rise.2 i i _ _ (le_refl i) hi hi
  simpa using this

theorem tightStepLen_inv {vals : List K} {s : SegLen K} (h : TightInv vals s) (v : K) :
    TightInv (vals ++ [v]) (tightStepLen s v) := by
  have h0 := h.nonneg
  have old : ∀ (i : Nat) (a : K), vals[i]? = some a → (vals ++ [v])[i]? = some a := by
    intro i a hi
    rw [List.getElem?_append_left (List.getElem?_eq_some_iff.1 hi).1]
    exact hi
  have cases : ∀ (i : Nat) (a : K), (vals ++ [v])[i]? = some a →
      vals[i]? = some a ∨ (i = vals.length ∧ a = v) := by
    intro i a hi
    rcases lt_trichotomy i vals.length with hl | hl | hl
    · rw [List.getElem?_append_left hl] at hi
      exact Or.inl hi
    · subst hl
      simp at hi
      exact Or.inr ⟨rfl, hi.symm⟩
    · rw [List.getElem?_eq_none (by simp; omega)] at hi
      cases hi
  have lt_of : ∀ (i : Nat) (a : K), vals[i]? = some a → i < vals.length :=
    fun i a hi => (List.getElem?_eq_some_iff.1 hi).1
  have hlast : (vals ++ [v])[vals.length]? = some v := by simp
  unfold tightStepLen SegLen.lower SegLen.upper SegLen.updateLower SegLen.updateUpper
  by_cases h1 : v < s.first
  · rw [if_pos h1, if_neg (by simp only [gt_iff_lt, not_lt]; linarith)]
    refine ⟨by simp, ?_, ?_, ?_⟩
    · intro w hw
      rcases List.mem_append.1 hw with hw | hw
      · exact h1.le.trans (h.least w hw)
      · simp at hw
        exact hw ▸ le_refl _
    · obtain ⟨i, j, a, b, hij, hi, hj, hr⟩ := h.rise.1
      exact ⟨i, j, a, b, hij, old _ _ hi, old _ _ hj, hr⟩
    · intro i j a b hij hi hj
      rcases cases j b hj with hj' | ⟨hj', rfl⟩
      · rcases cases i a hi with hi | ⟨hi, rfl⟩
        · exact h.rise.2 i j a b hij hi hj'
        · have := lt_of j b hj'
          omega
      · rcases cases i a hi with hi | ⟨hi, rfl⟩
        · have := h.least a (List.mem_iff_getElem?.2 ⟨i, hi⟩)
          simp only
          linarith
        · simpa using h0
  · rw [if_neg h1]
    have h1 := not_lt.1 h1
    obtain ⟨i0, hi0⟩ := List.mem_iff_getElem?.1 h.mem
    have least : ∀ w ∈ vals ++ [v], s.first ≤ w := by
      intro w hw
      rcases List.mem_append.1 hw with hw | hw
      · exact h.least w hw
      · simp at hw
        exact hw ▸ h1
    by_cases h2 : v > s.first + s.length
    · rw [if_pos h2]
      refine ⟨List.mem_append_left _ h.mem, least, ?_, ?_⟩
      · exact ⟨i0, vals.length, s.first, v, (lt_of _ _ hi0).le, old _ _ hi0, hlast, rfl⟩
      · intro i j a b hij hi hj
        have ha := least a (List.mem_iff_getElem?.2 ⟨i, hi⟩)
        rcases cases j b hj with hj' | ⟨hj', rfl⟩
        · rcases cases i a hi with hi | ⟨hi, rfl⟩
          · have := h.rise.2 i j a b hij hi hj'
            simp only
            linarith
          · have := lt_of j b hj'
            omega
        · simp only
          linarith
    · rw [if_neg h2]
      have h2 := not_lt.1 h2
      refine ⟨List.mem_append_left _ h.mem, least, ?_, ?_⟩
      · obtain ⟨i, j, a, b, hij, hi, hj, hr⟩ := h.rise.1
        exact ⟨i, j, a, b, hij, old _ _ hi, old _ _ hj, hr⟩
      · intro i j a b hij hi hj
        have ha := least a (List.mem_iff_getElem?.2 ⟨i, hi⟩)
        rcases cases j b hj with hj' | ⟨hj', rfl⟩
        · rcases cases i a hi with hi | ⟨hi, rfl⟩
          · exact h.rise.2 i j a b hij hi hj'
          · have := lt_of j b hj'
            omega
        · linarith

theorem tightLength_first (vmax vlowest v : K) (hv : v ≤ vmax) (hl : vlowest ≤ 0) :
    tightStepLen ⟨vmax, vlowest⟩ v = ⟨v, 0⟩ ∨
      (vlowest = 0 ∧ tightStepLen ⟨vmax, vlowest⟩ v = ⟨v, vlowest⟩) := by
  unfold tightStepLen SegLen.lower SegLen.upper SegLen.updateLower SegLen.updateUpper
  have hs : (if v < (⟨vmax, vlowest⟩ : SegLen K).first then
      ({ (⟨vmax, vlowest⟩ : SegLen K) with first := v } : SegLen K) else ⟨vmax, vlowest⟩) = ⟨v, vlowest⟩ := by
    split
    · rfl
    · rename_i h
      rw [le_antisymm hv (not_lt.1 h)]
  simp only [hs]
  rcases hl.lt_or_eq with h | h
  · left
    rw [if_pos (by linarith)]
    simp
  · right
    rw [if_neg (by rw [h]; simp)]
    exact ⟨h, rfl⟩

theorem tightLength_inv (vmax vlowest : K) (hl : vlowest ≤ 0) :
    ∀ (vals : List K), vals ≠ [] → (∀ v ∈ vals, v ≤ vmax) →
      TightInv vals (tightLength vmax vlowest vals) := by
  intro vals
  induction vals using List.reverseRecOn with
  | nil => intro h; exact absurd rfl h
  | append_singleton vals v ih =>
    intro _ hm
    have hm' : ∀ w ∈ vals, w ≤ vmax := fun w hw => hm w (List.mem_append_left _ hw)
    unfold tightLength at *
    rw [List.foldl_append]
    simp only [List.foldl_cons, List.foldl_nil]
    by_cases hv : vals = []
    · subst hv
      have h0 : tightStepLen ⟨vmax, vlowest⟩ v = ⟨v, 0⟩ := by
        rcases tightLength_first vmax vlowest v (hm v (by simp)) hl with h | ⟨h0, h⟩
        · exact h
        · rw [h, h0]
      simp only [List.foldl_nil, List.nil_append, h0]
      refine ⟨by simp, by simp, ⟨0, 0, v, v, le_refl _, by simp, by simp, by simp⟩, ?_⟩
      intro i j a b hij hi hj
      have : a = v := by simpa using List.mem_iff_getElem?.2 ⟨i, hi⟩
      have : b = v := by simpa using List.mem_iff_getElem?.2 ⟨j, hj⟩
      simp_all
    · exact tightStepLen_inv (ih hv hm') v

/-- **C106**: what `make_tight_segment` gives with `LowerBoundAndLength` for a non-empty sequence of values
up to `vmax`: the lower bound is the least value, the length is the greatest rise of the sequence, and the
upper bound is never above all values. -/
theorem C106_lower_and_rise (vmax vlowest : K) (hl : vlowest ≤ 0) (vals : List K) (hne : vals ≠ [])
    (hm : ∀ v ∈ vals, v ≤ vmax) :
    (tightLength vmax vlowest vals).lower ∈ vals ∧
    (∀ v ∈ vals, (tightLength vmax vlowest vals).lower ≤ v) ∧
    GreatestRise vals (tightLength vmax vlowest vals).length ∧
    ∃ v ∈ vals, (tightLength vmax vlowest vals).upper ≤ v := by
  have h := tightLength_inv vmax vlowest hl vals hne hm
  refine ⟨h.mem, h.least, h.rise, ?_⟩
  obtain ⟨i, j, a, b, _, hi, hj, hr⟩ := h.rise.1
  refine ⟨b, List.mem_iff_getElem?.2 ⟨j, hj⟩, ?_⟩
  have := h.least a (List.mem_iff_getElem?.2 ⟨i, hi⟩)
  unfold SegLen.upper
  linarith

/-- **C106**: the segment reaches every value exactly when a least value comes before (or at) a greatest
value of the sequence. -/
theorem C106_tight_iff (vmax vlowest : K) (hl : vlowest ≤ 0) (vals : List K) (hne : vals ≠ [])
    (hm : ∀ v ∈ vals, v ≤ vmax) :
    (∀ v ∈ vals, v ≤ (tightLength vmax vlowest vals).upper) ↔
      ∃ (i j : Nat) (a b : K), i ≤ j ∧ vals[i]? = some a ∧ vals[j]? = some b ∧ ∀ v ∈ vals, a ≤ v ∧ v ≤ b := by
  have h := tightLength_inv vmax vlowest hl vals hne hm
  unfold SegLen.upper
  constructor
  · intro hu
    obtain ⟨i, j, a, b, hij, hi, hj, hr⟩ := h.rise.1
    have ha := h.least a (List.mem_iff_getElem?.2 ⟨i, hi⟩)
    have hb := hu b (List.mem_iff_getElem?.2 ⟨j, hj⟩)
    have hmem := h.mem
    -- a value above `b` would be above the upper bound
    refine ⟨i, j, a, b, hij, hi, hj, fun v hv => ⟨?_, ?_⟩⟩
    · obtain ⟨k, hk⟩ := List.mem_iff_getElem?.1 hmem
      rcases eq_or_lt_of_le ha with e | e
      · exact e ▸ h.least v hv
      · exfalso
        -- the greatest value is at most the upper bound, which is below `b`
        linarith
    · have := hu v hv
      linarith
  · rintro ⟨i, j, a, b, hij, hi, hj, hab⟩ v hv
    have h1 := h.rise.2 i j a b hij hi hj
    have h2 := (hab _ h.mem).1
    have h3 := (hab v hv).2
    have h4 := h.least a (List.mem_iff_getElem?.2 ⟨i, hi⟩)
    linarith

end Exact

/-! ### machine integers -/

open Verif.MachineInt in
theorem tightStepMachine_eq {t : IntType} (hb : 1 ≤ t.bits) {s : SegLen ℤ} {v : ℤ} (hv0 : t.min ≤ v)
    (hv : v ≤ t.max) (hf : t.min ≤ s.first) (hl : 0 ≤ s.length) (hu : s.first + s.length ≤ t.max)
    (hr : v - s.first ≤ t.max) :
    tightStepMachine t s v = some (tightStepLen s v) ∧
      (tightStepLen s v).first = min s.first v ∧ 0 ≤ (tightStepLen s v).length ∧
      (tightStepLen s v).first + (tightStepLen s v).length ≤ t.max := by
  have hmax := max_le_promoted t
  have hmin : t.promoted.min ≤ t.min := by
    unfold IntType.promoted
    split
    · rename_i hb
      unfold IntType.min
      have h1 : (2 : ℤ) ^ (t.bits - 1) ≤ 2 ^ 31 := pow_le_pow_right₀ (by norm_num) (by omega)
      simp only [if_true]
      split <;> omega
    · rfl
  unfold tightStepMachine tightStepLen upperMachine SegLen.lower SegLen.upper SegLen.updateLower SegLen.updateUpper
  by_cases h1 : v < s.first
  · simp only [if_pos h1]
    rw [result_of_le (by omega) (by omega)]
    simp only [Option.bind_eq_bind, Option.bind_some]
    rw [if_neg (by omega), if_neg (by omega)]
    exact ⟨rfl, by simp only; omega, hl, by simp only; omega⟩
  · simp only [if_neg h1]
    rw [result_of_le (by omega) (by omega)]
    simp only [Option.bind_eq_bind, Option.bind_some]
    by_cases h2 : v > s.first + s.length
    · have h0 := min_nonpos t
      simp only [if_pos h2]
      rw [result_of_le (by omega) (by omega)]
      simp only [Option.bind_some]
      rw [convert_of_le hb (by omega) hr]
      exact ⟨rfl, by omega, by omega, by omega⟩
    · simp only [if_neg h2]
      exact ⟨trivial, by omega, hl, hu⟩

theorem tightMachine_fold {t : IntType} (hb : 1 ≤ t.bits) :
    ∀ (vals : List ℤ) (s : SegLen ℤ), (∀ v ∈ vals, t.min ≤ v ∧ v ≤ t.max) →
      (∀ v ∈ vals, ∀ w ∈ vals, w - v ≤ t.max) → (∀ w ∈ vals, w - s.first ≤ t.max) →
      t.min ≤ s.first → 0 ≤ s.length → s.first + s.length ≤ t.max →
      vals.foldlM (tightStepMachine t) s = some (vals.foldl tightStepLen s) := by
  intro vals
  induction vals with
  | nil => intros; rfl
  | cons v vals ih =>
    intro s hv hr hs hf hl hu
    obtain ⟨h1, h2, h3, h4⟩ := tightStepMachine_eq hb (hv v (by simp)).1 (hv v (by simp)).2 hf hl hu
      (hs v (by simp))
    rw [List.foldlM_cons, h1]
    simp only [Option.bind_eq_bind, Option.bind_some, List.foldl_cons]
    refine ih _ (fun w hw => hv w (by simp [hw])) (fun w hw z hz => hr w (by simp [hw]) z (by simp [hz])) ?_ ?_
      h3 h4
    · intro w hw
      have a := hs w (by simp [hw])
      have b := hr v (by simp) w (by simp [hw])
      rw [h2]
      omega
    · have := (hv v (by simp)).1
      rw [h2]
      omega

open Verif.MachineInt in
/-- **C106** with machine integers: when no difference of two values is above the greatest value of the type,
and the type is unsigned or narrower than `int` or the first value is not negative, no overflow happens and
the segment is the one of `C106_lower_and_rise`. -/
theorem C106_machine_partial {t : IntType} (hb : 1 ≤ t.bits) (v : ℤ) (vals : List ℤ)
    (hv : ∀ w ∈ v :: vals, t.min ≤ w ∧ w ≤ t.max)
    (hr : ∀ w ∈ v :: vals, ∀ z ∈ v :: vals, z - w ≤ t.max)
    (hw : t.signed = false ∨ t.bits < 32 ∨ 0 ≤ v) :
    tightMachine t (v :: vals) = some (tightLength t.max t.min (v :: vals)) := by
  have hv0 := hv v (by simp)
  have h0 := min_nonpos t
  have hm0 := max_nonneg t
  have hmax := max_le_promoted t
  have hmin : t.promoted.min ≤ v + t.min := by
    rcases hw with hw | hw | hw
    · have : t.min = 0 := by simp [IntType.min, hw]
      have := min_nonpos t.promoted
      omega
    · have : t.promoted.min = - 2 ^ 31 := by simp [IntType.promoted, hw, IntType.min]
      have h1 : (2 : ℤ) ^ (t.bits - 1) ≤ 2 ^ 30 := pow_le_pow_right₀ (by norm_num) (by omega)
      have : - 2 ^ 30 ≤ t.min := by
        unfold IntType.min
        split <;> omega
      omega
    · by_cases hb : t.bits < 32
      · have : t.promoted.min = - 2 ^ 31 := by simp [IntType.promoted, hb, IntType.min]
        have h1 : (2 : ℤ) ^ (t.bits - 1) ≤ 2 ^ 30 := pow_le_pow_right₀ (by norm_num) (by omega)
        have : - 2 ^ 30 ≤ t.min := by
          unfold IntType.min
          split <;> omega
        omega
      · simp only [IntType.promoted, if_neg hb]
        omega
  have hs : (if v < (⟨t.max, t.min⟩ : SegLen ℤ).first then
      (SegLen.updateLower (⟨t.max, t.min⟩ : SegLen ℤ) v) else ⟨t.max, t.min⟩) = ⟨v, t.min⟩ := by
    split
    · rfl
    · rename_i h
      rw [le_antisymm hv0.2 (not_lt.1 h)]
  have hlen : tightStepLen ⟨t.max, t.min⟩ v = ⟨v, 0⟩ := by
    rcases tightLength_first t.max t.min v hv0.2 h0 with h | ⟨h0, h⟩
    · exact h
    · rw [h, h0]
  have hstep : tightStepMachine t ⟨t.max, t.min⟩ v = some ⟨v, 0⟩ := by
    unfold tightStepMachine upperMachine
    simp only [hs]
    rw [result_of_le hmin (by omega)]
    simp only [Option.bind_eq_bind, Option.bind_some]
    have hp := min_nonpos t.promoted
    by_cases h : v > v + t.min
    · rw [if_pos h, result_of_le (by simp; omega) (by simp; omega)]
      simp only [Option.bind_some, sub_self]
      rw [convert_of_le hb (le_refl _) hm0]
    · rw [if_neg h]
      have : t.min = 0 := by omega
      rw [this]
  unfold tightMachine tightLength
  rw [List.foldlM_cons, List.foldl_cons, hstep, hlen]
  simp only [Option.bind_eq_bind, Option.bind_some]
  exact tightMachine_fold hb vals ⟨v, 0⟩ (fun w hw => hv w (by simp [hw]))
    (fun w hw z hz => hr w (by simp [hw]) z (by simp [hz])) (fun w hw => hr v (by simp) w (by simp [hw]))
    hv0.1 (le_refl _) (by simpa using hv0.2)

open Verif.MachineInt in
/-- **C106** is undefined behaviour for a signed type of at least 32 bits as soon as the first value is
negative: the upper bound that is compared with it is the sum of the value and the least value of the
type. -/
theorem C106_overflow_counterexample {t : IntType} (hb : 32 ≤ t.bits) (hs : t.signed = true) (v : ℤ)
    (hv : v < 0) (vals : List ℤ) : tightMachine t (v :: vals) = none := by
  have hm := max_nonneg t
  have hstep : tightStepMachine t ⟨t.max, t.min⟩ v = none := by
    unfold tightStepMachine upperMachine
    simp only [if_pos (show v < t.max by omega), SegLen.updateLower]
    have hp : t.promoted = t := by simp [IntType.promoted, show ¬ t.bits < 32 by omega]
    rw [hp]
    unfold IntType.result
    rw [if_pos hs, if_neg (by omega)]
    rfl
  unfold tightMachine
  rw [List.foldlM_cons, hstep]
  rfl

/-! ### what the other segment class does, and examples -/

/-- **C106** is false as a claim on both segment classes: for the values 1, 3, 0 the segment of the bounds is
tight, the one of the length ends at 2 and does not contain the 3. -/
theorem C106_not_tight_counterexample :
    tightSegment (127 : ℤ) (-128) [1, 3, 0] = ⟨0, 3⟩ ∧
    tightLength (127 : ℤ) (-128) [1, 3, 0] = ⟨0, 2⟩ ∧
    (tightLength (127 : ℤ) (-128) [1, 3, 0]).containsInt 3 = false ∧
    tightMachine ⟨8, true⟩ [1, 3, 0] = some ⟨0, 2⟩ := by
  decide

/-- **C106**: the two classes agree on `update_upper_bound`; `update_lower_bound` of `LowerBoundAndLength`
moves the upper bound along with the lower bound. -/
theorem C106_updates {K : Type} [AddCommGroup K] (s : SegLen K) (v : K) :
    (s.updateUpper v).lower = s.lower ∧ (s.updateUpper v).upper = v ∧
    (s.updateLower v).lower = v ∧ (s.updateLower v).upper = s.upper + (v - s.lower) ∧
    (s.toSeg.updateUpper v).lower = s.lower ∧ (s.toSeg.updateUpper v).upper = v ∧
    (s.toSeg.updateLower v).lower = v ∧ (s.toSeg.updateLower v).upper = s.upper := by
  unfold SegLen.updateUpper SegLen.updateLower SegLen.lower SegLen.upper SegLen.toSeg Seg.updateUpper
    Seg.updateLower SegLen.lower SegLen.upper
  simp only [true_and, and_true]
  constructor <;> abel

/-- The hypotheses of `C106_tight_iff` and of `C106_machine_partial` are met by a sequence whose least value
comes first, and the segment is tight. -/
example : tightLength (127 : ℤ) (-128) [-5, 3, 0, 9, 2] = ⟨-5, 14⟩ ∧
    tightMachine ⟨8, true⟩ [-5, 3, 0, 9, 2] = some ⟨-5, 14⟩ := by decide

example : tightMachine ⟨8, false⟩ [5, 200, 7] = some ⟨5, 195⟩ := by decide

example : tightMachine ⟨32, true⟩ [-1] = none := by decide

end Verif.Bounds
