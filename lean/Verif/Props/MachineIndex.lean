import Verif.Lemmas.MachineIndex
import Verif.Spec.UnionFind

/-
Property C124: code that counts in an integral type chosen by the caller.
-/

namespace Verif.MachineInt

open Verif.Bounds

/-- `n` elements can be numbered in the type `t` with the increment after the last element defined: for
unsigned types and types narrower than `int` up to the number of nonnegative values, for `int` and wider
signed types up to the greatest value. -/
def Countable (t : IntType) (n : Nat) : Prop :=
  (n : ℤ) ≤ t.max + 1 ∧ (t.promoted.signed = true → (n : ℤ) ≤ t.promoted.max)

instance (t : IntType) (n : Nat) : Decidable (Countable t n) := inferInstanceAs (Decidable (_ ∧ _))

/-- **C124, mask.** `FeaturesMask(n)` holds `0, 1, ..., n - 1` exactly when `n` elements can be numbered. -/
theorem C124_mask {t : IntType} (hb : 1 ≤ t.bits) (n : Nat) :
    identityMask t n = some ((List.range n).map (fun i : Nat => (i : ℤ))) ↔ Countable t n := by
  have hmin := min_nonpos t
  have hmax := max_nonneg t
  have hz : t.convert 0 = 0 := convert_of_range hb hmin hmax
  have h := iota_iff hb n 0 hmin hmax
  simp only [zero_add] at h
  rw [identityMask, hz, h, Countable]
  constructor
  · rintro (rfl | h)
    · exact ⟨by push_cast; omega, fun _ => by have := max_nonneg t.promoted; push_cast; omega⟩
    · exact h
  · exact Or.inr

/-- **C124, mask, counterexamples.** 257 features with 8 bit indices: the last index is 0 again.  In 8 bits
with a sign 129 features already end with -128.  For `int` the mask of the greatest length that has only
representable indices is undefined (the increment after the last element).  With braces instead of
parentheses the mask holds the single index `n`. -/
theorem C124_mask_counterexamples :
    ((identityMask ⟨8, false⟩ 257).map List.getLast?) = some (some 0) ∧
    ((identityMask ⟨8, true⟩ 129).map List.getLast?) = some (some (-128)) ∧
    ¬ Countable ⟨32, true⟩ (2 ^ 31) ∧ Countable ⟨32, true⟩ (2 ^ 31 - 1) ∧
    braceMask ⟨64, false⟩ 3 = some [3] := by
  refine ⟨by decide +kernel, by decide +kernel, by decide +kernel, by decide +kernel, by decide +kernel⟩

/-- **C124, interval.** The pool of `make_n_elements_from_interval` for `first ≤ second`: all the numbers
from `first` to `second - 1`, exactly when the length fits the promoted type, which is the only case in
which the call is defined. -/
theorem C124_interval {t : IntType} (hb : 1 ≤ t.bits) {first second : ℤ} (h0 : t.min ≤ first)
    (h1 : first ≤ second) (h2 : second ≤ t.max) :
    intervalElements t first second =
      if second - first ≤ t.promoted.max then
        some ((List.range (second - first).toNat).map (fun i : Nat => first + (i : ℤ)))
      else none := by
  have hp := max_le_promoted t
  have hpm := min_nonpos t.promoted
  unfold intervalElements
  split
  · rename_i h
    rw [result_of_le (by omega) h]
    simp only [Option.bind_eq_bind, Option.bind_some]
    rw [(iota_iff hb _ first h0 (by omega)).2]
    right
    rw [Int.toNat_of_nonneg (by omega)]
    exact ⟨by omega, fun _ => by omega⟩
  · rename_i h
    have hs : t.promoted.signed = true := by
      by_contra hs
      have hpt : t.promoted = t := by
        unfold IntType.promoted at hs ⊢
        split
        · rename_i hh; simp [hh] at hs
        · rfl
      have hm : t.min = 0 := by
        rw [hpt] at hs
        simp [IntType.min, hs]
      omega
    rw [result_signed hs, if_neg (by omega)]
    rfl

/-- For types narrower than `int` and for unsigned types every interval has its pool. -/
theorem C124_interval_defined {t : IntType} (hb : 1 ≤ t.bits) (ht : t.bits ≤ 16 ∨ t.signed = false)
    {first second : ℤ} (h0 : t.min ≤ first) (h1 : first ≤ second) (h2 : second ≤ t.max) :
    intervalElements t first second =
        some ((List.range (second - first).toNat).map (fun i : Nat => first + (i : ℤ))) := by
  rw [C124_interval hb h0 h1 h2, if_pos]
  rcases ht with ht | ht
  · obtain ⟨_, e1, _, e3, e4⟩ := narrow_range ht
    rw [e1]; omega
  · have : t.min = 0 := by simp [IntType.min, ht]
    have := max_le_promoted t
    omega

/-- **C124, interval, counterexample.** From -2000000000 to 2000000000 in `int`: undefined. -/
theorem C124_interval_counterexample : intervalElements ⟨32, true⟩ (-2000000000) 2000000000 = none := by
  decide +kernel

/-- **C124, union-find.** Whenever `n` elements can be numbered in `Index`, the constructor and every valid
history of calls are defined, nothing wraps (also not the ranks), and the values returned and the arrays
are those of the union-find on natural numbers. -/
theorem C124_union_find {t : IntType} (hb : 1 ≤ t.bits) {n : Nat} (hn : Countable t n)
    (ops : List UF.Op) (hv : ∀ op ∈ ops, op.Valid n) :
    ∃ s0 s values, ufInit t n = some s0 ∧ natRun (UF.init n) ops = some (s, values) ∧
      ufRun t s0 ops = some (castS s, castL values) := by
  have hmask := (C124_mask hb n).2 hn
  obtain ⟨s, rep, hrun, _, _⟩ := UF.run_init_spec n ops hv
  have hnat := natRun_run (UF.init n) ops
  rw [hrun] at hnat
  cases hr : natRun (UF.init n) ops with
  | none => rw [hr] at hnat; simp at hnat
  | some p =>
    refine ⟨castS (UF.init n), p.1, p.2, ?_, rfl, ?_⟩
    · unfold ufInit
      unfold identityMask at hmask
      rw [hmask]
      simp [castS, castL, UF.init]
    · rw [run_cast hb hn.1 hn.2 ops (UF.init n) id (UF.Inv.init n) hv, hr]
      rfl

/-- **C124, union-find, sets.** Two further calls of `find` return equal values exactly when the two samples
are connected through the merged pairs. -/
theorem C124_union_find_sets {t : IntType} (hb : 1 ≤ t.bits) {n : Nat} (hn : Countable t n)
    (ops : List UF.Op) (hv : ∀ op ∈ ops, op.Valid n) (a b : Nat) (ha : a < n) (hb' : b < n) :
    ∃ s0 s values ra rb, ufInit t n = some s0 ∧
      ufRun t s0 (ops ++ [.find a, .find b]) = some (s, values ++ [ra, rb]) ∧
      (ra = rb ↔ UF.Together ops a b) := by
  obtain ⟨s, rep, hrun, hinv, hrep⟩ := UF.run_init_spec n ops hv
  have hnat := natRun_run (UF.init n) ops
  rw [hrun] at hnat
  cases hr : natRun (UF.init n) ops with
  | none => rw [hr] at hnat; simp at hnat
  | some p =>
    rw [hr] at hnat
    simp only [Option.map_some, Option.some.injEq] at hnat
    obtain ⟨s1, e1, inv1, _⟩ := UF.find_spec hinv ha
    obtain ⟨s2, e2, _, _⟩ := UF.find_spec inv1 hb'
    have hv2 : ∀ op ∈ ops ++ [UF.Op.find a, .find b], op.Valid n := by
      intro op hop
      simp only [List.mem_append, List.mem_cons, List.not_mem_nil, or_false] at hop
      rcases hop with h | rfl | rfl
      · exact hv op h
      · exact ha
      · exact hb'
    obtain ⟨s0, s', values, h1, h2, h3⟩ := C124_union_find hb hn _ hv2
    rw [natRun_append, hr] at h2
    simp only [Option.bind_some, hnat, natRun, natStep, e1, e2, Option.bind_eq_bind, Option.map_some,
      Option.some.injEq, Prod.mk.injEq] at h2
    obtain ⟨_, rfl⟩ := h2
    refine ⟨s0, castS s', castL p.2, (rep a : ℤ), (rep b : ℤ), h1, ?_, ?_⟩
    · rw [h3]
      simp [castL]
    · rw [Nat.cast_inj]
      exact hrep a b

/-- **C124, union-find, counterexample.** 257 samples with 8 bit indices: before any merge the samples 0 and
256 already have the same representative. -/
theorem C124_union_find_counterexample :
    ((ufInit ⟨8, false⟩ 257).bind fun s => (ufRun ⟨8, false⟩ s [.find 0, .find 256]).map Prod.snd) =
      some [0, 0] := by
  decide +kernel

/-- **C124, union-find, counterexample for signed types.** An element whose number is converted to a negative
index is out of bounds in every state, for `find` and for `merge`; 128 is such an element for 8 bits, and the
constructor for 129 elements is defined. -/
theorem C124_union_find_signed_counterexample :
    (∀ (t : IntType) (s : UFState) (a b : Nat), t.convert a < 0 →
      ufRun t s [.find a] = none ∧ ufRun t s [.merge a b] = none) ∧
    (ufInit ⟨8, true⟩ 129).isSome ∧
    ((ufInit ⟨8, true⟩ 129).bind fun s => ufRun ⟨8, true⟩ s [.find 128]) = none ∧
    ((ufInit ⟨8, true⟩ 128).bind fun s => (ufRun ⟨8, true⟩ s [.find 127]).map Prod.snd) = some [127] := by
  refine ⟨fun t s a b h => ?_, by decide +kernel, by decide +kernel, by decide +kernel⟩
  have e : ufFind s (t.convert a) = none := by
    simp [ufFind, ufFindLoop, readAt, h]
  constructor
  · simp [ufRun, ufStep, e]
  · simp [ufRun, ufStep, ufMerge, e]

/-- **C124, edit distance.** With costs of the promoted type `c`, the result is the edit distance whenever one
more than the length of the longer sequence is a value of the type. -/
theorem C124_edit_distance {α : Type} [DecidableEq α] {c : IntType} (hb : 32 ≤ c.bits)
    (left right : List α) (hl : (left.length : ℤ) + 1 ≤ c.max) (hr : (right.length : ℤ) + 1 ≤ c.max) :
    ∃ n : Nat, levMachine c left right = some (n : ℤ) ∧ Levenshtein.IsEditDistance left right n := by
  refine ⟨Levenshtein.dist left right, ?_, Levenshtein.isEditDistance_dist left right⟩
  rw [levMachine_eq (by omega) (wide_promoted hb) left right (by omega), Levenshtein.levenshtein_eq]
  rfl

/-- **C124, edit distance, counterexample.** For signed costs the bound on the right sequence is needed: when
one more than its length is above the greatest value (2^31 - 1 elements for `int`), the call is undefined
whatever the sequences hold, also when they are equal. -/
theorem C124_edit_distance_counterexample {α : Type} [DecidableEq α] {c : IntType} (hb : 32 ≤ c.bits)
    (hs : c.signed = true) (left right : List α) (hr : c.max < (right.length : ℤ) + 1) :
    levMachine c left right = none := by
  have hmin := min_nonpos c
  have hmax := max_nonneg c
  unfold levMachine
  rw [convert_of_range (by omega) hmin hmax, iota_none (by omega) (wide_promoted hb) hs _ 0 hmin hmax
    (by omega) (by push_cast; omega)]
  rfl

/-! Non-vacuity. -/

example : Countable ⟨8, false⟩ 256 ∧ ¬ Countable ⟨8, false⟩ 257 ∧ Countable ⟨8, true⟩ 128 ∧
    Countable ⟨64, false⟩ (2 ^ 64) := by
  refine ⟨by decide +kernel, by decide +kernel, by decide +kernel, by decide +kernel⟩

example : identityMask ⟨8, false⟩ 4 = some [0, 1, 2, 3] := by decide +kernel

example : intervalElements ⟨8, true⟩ (-2) 2 = some [-2, -1, 0, 1] := by decide +kernel

example : ((ufInit ⟨8, true⟩ 5).bind fun s =>
    (ufRun ⟨8, true⟩ s [.merge 0 1, .merge 2 3, .find 3, .merge 3 1]).map Prod.snd) =
      some [0, 2, 2, 2] := by decide +kernel

example : levMachine ⟨32, true⟩ [1, 2, 3] [2, 3, 4, 5] = some 3 := by decide +kernel

end Verif.MachineInt
