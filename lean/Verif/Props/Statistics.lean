import Verif.Model.Statistics
import Verif.Props.Random
import Verif.Props.Bounds
import Verif.Lemmas.KDTree
import Mathlib.Tactic.LinearCombination
import Mathlib.Data.List.Count

/-
Properties C58 (mean and variance), C59 (order statistics), C60 (normalisation), C62 (container
helpers) and C64 (split axis selection).
-/

namespace Verif.Stats

set_option linter.unusedSectionVars false

/-! ### first best element -/

/-- Specification: position and value of the first element that no element beats. -/
def IsFirstBest {α : Type} (better : α → α → Prop) (l : List α) (i : Nat) (v : α) : Prop :=
  l[i]? = some v ∧ (∀ a ∈ l, ¬ better a v) ∧ ∀ j b, j < i → l[j]? = some b → better v b

/-- For a comparison that compares keys of a linear order. -/
theorem bestLoop_spec {α K : Type} [LinearOrder K] (key : α → K) (better : α → α → Bool)
    (hb : ∀ a b, better a b = true ↔ key b < key a) :
    ∀ (l pre : List α) (i : Nat) (v : α), pre[i]? = some v → (∀ a ∈ pre, key a ≤ key v) →
      (∀ j b, j < i → pre[j]? = some b → key b < key v) →
      IsFirstBest (fun a b => key b < key a) (pre ++ l)
        (bestLoop better l pre.length i v).1 (bestLoop better l pre.length i v).2 := by
  intro l
  induction l with
  | nil =>
    intro pre i v h1 h2 h3
    simp only [List.append_nil, bestLoop]
    exact ⟨h1, fun a ha => not_lt.2 (h2 a ha), h3⟩
  | cons a l ih =>
    intro pre i v h1 h2 h3
    have happ : pre ++ a :: l = (pre ++ [a]) ++ l := by simp
    have hlen : (pre ++ [a]).length = pre.length + 1 := by simp
    have hi : i < pre.length := (List.getElem?_eq_some_iff.1 h1).1
    rw [bestLoop, happ]
    split
    · rename_i hba
      rw [hb] at hba
      rw [← hlen]
      refine ih (pre ++ [a]) pre.length a (by simp) ?_ ?_
      · intro c hc
        rcases List.mem_append.1 hc with hc | hc
        · exact (h2 c hc).trans hba.le
        · rw [List.mem_singleton.1 hc]
      · intro j b hj hjb
        rw [List.getElem?_append_left hj] at hjb
        exact lt_of_le_of_lt (h2 b (List.mem_of_getElem? hjb)) hba
    · rename_i hba
      rw [hb, not_lt] at hba
      rw [← hlen]
      refine ih (pre ++ [a]) i v (by rw [List.getElem?_append_left hi, h1]) ?_ ?_
      · intro c hc
        rcases List.mem_append.1 hc with hc | hc
        · exact h2 c hc
        · rw [List.mem_singleton.1 hc]; exact hba
      · intro j b hj hjb
        rw [List.getElem?_append_left (by omega)] at hjb
        exact h3 j b hj hjb

theorem best_spec {α K : Type} [LinearOrder K] (key : α → K) (better : α → α → Bool)
    (hb : ∀ a b, better a b = true ↔ key b < key a) (l : List α) (hne : l ≠ []) :
    ∃ i v, best better l = some (i, v) ∧ IsFirstBest (fun a b => key b < key a) l i v := by
  cases l with
  | nil => exact absurd rfl hne
  | cons a l =>
    refine ⟨_, _, rfl, ?_⟩
    exact bestLoop_spec key better hb l [a] 0 a rfl (by simp) (by omega)

section Order

variable {K : Type} [LinearOrder K]

theorem maxPair_spec (l : List K) (hne : l ≠ []) :
    ∃ i v, maxPair l = some (i, v) ∧ l[i]? = some v ∧ (∀ a ∈ l, a ≤ v) ∧
      ∀ j b, j < i → l[j]? = some b → b < v := by
  obtain ⟨i, v, e, h1, h2, h3⟩ := best_spec (fun a : K => a) (fun a b => decide (b < a))
    (by simp) l hne
  exact ⟨i, v, e, h1, fun a ha => not_lt.1 (h2 a ha), h3⟩

theorem minPair_spec (l : List K) (hne : l ≠ []) :
    ∃ i v, minPair l = some (i, v) ∧ l[i]? = some v ∧ (∀ a ∈ l, v ≤ a) ∧
      ∀ j b, j < i → l[j]? = some b → v < b := by
  obtain ⟨i, v, e, h1, h2, h3⟩ := best_spec (fun a : K => OrderDual.toDual a)
    (fun a b => decide (a < b)) (by simp) l hne
  refine ⟨i, v, e, h1, fun a ha => ?_, ?_⟩
  · have := h2 a ha
    simpa using this
  · intro j b hj hb
    have := h3 j b hj hb
    simpa using this

/-! ### C59 -/

/-- **C59**, extrema: `get_min_index_value_pair` and `get_max_index_value_pair` return the first
extremal position with its value, and `argmin`/`argmax` that position as long as the value type of
the range can hold it. -/
theorem C59_extrema (l : List K) (hne : l ≠ []) :
    (∃ i v, minPair l = some (i, v) ∧ l[i]? = some v ∧ (∀ a ∈ l, v ≤ a) ∧
      (∀ j b, j < i → l[j]? = some b → v < b) ∧
      argmin none l = some i ∧ ∀ bits, i < 2 ^ bits → argmin (some bits) l = some i) ∧
    (∃ i v, maxPair l = some (i, v) ∧ l[i]? = some v ∧ (∀ a ∈ l, a ≤ v) ∧
      (∀ j b, j < i → l[j]? = some b → b < v) ∧
      argmax none l = some i ∧ ∀ bits, i < 2 ^ bits → argmax (some bits) l = some i) := by
  constructor
  · obtain ⟨i, v, e, h1, h2, h3⟩ := minPair_spec l hne
    exact ⟨i, v, e, h1, h2, h3, by simp [argmin, e, asValueType],
      fun b hb => by simp [argmin, e, asValueType, Nat.mod_eq_of_lt hb]⟩
  · obtain ⟨i, v, e, h1, h2, h3⟩ := maxPair_spec l hne
    exact ⟨i, v, e, h1, h2, h3, by simp [argmax, e, asValueType],
      fun b hb => by simp [argmax, e, asValueType, Nat.mod_eq_of_lt hb]⟩

/-- **C59** is false for `argmin` on narrow value types: on 257 bytes whose only minimum is the last
element the result is position 0. -/
theorem C59_argmin_narrow_counterexample :
    argmin (some 8) (List.replicate 256 (1 : Nat) ++ [0]) = some 0 ∧
    minPair (List.replicate 256 (1 : Nat) ++ [0]) = some (256, 0) := by
  constructor <;> decide +kernel

/-- **C59**, second maximum, part that holds: with at least two elements the value is the maximum of
the elements other than the first maximum; the position is the position of that value, different from
the position of the maximum, unless the value is the lowest value of the type.  What is missing: the
position in that last case (`C59_second_max_counterexample`). -/
theorem C59_second_max_partial (lowest : K) (l : List K) (hlow : ∀ a ∈ l, lowest ≤ a)
    (h2 : 2 ≤ l.length) :
    ∃ m vm i v, maxPair l = some (m, vm) ∧ secondMaxPair lowest l = some (i, v) ∧
      v ∈ l.eraseIdx m ∧ (∀ a ∈ l.eraseIdx m, a ≤ v) ∧
      (lowest < v → i ≠ m ∧ l[i]? = some v) := by
  obtain ⟨m, vm, e, hm, _, _⟩ := maxPair_spec l (by rintro rfl; simp at h2)
  have hml : m < l.length := (List.getElem?_eq_some_iff.1 hm).1
  obtain ⟨i, v, e2, hi, hmax, hfirst⟩ := maxPair_spec (l.set m lowest) (by
    intro h; have := congrArg List.length h; simp at this; subst this; simp at h2)
  have hmem : ∀ a, a ∈ l.eraseIdx m → a ∈ l.set m lowest := by
    intro a ha
    rw [List.mem_eraseIdx_iff_getElem?] at ha
    obtain ⟨j, hj, hja⟩ := ha
    rw [List.mem_iff_getElem?]
    exact ⟨j, by rw [List.getElem?_set, if_neg (Ne.symm hj)]; exact hja⟩
  have hmem2 : ∀ a, a ∈ l.set m lowest → a = lowest ∨ a ∈ l.eraseIdx m := by
    intro a ha
    rw [List.mem_iff_getElem?] at ha
    obtain ⟨j, hj⟩ := ha
    rw [List.getElem?_set] at hj
    by_cases hjm : m = j
    · rw [if_pos hjm, if_pos (hjm ▸ hml)] at hj; left; exact (Option.some.inj hj).symm
    · rw [if_neg hjm] at hj
      right
      rw [List.mem_eraseIdx_iff_getElem?]
      exact ⟨j, Ne.symm hjm, hj⟩
  have hlen : (l.eraseIdx m).length = l.length - 1 := by
    rw [List.length_eraseIdx, if_pos hml]
  have hle : ∀ a ∈ l.eraseIdx m, a ≤ v := fun a ha => hmax a (hmem a ha)
  have hv : v ∈ l.eraseIdx m := by
    rcases hmem2 v (List.mem_of_getElem? hi) with h | h
    · obtain ⟨b, hb⟩ := List.exists_mem_of_length_pos (l := l.eraseIdx m) (by omega)
      have h1 := hle b hb
      have h3 := hlow b (List.mem_of_mem_eraseIdx hb)
      rw [le_antisymm (h ▸ h3) h1]
      exact hb
    · exact h
  refine ⟨m, vm, i, v, e, ?_, hv, hle, ?_⟩
  · unfold secondMaxPair
    simp only [e, Option.bind_eq_bind, Option.bind_some]
    rw [if_neg (by omega), e2]
  · intro hlt
    rw [List.getElem?_set] at hi
    by_cases him : m = i
    · rw [if_pos him, if_pos (him ▸ hml)] at hi
      exact absurd hlt (by rw [Option.some.inj hi]; exact lt_irrefl _)
    · rw [if_neg him] at hi
      exact ⟨Ne.symm him, hi⟩

/-- **C59** is false for the second maximum when the other elements are the lowest value: on the
unsigned range 5, 0 the result is position 0, which holds 5, with value 0. -/
theorem C59_second_max_counterexample : secondMaxPair (0 : Nat) [5, 0] = some (0, 0) := by
  decide +kernel

/-- A sorted list has its order statistics at their positions. -/
theorem sorted_rank (s : List K) (hs : s.Pairwise (· ≤ ·)) (n : Nat) (hn : n < s.length) :
    s.countP (fun a => decide (a < s[n])) ≤ n ∧ n < s.countP (fun a => decide (a ≤ s[n])) := by
  have hcount : ∀ (p : K → Bool) (k : Nat),
      s.countP p = (s.take k).countP p + (s.drop k).countP p := by
    intro p k
    rw [← List.countP_append, List.take_append_drop]
  constructor
  · rw [hcount _ n]
    have h1 : (s.drop n).countP (fun a => decide (a < s[n])) = 0 := by
      rw [List.countP_eq_zero]
      intro a ha
      simp only [decide_eq_true_eq, not_lt]
      rw [List.drop_eq_getElem_cons hn] at ha
      rcases List.mem_cons.1 ha with rfl | ha
      · exact le_refl _
      · obtain ⟨j, hj, rfl⟩ := List.getElem_of_mem ha
        rw [List.getElem_drop]
        exact List.pairwise_iff_getElem.1 hs _ _ _ _ (by omega)
    have h2 : (s.take n).countP (fun a => decide (a < s[n])) ≤ (s.take n).length :=
      List.countP_le_length
    simp only [List.length_take] at h2
    omega
  · rw [hcount _ (n + 1)]
    have h1 : (s.take (n + 1)).countP (fun a => decide (a ≤ s[n])) = (s.take (n + 1)).length := by
      rw [List.countP_eq_length]
      intro a ha
      obtain ⟨j, hj, rfl⟩ := List.getElem_of_mem ha
      simp only [List.length_take] at hj
      rw [List.getElem_take, decide_eq_true_eq]
      rcases Nat.lt_or_ge j n with h | h
      · exact List.pairwise_iff_getElem.1 hs _ _ _ _ h
      · have : j = n := by omega
        subst this
        exact le_refl _
    rw [h1]
    simp
    omega

/-- **C59**, order statistics: for `1 ≤ n ≤ size` the value is the `n`-th smallest (fewer than `n`
elements are smaller, at least `n` are smaller or equal) and the index is its first position. -/
theorem C59_nth_smallest (l : List K) (n : Nat) (h1 : 1 ≤ n) (h2 : n ≤ l.length) :
    ∃ i v, nthSmallest l n = some (i, v) ∧ l[i]? = some v ∧
      l.countP (fun a => decide (a < v)) < n ∧ n ≤ l.countP (fun a => decide (a ≤ v)) ∧
      ∀ j b, j < i → l[j]? = some b → b ≠ v := by
  set s := l.insertionSort (· ≤ ·) with hsdef
  have hperm : s.Perm l := List.perm_insertionSort _ _
  have hsorted : s.Pairwise (· ≤ ·) := List.pairwise_insertionSort _ _
  have hn : n - 1 < s.length := by rw [hperm.length_eq]; omega
  obtain ⟨r1, r2⟩ := sorted_rank s hsorted (n - 1) hn
  set v := s[n - 1] with hv
  have hvl : v ∈ l := hperm.subset (List.getElem_mem hn)
  have hfind : l.findIdx (fun a => decide (a = v)) < l.length :=
    List.findIdx_lt_length_of_exists ⟨v, hvl, by simp⟩
  refine ⟨l.findIdx (fun a => decide (a = v)), v, ?_, ?_, ?_, ?_, ?_⟩
  · unfold nthSmallest
    rw [if_neg (by omega)]
    show Option.bind s[n-1]? _ = _
    rw [List.getElem?_eq_getElem hn]
    rfl
  · rw [List.getElem?_eq_getElem hfind]
    have := List.findIdx_getElem (w := hfind)
    simp only [decide_eq_true_eq] at this
    rw [this]
  · rw [← hperm.countP_eq]; omega
  · rw [← hperm.countP_eq]; omega
  · intro j b hj hjb
    have := List.not_of_lt_findIdx hj
    obtain ⟨hjl, hje⟩ := List.getElem?_eq_some_iff.1 hjb
    simp only [decide_eq_false_iff_not] at this
    rw [← hje]; exact this

/-- **C59**, `min_container_inplace_left`: element-wise minimum. -/
theorem C59_min_left : ∀ (l r : List K), l.length ≤ r.length →
    minLeft l r = some (List.zipWith min l r) := by
  intro l
  induction l with
  | nil => intro r _; simp [minLeft]
  | cons a l ih =>
    intro r hr
    cases r with
    | nil => simp at hr
    | cons b r =>
      rw [minLeft, ih r (by simpa using hr)]
      simp only [Option.bind_eq_bind, Option.bind_some, List.zipWith_cons_cons, Option.some.injEq,
        List.cons.injEq, and_true]
      split
      · rename_i h; rw [min_eq_right h.le]
      · rename_i h; rw [min_eq_left (not_lt.1 h)]

end Order

/-! ### C60 -/

section Field

variable {F : Type} [Field F] [LinearOrder F] [IsStrictOrderedRing F]

/-- **C60**, `normalize`: non-negative values with positive sum become non-negative values that sum
to one. -/
theorem C60_normalize (l : List F) (h0 : ∀ v ∈ l, 0 ≤ v) (hs : 0 < l.sum) :
    (normalize l).length = l.length ∧ (∀ v ∈ normalize l, 0 ≤ v ∧ v ≤ 1) ∧
    (normalize l).sum = 1 := by
  have hle : ∀ v ∈ l, v ≤ l.sum := fun v hv => List.single_le_sum h0 v hv
  refine ⟨by simp [normalize], ?_, ?_⟩
  · intro v hv
    obtain ⟨a, ha, rfl⟩ := List.mem_map.1 hv
    exact ⟨div_nonneg (h0 a ha) hs.le, (div_le_one hs).2 (hle a ha)⟩
  · unfold normalize
    have : ∀ (k : List F) (c : F), (k.map (· / c)).sum = k.sum / c := by
      intro k c
      induction k with
      | nil => simp
      | cons a k ih => simp [ih, add_div]
    rw [this, div_self hs.ne']

/-- **C60**, `normalize_min_max` on floating input: all values are in [0,1]; if the input is not
constant the smallest values become 1, the largest 0, and smaller inputs get larger values; if it is
constant every value is one over the size. -/
theorem C60_min_max (l : List F) (hne : l ≠ []) :
    ∃ r, normalizeMinMax l = some r ∧ r.length = l.length ∧ (∀ v ∈ r, 0 ≤ v ∧ v ≤ 1) ∧
      ((∀ a ∈ l, ∀ b ∈ l, a = b) → r.sum = 1) ∧
      ∀ i j (hi : i < l.length) (hj : j < l.length) (hi' : i < r.length) (hj' : j < r.length),
        l[i] < l[j] → r[j] < r[i] ∧ ((∀ a ∈ l, l[i] ≤ a) → r[i] = 1) ∧
          ((∀ a ∈ l, a ≤ l[j]) → r[j] = 0) := by
  obtain ⟨i0, lo, e1, g1, g2, _⟩ := minPair_spec l hne
  obtain ⟨i1, hi, e2, k1, k2, _⟩ := maxPair_spec l hne
  have hlo : lo ∈ l := List.mem_of_getElem? g1
  have hhi : hi ∈ l := List.mem_of_getElem? k1
  have hn : (0 : F) < l.length := by
    exact_mod_cast List.length_pos_of_ne_nil hne
  have hn1 : (1 : F) ≤ l.length := by
    exact_mod_cast Nat.succ_le_of_lt (List.length_pos_of_ne_nil hne)
  by_cases heq : lo = hi
  · refine ⟨List.replicate l.length (1 / l.length), by simp [normalizeMinMax, e1, e2, heq], by simp,
      ?_, ?_, ?_⟩
    · intro v hv
      rw [List.eq_of_mem_replicate hv]
      exact ⟨by positivity, by rw [div_le_one hn]; exact hn1⟩
    · intro _
      rw [List.sum_replicate, nsmul_eq_mul, mul_one_div, div_self hn.ne']
    · intro i j hi hj _ _ hlt
      have h1 := k2 _ (List.getElem_mem hj)
      have h2 := g2 _ (List.getElem_mem hi)
      rw [heq] at h2
      exact absurd hlt (not_lt.2 (h1.trans h2))
  · have hlt : lo < hi := lt_of_le_of_ne (g2 hi hhi) heq
    have hd : 0 < hi - lo := sub_pos.2 hlt
    refine ⟨l.map (fun d => 1 - (d - lo) / (hi - lo)), by simp [normalizeMinMax, e1, e2, heq],
      by simp, ?_, ?_, ?_⟩
    · intro v hv
      obtain ⟨a, ha, rfl⟩ := List.mem_map.1 hv
      have h1 := g2 a ha
      have h2 := k2 a ha
      constructor
      · rw [sub_nonneg, div_le_one hd]; linarith
      · rw [sub_le_self_iff]; exact div_nonneg (by linarith) hd.le
    · intro hall
      exact absurd (hall lo hlo hi hhi) heq
    · intro i j hi' hj' _ _ hij
      simp only [List.getElem_map]
      refine ⟨?_, ?_, ?_⟩
      · have : (l[i] - lo) / (hi - lo) < (l[j] - lo) / (hi - lo) :=
          div_lt_div_of_pos_right (by linarith) hd
        linarith
      · intro hmin
        have : l[i] = lo := le_antisymm (hmin lo hlo) (g2 _ (List.getElem_mem hi'))
        rw [this]; simp
      · intro hmax
        have : l[j] = hi := le_antisymm (k2 _ (List.getElem_mem hj')) (hmax hi hhi)
        rw [this, div_self hd.ne']; simp

/-- **C60**, `normalize_min_max` on integral input: in [0,1] too, but every value that is not the
maximum becomes 1. -/
theorem C60_min_max_int (l : List ℤ) (hne : l ≠ []) :
    ∃ r, normalizeMinMaxInt l = some r ∧ r.length = l.length ∧ (∀ v ∈ r, 0 ≤ v ∧ v ≤ 1) := by
  obtain ⟨i0, lo, e1, g1, g2, _⟩ := minPair_spec l hne
  obtain ⟨i1, hi, e2, k1, k2, _⟩ := maxPair_spec l hne
  have hn : (0 : ℚ) < l.length := by
    exact_mod_cast List.length_pos_of_ne_nil hne
  have hn1 : (1 : ℚ) ≤ l.length := by
    exact_mod_cast Nat.succ_le_of_lt (List.length_pos_of_ne_nil hne)
  by_cases heq : lo = hi
  · refine ⟨List.replicate l.length (1 / l.length), by simp [normalizeMinMaxInt, e1, e2, heq],
      by simp, ?_⟩
    intro v hv
    rw [List.eq_of_mem_replicate hv]
    exact ⟨by positivity, by rw [div_le_one hn]; exact hn1⟩
  · have hlt : lo < hi := lt_of_le_of_ne (g2 hi (List.mem_of_getElem? k1)) heq
    refine ⟨l.map (fun d => 1 - (((d - lo).tdiv (hi - lo) : ℤ) : ℚ)),
      by simp [normalizeMinMaxInt, e1, e2, heq], by simp, ?_⟩
    intro v hv
    obtain ⟨a, ha, rfl⟩ := List.mem_map.1 hv
    have h1 := g2 a ha
    have h2 := k2 a ha
    have h3 : 0 ≤ (a - lo).tdiv (hi - lo) := Int.tdiv_nonneg (by omega) (by omega)
    have h4 : (a - lo).tdiv (hi - lo) ≤ 1 := by
      rw [Int.tdiv_eq_ediv_of_nonneg (by omega)]
      have : (a - lo) / (hi - lo) ≤ (hi - lo) / (hi - lo) :=
        Int.ediv_le_ediv (by omega) (by omega)
      rwa [Int.ediv_self (by omega)] at this
    have h3' : (0 : ℚ) ≤ (((a - lo).tdiv (hi - lo) : ℤ) : ℚ) := by exact_mod_cast h3
    have h4' : (((a - lo).tdiv (hi - lo) : ℤ) : ℚ) ≤ 1 := by exact_mod_cast h4
    constructor <;> linarith

/-! ### C58 -/

/-- Specification: the arithmetic mean. -/
def mean (l : List F) : F := l.sum / l.length

/-- Specification: the unbiased sample variance. -/
def sampleVariance (l : List F) : F :=
  (l.map (fun v => (v - mean l) ^ 2)).sum / (l.length - 1)

theorem foldl_zip_map (g : Nat → Nat → F) (feats : List Nat) : ∀ (idx : List Nat) (acc : Nat → F),
    idx.foldl (fun a i => List.zipWith (· + ·) a (feats.map (g i))) (feats.map acc) =
      feats.map (fun f => acc f + (idx.map (fun i => g i f)).sum) := by
  intro idx
  induction idx with
  | nil => intro acc; simp
  | cons i idx ih =>
    intro acc
    rw [List.foldl_cons, List.zipWith_map, List.zipWith_self, ih]
    simp [add_assoc]

/-- **C58**, means: each overload of `compute_mean_per_feature` returns the arithmetic mean of each
selected feature over the selected samples. -/
theorem C58_mean (x : Nat → Nat → F) (idx feats : List Nat) (nf n : Nat) :
    meanMasked x idx feats = feats.map (fun f => mean (idx.map (fun i => x i f))) ∧
    meanIndexed x nf idx = (List.range nf).map (fun f => mean (idx.map (fun i => x i f))) ∧
    meanAll x nf n = (List.range nf).map (fun f => mean ((List.range n).map (fun i => x i f))) := by
  have key : ∀ idx feats : List Nat,
      meanMasked x idx feats = feats.map (fun f => mean (idx.map (fun i => x i f))) := by
    intro idx feats
    unfold meanMasked sumRows
    have : List.replicate feats.length (0 : F) = feats.map (fun _ => 0) := by simp
    rw [this, foldl_zip_map, List.map_map]
    apply List.map_congr_left
    intro f _
    simp [mean]
  exact ⟨key _ _, key _ _, key _ _⟩

theorem sqSums_eq (x : Nat → Nat → F) (nf : Nat) (idx : List Nat) :
    sqSums x nf idx = (List.range nf).map (fun f =>
      (idx.map (fun i => (x i f - mean (idx.map (fun i => x i f))) ^ 2)).sum) := by
  unfold sqSums
  rw [(C58_mean x idx [] nf 0).2.1]
  have hz : List.replicate nf (0 : F) = (List.range nf).map (fun _ => 0) := by simp
  have hf : (fun (acc : List F) (i : Nat) => List.zipWith (· + ·)
      (List.zipWith (fun v m => (v - m) * (v - m)) ((List.range nf).map (x i))
        ((List.range nf).map fun f => mean (idx.map fun i => x i f))) acc) =
      fun acc i => List.zipWith (· + ·) acc ((List.range nf).map
        ((fun i f => (x i f - mean (idx.map fun i => x i f)) ^ 2) i)) := by
    funext acc i
    rw [List.zipWith_comm_of_comm (fun a b => add_comm a b), List.zipWith_map, List.zipWith_self]
    simp only [sq]
  dsimp only
  rw [hf, hz, foldl_zip_map]
  simp

/-- **C58**, variances: `compute_variance_per_feature` on all samples and on an index range is the
unbiased sample variance of each feature. -/
theorem C58_variance (x : Nat → Nat → F) (nf n : Nat) (idx : List Nat) :
    varianceIndexed x nf idx =
      (List.range nf).map (fun f => sampleVariance (idx.map (fun i => x i f))) ∧
    varianceAll x nf n =
      (List.range nf).map (fun f => sampleVariance ((List.range n).map (fun i => x i f))) := by
  have key : ∀ idx : List Nat, varianceIndexed x nf idx =
      (List.range nf).map (fun f => sampleVariance (idx.map (fun i => x i f))) := by
    intro idx
    unfold varianceIndexed
    rw [sqSums_eq, List.map_map]
    apply List.map_congr_left
    intro f _
    simp only [Function.comp, sampleVariance, List.map_map, List.length_map]
    rfl
  exact ⟨key _, key _⟩

theorem sum_sq_sub (l : List F) (m : F) :
    (l.map (fun v => (v - m) ^ 2)).sum =
      (l.map (fun v => v * v)).sum - 2 * m * l.sum + l.length * m ^ 2 := by
  induction l with
  | nil => simp
  | cons a l ih =>
    simp only [List.map_cons, List.sum_cons, ih, List.length_cons]
    push_cast
    ring

/-- **C58**, one pass: `compute_variance` is the sample variance. -/
theorem C58_one_pass (l : List F) (hne : l ≠ []) : variance l = sampleVariance l := by
  have hn : (l.length : F) ≠ 0 := by
    exact_mod_cast (List.length_pos_of_ne_nil hne).ne'
  unfold variance sampleVariance
  rw [sum_sq_sub, mean]
  congr 1
  field_simp
  ring

/-- **C58** is false for the overload with a feature mask: it reads the first sample in every round.
On the samples 0, 2, 4 the reported variance is 6 instead of 4; the mean is right. -/
theorem C58_masked_counterexample :
    varianceMasked (F := ℚ) (fun i _ => 2 * i) [0, 1, 2] [0] = some [6] ∧
    meanMasked (F := ℚ) (fun i _ => 2 * i) [0, 1, 2] [0] = [2] ∧
    sampleVariance ([0, 2, 4] : List ℚ) = 4 := by
  refine ⟨by decide +kernel, by decide +kernel, by decide +kernel⟩

/-- What the masked variance overload computes: the squared deviation of the first sample, times
`n / (n - 1)`. -/
theorem C58_masked_value (x : Nat → Nat → F) (i0 : Nat) (rest feats : List Nat) :
    varianceMasked x (i0 :: rest) feats = some (feats.map (fun f =>
      ((rest.length + 1 : F) * (x i0 f - mean ((i0 :: rest).map (fun i => x i f))) ^ 2) /
        ((rest.length + 1 : F) - 1))) := by
  simp only [varianceMasked, sqSumsMasked, Option.map_some, Option.some.injEq]
  rw [(C58_mean x (i0 :: rest) feats 0 0).1]
  have hz : List.replicate feats.length (0 : F) = feats.map (fun _ => 0) := by simp
  rw [List.zipWith_map_right, List.zipWith_self, hz]
  have := foldl_zip_map (fun _ f => (x i0 f - mean ((i0 :: rest).map fun i => x i f)) *
    (x i0 f - mean ((i0 :: rest).map fun i => x i f))) feats (i0 :: rest) (fun _ => 0)
  rw [this, List.map_map]
  apply List.map_congr_left
  intro f _
  simp only [Function.comp, zero_add, List.map_const', List.sum_replicate, nsmul_eq_mul,
    List.length_cons]
  push_cast
  rw [sq]

/-- **C58**, integral data, part that holds: the mean of `int` data with non-negative sum is the
integer quotient. -/
theorem C58_mean_int_partial (sum : ℤ) (n : Nat) (h0 : 0 ≤ sum) (h1 : sum < 2 ^ 31) :
    meanInt32 sum n = sum / n := by
  unfold meanInt32
  rw [Int.emod_eq_of_lt h0 (by omega)]
  have h3 : 0 ≤ sum / n := Int.ediv_nonneg h0 (by omega)
  have h4 : sum / n ≤ sum := Int.ediv_le_self _ h0
  apply Int.bmod_eq_of_le
  · norm_num; omega
  · norm_num; omega

/-- **C58** is false for `int` data with negative sum: the mean of -1, -1, -1 is 1431655764. -/
theorem C58_mean_int_counterexample : meanInt32 (-3) 3 = 1431655764 := by decide +kernel

/-! ### C62 -/

/-- **C62**, `permutation_from_indices`: defined exactly for equal sizes and valid indices, and then
element `i` of the result is the element of the input at `indices[i]`. -/
theorem C62_permutation {α : Type} (indices : List Nat) (input : List α) :
    (permutationFromIndices indices input ≠ none ↔
      input.length = indices.length ∧ ∀ i ∈ indices, i < input.length) ∧
    ∀ r, permutationFromIndices indices input = some r →
      r.length = input.length ∧ ∀ (i k : Nat), indices[i]? = some k → r[i]? = input[k]? := by
  have key : ∀ (l : List Nat) (r : List α), l.mapM (fun i => input[i]?) = some r →
      r.length = l.length ∧ (∀ i ∈ l, i < input.length) ∧
        ∀ (i k : Nat), l[i]? = some k → r[i]? = input[k]? := by
    intro l
    induction l with
    | nil => intro r h; simp at h; subst h; simp
    | cons a l ih =>
      intro r h
      rw [List.mapM_cons] at h
      simp only [Option.bind_eq_bind, Option.bind_eq_some_iff] at h
      obtain ⟨b, hb, t, ht, hr⟩ := h
      simp only [Option.pure_def, Option.some.injEq] at hr
      subst hr
      obtain ⟨h1, h2, h3⟩ := ih t ht
      refine ⟨by simp [h1], ?_, ?_⟩
      · intro i hi
        rcases List.mem_cons.1 hi with rfl | hi
        · exact (List.getElem?_eq_some_iff.1 hb).1
        · exact h2 i hi
      · intro i k hik
        cases i with
        | zero => simp at hik; subst hik; simp [hb]
        | succ i => simpa using h3 i k (by simpa using hik)
  refine ⟨⟨?_, ?_⟩, ?_⟩
  · intro h
    obtain ⟨r, hr⟩ := Option.ne_none_iff_exists'.1 h
    unfold permutationFromIndices at hr
    split at hr
    · simp at hr
    · rename_i hl
      exact ⟨by simpa using hl, (key _ _ hr).2.1⟩
  · rintro ⟨h1, h2⟩
    obtain ⟨r, hr, _⟩ := Random.mapM_getElem? input indices h2
    simp [permutationFromIndices, h1, hr]
  · intro r hr
    unfold permutationFromIndices at hr
    split at hr
    · simp at hr
    · rename_i hl
      obtain ⟨h1, _, h3⟩ := key _ _ hr
      exact ⟨h1.trans (by simpa using (Ne.symm (a := indices.length)).mt (by simpa using hl)), h3⟩

theorem copyRow_spec {α : Type} (nf : Nat) (m out : List α) (src dst : Nat)
    (h1 : src * nf + nf ≤ m.length) (h2 : dst * nf + nf ≤ out.length) :
    ∃ r, copyRow nf m src dst out = some r ∧ r.length = out.length ∧
      (∀ f, f < nf → r[dst * nf + f]? = m[src * nf + f]?) ∧
      ∀ p, p < dst * nf ∨ dst * nf + nf ≤ p → r[p]? = out[p]? := by
  have hA : (out.take (dst * nf)).length = dst * nf := by simp; omega
  have hB : ((m.drop (src * nf)).take nf).length = nf := by simp; omega
  refine ⟨_, by rw [copyRow, if_pos ⟨h1, h2⟩], by simp; omega, ?_, ?_⟩
  · intro f hf
    rw [List.getElem?_append_right (by omega), hA, List.getElem?_append_left (by omega),
      List.getElem?_take, if_pos (by omega), List.getElem?_drop]
    congr 1; omega
  · intro p hp
    rcases hp with hp | hp
    · rw [List.getElem?_append_left (by omega), List.getElem?_take, if_pos hp]
    · rw [List.getElem?_append_right (by omega), hA, List.getElem?_append_right (by omega), hB,
        List.getElem?_drop]
      congr 1; omega

theorem remapLoop_spec {α : Type} (nf : Nat) (m : List α) : ∀ (ind : List Nat) (i : Nat)
    (out : List α), out.length = m.length → (∀ s ∈ ind, s * nf + nf ≤ m.length) →
    (i + ind.length) * nf ≤ m.length → (∀ p, i * nf ≤ p → out[p]? = m[p]?) →
    ∃ r, remapLoop nf m i ind out = some r ∧ r.length = m.length ∧
      (∀ (k s : Nat), ind[k]? = some s → ∀ f, f < nf →
        r[(i + k) * nf + f]? = m[s * nf + f]?) ∧
      (∀ p, p < i * nf → r[p]? = out[p]?) ∧
      ∀ p, (i + ind.length) * nf ≤ p → r[p]? = m[p]? := by
  intro ind
  induction ind with
  | nil =>
    intro i out hl _ _ ho
    exact ⟨out, rfl, hl, by simp, fun _ _ => rfl, fun p hp => ho p (by simpa using hp)⟩
  | cons s ind ih =>
    intro i out hl hs hi ho
    have hi1 : (i + 1 + ind.length) * nf ≤ m.length := by
      simp only [List.length_cons] at hi
      rw [show i + 1 + ind.length = i + (ind.length + 1) by omega]; exact hi
    have hrow : i * nf + nf ≤ m.length := by
      have : (i + 1) * nf ≤ (i + 1 + ind.length) * nf := Nat.mul_le_mul_right _ (by omega)
      rw [Nat.succ_mul] at this
      omega
    have hsrow := hs s (by simp)
    have hstep : ∃ o, (if s ≠ i then copyRow nf m s i out else some out) = some o ∧
        o.length = m.length ∧ (∀ f, f < nf → o[i * nf + f]? = m[s * nf + f]?) ∧
        ∀ p, p < i * nf ∨ i * nf + nf ≤ p → o[p]? = out[p]? := by
      by_cases hsi : s ≠ i
      · obtain ⟨o, e, h1, h2, h3⟩ := copyRow_spec nf m out s i hsrow (by omega)
        exact ⟨o, by rw [if_pos hsi, e], by omega, h2, h3⟩
      · refine ⟨out, by rw [if_neg hsi], hl, ?_, fun _ _ => rfl⟩
        intro f _
        rw [not_not] at hsi
        rw [hsi]
        exact ho _ (by omega)
    obtain ⟨o, e, g1, g2, g3⟩ := hstep
    have hmul : (i + 1) * nf = i * nf + nf := Nat.succ_mul _ _
    obtain ⟨r, er, r1, r2, r3, r4⟩ := ih (i + 1) o g1 (fun t ht => hs t (by simp [ht])) hi1 (by
      intro p hp
      rw [g3 p (by omega)]
      exact ho p (by omega))
    refine ⟨r, ?_, r1, ?_, ?_, ?_⟩
    · rw [remapLoop]
      split at e
      · rename_i hsi; rw [if_pos hsi, e]; exact er
      · rename_i hsi; rw [if_neg hsi]; rw [← Option.some.inj e] at er; exact er
    · intro k t hk f hf
      cases k with
      | zero =>
        simp only [List.getElem?_cons_zero, Option.some.injEq] at hk
        subst hk
        rw [Nat.add_zero, r3 _ (by omega)]
        exact g2 f hf
      | succ k =>
        have := r2 k t (by simpa using hk) f hf
        rw [show i + (k + 1) = i + 1 + k by omega]
        exact this
    · intro p hp
      rw [r3 p (by omega), g3 p (by omega)]
    · intro p hp
      apply r4
      simp only [List.length_cons] at hp
      rw [show i + 1 + ind.length = i + (ind.length + 1) by omega]
      exact hp

/-- **C62**, `remap_ranges_from_indices`: for one valid index per row, row `i` of the result is row
`indices[i]` of the input; elements after the last whole row are kept. -/
theorem C62_remap {α : Type} (indices : List Nat) (m : List α) (nf : Nat)
    (hsize : m.length / nf = indices.length) (hv : ∀ s ∈ indices, s < indices.length) :
    ∃ r, remapRanges indices m nf = some r ∧ r.length = m.length ∧
      (∀ (i s : Nat), indices[i]? = some s → ∀ f, f < nf → r[i * nf + f]? = m[s * nf + f]?) ∧
      ∀ p, indices.length * nf ≤ p → r[p]? = m[p]? := by
  have hle : indices.length * nf ≤ m.length := by
    rw [← hsize]; exact Nat.div_mul_le_self _ _
  obtain ⟨r, e, h1, h2, _, h4⟩ := remapLoop_spec nf m indices 0 m rfl (by
    intro s hs
    have := hv s hs
    have h : (s + 1) * nf ≤ indices.length * nf := Nat.mul_le_mul_right _ (by omega)
    rw [Nat.succ_mul] at h
    omega) (by simpa using hle) (fun _ _ => rfl)
  refine ⟨r, by simp [remapRanges, hsize, e], h1, ?_, ?_⟩
  · intro i s hi f hf
    simpa using h2 i s hi f hf
  · intro p hp
    exact h4 p (by simpa using hp)

/-- Container comparison: equal sizes and no pair of elements that differ. -/
theorem C62_containers_equal {α : Type} (differ : α → α → Bool) (l r : List α) :
    containersEqual differ l r = some (decide (l.length = r.length) &&
      (List.zip l r).all (fun p => !differ p.1 p.2)) := by
  have key : ∀ l r : List α, l.length = r.length →
      rangesEqual differ l r = some ((List.zip l r).all (fun p => !differ p.1 p.2)) := by
    intro l
    induction l with
    | nil => intro r _; simp [rangesEqual]
    | cons a l ih =>
      intro r hr
      cases r with
      | nil => simp at hr
      | cons b r =>
        rw [rangesEqual]
        split
        · rename_i h; simp [h]
        · rename_i h
          rw [ih r (by simpa using hr)]
          simp [h]
  unfold containersEqual
  split
  · rename_i h; simp [h]
  · rename_i h
    rw [not_not] at h
    rw [key l r h]
    simp [h]

/-- `count_matches` and `count_matches_for_value` count the positions at which the ranges agree (and
hold the value). -/
theorem C62_count_matches {α : Type} [DecidableEq α] (v : α) : ∀ (l r : List α) (c : Nat),
    l.length ≤ r.length →
    countMatches l r c = some (c + (List.zip l r).countP (fun p => decide (p.1 = p.2))) ∧
    countMatchesFor v l r c =
      some (c + (List.zip l r).countP (fun p => decide (p.1 = v ∧ p.2 = v))) := by
  intro l
  induction l with
  | nil => intro r c _; simp [countMatches, countMatchesFor]
  | cons a l ih =>
    intro r c hr
    cases r with
    | nil => simp at hr
    | cons b r =>
      have hr' : l.length ≤ r.length := by simpa using hr
      rw [countMatches, countMatchesFor, (ih r _ hr').1, (ih r _ hr').2, List.zip_cons_cons,
        List.countP_cons, List.countP_cons]
      constructor
      · by_cases h : a = b <;> simp [h]; omega
      · have : (b = v ∧ a = b) ↔ (a = v ∧ b = v) := by
          constructor
          · rintro ⟨rfl, rfl⟩; exact ⟨rfl, rfl⟩
          · rintro ⟨rfl, rfl⟩; exact ⟨rfl, rfl⟩
        by_cases h : a = v ∧ b = v
        · simp [h]; omega
        · rw [if_neg (fun hh => h (this.1 hh))]; simp [h]

/-! ### C64 -/

/-- **C64**, cycling: the axis is a feature index, or an element of the mask if there is one, and
each of them comes up in every period. -/
theorem C64_cycle (mask : List Nat) (nf depth : Nat) (hnf : 0 < nf) :
    ∃ a, cycleAxis mask nf depth = some a ∧ (mask = [] → a < nf ∧ a = depth % nf) ∧
      (mask ≠ [] → a ∈ mask) := by
  unfold cycleAxis
  cases mask with
  | nil => exact ⟨depth % nf, rfl, fun _ => ⟨Nat.mod_lt _ hnf, rfl⟩, fun h => absurd rfl h⟩
  | cons m mask =>
    have hlt : depth % (m :: mask).length < (m :: mask).length := Nat.mod_lt _ (by simp)
    refine ⟨(m :: mask)[depth % (m :: mask).length], ?_, fun h => by simp at h,
      fun _ => List.getElem_mem _⟩
    simp [List.getElem?_eq_getElem hlt]

/-- **C64**, maximum spread without mask: a feature index of maximum extent. -/
theorem C64_spread (box : List (F × F)) (hne : box ≠ []) :
    ∃ a s, spreadAxis [] box = some a ∧ box[a]? = some s ∧
      ∀ t ∈ box, |t.2 - t.1| ≤ |s.2 - s.1| := by
  obtain ⟨i, v, e, h1, h2, _⟩ := best_spec (fun a : F × F => |a.1 - a.2|)
    (fun a b => decide (|b.1 - b.2| < |a.1 - a.2|)) (by simp) box hne
  refine ⟨i, v, by simp [spreadAxis, longestAxis, e], h1, ?_⟩
  intro t ht
  have := not_lt.1 (h2 t ht)
  rwa [abs_sub_comm t.2, abs_sub_comm v.2]

theorem longestAxisLoop_spec (box : List (F × F)) : ∀ (mask : List Nat) (axis : Nat) (range : F),
    (∀ f ∈ mask, f < box.length) →
    ∃ a, longestAxisLoop box mask axis range = some a ∧
      ((a = axis ∧ ∀ f ∈ mask, ∀ t, box[f]? = some t → |t.2 - t.1| ≤ range) ∨
       (a ∈ mask ∧ ∃ s, box[a]? = some s ∧ range < |s.2 - s.1| ∧
          ∀ f ∈ mask, ∀ t, box[f]? = some t → |t.2 - t.1| ≤ |s.2 - s.1|)) := by
  intro mask
  induction mask with
  | nil => intro axis range _; exact ⟨axis, rfl, Or.inl ⟨rfl, by simp⟩⟩
  | cons f mask ih =>
    intro axis range hm
    obtain ⟨s, hs⟩ : ∃ s, box[f]? = some s :=
      ⟨_, List.getElem?_eq_getElem (hm f (by simp))⟩
    rw [longestAxisLoop]
    simp only [hs, Option.bind_eq_bind, Option.bind_some]
    split
    · rename_i hgt
      obtain ⟨a, e, h⟩ := ih f |s.2 - s.1| (fun g hg => hm g (by simp [hg]))
      refine ⟨a, e, Or.inr ?_⟩
      rcases h with ⟨rfl, h⟩ | ⟨ha, s', hs', hlt, h⟩
      · refine ⟨by simp, s, hs, hgt, ?_⟩
        intro g hg t ht
        rcases List.mem_cons.1 hg with rfl | hg
        · rw [hs] at ht; rw [Option.some.inj ht]
        · exact h g hg t ht
      · refine ⟨by simp [ha], s', hs', lt_trans hgt hlt, ?_⟩
        intro g hg t ht
        rcases List.mem_cons.1 hg with rfl | hg
        · rw [hs] at ht; rw [← Option.some.inj ht]; exact hlt.le
        · exact h g hg t ht
    · rename_i hgt
      obtain ⟨a, e, h⟩ := ih axis range (fun g hg => hm g (by simp [hg]))
      refine ⟨a, e, ?_⟩
      rcases h with ⟨rfl, h⟩ | ⟨ha, s', hs', hlt, h⟩
      · left
        refine ⟨rfl, ?_⟩
        intro g hg t ht
        rcases List.mem_cons.1 hg with rfl | hg
        · rw [hs] at ht; rw [← Option.some.inj ht]; exact not_lt.1 hgt
        · exact h g hg t ht
      · right
        refine ⟨by simp [ha], s', hs', hlt, ?_⟩
        intro g hg t ht
        rcases List.mem_cons.1 hg with rfl | hg
        · rw [hs] at ht; rw [← Option.some.inj ht]; exact (not_lt.1 hgt).trans hlt.le
        · exact h g hg t ht

/-- **C64**, maximum spread with a mask, part that holds: if some feature of the mask has positive
extent the axis is an element of the mask of maximum extent among the mask.  What is missing: when
all extents are zero the axis is 0, in the mask or not (`C64_mask_counterexample`). -/
theorem C64_spread_mask_partial (box : List (F × F)) (mask : List Nat)
    (hm : ∀ f ∈ mask, f < box.length)
    (hpos : ∃ f ∈ mask, ∃ t, box[f]? = some t ∧ 0 < |t.2 - t.1|) :
    ∃ a s, spreadAxis mask box = some a ∧ a ∈ mask ∧ box[a]? = some s ∧
      ∀ f ∈ mask, ∀ t, box[f]? = some t → |t.2 - t.1| ≤ |s.2 - s.1| := by
  obtain ⟨f0, hf0, t0, ht0, hpos⟩ := hpos
  have hne : mask.isEmpty = false := by cases mask <;> simp at hf0 ⊢
  obtain ⟨a, e, h⟩ := longestAxisLoop_spec box mask 0 0 hm
  rcases h with ⟨_, h⟩ | ⟨ha, s, hs, _, h⟩
  · exact absurd hpos (not_lt.2 (h f0 hf0 t0 ht0))
  · exact ⟨a, s, by simp [spreadAxis, hne, longestAxisMasked, e], ha, hs, h⟩

/-- **C64** is false with a mask when all samples coincide on the masked features: the axis is 0. -/
theorem C64_mask_counterexample :
    spreadAxis (F := ℚ) [1] [(0, 5), (2, 2)] = some 0 := by decide +kernel

/-- Specification: the feature has the largest sample variance over the given samples. -/
def IsMaxVariance (x : Nat → Nat → F) (nf : Nat) (sel : List Nat) (a : Nat) : Prop :=
  a < nf ∧ ∀ f, f < nf →
    sampleVariance (sel.map (fun i => x i f)) ≤ sampleVariance (sel.map (fun i => x i a))

theorem sampleVariance_perm {l r : List F} (h : l.Perm r) : sampleVariance l = sampleVariance r := by
  unfold sampleVariance mean
  rw [h.sum_eq, h.length_eq, (h.map _).sum_eq]

theorem argmaxVariance_spec (x : Nat → Nat → F) (nf : Nat) (hnf : 0 < nf) (sel : List Nat)
    (h2 : 2 ≤ sel.length) :
    ∃ a, argmaxVariance none x nf sel = some a ∧ IsMaxVariance x nf sel a := by
  have hne : sqSums x nf sel ≠ [] := by
    rw [sqSums_eq]
    intro h
    have := congrArg List.length h
    simp at this
    omega
  obtain ⟨_, i, v, _, hi, hmax, _, e, _⟩ := C59_extrema (sqSums x nf sel) hne
  refine ⟨i, e, ?_⟩
  rw [sqSums_eq] at hi hmax
  have hin : i < nf := by
    have := (List.getElem?_eq_some_iff.1 hi).1
    simpa using this
  refine ⟨hin, ?_⟩
  intro f hf
  have hv : v = (sel.map (fun j => (x j i - mean (sel.map (fun j => x j i))) ^ 2)).sum := by
    rw [List.getElem?_map, List.getElem?_range hin] at hi
    exact (Option.some.inj hi).symm
  have := hmax _ (List.mem_map.2 ⟨f, List.mem_range.2 hf, rfl⟩)
  rw [hv] at this
  unfold sampleVariance
  simp only [List.length_map, List.map_map]
  have hn : (0 : F) ≤ sel.length - 1 := by
    have : (1 : F) ≤ sel.length := by exact_mod_cast (by omega : 1 ≤ sel.length)
    linarith
  exact div_le_div_of_nonneg_right this hn

/-- The outcomes of the generator are those of the distribution used. -/
def ValidOutcomeFor (idx : List Nat) (nChoices : Nat) (outcome : Nat → Nat) : Prop :=
  if nChoices > 2 then Random.ValidOutcome nChoices outcome
  else if idx.length > 2 then Random.ValidOutcome 3 outcome else True

/-- **C64**, highest variance without mask: for every outcome of the generator the axis is a feature
index; with three or more samples it is an axis of maximum variance over the first
`max(nChoices, 3)` samples of the node (the "random" selection is always those samples, see C54). -/
theorem C64_variance (x : Nat → Nat → F) (nf nAll : Nat) (vmax vlowest : F) (nChoices : Nat)
    (outcome : Nat → Nat) (draw : Nat) (idx : List Nat) (hnf : 0 < nf)
    (hc : nChoices ≤ idx.length) (hd : draw < nf)
    (ho : ValidOutcomeFor idx nChoices outcome) :
    ∃ a, varianceAxis x nf nAll vmax vlowest nChoices outcome draw [] idx = some a ∧ a < nf ∧
      (3 ≤ idx.length → IsMaxVariance x nf (idx.take (max nChoices 3)) a) := by
  have main : ∀ k, 3 ≤ k → k ≤ idx.length → Random.ValidOutcome k outcome →
      ∃ sel a, Random.selectN outcome idx k = some sel ∧ argmaxVariance none x nf sel = some a ∧
        IsMaxVariance x nf (idx.take k) a := by
    intro k hk hkl hv
    obtain ⟨sel, e, hlen, hp, _⟩ := (Random.C54_select_partial idx k hkl).1 outcome hv
    obtain ⟨a, e2, h1, h2⟩ := argmaxVariance_spec x nf hnf sel (by omega)
    refine ⟨sel, a, e, e2, h1, ?_⟩
    intro f hf
    rw [← sampleVariance_perm (hp.map _), ← sampleVariance_perm (hp.map (fun i => x i a))]
    exact h2 f hf
  unfold varianceAxis
  by_cases h1 : nChoices > 2
  · obtain ⟨sel, a, e1, e2, h⟩ := main nChoices (by omega) hc (by
      have := ho; unfold ValidOutcomeFor at this; rwa [if_pos h1] at this)
    refine ⟨a, by simp [h1, e1, e2], h.1, ?_⟩
    intro _
    rw [max_eq_left (by omega)]
    exact h
  · by_cases h3 : idx.length > 2
    · obtain ⟨sel, a, e1, e2, h⟩ := main 3 (by omega) (by omega) (by
        have := ho; unfold ValidOutcomeFor at this; rwa [if_neg h1, if_pos h3] at this)
      refine ⟨a, by simp [h1, h3, e1, e2], h.1, ?_⟩
      intro _
      rw [max_eq_right (by omega)]
      exact h
    · by_cases h4 : idx.length = 2
      · have hbl : (KDTree.tightBound x nf vmax vlowest (List.range nAll)).length = nf :=
          KDTree.tightBound_length x nf vmax vlowest _
        have hbne : KDTree.tightBound x nf vmax vlowest (List.range nAll) ≠ [] := by
          intro h; rw [h] at hbl; simp at hbl; omega
        obtain ⟨a, s, e, hs, _⟩ := C64_spread _ hbne
        refine ⟨a, ?_, ?_, fun h => by omega⟩
        · simp only [spreadAxis, List.isEmpty_nil, if_true] at e
          simp [h1, h4, e]
        · have := (List.getElem?_eq_some_iff.1 hs).1
          omega
      · exact ⟨draw, by simp [h1, h3, h4], hd, fun h => by omega⟩

/-- What the masked `argmax_variance_per_feature` returns: an element of the mask on which the first
sample is farthest from the mean of all. -/
theorem argmaxVarianceMasked_spec (x : Nat → Nat → F) (mask : List Nat) (hm : mask ≠ []) (i0 : Nat)
    (rest : List Nat) :
    ∃ a, argmaxVarianceMasked none x (i0 :: rest) mask = some a ∧ a ∈ mask ∧
      ∀ f ∈ mask, (x i0 f - mean ((i0 :: rest).map (fun i => x i f))) ^ 2 ≤
        (x i0 a - mean ((i0 :: rest).map (fun i => x i a))) ^ 2 := by
  have es : sqSumsMasked x (i0 :: rest) mask = some (mask.map (fun f =>
      (rest.length + 1 : F) * (x i0 f - mean ((i0 :: rest).map (fun i => x i f))) ^ 2)) := by
    simp only [sqSumsMasked, Option.some.injEq]
    rw [(C58_mean x (i0 :: rest) mask 0 0).1]
    have hz : List.replicate mask.length (0 : F) = mask.map (fun _ => 0) := by simp
    rw [List.zipWith_map_right, List.zipWith_self, hz]
    have := foldl_zip_map (fun _ f => (x i0 f - mean ((i0 :: rest).map fun i => x i f)) *
      (x i0 f - mean ((i0 :: rest).map fun i => x i f))) mask (i0 :: rest) (fun _ => 0)
    rw [this]
    apply List.map_congr_left
    intro f _
    simp only [zero_add, List.map_const', List.sum_replicate, nsmul_eq_mul, List.length_cons]
    push_cast
    rw [sq]
  obtain ⟨_, i, v, _, hi, hmax, _, e, _⟩ := C59_extrema (mask.map (fun f =>
    (rest.length + 1 : F) * (x i0 f - mean ((i0 :: rest).map (fun i => x i f))) ^ 2)) (by simpa using hm)
  rw [List.getElem?_map] at hi
  obtain ⟨a, ha, hv⟩ := Option.map_eq_some_iff.1 hi
  refine ⟨a, ?_, List.mem_of_getElem? ha, ?_⟩
  · simp only [argmaxVarianceMasked, es, e, Option.bind_eq_bind, Option.bind_some, ha]
  · intro f hf
    have := hmax _ (List.mem_map.2 ⟨f, hf, rfl⟩)
    rw [← hv] at this
    have hn : (0 : F) < rest.length + 1 := by positivity
    exact le_of_mul_le_mul_left this hn

/-- **C64**, highest variance with a mask, part that holds: with three or more samples the axis is an
element of the mask, on which the first of the selected samples is farthest from their mean.  What is
missing: that it has the highest variance (`C64_variance_mask_order_counterexample`), and nodes of one
or two samples (`C64_variance_mask_counterexample`). -/
theorem C64_variance_mask_partial (x : Nat → Nat → F) (nf nAll : Nat) (vmax vlowest : F) (nChoices : Nat)
    (outcome : Nat → Nat) (draw : Nat) (mask idx : List Nat) (hm : mask ≠ []) (h3 : 3 ≤ idx.length)
    (hc : nChoices ≤ idx.length) (ho : ValidOutcomeFor idx nChoices outcome) :
    ∃ a i0 rest, varianceAxis x nf nAll vmax vlowest nChoices outcome draw mask idx = some a ∧ a ∈ mask ∧
      (i0 :: rest).Perm (idx.take (max nChoices 3)) ∧
      ∀ f ∈ mask, (x i0 f - mean ((i0 :: rest).map (fun i => x i f))) ^ 2 ≤
        (x i0 a - mean ((i0 :: rest).map (fun i => x i a))) ^ 2 := by
  have hem : mask.isEmpty = false := by cases mask <;> simp at hm ⊢
  have main : ∀ k, 3 ≤ k → k ≤ idx.length → Random.ValidOutcome k outcome →
      ∃ a i0 rest, Random.selectN outcome idx k = some (i0 :: rest) ∧
        argmaxVarianceMasked none x (i0 :: rest) mask = some a ∧ a ∈ mask ∧
        (i0 :: rest).Perm (idx.take k) ∧
        ∀ f ∈ mask, (x i0 f - mean ((i0 :: rest).map (fun i => x i f))) ^ 2 ≤
          (x i0 a - mean ((i0 :: rest).map (fun i => x i a))) ^ 2 := by
    intro k hk hkl hv
    obtain ⟨sel, e, hlen, hp, _⟩ := (Random.C54_select_partial idx k hkl).1 outcome hv
    cases sel with
    | nil => simp at hlen; omega
    | cons i0 rest =>
      obtain ⟨a, e2, h1, h2⟩ := argmaxVarianceMasked_spec x mask hm i0 rest
      exact ⟨a, i0, rest, e, e2, h1, hp, h2⟩
  unfold varianceAxis
  by_cases h1 : nChoices > 2
  · obtain ⟨a, i0, rest, e1, e2, h⟩ := main nChoices (by omega) hc (by
      have := ho; unfold ValidOutcomeFor at this; rwa [if_pos h1] at this)
    refine ⟨a, i0, rest, by simp [h1, e1, e2, hem], ?_⟩
    rw [max_eq_left (by omega)]
    exact h
  · obtain ⟨a, i0, rest, e1, e2, h⟩ := main 3 (by omega) (by omega) (by
      have := ho; unfold ValidOutcomeFor at this
      rwa [if_neg h1, if_pos (by omega)] at this)
    refine ⟨a, i0, rest, by simp [h1, show idx.length > 2 by omega, e1, e2, hem], ?_⟩
    rw [max_eq_right (by omega)]
    exact h

/-- **C64** is false for highest variance with a mask also on three samples: feature 2 varies a
hundred times more than feature 1, but the first sample is at its mean, so feature 1 is chosen. -/
theorem C64_variance_mask_order_counterexample :
    let x : Nat → Nat → ℚ := fun i f => if f = 2 then [0, 100, -100].getD i 0 else i
    varianceAxis x 3 3 1000 (-1000) 3 id 0 [1, 2] [0, 1, 2] = some 1 ∧
    sampleVariance ([0, 1, 2].map fun i => x i 1) = 1 ∧
    sampleVariance ([0, 1, 2].map fun i => x i 2) = 10000 := by
  refine ⟨by decide +kernel, by decide +kernel, by decide +kernel⟩

/-- **C64** is false for highest variance with a mask: a node with one sample gets any axis the
generator draws; and with two samples the axis is that of the whole data set, also 0 if the masked
features do not vary. -/
theorem C64_variance_mask_counterexample :
    varianceAxis (F := ℚ) (fun i f => i * f) 3 1 100 (-100) 0 id 2 [1] [0] = some 2 ∧
    varianceAxis (F := ℚ) (fun i f => if f = 1 then 7 else i) 3 2 100 (-100) 0 id 2 [1] [0, 1] =
      some 0 := by
  constructor <;> decide +kernel

end Field

/-! Concrete cases. -/

example : nthSmallest [5, 1, 4, 1] 3 = some (2, 4) := by decide +kernel
example : secondMaxPair (0 : Nat) [3, 9, 9, 1] = some (2, 9) := by decide +kernel
example : normalizeMinMax ([2, 4, 3] : List ℚ) = some [1, 0, 1 / 2] := by decide +kernel
example : varianceIndexed (F := ℚ) (fun i _ => 2 * i) 1 [0, 1, 2] = [4] := by decide +kernel

end Verif.Stats
