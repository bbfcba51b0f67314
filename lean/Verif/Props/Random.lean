import Verif.Lemmas.Random
import Mathlib.MeasureTheory.Measure.Lebesgue.Basic
import Mathlib.Algebra.Order.Floor.Ring
import Mathlib.Tactic.FieldSimp
import Mathlib.Tactic.Positivity

/-
Properties C53 (alias method) and C54 (selection without replacement).
-/

namespace Verif.Random

open MeasureTheory

/-! ### C53 -/

theorem ite_nonneg' {c : Prop} [Decidable c] {x : ℝ} (hx : 0 ≤ x) : 0 ≤ (if c then x else 0) := by
  split
  · exact hx
  · exact le_refl _

/-- **C53**: over any ordered field, for non-negative weights with positive sum, the table is built
(no access out of range, the loops end), its probabilities are in [0,1], its aliases are indices,
and the mass it gives to index `i` out of `n` is exactly `n * w i / sum`. -/
theorem C53_table {K : Type} [Field K] [LinearOrder K] [IsStrictOrderedRing K] (w : List K)
    (h0 : ∀ x ∈ w, 0 ≤ x) (hs : 0 < w.sum) :
    ∃ p a, aliasInit w = some (p, a) ∧ p.length = w.length ∧ a.length = w.length ∧
      (∀ j, j < w.length → 0 ≤ p.getD j 0 ∧ p.getD j 0 ≤ 1) ∧
      (∀ j, j < w.length → a.getD j 0 < w.length) ∧
      ∀ i, i < w.length →
        mass w.length (fun j => p.getD j 0) (fun j => a.getD j 0) i =
          w.length * (w.getD i 0 / w.sum) :=
  aliasInit_spec w h0 hs

/-- `sample` for two uniform numbers (VosesAliasMethod.hpp:106-109). -/
noncomputable def sampleAt (w : List ℝ) (u : ℝ × ℝ) : Option Nat := do
  let table ← aliasInit w
  aliasSample table ⌊(w.length : ℝ) * u.1⌋₊ u.2

theorem floor_mem {n j : Nat} (hn : 0 < n) {u : ℝ} (hu : 0 ≤ u) :
    ⌊(n : ℝ) * u⌋₊ = j ↔ u ∈ Set.Ico ((j : ℝ) / n) ((j + 1 : ℝ) / n) := by
  have hn' : (0 : ℝ) < n := by exact_mod_cast hn
  rw [Nat.floor_eq_iff (by positivity), Set.mem_Ico, div_le_iff₀ hn', lt_div_iff₀ hn', mul_comm u]

/-- **C53**, probabilities: for two independent uniform numbers of [0,1) the probability (Lebesgue
measure) that `sample` returns `i` is exactly `w i` divided by the sum of the weights. -/
theorem C53_probability (w : List ℝ) (h0 : ∀ x ∈ w, 0 ≤ x) (hs : 0 < w.sum) (i : Nat)
    (hi : i < w.length) :
    volume {u : ℝ × ℝ | u ∈ Set.Ico 0 1 ×ˢ Set.Ico 0 1 ∧ sampleAt w u = some i} =
      ENNReal.ofReal (w.getD i 0 / w.sum) := by
  obtain ⟨p, a, e, lp, la, hp, ha, hm⟩ := C53_table w h0 hs
  set n := w.length with hn
  have hn0 : 0 < n := by omega
  have hn' : (0 : ℝ) < n := by exact_mod_cast hn0
  let B : Nat → Set ℝ := fun j => (if j = i then Set.Ico 0 (p.getD j 0) else ∅) ∪
    (if a.getD j 0 = i then Set.Ico (p.getD j 0) 1 else ∅)
  let C : Nat → Set ℝ := fun j => Set.Ico ((j : ℝ) / n) ((j + 1 : ℝ) / n)
  have hset : {u : ℝ × ℝ | u ∈ Set.Ico 0 1 ×ˢ Set.Ico 0 1 ∧ sampleAt w u = some i} =
      ⋃ j ∈ Finset.range n, C j ×ˢ B j := by
    ext ⟨u, v⟩
    simp only [Set.mem_setOf_eq, Set.mem_prod, Set.mem_Ico, Set.mem_iUnion, Finset.mem_range,
      exists_prop]
    constructor
    · rintro ⟨⟨⟨hu0, hu1⟩, hv0, hv1⟩, hd⟩
      have hj : ⌊(n : ℝ) * u⌋₊ < n := by
        rw [Nat.floor_lt (by positivity)]
        nlinarith
      refine ⟨⌊(n : ℝ) * u⌋₊, hj, (floor_mem hn0 hu0).1 rfl, ?_⟩
      set j := ⌊(n : ℝ) * u⌋₊ with hjd
      have e1 := getElem?_eq_getD p j 0 (by omega)
      have e2 := getElem?_eq_getD a j 0 (by omega)
      simp only [sampleAt, e, Option.bind_eq_bind, Option.bind_some, aliasSample, ← hn, ← hjd, e1,
        e2] at hd
      split at hd
      · rename_i hlt
        left
        rw [if_pos (Option.some.inj hd)]
        exact ⟨hv0, hlt⟩
      · rename_i hlt
        right
        rw [if_pos (Option.some.inj hd)]
        exact ⟨not_lt.1 hlt, hv1⟩
    · rintro ⟨j, hj, hu, hv⟩
      have hj1 : (j : ℝ) + 1 ≤ n := by exact_mod_cast hj
      have hu0 : 0 ≤ u := le_trans (by positivity) hu.1
      have hu1 : u < 1 := lt_of_lt_of_le hu.2 (by rw [div_le_one hn']; exact hj1)
      have hjd : ⌊(n : ℝ) * u⌋₊ = j := (floor_mem hn0 hu0).2 hu
      have e1 := getElem?_eq_getD p j 0 (by omega)
      have e2 := getElem?_eq_getD a j 0 (by omega)
      obtain ⟨hp0, hp1⟩ := hp j hj
      simp only [sampleAt, e, Option.bind_eq_bind, Option.bind_some, aliasSample, ← hn, hjd, e1, e2]
      rcases hv with hv | hv
      · split at hv
        · rename_i hji
          refine ⟨⟨⟨hu0, hu1⟩, hv.1, lt_of_lt_of_le hv.2 hp1⟩, ?_⟩
          rw [if_pos hv.2, hji]
        · exact absurd hv (Set.notMem_empty _)
      · split at hv
        · rename_i hji
          refine ⟨⟨⟨hu0, hu1⟩, hp0.trans hv.1, hv.2⟩, ?_⟩
          rw [if_neg (not_lt.2 hv.1), hji]
        · exact absurd hv (Set.notMem_empty _)
  have hBm : ∀ j, MeasurableSet (B j) := by
    intro j
    refine MeasurableSet.union ?_ ?_ <;> split <;> first | exact measurableSet_Ico | exact MeasurableSet.empty
  have hdisj : Set.PairwiseDisjoint (↑(Finset.range n)) (fun j => C j ×ˢ B j) := by
    intro j _ k _ hjk
    rw [Function.onFun, Set.disjoint_left]
    rintro ⟨u, v⟩ ⟨hu, _⟩ ⟨hu', _⟩
    have hu0 : 0 ≤ u := le_trans (by positivity) hu.1
    exact hjk (((floor_mem hn0 hu0).2 hu).symm.trans ((floor_mem hn0 hu0).2 hu'))
  rw [hset, measure_biUnion_finset hdisj (fun j _ => measurableSet_Ico.prod (hBm j))]
  have hcell : ∀ j ∈ Finset.range n, volume (C j ×ˢ B j) =
      ENNReal.ofReal ((1 / n) * ((if j = i then p.getD j 0 else 0) +
        (if a.getD j 0 = i then 1 - p.getD j 0 else 0))) := by
    intro j hj
    obtain ⟨hp0, hp1⟩ := hp j (Finset.mem_range.1 hj)
    rw [Measure.volume_eq_prod, Measure.prod_prod, ENNReal.ofReal_mul (by positivity)]
    congr 1
    · rw [Real.volume_Ico]
      congr 1
      field_simp
      ring
    · have hd : Disjoint (if j = i then Set.Ico 0 (p.getD j 0) else (∅ : Set ℝ))
          (if a.getD j 0 = i then Set.Ico (p.getD j 0) 1 else ∅) := by
        split
        · split
          · rw [Set.disjoint_left]
            intro x hx hx'
            exact absurd hx.2 (not_lt.2 hx'.1)
          · exact Set.disjoint_empty _
        · exact Set.empty_disjoint _
      rw [measure_union hd (by split <;> first | exact measurableSet_Ico | exact MeasurableSet.empty),
        ENNReal.ofReal_add (ite_nonneg' hp0) (ite_nonneg' (sub_nonneg.2 hp1))]
      congr 1
      · split <;> simp
      · split <;> simp
  rw [Finset.sum_congr rfl hcell, ← ENNReal.ofReal_sum_of_nonneg, ← Finset.mul_sum]
  · congr 1
    have := hm i hi
    unfold mass at this
    rw [this]
    field_simp
  · intro j hj
    obtain ⟨hp0, hp1⟩ := hp j (Finset.mem_range.1 hj)
    refine mul_nonneg (by positivity) (add_nonneg ?_ ?_)
    · exact ite_nonneg' hp0
    · exact ite_nonneg' (sub_nonneg.2 hp1)

/-- **C53**, zero weights: whatever the two uniform numbers of [0,1), `sample` returns an index, and
the weight of that index is positive. -/
theorem C53_zero_never_drawn (w : List ℝ) (h0 : ∀ x ∈ w, 0 ≤ x) (hs : 0 < w.sum) (u : ℝ × ℝ)
    (hu : u ∈ Set.Ico (0 : ℝ) 1 ×ˢ Set.Ico (0 : ℝ) 1) :
    ∃ i, sampleAt w u = some i ∧ i < w.length ∧ 0 < w.getD i 0 := by
  obtain ⟨p, a, e, lp, la, hp, ha, hm⟩ := C53_table w h0 hs
  obtain ⟨⟨hu0, hu1⟩, hv0, hv1⟩ := hu
  have hn0 : 0 < w.length := by
    rcases Nat.eq_zero_or_pos w.length with h | h
    · rw [List.length_eq_zero_iff] at h; subst h; simp at hs
    · exact h
  have hn' : (0 : ℝ) < w.length := by exact_mod_cast hn0
  have hj : ⌊(w.length : ℝ) * u.1⌋₊ < w.length := by
    rw [Nat.floor_lt (by positivity)]
    nlinarith
  set j := ⌊(w.length : ℝ) * u.1⌋₊ with hjd
  have e1 := getElem?_eq_getD p j 0 (by omega)
  have e2 := getElem?_eq_getD a j 0 (by omega)
  -- an index that receives mass from some cell has positive weight
  have key : ∀ i, i < w.length → 0 < (if j = i then p.getD j 0 else 0) +
      (if a.getD j 0 = i then 1 - p.getD j 0 else 0) → 0 < w.getD i 0 := by
    intro i hi hpos
    have h1 : 0 < mass w.length (fun j => p.getD j 0) (fun j => a.getD j 0) i := by
      unfold mass
      refine lt_of_lt_of_le hpos ?_
      refine Finset.single_le_sum (f := fun j => (if j = i then p.getD j 0 else 0) +
        (if a.getD j 0 = i then 1 - p.getD j 0 else 0)) ?_ (Finset.mem_range.2 hj)
      intro k hk
      obtain ⟨hp0, hp1⟩ := hp k (Finset.mem_range.1 hk)
      refine add_nonneg ?_ ?_
      · exact ite_nonneg' hp0
      · exact ite_nonneg' (sub_nonneg.2 hp1)
    rw [hm i hi] at h1
    by_contra hneg
    have : w.getD i 0 / w.sum ≤ 0 := div_nonpos_of_nonpos_of_nonneg (not_lt.1 hneg) hs.le
    nlinarith
  simp only [sampleAt, e, Option.bind_eq_bind, Option.bind_some, aliasSample, ← hjd, e1, e2]
  split
  · rename_i hlt
    refine ⟨j, rfl, hj, key j hj ?_⟩
    rw [if_pos rfl]
    have : 0 ≤ (if a.getD j 0 = j then 1 - p.getD j 0 else 0) := ite_nonneg' (sub_nonneg.2 (hp j hj).2)
    linarith
  · rename_i hlt
    refine ⟨a.getD j 0, rfl, ha j hj, key _ (ha j hj) ?_⟩
    rw [if_pos rfl]
    have : 0 ≤ (if j = a.getD j 0 then p.getD j 0 else 0) := ite_nonneg' (hp j hj).1
    have := not_lt.1 hlt
    linarith

/-! ### C54 -/

/-- **C54**, part that holds: for every outcome of the generator the result is an arrangement of the
first `n` elements of the range, so there are `n` of them and they are distinct if the range is; and
every arrangement of the first `n` elements is produced by some outcome.  What is missing: elements
after the first `n` can never be selected (`C54_tail_never_selected`). -/
theorem C54_select_partial {α : Type} (l : List α) (n : Nat) (hn : n ≤ l.length) :
    (∀ outcome, ValidOutcome n outcome → ∃ r, selectN outcome l n = some r ∧ r.length = n ∧
      r.Perm (l.take n) ∧ (l.Nodup → r.Nodup)) ∧
    (∀ t, t.Perm (l.take n) → ∃ outcome, ValidOutcome n outcome ∧ selectN outcome l n = some t) := by
  refine ⟨?_, ?_⟩
  · intro outcome hv
    obtain ⟨l', e, _, hl, hp, _⟩ := selectLoop_spec n outcome hv n 0 l (by omega) hn
    refine ⟨l'.take n, by simp [selectN, e], by simp; omega, hp, ?_⟩
    intro hnd
    exact hp.nodup_iff.2 (hnd.sublist (List.take_sublist _ _))
  · intro t ht
    obtain ⟨o, ho, l', e, g⟩ := selectLoop_reach n n 0 l t (by omega) hn (by simpa using ht)
    refine ⟨o, ho, ?_⟩
    simp only [List.drop_zero] at g
    simp [selectN, e, g]

/-- **C54** is false: an element after the first `n` that does not also occur among them is selected
by no outcome of the generator. -/
theorem C54_tail_never_selected {α : Type} (l : List α) (n : Nat) (hn : n ≤ l.length) (x : α)
    (hx : x ∉ l.take n) (outcome : Nat → Nat) (hv : ValidOutcome n outcome) :
    ∃ r, selectN outcome l n = some r ∧ x ∉ r := by
  obtain ⟨r, e, _, hp, _⟩ := (C54_select_partial l n hn).1 outcome hv
  exact ⟨r, e, fun h => hx (hp.subset h)⟩

theorem mapM_getElem? {α : Type} (rows : List α) : ∀ idx : List Nat, (∀ i ∈ idx, i < rows.length) →
    ∃ r, idx.mapM (fun i => rows[i]?) = some r ∧ r.map some = idx.map (fun i => rows[i]?) := by
  intro idx
  induction idx with
  | nil => intro _; exact ⟨[], rfl, rfl⟩
  | cons i idx ih =>
    intro h
    obtain ⟨r, e, g⟩ := ih (fun j hj => h j (by simp [hj]))
    have hi := h i (by simp)
    refine ⟨rows[i] :: r, ?_, by simp [g, hi]⟩
    simp [List.mapM_cons, hi, e]

/-- Consequence for `init_uniform` / `select_n_random_samples`: whatever the generator does, the
`k` "random" centroids are exactly the first `k` rows of the data, in some order. -/
theorem C54_init_uniform_first_rows {K : Type} (rows : List (List K)) (k : Nat)
    (hk : k ≤ rows.length) (outcome : Nat → Nat) (hv : ValidOutcome k outcome) :
    ∃ r, initUniform outcome rows k = some r ∧ r.Perm (rows.take k) := by
  have hlen : (List.range' 0 (rows.length - 0)).length = rows.length := by simp
  obtain ⟨idx, e, _, hp, _⟩ := (C54_select_partial (List.range' 0 (rows.length - 0)) k
    (by rw [hlen]; exact hk)).1 outcome hv
  have htake : (List.range' 0 (rows.length - 0)).take k = List.range k := by
    rw [List.range'_eq_map_range, ← List.map_take, List.take_range]
    simp [hk]
  rw [htake] at hp
  obtain ⟨r, e2, g⟩ := mapM_getElem? rows idx (fun i hi => by
    have := List.mem_range.1 (hp.subset hi); omega)
  refine ⟨r, by
    unfold initUniform fromInterval
    rw [e]
    exact e2, ?_⟩
  have h1 : (r.map some).Perm ((rows.take k).map some) := by
    rw [g]
    refine (hp.map _).trans ?_
    refine List.Perm.of_eq ?_
    apply List.ext_getElem
    · simp; omega
    · intro i h1 h2
      simp at h1 h2
      simp
  have := h1.filterMap id
  simpa using this

/-- Bounds drawn from in `init_spatial_uniform` are not those of the data for negative floating
values: the upper end is at least the smallest positive value. -/
theorem C54_spatial_max_counterexample :
    spatialMax (1 / 100 : ℚ) [-5, -3] = 1 / 100 ∧ spatialMin (100 : ℚ) [-5, -3] = -5 := by
  constructor <;> decide +kernel

/-! Concrete cases. -/

example : aliasInit ([1, 2, 3, 0, 4] : List ℚ) =
    some ([1 / 2, 1 / 2, 0, 0, 1], [1, 2, 4, 2, 0]) := by decide +kernel
example : selectN (fun i => if i = 0 then 2 else i) ["a", "b", "c", "d", "e"] 3 =
    some ["c", "b", "a"] := by decide +kernel
example : ValidOutcome 3 (fun i => if i = 0 then 2 else i) := by
  intro i hi; dsimp only; split <;> omega

end Verif.Random
