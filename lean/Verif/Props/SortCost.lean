import Verif.Lemmas.SortCost

/-
C110: how much work the selection and the sorting do.  The counted steps are the tests of the two scan
loops of the partition; the functions that count return the results of the model.
-/

namespace Verif.Sorting

variable {K : Type} [LinearOrder K]

/-- **C110.** A partition is linear: at most four tests for each element, and two; none for one element. -/
theorem C110_partition {eqv : K → K → Bool} (hg : GoodEq eqv) (key : Nat → K) (idx : List Nat) (pv : Nat)
    (hpv : pv < idx.length) :
    ∃ r c, partitionC eqv key idx pv = some (r, c) ∧ partition eqv key idx pv = some r ∧
      c ≤ 4 * idx.length + 2 ∧ (idx.length = 1 → c = 0) := by
  obtain ⟨P, x, Q, e, _⟩ := partition_spec' key idx pv hpv (hg.refl _)
  have he := partitionC_erase eqv key idx pv
  rw [e] at he
  obtain ⟨⟨r, c⟩, h1, h2⟩ := Option.map_eq_some_iff.1 he
  refine ⟨r, c, h1, by rw [e, ← h2], (partitionC_cost h1).1, fun hl => ?_⟩
  rw [partitionC, if_pos hl, Option.some.injEq, Prod.mk.injEq] at h1
  exact h1.2.symm

/-- **C110.** A selection is at most quadratic. -/
theorem C110_quickselect {eqv : K → K → Bool} (hg : GoodEq eqv) (key : Nat → K) (idx : List Nat) (k : Nat)
    (hk : k < idx.length) :
    ∃ r c, quickselectC eqv key idx k = some (r, c) ∧ quickselect eqv key idx k = some r ∧
      c ≤ idx.length * (4 * idx.length + 2) := by
  obtain ⟨P, x, Q, e, _⟩ := quickselect_spec hg key idx k hk
  have he := quickselectC_erase eqv key idx k
  rw [e] at he
  obtain ⟨⟨r, c⟩, h1, h2⟩ := Option.map_eq_some_iff.1 he
  refine ⟨r, c, h1, by rw [e, ← h2], ?_⟩
  have h0 : ¬ idx.length = 0 := by omega
  simp only [quickselectC, h0, if_false] at h1
  have := quickselectLoopC_cost h1 (by omega) (by omega)
  rw [show idx.length - 1 + 1 - 0 = idx.length by omega] at this
  omega

/-- **C110.** A sort is at most quadratic, and its calls are nested at most as deep as there are
elements. -/
theorem C110_quicksort {eqv : K → K → Bool} (hg : GoodEq eqv) (key : Nat → K) (idx : List Nat) (pv : Nat)
    (hpv : pv < idx.length) :
    ∃ r c, quicksortC eqv key idx.length idx pv = some (r, c) ∧
      quicksort eqv key idx.length idx pv = some r ∧ c ≤ idx.length * (4 * idx.length + 2) := by
  obtain ⟨idx', p, e, _⟩ := quicksort_spec hg key (idx.length + 1) idx pv (fun _ => hpv) (by omega)
  replace e := quicksort_less idx.length e (le_refl _) (by omega)
  have he := quicksortC_erase eqv key idx.length idx pv
  rw [e] at he
  obtain ⟨⟨r, c⟩, h1, h2⟩ := Option.map_eq_some_iff.1 he
  exact ⟨r, c, h1, by rw [e, ← h2], (quicksortC_cost h1).1⟩

/-- **C110.** Equal values are the quadratic case: to select position `k` of `n` equal values takes
exactly `(k + 1) * (2 * n - k)` tests, because every round moves the pivot to the front and sets only
this one element aside. -/
theorem C110_quickselect_equal {eqv : K → K → Bool} (hg : GoodEq eqv) (key : Nat → K) (v : K) (idx : List Nat)
    (hall : ∀ x ∈ idx, key x = v) (k : Nat) (hk : k + 2 ≤ idx.length) :
    ∃ r, quickselectC eqv key idx k = some (r, (k + 1) * (2 * idx.length - k)) ∧
      quickselect eqv key idx k = some r := by
  obtain ⟨idx', e⟩ := quickselectLoopC_equal (hg.refl v) k (idx.length + 1) [] idx 0 hall hk (by omega)
  have h0 : ¬ idx.length = 0 := by omega
  have e' : quickselectC eqv key idx k =
      some ((idx', k, k + 1), (k + 1) * (2 * idx.length - k)) := by
    simpa [quickselectC, h0] using e
  exact ⟨_, e', by rw [← quickselectC_erase, e']; rfl⟩

/-- **C110.** Splitting a node of a k-d tree along a feature in which its `n` samples agree takes at
least `3 / 4 * n ^ 2` tests. -/
theorem C110_kdtree_equal {eqv : K → K → Bool} (hg : GoodEq eqv) (key : Nat → K) (v : K) (idx : List Nat)
    (hall : ∀ x ∈ idx, key x = v) (h2 : 2 ≤ idx.length) :
    ∃ r c, quickselectC eqv key idx ((idx.length - 1) / 2) = some (r, c) ∧
      3 * (idx.length * idx.length) ≤ 4 * c := by
  obtain ⟨r, e, _⟩ := C110_quickselect_equal hg key v idx hall ((idx.length - 1) / 2) (by omega)
  refine ⟨r, _, e, ?_⟩
  obtain ⟨k, hk⟩ : ∃ k, idx.length = 2 * k + 1 ∨ idx.length = 2 * k + 2 :=
    ⟨(idx.length - 1) / 2, by omega⟩
  rcases hk with hk | hk
  · rw [hk, show (2 * k + 1 - 1) / 2 = k by omega, show 2 * (2 * k + 1) - k = 3 * k + 2 by omega]
    nlinarith
  · rw [hk, show (2 * k + 2 - 1) / 2 = k by omega, show 2 * (2 * k + 2) - k = 3 * k + 4 by omega]
    nlinarith

/-- **C110.** Sorting `n` equal values nests `n` calls, no less, and takes `n * (n + 1) - 2` tests. -/
theorem C110_quicksort_equal {eqv : K → K → Bool} (hg : GoodEq eqv) (key : Nat → K) (v : K) (idx : List Nat)
    (hall : ∀ x ∈ idx, key x = v) (pv : Nat) (hpv : pv < idx.length) :
    (∀ fuel < idx.length, quicksort eqv key fuel idx pv = none) ∧
      ∃ r c, quicksortC eqv key idx.length idx pv = some (r, c) ∧
        c + 2 = idx.length * (idx.length + 1) := by
  obtain ⟨n, hn⟩ : ∃ n, idx.length = n + 1 := ⟨idx.length - 1, by omega⟩
  refine ⟨fun fuel hf => ?_, ?_⟩
  · rw [← quicksortC_erase,
      (quicksortC_equal (hg.refl v) n fuel idx pv hall hn hpv).1 (by omega)]
    rfl
  · rw [hn]
    exact (quicksortC_equal (hg.refl v) n (n + 1) idx pv hall hn hpv).2 (le_refl _)

/-! Non-vacuity: seven equal values, and seven different ones. -/

example : quickselectC eqExact (fun _ => (4 : ℤ)) [0, 1, 2, 3, 4, 5, 6] 3 =
    some (([6, 0, 1, 2, 4, 5, 3], 3, 4), (3 + 1) * (2 * 7 - 3)) := by decide +kernel

example : quickselectC eqExact (fun i => (i : ℤ) * 3 % 7) [0, 1, 2, 3, 4, 5, 6] 3 =
    some (([0, 5, 3, 1, 6, 4, 2], 3, 4), 19) := by decide +kernel

example : (quicksortC eqExact (fun _ => (4 : ℤ)) 7 [0, 1, 2, 3, 4, 5, 6] 3).map (·.2) = some 54 ∧
    quicksort eqExact (fun _ => (4 : ℤ)) 6 [0, 1, 2, 3, 4, 5, 6] 3 = none := by decide +kernel


end Verif.Sorting
