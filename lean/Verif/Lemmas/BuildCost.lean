import Verif.Model.BuildCost
import Verif.Lemmas.SortCost
import Verif.Lemmas.Balance
import Verif.Props.SortCost
import Mathlib.Tactic.Linarith
import Mathlib.Tactic.Ring

/-
The counted construction: it is the construction, and bounds of the count.
-/

namespace Verif.KDTree

open Verif.Sorting

set_option linter.unusedSectionVars false

variable {K : Type} [LinearOrder K]

theorem shiftLeftC_erase (eqv : K → K → Bool) (key : Nat → K) (cut : K) (idx : List Nat) (j : Nat) :
    (shiftLeftC eqv key cut idx j).map (·.1) = shiftLeft eqv key cut idx j := by
  induction j with
  | zero => rfl
  | succ j ih =>
    simp only [shiftLeftC, shiftLeft, Option.bind_eq_bind]
    cases idx[j]? with
    | none => rfl
    | some y =>
      simp only [Option.bind_some]
      split
      · rw [← ih]
        cases shiftLeftC eqv key cut idx j <;> rfl
      · rfl

theorem shiftLeftC_cost {eqv : K → K → Bool} {key : Nat → K} {cut : K} {idx : List Nat} {j r c : Nat}
    (h : shiftLeftC eqv key cut idx j = some (r, c)) : c ≤ j := by
  induction j generalizing r c with
  | zero => simp only [shiftLeftC, Option.some.injEq, Prod.mk.injEq] at h; omega
  | succ j ih =>
    simp only [shiftLeftC, Option.bind_eq_bind] at h
    obtain ⟨y, _, h⟩ := Option.bind_eq_some_iff.1 h
    split at h
    · obtain ⟨⟨r', c'⟩, h1, h2⟩ := Option.bind_eq_some_iff.1 h
      simp only [Option.some.injEq, Prod.mk.injEq] at h2
      have := ih h1
      omega
    · simp only [Option.some.injEq, Prod.mk.injEq] at h
      omega

theorem quickselectMedianC_erase (eqv : K → K → Bool) (key : Nat → K) (idx : List Nat) :
    (quickselectMedianC eqv key idx).map (·.1) = quickselectMedian eqv key idx := by
  simp only [quickselectMedianC, quickselectMedian, Option.bind_eq_bind]
  rw [← quickselectC_erase]
  cases quickselectC eqv key idx ((idx.length - 1) / 2) with
  | none => rfl
  | some r =>
    obtain ⟨⟨idx', first, _⟩, c⟩ := r
    simp only [Option.bind_some, Option.map_some]
    cases idx'[first]? with
    | none => rfl
    | some m =>
      simp only [Option.bind_some]
      rw [← shiftLeftC_erase]
      cases shiftLeftC eqv key (key m) idx' ((idx.length - 1) / 2) with
      | none => rfl
      | some r =>
        simp only [Option.bind_some, Option.map_some]
        cases idx'[r.1]? <;> rfl

theorem quickselectMedianC_cost {eqv : K → K → Bool} {key : Nat → K} {idx : List Nat}
    {r : List Nat × Nat × List Nat} {c : Nat} (h : quickselectMedianC eqv key idx = some (r, c)) :
    c ≤ idx.length * (4 * idx.length + 3) := by
  simp only [quickselectMedianC, Option.bind_eq_bind] at h
  obtain ⟨⟨⟨idx', first, last⟩, c1⟩, h1, h⟩ := Option.bind_eq_some_iff.1 h
  obtain ⟨m, _, h⟩ := Option.bind_eq_some_iff.1 h
  obtain ⟨⟨j, c2⟩, h2, h⟩ := Option.bind_eq_some_iff.1 h
  obtain ⟨p, _, h⟩ := Option.bind_eq_some_iff.1 h
  simp only [Option.some.injEq, Prod.mk.injEq] at h
  have hc2 := shiftLeftC_cost h2
  have hc1 : c1 ≤ idx.length * (4 * idx.length + 2) := by
    unfold quickselectC at h1
    split at h1
    · simp at h1
    · have := quickselectLoopC_cost h1 (by omega) (by omega)
      rw [show idx.length - 1 + 1 - 0 = idx.length by omega] at this
      omega
  have : c2 ≤ idx.length := by omega
  rw [← h.2]
  nlinarith

theorem buildC_erase (eqv : K → K → Bool) (x : Nat → Nat → K) (policy : List Nat → Nat → Box K → Nat)
    (bucketSize maxDepth fuel : Nat) (idx : List Nat) (depth : Nat) (box : Box K) :
    (buildC eqv x policy bucketSize maxDepth fuel idx depth box).map (·.1) =
      build eqv x policy bucketSize maxDepth fuel idx depth box := by
  induction fuel generalizing idx depth box with
  | zero => rfl
  | succ fuel ih =>
    unfold buildC build
    split
    · simp only [Option.bind_eq_bind]
      rw [← quickselectMedianC_erase]
      cases quickselectMedianC eqv (fun i => x i (policy idx depth box)) idx with
      | none => rfl
      | some r =>
        obtain ⟨⟨l, p, r⟩, c⟩ := r
        simp only [Option.bind_some, Option.map_some]
        cases updUpper box (policy idx depth box) (x p (policy idx depth box)) with
        | none => rfl
        | some b1 =>
          simp only [Option.bind_some]
          rw [← ih]
          cases buildC eqv x policy bucketSize maxDepth fuel l (depth + 1) b1 with
          | none => rfl
          | some rl =>
            obtain ⟨⟨l', tl, b2⟩, cl⟩ := rl
            simp only [Option.bind_some, Option.map_some]
            cases box[policy idx depth box]? with
            | none => rfl
            | some seg =>
              simp only [Option.bind_some]
              cases updUpper b2 (policy idx depth box) seg.2 with
              | none => rfl
              | some b3 =>
                simp only [Option.bind_some]
                cases updLower b3 (policy idx depth box) (x p (policy idx depth box)) with
                | none => rfl
                | some b4 =>
                  simp only [Option.bind_some]
                  rw [← ih]
                  cases buildC eqv x policy bucketSize maxDepth fuel r (depth + 1) b4 with
                  | none => rfl
                  | some rr =>
                    obtain ⟨⟨r', tr, b5⟩, cr⟩ := rr
                    simp only [Option.bind_some, Option.map_some]
                    cases updLower b5 (policy idx depth box) seg.1 <;> rfl
    · rfl

theorem makeC_erase (eqv : K → K → Bool) (x : Nat → Nat → K) (policy : List Nat → Nat → Box K → Nat)
    (bucketSize maxDepth nf : Nat) (vmax vlowest : K) (idx : List Nat) :
    (makeC eqv x policy bucketSize maxDepth nf vmax vlowest idx).map (·.1) =
      make eqv x policy bucketSize maxDepth nf vmax vlowest idx := by
  simp only [makeC, make, Option.bind_eq_bind]
  rw [← buildC_erase]
  cases buildC eqv x policy bucketSize maxDepth (idx.length + 1) idx 0 (tightBound x nf vmax vlowest idx) <;> rfl

/-- Inversion of one level of the counted construction. -/
theorem buildC_inv {eqv : K → K → Bool} {x : Nat → Nat → K} {policy : List Nat → Nat → Box K → Nat}
    {bucketSize maxDepth fuel depth : Nat} {idx idx' : List Nat} {box box' : Box K} {t : Tree K} {c : Nat}
    (h : buildC eqv x policy bucketSize maxDepth (fuel + 1) idx depth box = some ((idx', t, box'), c)) :
    (¬ (depth < maxDepth ∧ idx.length > bucketSize) ∧ t = .leaf idx box ∧ c = 0) ∨
    (depth < maxDepth ∧ idx.length > bucketSize ∧ ∃ axis l p r l' r' tl tr b1 b2 b3 b4 cq cl cr,
      quickselectMedianC eqv (fun i => x i axis) idx = some ((l, p, r), cq) ∧
      buildC eqv x policy bucketSize maxDepth fuel l (depth + 1) b1 = some ((l', tl, b2), cl) ∧
      buildC eqv x policy bucketSize maxDepth fuel r (depth + 1) b3 = some ((r', tr, b4), cr) ∧
      t = .node p axis box tl tr ∧ c = cq + cl + cr) := by
  unfold buildC at h
  by_cases hc : depth < maxDepth ∧ idx.length > bucketSize
  · rw [if_pos hc] at h
    right
    refine ⟨hc.1, hc.2, policy idx depth box, ?_⟩
    simp only [Option.bind_eq_bind] at h
    obtain ⟨⟨⟨l, p, r⟩, cq⟩, h1, h⟩ := Option.bind_eq_some_iff.1 h
    obtain ⟨b1, h2, h⟩ := Option.bind_eq_some_iff.1 h
    obtain ⟨⟨⟨l', tl, b2⟩, cl⟩, h3, h⟩ := Option.bind_eq_some_iff.1 h
    obtain ⟨seg, h4, h⟩ := Option.bind_eq_some_iff.1 h
    obtain ⟨b3, h5, h⟩ := Option.bind_eq_some_iff.1 h
    obtain ⟨b4, h6, h⟩ := Option.bind_eq_some_iff.1 h
    obtain ⟨⟨⟨r', tr, b5⟩, cr⟩, h7, h⟩ := Option.bind_eq_some_iff.1 h
    obtain ⟨b6, h8, h⟩ := Option.bind_eq_some_iff.1 h
    simp only [Option.some.injEq, Prod.mk.injEq] at h
    exact ⟨l, p, r, l', r', tl, tr, b1, b2, b4, b5, cq, cl, cr, h1, h3, h7, h.1.2.1.symm, h.2.symm⟩
  · rw [if_neg hc] at h
    simp only [Option.some.injEq, Prod.mk.injEq] at h
    exact Or.inl ⟨hc, h.1.2.1.symm, h.2.symm⟩

/-- The count is at most the height times the largest cost of one split. -/
theorem buildC_cost {eqv : K → K → Bool} (hg : GoodEq eqv) {x : Nat → Nat → K}
    {policy : List Nat → Nat → Box K → Nat} {bucketSize maxDepth : Nat} :
    ∀ (fuel depth : Nat) (idx idx' : List Nat) (box box' : Box K) (t : Tree K) (c : Nat),
      buildC eqv x policy bucketSize maxDepth fuel idx depth box = some ((idx', t, box'), c) →
      c ≤ t.height * (idx.length * (4 * idx.length + 3)) ∧ t.height ≤ idx.length := by
  intro fuel
  induction fuel with
  | zero => intro depth idx idx' box box' t c h; simp [buildC] at h
  | succ fuel ih =>
    intro depth idx idx' box box' t c h
    rcases buildC_inv h with ⟨_, rfl, rfl⟩ | ⟨_, hc2, axis, l, p, r, l', r', tl, tr, b1, b2, b3, b4, cq, cl,
      cr, hq, hbl, hbr, rfl, rfl⟩
    · simp [Tree.height]
    · have hne : idx ≠ [] := by intro h; simp [h] at hc2
      have hq' : quickselectMedian eqv (fun i => x i axis) idx = some (l, p, r) := by
        rw [← quickselectMedianC_erase, hq]; rfl
      obtain ⟨hp, -⟩ := quickselectMedian_sizes hg hne hq'
      have hlen : l.length + 1 + r.length = idx.length := by
        have := hp.length_eq; simp at this; omega
      have hcq := quickselectMedianC_cost hq
      obtain ⟨hl, hl'⟩ := ih _ _ _ _ _ _ _ hbl
      obtain ⟨hr, hr'⟩ := ih _ _ _ _ _ _ _ hbr
      simp only [Tree.height]
      refine ⟨?_, by omega⟩
      generalize hH : max tl.height tr.height = H
      have hl2 : cl ≤ H * (l.length * (4 * idx.length + 3)) := by
        refine hl.trans (Nat.mul_le_mul (by omega) (Nat.mul_le_mul le_rfl (by omega)))
      have hr2 : cr ≤ H * (r.length * (4 * idx.length + 3)) := by
        refine hr.trans (Nat.mul_le_mul (by omega) (Nat.mul_le_mul le_rfl (by omega)))
      have : H * (l.length * (4 * idx.length + 3)) + H * (r.length * (4 * idx.length + 3)) ≤
          H * (idx.length * (4 * idx.length + 3)) := by
        rw [← Nat.mul_add, ← Nat.add_mul]
        exact Nat.mul_le_mul le_rfl (Nat.mul_le_mul (by omega) le_rfl)
      rw [Nat.add_mul, Nat.one_mul]
      omega

/-! ### equal samples -/

theorem shiftLeftC_equal {eqv : K → K → Bool} {key : Nat → K} {cut : K} {idx : List Nat} :
    ∀ {j : Nat}, j ≤ idx.length → (∀ a ∈ idx, eqv (key a) cut = true) →
      shiftLeftC eqv key cut idx j = some (0, j)
  | 0, _, _ => rfl
  | j + 1, hj, h => by
    have e : idx[j]? = some idx[j] := List.getElem?_eq_getElem (by omega)
    simp only [shiftLeftC, Option.bind_eq_bind, e, Option.bind_some, h _ (List.getElem_mem _), if_true]
    rw [shiftLeftC_equal (by omega) h]
    rfl

/-- Tests to split `n` samples that agree on the feature. -/
def equalSplit (n : Nat) : Nat :=
  ((n - 1) / 2 + 1) * (2 * n - (n - 1) / 2) + (n - 1) / 2

theorem quickselectMedianC_equal {eqv : K → K → Bool} (hg : GoodEq eqv) {key : Nat → K} {v : K} {idx : List Nat}
    (hall : ∀ a ∈ idx, key a = v) (h2 : 2 ≤ idx.length) :
    ∃ p r, quickselectMedianC eqv key idx = some (([], p, r), equalSplit idx.length) ∧
      (p :: r).Perm idx := by
  obtain ⟨⟨idx', first, last⟩, e, e'⟩ := C110_quickselect_equal hg key v idx hall ((idx.length - 1) / 2) (by omega)
  obtain ⟨P, m, Q, e2, hlen, hperm, -⟩ := quickselect_spec hg key idx ((idx.length - 1) / 2) (by omega)
  rw [e'] at e2
  simp only [Option.some.injEq, Prod.mk.injEq] at e2
  obtain ⟨rfl, rfl, rfl⟩ := e2
  have hall' : ∀ a ∈ P ++ m :: Q, key a = v := fun a ha => hall a (hperm.mem_iff.1 ha)
  have hm : (P ++ m :: Q)[(idx.length - 1) / 2]? = some m := by
    rw [← hlen, List.getElem?_append_right le_rfl]; simp
  have hs := shiftLeftC_equal (eqv := eqv) (key := key) (cut := key m) (idx := P ++ m :: Q)
    (j := (idx.length - 1) / 2) (by rw [hperm.length_eq]; omega) (by
      intro a ha
      rw [hall' a ha, hall' m (by simp)]
      exact hg.refl v)
  cases hc : P ++ m :: Q with
  | nil => simp at hc
  | cons p r =>
    rw [hc] at hm hs hperm e
    refine ⟨p, r, ?_, hperm⟩
    simp only [quickselectMedianC, Option.bind_eq_bind, e, Option.bind_some, hm, hs, equalSplit]
    simp

/-- The count for equal samples, exactly. -/
theorem buildC_equal {eqv : K → K → Bool} (hg : GoodEq eqv) {x : Nat → Nat → K}
    {policy : List Nat → Nat → Box K → Nat} {bucketSize maxDepth : Nat} (hb : 1 ≤ bucketSize) :
    ∀ (fuel depth : Nat) (idx idx' : List Nat) (box box' : Box K) (t : Tree K) (c : Nat),
      (∀ axis, ∀ a ∈ idx, ∀ b ∈ idx, x a axis = x b axis) →
      buildC eqv x policy bucketSize maxDepth fuel idx depth box = some ((idx', t, box'), c) →
      c = ((List.range (min (maxDepth - depth) (idx.length - bucketSize))).map fun i =>
        equalSplit (idx.length - i)).sum := by
  intro fuel
  induction fuel with
  | zero => intro depth idx idx' box box' t c _ h; simp [buildC] at h
  | succ fuel ih =>
    intro depth idx idx' box box' t c heq h
    rcases buildC_inv h with ⟨hn, rfl, rfl⟩ | ⟨hc1, hc2, axis, l, p, r, l', r', tl, tr, b1, b2, b3, b4, cq, cl,
      cr, hq, hbl, hbr, rfl, rfl⟩
    · rw [show min (maxDepth - depth) (idx.length - bucketSize) = 0 by omega]
      rfl
    · obtain ⟨a0, ha0⟩ : ∃ a, a ∈ idx := List.exists_mem_of_length_pos (by omega)
      obtain ⟨p0, r0, e, hperm⟩ := quickselectMedianC_equal hg (key := fun i => x i axis) (v := x a0 axis)
        (idx := idx) (fun a ha => heq axis a ha a0 ha0) (by omega)
      rw [hq] at e
      simp only [Option.some.injEq, Prod.mk.injEq] at e
      obtain ⟨⟨rfl, rfl, rfl⟩, rfl⟩ := e
      have hlen : r.length + 1 = idx.length := by
        have := hperm.length_eq; simpa using this
      have h1 := ih _ _ _ _ _ _ _ (by simp) hbl
      have h2 := ih _ _ _ _ _ _ _ (fun ax a ha b hb' => heq ax a (hperm.mem_iff.1 (by simp [ha])) b
        (hperm.mem_iff.1 (by simp [hb']))) hbr
      simp only [List.length_nil, Nat.zero_sub, Nat.min_zero, List.range_zero, List.map_nil, List.sum_nil] at h1
      rw [h1, h2, show min (maxDepth - depth) (idx.length - bucketSize) =
        min (maxDepth - (depth + 1)) (r.length - bucketSize) + 1 by omega, List.range_succ_eq_map,
        List.map_cons, List.sum_cons, List.map_map]
      simp only [Nat.sub_zero, Nat.add_zero]
      congr 2
      apply List.map_congr_left
      intro i _
      simp only [Function.comp]
      congr 1
      omega

theorem equalSplit_ge (n : Nat) (h : 1 ≤ n) : 3 * (n * n) ≤ 4 * equalSplit n := by
  unfold equalSplit
  obtain ⟨k, hk⟩ : ∃ k, n = 2 * k + 1 ∨ n = 2 * k + 2 := ⟨(n - 1) / 2, by omega⟩
  rcases hk with hk | hk
  · rw [hk, show (2 * k + 1 - 1) / 2 = k by omega, show 2 * (2 * k + 1) - k = 3 * k + 2 by omega]
    nlinarith
  · rw [hk, show (2 * k + 2 - 1) / 2 = k by omega, show 2 * (2 * k + 2) - k = 3 * k + 4 by omega]
    nlinarith

theorem cubic (n b : Nat) (h : b ≤ n) :
    (n - b) * (n - b) * (n - b) ≤ 4 * ((List.range (n - b)).map fun i => equalSplit (n - i)).sum := by
  obtain ⟨m, rfl⟩ : ∃ m, n = b + m := ⟨n - b, by omega⟩
  rw [Nat.add_sub_cancel_left]
  clear h
  induction m with
  | zero => simp
  | succ m ih =>
    rw [List.range_succ_eq_map, List.map_cons, List.sum_cons, List.map_map]
    have e : ((List.range m).map ((fun i => equalSplit (b + (m + 1) - i)) ∘ Nat.succ)).sum =
        ((List.range m).map fun i => equalSplit (b + m - i)).sum := by
      congr 1
      apply List.map_congr_left
      intro i _
      simp only [Function.comp]
      congr 1
      omega
    rw [e]
    have h1 := equalSplit_ge (b + (m + 1) - 0) (by omega)
    have h2 : (m + 1) * (m + 1) ≤ (b + (m + 1) - 0) * (b + (m + 1) - 0) := Nat.mul_le_mul (by omega) (by omega)
    generalize equalSplit (b + (m + 1) - 0) = E at *
    generalize (b + (m + 1) - 0) * (b + (m + 1) - 0) = N at *
    nlinarith

end Verif.KDTree
