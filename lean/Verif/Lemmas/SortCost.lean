import Verif.Model.SortCost
import Verif.Lemmas.Sorting
import Mathlib.Tactic.Ring
import Mathlib.Tactic.Linarith

/-
The counting versions of the sorting functions return what the model returns.
-/

namespace Verif.Sorting

section Erase

variable {K : Type} [LT K] [DecidableLT K]

theorem scanUpC_erase (key : Nat → K) (pivot : K) (idx : List Nat) (fuel l : Nat) :
    (scanUpC key pivot idx fuel l).map (·.1) = scanUp key pivot idx fuel l := by
  induction fuel generalizing l with
  | zero => rfl
  | succ fuel ih =>
    simp only [scanUpC, scanUp, Option.bind_eq_bind]
    cases idx[l]? with
    | none => rfl
    | some x =>
      simp only [Option.bind_some]
      split
      · rw [← ih]; cases scanUpC key pivot idx fuel (l + 1) <;> rfl
      · rfl

theorem scanDownC_erase (key : Nat → K) (pivot : K) (idx : List Nat) (r : Nat) :
    (scanDownC key pivot idx r).map (·.1) = scanDown key pivot idx r := by
  induction r with
  | zero => rfl
  | succ r ih =>
    simp only [scanDownC, scanDown, Option.bind_eq_bind]
    cases idx[r]? with
    | none => rfl
    | some x =>
      simp only [Option.bind_some]
      split
      · rw [← ih]; cases scanDownC key pivot idx r <;> rfl
      · rfl

theorem partitionLoopC_erase (eqv : K → K → Bool) (key : Nat → K) (pivot : K) (fuel : Nat)
    (idx : List Nat) (lp rp pv c : Nat) :
    (partitionLoopC eqv key pivot fuel idx lp rp pv c).map (·.1) =
      partitionLoop eqv key pivot fuel idx lp rp pv := by
  induction fuel generalizing idx lp rp pv c with
  | zero => rfl
  | succ fuel ih =>
    simp only [partitionLoopC, partitionLoop, Option.bind_eq_bind]
    rw [← scanUpC_erase, ← scanDownC_erase]
    cases scanUpC key pivot idx (idx.length + 1) lp with
    | none => rfl
    | some u =>
      simp only [Option.bind_some, Option.map_some]
      cases scanDownC key pivot idx rp with
      | none => rfl
      | some d =>
        simp only [Option.bind_some, Option.map_some]
        split
        · rfl
        · cases idx[d.1]? with
          | none => rfl
          | some xr =>
            simp only [Option.bind_some]
            split
            · cases swap idx u.1 d.1 with
              | none => rfl
              | some idx' =>
                simp only [Option.bind_some]
                split
                · exact ih ..
                · exact ih ..
            · cases idx[u.1]? with
              | none => rfl
              | some xl =>
                simp only [Option.bind_some]
                split
                · split
                  · cases swap idx u.1 pv with
                    | none => rfl
                    | some idx' => exact ih ..
                  · exact ih ..
                · cases swap idx u.1 pv with
                  | none => rfl
                  | some idx' => exact ih ..

theorem partitionC_erase (eqv : K → K → Bool) (key : Nat → K) (idx : List Nat) (pv : Nat) :
    (partitionC eqv key idx pv).map (·.1) = partition eqv key idx pv := by
  unfold partitionC partition
  split
  · rfl
  · simp only [Option.bind_eq_bind]
    cases idx[pv]? with
    | none => rfl
    | some x => exact partitionLoopC_erase ..

theorem onRange_erase {α β : Type*} (l : List α) (a b : Nat)
    (g : List α → Option ((List α × β) × Nat)) :
    (onRange l a b (fun s => (g s).map (fun r => (r.1.1, r.1.2, r.2)))).map (fun r => (r.1, r.2.1)) =
      onRange l a b (fun s => (g s).map (·.1)) := by
  simp only [onRange, Option.bind_eq_bind]
  cases g ((l.take b).drop a) <;> rfl

theorem quickselectLoopC_erase (eqv : K → K → Bool) (key : Nat → K) (kth fuel : Nat)
    (idx : List Nat) (left right c : Nat) :
    (quickselectLoopC eqv key kth fuel idx left right c).map (·.1) =
      quickselectLoop eqv key kth fuel idx left right := by
  induction fuel generalizing idx left right c with
  | zero => rfl
  | succ fuel ih =>
    simp only [quickselectLoopC, quickselectLoop, Option.bind_eq_bind]
    split
    · rfl
    · cases medianIndexOfThree key ((idx.take (right + 1)).drop left) with
      | none => rfl
      | some pv =>
        simp only [Option.bind_some]
        have e := onRange_erase idx left (right + 1) (fun sub => partitionC eqv key sub pv)
        simp only [partitionC_erase] at e
        rw [← e]
        cases onRange idx left (right + 1)
          (fun sub => (partitionC eqv key sub pv).map (fun r => (r.1.1, r.1.2, r.2))) with
        | none => rfl
        | some r =>
          simp only [Option.bind_some, Option.map_some]
          split
          · rfl
          · split <;> exact ih ..

theorem quickselectC_erase (eqv : K → K → Bool) (key : Nat → K) (idx : List Nat) (kth : Nat) :
    (quickselectC eqv key idx kth).map (·.1) = quickselect eqv key idx kth := by
  unfold quickselectC quickselect
  split
  · rfl
  · exact quickselectLoopC_erase ..

theorem quicksortC_erase (eqv : K → K → Bool) (key : Nat → K) (fuel : Nat) (idx : List Nat)
    (pv : Nat) :
    (quicksortC eqv key fuel idx pv).map (·.1) = quicksort eqv key fuel idx pv := by
  induction fuel generalizing idx pv with
  | zero => rfl
  | succ fuel ih =>
    simp only [quicksortC, quicksort, Option.bind_eq_bind]
    split
    · rfl
    · rw [← partitionC_erase]
      cases partitionC eqv key idx pv with
      | none => rfl
      | some r =>
        obtain ⟨⟨idx, p⟩, c⟩ := r
        simp only [Option.bind_some, Option.map_some]
        cases medianIndexOfThree key (idx.take p) with
        | none => rfl
        | some ml =>
          simp only [Option.bind_some]
          cases medianIndexOfThree key (idx.drop (p + 1)) with
          | none => rfl
          | some mr =>
            simp only [Option.bind_some]
            have e := onRange_erase idx 0 p (fun sub => quicksortC eqv key fuel sub ml)
            simp only [ih] at e
            rw [← e]
            cases onRange idx 0 p
              (fun sub => (quicksortC eqv key fuel sub ml).map (fun r => (r.1.1, r.1.2, r.2))) with
            | none => rfl
            | some r =>
              obtain ⟨idx, q, cl⟩ := r
              simp only [Option.bind_some, Option.map_some]
              have e := onRange_erase idx (p + 1) idx.length
                (fun sub => quicksortC eqv key fuel sub mr)
              simp only [ih] at e
              rw [← e]
              cases onRange idx (p + 1) idx.length
                (fun sub => (quicksortC eqv key fuel sub mr).map (fun r => (r.1.1, r.1.2, r.2))) <;>
                rfl

end Erase

section Upper

variable {K : Type} [LT K] [DecidableLT K]

theorem scanUpC_cost {key : Nat → K} {pivot : K} {idx : List Nat} {fuel l L c : Nat}
    (h : scanUpC key pivot idx fuel l = some (L, c)) : L + 1 = l + c ∧ L < idx.length := by
  induction fuel generalizing l L c with
  | zero => simp [scanUpC] at h
  | succ fuel ih =>
    simp only [scanUpC, Option.bind_eq_bind] at h
    cases hx : idx[l]? with
    | none => simp [hx] at h
    | some x =>
      simp only [hx, Option.bind_some] at h
      split at h
      · cases hr : scanUpC key pivot idx fuel (l + 1) with
        | none => simp [hr] at h
        | some r =>
          simp only [hr, Option.bind_some, Option.some.injEq, Prod.mk.injEq] at h
          obtain ⟨rfl, rfl⟩ := h
          have := ih (L := r.1) (c := r.2) hr
          omega
      · simp only [Option.some.injEq, Prod.mk.injEq] at h
        obtain ⟨rfl, rfl⟩ := h
        exact ⟨rfl, (List.getElem?_eq_some_iff.1 hx).1⟩

theorem scanDownC_cost {key : Nat → K} {pivot : K} {idx : List Nat} {r R c : Nat}
    (h : scanDownC key pivot idx r = some (R, c)) : R + c = r ∧ 0 < c := by
  induction r generalizing R c with
  | zero => simp [scanDownC] at h
  | succ r ih =>
    simp only [scanDownC, Option.bind_eq_bind] at h
    cases hx : idx[r]? with
    | none => simp [hx] at h
    | some x =>
      simp only [hx, Option.bind_some] at h
      split at h
      · cases hr : scanDownC key pivot idx r with
        | none => simp [hr] at h
        | some q =>
          simp only [hr, Option.bind_some, Option.some.injEq, Prod.mk.injEq] at h
          obtain ⟨rfl, rfl⟩ := h
          have := ih (R := q.1) (c := q.2) hr
          omega
      · simp only [Option.some.injEq, Prod.mk.injEq] at h
        obtain ⟨rfl, rfl⟩ := h
        omega

theorem swap_length {α : Type*} {l l' : List α} {i j : Nat} (h : swap l i j = some l') :
    l'.length = l.length := by
  simp only [swap, Option.bind_eq_bind, Option.bind_eq_some_iff, Option.some.injEq] at h
  obtain ⟨a, _, b, _, rfl⟩ := h
  simp

theorem partitionLoopC_cost {eqv : K → K → Bool} {key : Nat → K} {pivot : K} {fuel : Nat}
    {idx : List Nat} {lp rp pv c : Nat} {r : List Nat × Nat} {c' : Nat} (hpv : pv < idx.length)
    (h : partitionLoopC eqv key pivot fuel idx lp rp pv c = some (r, c')) :
    c' + lp ≤ c + idx.length + rp + 2 * fuel ∧ r.1.length = idx.length ∧ r.2 < idx.length := by
  induction fuel generalizing idx lp rp pv c with
  | zero => simp [partitionLoopC] at h
  | succ fuel ih =>
    simp only [partitionLoopC, Option.bind_eq_bind, Option.bind_eq_some_iff] at h
    obtain ⟨⟨left, cu⟩, hu, ⟨right, cd⟩, hd, h⟩ := h
    obtain ⟨u1, u2⟩ := scanUpC_cost hu
    obtain ⟨d1, d2⟩ := scanDownC_cost hd
    simp only at h
    split at h
    · simp only [Option.some.injEq, Prod.mk.injEq] at h
      obtain ⟨rfl, rfl⟩ := h
      exact ⟨by omega, rfl, hpv⟩
    · simp only [Option.bind_eq_some_iff] at h
      obtain ⟨xr, hxr, h⟩ := h
      have hr := (List.getElem?_eq_some_iff.1 hxr).1
      split at h
      · simp only [Option.bind_eq_some_iff] at h
        obtain ⟨idx', hs, h⟩ := h
        have hl := swap_length hs
        split at h
        · have := ih (by omega) h
          rw [hl] at this
          exact ⟨by omega, this.2.1, this.2.2⟩
        · have := ih (by omega) h
          rw [hl] at this
          exact ⟨by omega, this.2.1, this.2.2⟩
      · simp only [Option.bind_eq_some_iff] at h
        obtain ⟨xl, hxl, h⟩ := h
        split at h
        · split at h
          · simp only [Option.bind_eq_some_iff] at h
            obtain ⟨idx', hs, h⟩ := h
            have hl := swap_length hs
            have := ih (by omega) h
            rw [hl] at this
            exact ⟨by omega, this.2.1, this.2.2⟩
          · have := ih hpv h
            exact ⟨by omega, this.2.1, this.2.2⟩
        · simp only [Option.bind_eq_some_iff] at h
          obtain ⟨idx', hs, h⟩ := h
          have hl := swap_length hs
          have := ih (by omega) h
          rw [hl] at this
          exact ⟨by omega, this.2.1, this.2.2⟩

/-- The partition makes at most four tests for each element, and two. -/
theorem partitionC_cost {eqv : K → K → Bool} {key : Nat → K} {idx : List Nat} {pv : Nat}
    {r : List Nat × Nat} {c : Nat} (h : partitionC eqv key idx pv = some (r, c)) :
    c ≤ 4 * idx.length + 2 ∧ r.1.length = idx.length ∧ (idx.length ≠ 1 → r.2 < idx.length) := by
  unfold partitionC at h
  split at h
  · simp only [Option.some.injEq, Prod.mk.injEq] at h
    obtain ⟨rfl, rfl⟩ := h
    simp_all
  · simp only [Option.bind_eq_bind, Option.bind_eq_some_iff] at h
    obtain ⟨x, hx, h⟩ := h
    have := partitionLoopC_cost (List.getElem?_eq_some_iff.1 hx).1 h
    exact ⟨by omega, this.2.1, fun _ => this.2.2⟩

theorem quickselectLoopC_cost {eqv : K → K → Bool} {key : Nat → K} {kth fuel : Nat} {idx : List Nat}
    {left right c : Nat} {r : List Nat × Nat × Nat} {c' : Nat}
    (h : quickselectLoopC eqv key kth fuel idx left right c = some (r, c')) (hr : left ≤ right + 1)
    (hi : right < idx.length) :
    c' ≤ c + (right + 1 - left) * (4 * idx.length + 2) := by
  induction fuel generalizing idx left right c with
  | zero => simp [quickselectLoopC] at h
  | succ fuel ih =>
    simp only [quickselectLoopC, Option.bind_eq_bind] at h
    split at h
    · simp only [Option.some.injEq, Prod.mk.injEq] at h
      omega
    · rename_i hne
      simp only [Option.bind_eq_some_iff] at h
      obtain ⟨pv, _, ⟨idx', p, cp⟩, ho, h⟩ := h
      simp only [onRange, Option.bind_eq_bind, Option.bind_eq_some_iff, Option.map_eq_some_iff] at ho
      obtain ⟨sub, ⟨⟨⟨sl, sp⟩, sc⟩, hp, rfl⟩, ho⟩ := ho
      simp only [Option.some.injEq, Prod.mk.injEq] at ho
      obtain ⟨rfl, rfl, rfl⟩ := ho
      obtain ⟨h1, h2, h3⟩ := partitionC_cost hp
      have hsub : ((idx.take (right + 1)).drop left).length = right + 1 - left := by
        simp only [List.length_drop, List.length_take]; omega
      rw [hsub] at h1 h2 h3
      simp only at h2 h3 h
      have hlen : (idx.take left ++ sl ++ idx.drop (right + 1)).length = idx.length := by
        simp only [List.length_append, List.length_take, List.length_drop, h2]; omega
      have hcp : sc ≤ 4 * idx.length + 2 := by omega
      by_cases h0 : right + 1 - left = 0
      · -- the empty range reads out of range
        exfalso
        have : (idx.take (right + 1)).drop left = [] := List.length_eq_zero_iff.1 (by omega)
        rw [this] at hp
        simp [partitionC] at hp
      · have hp' := h3 (by omega)
        have e : (right + 1 - left) * (4 * idx.length + 2) =
            (right + 1 - left - 1) * (4 * idx.length + 2) + (4 * idx.length + 2) := by
          obtain ⟨m, hm⟩ : ∃ m, right + 1 - left = m + 1 := ⟨right + 1 - left - 1, by omega⟩
          rw [hm]; simp [Nat.succ_mul]
        have mono : ∀ m, m ≤ right + 1 - left - 1 →
            m * (4 * idx.length + 2) ≤ (right + 1 - left - 1) * (4 * idx.length + 2) :=
          fun m hm => Nat.mul_le_mul_right _ hm
        split at h
        · simp only [Option.some.injEq, Prod.mk.injEq] at h
          have := Nat.zero_le ((right + 1 - left - 1) * (4 * idx.length + 2))
          omega
        · split at h
          · rename_i hk1 hk2
            by_cases hz : left + sp = 0
            · omega
            · have := ih h (by omega) (by rw [hlen]; omega)
              rw [hlen] at this
              have := mono (left + sp - 1 + 1 - left) (by omega)
              omega
          · have := ih h (by omega) (by rw [hlen]; omega)
            rw [hlen] at this
            have := mono (right + 1 - (left + sp + 1)) (by omega)
            omega

theorem quicksortC_cost {eqv : K → K → Bool} {key : Nat → K} {fuel : Nat} {idx : List Nat}
    {pv : Nat} {r : List Nat × Nat} {c : Nat} (h : quicksortC eqv key fuel idx pv = some (r, c)) :
    c ≤ idx.length * (4 * idx.length + 2) ∧ r.1.length = idx.length := by
  induction fuel generalizing idx pv r c with
  | zero => simp [quicksortC] at h
  | succ fuel ih =>
    simp only [quicksortC] at h
    split at h
    · simp only [Option.some.injEq, Prod.mk.injEq] at h
      obtain ⟨rfl, rfl⟩ := h
      simp
    · rename_i h2
      simp only [Option.bind_eq_bind, Option.bind_eq_some_iff] at h
      obtain ⟨⟨⟨idx1, p⟩, c0⟩, hp, ml, _, mr, _, ⟨idx2, q, cl⟩, hl, ⟨idx3, q', cr⟩, hr, h⟩ := h
      simp only [onRange, Option.bind_eq_bind, Option.bind_eq_some_iff, Option.map_eq_some_iff]
        at hl hr
      obtain ⟨_, ⟨⟨⟨l1, l2⟩, l3⟩, hl, rfl⟩, hl'⟩ := hl
      obtain ⟨_, ⟨⟨⟨r1, r2⟩, r3⟩, hr, rfl⟩, hr'⟩ := hr
      simp only [Option.some.injEq, Prod.mk.injEq] at hl' hr' h
      obtain ⟨rfl, rfl, rfl⟩ := hl'
      obtain ⟨rfl, rfl, rfl⟩ := hr'
      obtain ⟨rfl, rfl⟩ := h
      obtain ⟨a1, a2, a3⟩ := partitionC_cost hp
      obtain ⟨b1, b2⟩ := ih hl
      obtain ⟨c1, c2⟩ := ih hr
      simp only at a2 a3 b2 c2
      have hpn := a3 (by omega)
      simp only [List.length_drop, List.length_take, List.length_append] at b1 b2 c1 c2
      refine ⟨?_, ?_⟩
      · have e1 : min p idx1.length - 0 = p := by omega
        rw [e1] at b1 b2
        generalize hm : idx.length = n at *
        generalize hM : 4 * n + 2 = M at *
        have hb : p * (4 * p + 2) ≤ p * M := Nat.mul_le_mul_left _ (by omega)
        have hc : r3 ≤ (n - (p + 1)) * M := by
          refine c1.trans ?_
          refine Nat.mul_le_mul ?_ ?_ <;> omega
        have : n * M = p * M + M + (n - (p + 1)) * M := by
          have : n = p + 1 + (n - (p + 1)) := by omega
          conv_lhs => rw [this]
          ring
        omega
      · simp only [List.length_append, List.length_take, List.length_drop]
        omega

/-- A range of `n` elements needs no more than `n` nested calls. -/
theorem quicksort_less {eqv : K → K → Bool} {key : Nat → K} (f : Nat) :
    ∀ {idx : List Nat} {pv : Nat} {r : List Nat × Nat}, quicksort eqv key (f + 1) idx pv = some r →
      idx.length ≤ f → 0 < f → quicksort eqv key f idx pv = some r := by
  induction f with
  | zero => intro _ _ _ _ _ h; omega
  | succ f ih =>
    intro idx pv r h hl _
    rw [quicksort] at h ⊢
    split at h
    · rename_i h2
      rw [if_pos h2]; exact h
    · rename_i h2
      rw [if_neg h2]
      simp only [Option.bind_eq_bind, Option.bind_eq_some_iff] at h ⊢
      obtain ⟨⟨idx1, p⟩, hp, ml, hml, mr, hmr, ⟨idx2, q⟩, h1, ⟨idx3, q'⟩, h3, h⟩ := h
      have hp' := hp
      rw [← partitionC_erase] at hp'
      obtain ⟨⟨r0, c0⟩, hp0, rfl⟩ := Option.map_eq_some_iff.1 hp'
      obtain ⟨_, a2, a3⟩ := partitionC_cost hp0
      have hpn := a3 (by omega)
      simp only at a2 hpn h1 h3
      refine ⟨⟨idx1, p⟩, hp, ml, hml, mr, hmr, ⟨idx2, q⟩, ?_, ⟨idx3, q'⟩, ?_, h⟩
      · simp only [onRange, Option.bind_eq_bind, Option.bind_eq_some_iff] at h1 ⊢
        obtain ⟨s, hs, h1⟩ := h1
        exact ⟨s, ih hs (by simp; omega) (by omega), h1⟩
      · have hl2 : idx2.length = idx1.length := by
          simp only [onRange, Option.bind_eq_bind, Option.bind_eq_some_iff] at h1
          obtain ⟨⟨s, sp⟩, hs, h1⟩ := h1
          rw [← quicksortC_erase] at hs
          obtain ⟨⟨t, tc⟩, hs0, hst⟩ := Option.map_eq_some_iff.1 hs
          have b2 := (quicksortC_cost hs0).2
          simp only at hst
          subst hst
          simp only [Option.some.injEq, Prod.mk.injEq] at h1
          obtain ⟨rfl, _⟩ := h1
          simp only [List.length_append, List.length_take, List.length_drop] at b2 ⊢
          omega
        simp only [onRange, Option.bind_eq_bind, Option.bind_eq_some_iff] at h3 ⊢
        obtain ⟨s, hs, h3⟩ := h3
        exact ⟨s, ih hs (by simp; omega) (by omega), h3⟩

end Upper

section Equal

variable {K : Type} [LinearOrder K]

/-- All samples of the range have the value `v`. -/
def AllEqual (key : Nat → K) (v : K) (idx : List Nat) : Prop := ∀ x ∈ idx, key x = v

theorem AllEqual.perm {key : Nat → K} {v : K} {l l' : List Nat} (h : AllEqual key v l)
    (hp : l'.Perm l) : AllEqual key v l' := fun x hx => h x (hp.mem_iff.1 hx)

theorem partitionLoopC_equal {eqv : K → K → Bool} {key : Nat → K} {v : K} (hv : eqv v v = true)
    (rp : Nat) : ∀ (fuel : Nat) (idx : List Nat) (pv c : Nat), AllEqual key v idx → 0 < rp →
      rp ≤ idx.length → rp ≤ fuel → pv < idx.length →
      ∃ idx' p, partitionLoopC eqv key v fuel idx 0 rp pv c = some ((idx', p), c + 2 * rp) ∧
        idx'.Perm idx ∧ (pv = 0 ∨ 1 < rp → p = 0) := by
  induction rp with
  | zero => intro _ _ _ _ _ h; omega
  | succ rp ih =>
    intro fuel idx pv c hall _ hle hf hpv
    obtain ⟨fuel, rfl⟩ : ∃ f, fuel = f + 1 := ⟨fuel - 1, by omega⟩
    have h0 : 0 < idx.length := by omega
    have hr : rp < idx.length := by omega
    have k0 : key idx[0] = v := hall _ (List.getElem_mem _)
    have kr : key idx[rp] = v := hall _ (List.getElem_mem _)
    have eu : scanUpC key v idx (idx.length + 1) 0 = some (0, 1) := by
      simp [scanUpC, List.getElem?_eq_getElem h0, k0]
    have ed : scanDownC key v idx (rp + 1) = some (rp, 1) := by
      simp [scanDownC, List.getElem?_eq_getElem hr, kr]
    simp only [partitionLoopC, eu, ed, Option.bind_eq_bind, Option.bind_some]
    by_cases hrp : rp = 0
    · subst hrp
      exact ⟨idx, pv, by simp, List.Perm.refl _, by omega⟩
    · have hge : ¬ (0 ≥ rp) := by omega
      simp only [hge, if_false, List.getElem?_eq_getElem hr, List.getElem?_eq_getElem h0,
        Option.bind_some, kr, k0, hv, Bool.not_true, Bool.false_eq_true, if_true]
      by_cases hp0 : 0 = pv
      · subst hp0
        obtain ⟨idx', p, e, hp, hz⟩ := ih fuel idx 0 (c + 1 + 1) hall (by omega) (by omega) (by omega)
          (by omega)
        refine ⟨idx', p, ?_, hp, fun _ => hz (Or.inl rfl)⟩
        simp only [ne_eq, not_true_eq_false, if_false, e]
        congr 2; omega
      · obtain ⟨l', es, hperm, _⟩ := swap_some h0 hpv
        have hl := hperm.length_eq
        obtain ⟨idx', p, e, hp, hz⟩ := ih fuel l' 0 (c + 1 + 1) (hall.perm hperm) (by omega)
          (by omega) (by omega) (by omega)
        refine ⟨idx', p, ?_, hp.trans hperm, fun _ => hz (Or.inl rfl)⟩
        simp only [ne_eq, hp0, not_false_eq_true, if_true, es, Option.bind_some, e]
        congr 2; omega

/-- Equal values: the pivot goes to the front, with two tests for each element. -/
theorem partitionC_equal {eqv : K → K → Bool} {key : Nat → K} {v : K} (hv : eqv v v = true)
    (idx : List Nat) (pv : Nat) (hall : AllEqual key v idx) (h2 : 2 ≤ idx.length)
    (hpv : pv < idx.length) :
    ∃ x Q, partitionC eqv key idx pv = some ((x :: Q, 0), 2 * idx.length) ∧ (x :: Q).Perm idx := by
  have hne : ¬ idx.length = 1 := by omega
  have hk : key idx[pv] = v := hall _ (List.getElem_mem _)
  obtain ⟨idx', p, e, hp, hz⟩ := partitionLoopC_equal hv idx.length (idx.length + 1) idx pv 0 hall
    (by omega) (le_refl _) (by omega) hpv
  obtain rfl := hz (Or.inr (by omega))
  have hl := hp.length_eq
  obtain ⟨x, Q, rfl⟩ : ∃ x Q, idx' = x :: Q := by
    cases idx' with
    | nil => simp at hl; omega
    | cons x Q => exact ⟨x, Q, rfl⟩
  refine ⟨x, Q, ?_, hp⟩
  simp only [partitionC, hne, if_false, List.getElem?_eq_getElem hpv, Option.bind_eq_bind,
    Option.bind_some, hk, e]
  simp

theorem quickselectLoopC_equal {eqv : K → K → Bool} {key : Nat → K} {v : K} (hv : eqv v v = true)
    (d : Nat) : ∀ (fuel : Nat) (A S : List Nat) (c : Nat), AllEqual key v S → d + 2 ≤ S.length →
      d < fuel →
      ∃ idx', quickselectLoopC eqv key (A.length + d) fuel (A ++ S) A.length
          (A.length + S.length - 1) c =
        some ((idx', A.length + d, A.length + d + 1), c + (d + 1) * (2 * S.length - d)) := by
  induction d with
  | zero =>
    intro fuel A S c hall hs hf
    obtain ⟨fuel, rfl⟩ : ∃ f, fuel = f + 1 := ⟨fuel - 1, by omega⟩
    have hne : ¬ A.length = A.length + S.length - 1 := by omega
    have hright : A.length + S.length - 1 + 1 = A.length + S.length := by omega
    have hsl := slice_append A S []
    have hon := fun f => onRange_append (β := Nat × Nat) A S [] f
    simp only [List.append_nil] at hsl hon
    obtain ⟨m, em, hm⟩ := medianIndexOfThree_lt key S (by omega)
    obtain ⟨x, Q, ep, hperm⟩ := partitionC_equal hv S m hall (by omega) hm
    simp only [quickselectLoopC, hne, if_false, hright, hsl, hon, em, ep, Option.bind_eq_bind,
      Option.bind_some, Option.map_some]
    simp
  | succ d ih =>
    intro fuel A S c hall hs hf
    obtain ⟨fuel, rfl⟩ : ∃ f, fuel = f + 1 := ⟨fuel - 1, by omega⟩
    have hne : ¬ A.length = A.length + S.length - 1 := by omega
    have hright : A.length + S.length - 1 + 1 = A.length + S.length := by omega
    have hsl := slice_append A S []
    have hon := fun f => onRange_append (β := Nat × Nat) A S [] f
    simp only [List.append_nil] at hsl hon
    obtain ⟨m, em, hm⟩ := medianIndexOfThree_lt key S (by omega)
    obtain ⟨x, Q, ep, hperm⟩ := partitionC_equal hv S m hall (by omega) hm
    have hl := hperm.length_eq
    simp only [List.length_cons] at hl
    have hk1 : ¬ A.length + (d + 1) = A.length + 0 := by omega
    have hk2 : ¬ A.length + (d + 1) < A.length + 0 := by omega
    simp only [quickselectLoopC, hne, if_false, hright, hsl, hon, em, ep, Option.bind_eq_bind,
      Option.bind_some, Option.map_some, hk1, hk2]
    obtain ⟨idx', e⟩ := ih fuel (A ++ [x]) Q (c + 2 * S.length)
      (fun y hy => hall y (hperm.mem_iff.1 (by simp [hy]))) (by omega) (by omega)
    have e1 : (A ++ [x]).length = A.length + 1 := by simp
    have e2 : A.length + 1 + Q.length - 1 = A.length + S.length - 1 := by omega
    have e3 : A.length + 1 + d = A.length + (d + 1) := by omega
    have e4 : A ++ [x] ++ Q = A ++ x :: Q := by simp
    have e5 : c + 2 * S.length + (d + 1) * (2 * Q.length - d) =
        c + (d + 1 + 1) * (2 * S.length - (d + 1)) := by
      obtain ⟨t, ht⟩ : ∃ t, S.length = d + 3 + t := ⟨S.length - (d + 3), by omega⟩
      have q1 : 2 * Q.length - d = d + 4 + 2 * t := by omega
      have q2 : 2 * S.length - (d + 1) = d + 5 + 2 * t := by omega
      rw [q1, q2, ht]; ring
    rw [e1, e2, e3, e4, e5] at e
    exact ⟨idx', by simpa using e⟩

theorem quicksortC_equal {eqv : K → K → Bool} {key : Nat → K} {v : K} (hv : eqv v v = true)
    (n : Nat) : ∀ (fuel : Nat) (idx : List Nat) (pv : Nat), AllEqual key v idx →
      idx.length = n + 1 → pv < idx.length →
      (fuel < n + 1 → quicksortC eqv key fuel idx pv = none) ∧
      (n + 1 ≤ fuel → ∃ r c, quicksortC eqv key fuel idx pv = some (r, c) ∧ c + 2 = (n + 1) * (n + 2)) := by
  induction n with
  | zero =>
    intro fuel idx pv hall hl hpv
    constructor
    · intro h
      obtain rfl : fuel = 0 := by omega
      rfl
    · intro h
      obtain ⟨fuel, rfl⟩ : ∃ f, fuel = f + 1 := ⟨fuel - 1, by omega⟩
      exact ⟨(idx, pv), 0, by simp [quicksortC, hl], rfl⟩
  | succ n ih =>
    intro fuel idx pv hall hl hpv
    cases fuel with
    | zero => exact ⟨fun _ => rfl, fun h => by omega⟩
    | succ fuel =>
      have h2 : ¬ idx.length < 2 := by omega
      obtain ⟨x, Q, ep, hperm⟩ := partitionC_equal hv idx pv hall (by omega) hpv
      have hlQ := hperm.length_eq
      simp only [List.length_cons] at hlQ
      obtain ⟨m, em, hm⟩ := medianIndexOfThree_lt key Q (by omega)
      have hQ : AllEqual key v Q := fun y hy => hall y (hperm.mem_iff.1 (by simp [hy]))
      obtain ⟨i1, i2⟩ := ih fuel Q m hQ (by omega) hm
      have e0 : medianIndexOfThree key ([] : List Nat) = some 0 := by simp [medianIndexOfThree]
      have hon : ∀ f : List Nat → Option (List Nat × Nat × Nat),
          onRange (x :: Q) (0 + 1) (x :: Q).length f =
            (f Q).map (fun r => (x :: r.1, r.2)) := by
        intro f
        have := onRange_append [x] Q [] f
        simp only [List.append_nil, List.singleton_append, List.length_singleton] at this
        rw [show (x :: Q).length = 1 + Q.length by simp; omega, Nat.zero_add, this]
      have hon0 : ∀ f : List Nat → Option (List Nat × Nat × Nat),
          onRange (x :: Q) 0 0 f = (f []).map (fun r => (r.1 ++ x :: Q, r.2)) := by
        intro f
        have := onRange_append [] [] (x :: Q) f
        simpa using this
      cases fuel with
      | zero =>
        refine ⟨fun _ => ?_, fun h => by omega⟩
        simp only [quicksortC, h2, if_false, ep, Option.bind_eq_bind, Option.bind_some,
          List.take_zero, e0, Nat.zero_add, List.drop_succ_cons, List.drop_zero, em, hon0]
        rfl
      | succ fuel =>
        have eq0 : quicksortC eqv key (fuel + 1) [] 0 = some (([], 0), 0) := by simp [quicksortC]
        have step : quicksortC eqv key (fuel + 1 + 1) idx pv =
            (quicksortC eqv key (fuel + 1) Q m).map
              (fun r => ((x :: r.1.1, 0), 2 * idx.length + 0 + r.2)) := by
          conv_lhs => rw [quicksortC]
          simp only [h2, if_false, ep, Option.bind_eq_bind, Option.bind_some, List.take_zero, e0,
            List.drop_succ_cons, List.drop_zero, em, hon0, eq0, Option.map_some, List.nil_append,
            hon]
          cases quicksortC eqv key (fuel + 1) Q m <;> rfl
        constructor
        · intro h
          rw [step, i1 (by omega)]; rfl
        · intro h
          obtain ⟨r, c, e, hc⟩ := i2 (by omega)
          refine ⟨_, _, by rw [step, e]; rfl, ?_⟩
          simp only
          rw [hl]
          have : (n + 1 + 1) * (n + 1 + 2) = (n + 1) * (n + 2) + 2 * (n + 2) := by ring
          omega

end Equal

end Verif.Sorting
