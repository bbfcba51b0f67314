import Verif.Model.Sorting
import Verif.Spec.Sorting
import Mathlib.Tactic.Linarith
import Mathlib.Data.List.Perm.Basic

namespace Verif.Sorting

variable {K : Type} [LinearOrder K]

theorem goodEq_exact : GoodEq (K := K) eqExact := by
  refine ⟨fun a => by simp [eqExact], ?_⟩
  rintro a b c hab (h | h)
  · exact Or.inl (hab.trans h)
  · simp [eqExact] at h; subst h; exact Or.inl hab

theorem leE_exact {a b : K} : LeE eqExact a b ↔ a ≤ b := by
  refine ⟨?_, Or.inl⟩
  rintro (h | h)
  · exact h
  · simp [eqExact] at h; exact h.le

theorem leE_eps {F : Type} [Field F] [LinearOrder F] [IsStrictOrderedRing F] {eps a b : F}
    (he : 0 ≤ eps) : LeE (eqEps eps) a b ↔ a ≤ b + eps := by
  constructor
  · rintro (h | h)
    · linarith
    · simp only [eqEps, decide_eq_true_eq] at h
      have := abs_le.1 h; linarith
  · intro h
    by_cases hab : a ≤ b
    · exact Or.inl hab
    · right
      simp only [eqEps, decide_eq_true_eq]
      rw [abs_le]; constructor <;> linarith

theorem goodEq_eps {F : Type} [Field F] [LinearOrder F] [IsStrictOrderedRing F] {eps : F}
    (he : 0 ≤ eps) : GoodEq (eqEps eps) := by
  refine ⟨fun a => by simpa [eqEps] using he, ?_⟩
  intro a b c hab h
  rw [leE_eps he] at h ⊢; linarith

/-! ### swap -/

theorem swap_eq {α : Type*} {l : List α} {i j : Nat} (hi : i < l.length) (hj : j < l.length) :
    swap l i j = some ((l.set i l[j]).set j l[i]) := by
  simp [swap, hi, hj]

theorem swap_some {α : Type*} {l : List α} {i j : Nat} (hi : i < l.length) (hj : j < l.length) :
    ∃ l', swap l i j = some l' ∧ l'.Perm l ∧ l'[i]? = l[j]? ∧ l'[j]? = l[i]? ∧
      ∀ k, k ≠ i → k ≠ j → l'[k]? = l[k]? := by
  refine ⟨_, swap_eq hi hj, List.set_set_perm hi hj, ?_, ?_, ?_⟩
  · rw [List.getElem?_set, List.getElem?_set]
    by_cases h : j = i
    · subst h; simp [hi]
    · simp [h, hi]
  · rw [List.getElem?_set]; simp [hi, hj]
  · intro k hki hkj
    rw [List.getElem?_set, List.getElem?_set]
    simp [Ne.symm hki, Ne.symm hkj]

/-! ### scans -/

theorem scanUp_spec {key : Nat → K} {pivot : K} {idx : List Nat} :
    ∀ (fuel l p x : Nat), l ≤ p → idx[p]? = some x → ¬ key x < pivot → p - l < fuel →
      ∃ L y, scanUp key pivot idx fuel l = some L ∧ l ≤ L ∧ L ≤ p ∧ idx[L]? = some y ∧
        pivot ≤ key y ∧ ∀ i z, l ≤ i → i < L → idx[i]? = some z → key z < pivot := by
  intro fuel
  induction fuel with
  | zero => intro l p x _ _ _ h; omega
  | succ fuel ih =>
    intro l p x hlp hx hkey hf
    have hpl : p < idx.length := (List.getElem?_eq_some_iff.1 hx).1
    have hl : l < idx.length := by omega
    obtain ⟨y, hy⟩ : ∃ y, idx[l]? = some y := ⟨idx[l], List.getElem?_eq_getElem hl⟩
    simp only [scanUp, hy, Option.bind_eq_bind, Option.bind_some]
    by_cases hlt : key y < pivot
    · have hne : l ≠ p := by rintro rfl; rw [hx] at hy; simp at hy; subst hy; exact hkey hlt
      obtain ⟨L, z, h1, h2, h3, h4, h5, h6⟩ := ih (l + 1) p x (by omega) hx hkey (by omega)
      refine ⟨L, z, by simp [hlt, h1], by omega, h3, h4, h5, ?_⟩
      intro i w hi1 hi2 hw
      by_cases hil : i = l
      · subst hil; rw [hy] at hw; simp at hw; subst hw; exact hlt
      · exact h6 i w (by omega) hi2 hw
    · refine ⟨l, y, by simp [hlt], le_refl _, hlp, hy, not_lt.1 hlt, ?_⟩
      intro i w h1 h2; omega

theorem scanDown_spec {key : Nat → K} {pivot : K} {idx : List Nat} :
    ∀ (r p x : Nat), p < r → r ≤ idx.length → idx[p]? = some x → ¬ pivot < key x →
      ∃ R y, scanDown key pivot idx r = some R ∧ p ≤ R ∧ R < r ∧ idx[R]? = some y ∧
        key y ≤ pivot ∧ ∀ i z, R < i → i < r → idx[i]? = some z → pivot < key z := by
  intro r
  induction r with
  | zero => intro p x h; omega
  | succ r ih =>
    intro p x hpr hlen hx hkey
    have hr : r < idx.length := by omega
    obtain ⟨y, hy⟩ : ∃ y, idx[r]? = some y := ⟨idx[r], List.getElem?_eq_getElem hr⟩
    simp only [scanDown, hy, Option.bind_eq_bind, Option.bind_some]
    by_cases hlt : pivot < key y
    · have hne : r ≠ p := by rintro rfl; rw [hx] at hy; simp at hy; subst hy; exact hkey hlt
      obtain ⟨R, z, h1, h2, h3, h4, h5, h6⟩ := ih p x (by omega) (by omega) hx hkey
      refine ⟨R, z, by simp [hlt, h1], h2, by omega, h4, h5, ?_⟩
      intro i w hi1 hi2 hw
      by_cases hil : i = r
      · subst hil; rw [hy] at hw; simp at hw; subst hw; exact hlt
      · exact h6 i w hi1 (by omega) hw
    · refine ⟨r, y, by simp [hlt], by omega, by omega, hy, not_lt.1 hlt, ?_⟩
      intro i w h1 h2; omega

/-! ### partition -/

theorem partitionLoop_spec {eqv : K → K → Bool} {key : Nat → K} {pivot : K}
    (hrefl : eqv pivot pivot = true) :
    ∀ (fuel : Nat) (idx : List Nat) (lp rp pv x : Nat),
      lp ≤ pv → pv < rp → rp ≤ idx.length → idx[pv]? = some x → key x = pivot →
      (∀ i y, i < lp → idx[i]? = some y → key y < pivot) →
      (∀ i y, rp ≤ i → idx[i]? = some y → LeE eqv pivot (key y)) →
      rp - lp < fuel →
      ∃ idx' p x', partitionLoop eqv key pivot fuel idx lp rp pv = some (idx', p) ∧
        idx'.Perm idx ∧ idx'[p]? = some x' ∧ key x' = pivot ∧
        (∀ i y, i < p → idx'[i]? = some y → key y < pivot) ∧
        (∀ i y, p < i → idx'[i]? = some y → LeE eqv pivot (key y)) := by
  intro fuel
  induction fuel with
  | zero => intro idx lp rp pv x _ _ _ _ _ _ _ h; omega
  | succ fuel ih =>
    intro idx lp rp pv x h1 h2 h3 hx hkey hlow hhigh hf
    have hpvlen : pv < idx.length := by omega
    obtain ⟨L, yl, eL, hL1, hL2, hyl, hkl, hupL⟩ :=
      scanUp_spec (key := key) (pivot := pivot) (idx.length + 1) lp pv x h1 hx
        (by simp [hkey]) (by omega)
    obtain ⟨R, yr, eR, hR1, hR2, hyr, hkr, hdnR⟩ :=
      scanDown_spec (key := key) (pivot := pivot) rp pv x h2 h3 hx (by simp [hkey])
    simp only [partitionLoop, eL, eR, Option.bind_eq_bind, Option.bind_some]
    by_cases hLR : L ≥ R
    · have hLp : L = pv := by omega
      have hRp : R = pv := by omega
      rw [hLp] at hupL; rw [hRp] at hdnR
      refine ⟨idx, pv, x, by simp [hLR], List.Perm.refl _, hx, hkey, ?_, ?_⟩
      · intro i y hi hy
        by_cases hil : i < lp
        · exact hlow i y hil hy
        · exact hupL i y (by omega) hi hy
      · intro i y hi hy
        by_cases hil : rp ≤ i
        · exact hhigh i y hil hy
        · exact Or.inl (hdnR i y hi (by omega) hy).le
    · have hLlen : L < idx.length := by omega
      have hRlen : R < idx.length := by omega
      -- facts about positions below `L` and above `R`, before any swap
      have hbelow : ∀ i y, i < L → idx[i]? = some y → key y < pivot := by
        intro i y hi hy
        by_cases hil : i < lp
        · exact hlow i y hil hy
        · exact hupL i y (by omega) hi hy
      have habove : ∀ i y, R < i → idx[i]? = some y → LeE eqv pivot (key y) := by
        intro i y hi hy
        by_cases hil : rp ≤ i
        · exact hhigh i y hil hy
        · exact Or.inl (hdnR i y hi (by omega) hy).le
      simp only [hLR, if_false, hyr, Option.bind_some]
      by_cases heq : eqv pivot (key yr) = true
      · -- pivot value and right value are equal: move the pivot to `L`
        simp only [heq, Bool.not_true, Bool.false_eq_true, if_false, hyl, Option.bind_some]
        by_cases hLpv : L = pv
        · subst hLpv
          have hxl : yl = x := by rw [hx] at hyl; simpa using hyl.symm
          subst hxl
          have he : eqv (key yl) pivot = true := by rw [hkey]; exact hrefl
          simp only [he, if_true, ne_eq, not_true_eq_false, if_false]
          refine ih idx L R L yl (le_refl _) (by omega) (by omega) hx hkey hbelow ?_ (by omega)
          intro i y hi hy
          by_cases hiR : i = R
          · subst hiR; rw [hyr] at hy; simp at hy; subst hy; exact Or.inr heq
          · exact habove i y (by omega) hy
        · obtain ⟨idx', eS, hperm, hsL, hsp, hsk⟩ := swap_some hLlen hpvlen
          have hlen' : idx'.length = idx.length := hperm.length_eq
          have main : ∃ idx'' p x',
              partitionLoop eqv key pivot fuel idx' L R L = some (idx'', p) ∧
              idx''.Perm idx ∧ idx''[p]? = some x' ∧ key x' = pivot ∧
              (∀ i y, i < p → idx''[i]? = some y → key y < pivot) ∧
              (∀ i y, p < i → idx''[i]? = some y → LeE eqv pivot (key y)) := by
            obtain ⟨idx'', p, x', e, hp, r1, r2, r3, r4⟩ :=
              ih idx' L R L x (le_refl _) (by omega) (by omega) (by rw [hsL, hx]) hkey
                (by
                  intro i y hi hy
                  rw [hsk i (by omega) (by omega)] at hy
                  exact hbelow i y hi hy)
                (by
                  intro i y hi hy
                  by_cases hip : i = pv
                  · subst hip; rw [hsp, hyl] at hy; simp at hy; subst hy; exact Or.inl hkl
                  · rw [hsk i (by omega) hip] at hy
                    by_cases hiR : i = R
                    · subst hiR; rw [hyr] at hy; simp at hy; subst hy; exact Or.inr heq
                    · exact habove i y (by omega) hy)
                (by omega)
            exact ⟨idx'', p, x', e, hp.trans hperm, r1, r2, r3, r4⟩
          by_cases hel : eqv (key yl) pivot = true
          · simpa [hel, hLpv, eS] using main
          · simpa [hel, eS] using main
      · -- right value strictly smaller than the pivot: exchange left and right
        have hRpv : R ≠ pv := by
          rintro rfl
          rw [hx] at hyr; simp at hyr; subst hyr
          rw [hkey] at heq; exact heq hrefl
        obtain ⟨idx', eS, hperm, hsL, hsR, hsk⟩ := swap_some hLlen hRlen
        have hlen' : idx'.length = idx.length := hperm.length_eq
        have hlow' : ∀ i y, i < L + 1 → idx'[i]? = some y → key y < pivot := by
          intro i y hi hy
          by_cases hiL : i = L
          · subst hiL; rw [hsL, hyr] at hy; simp at hy; subst hy
            refine lt_of_le_of_ne hkr ?_
            rintro heq2; rw [heq2] at heq; exact heq hrefl
          · rw [hsk i hiL (by omega)] at hy; exact hbelow i y (by omega) hy
        have hhigh' : ∀ i y, R ≤ i → idx'[i]? = some y → LeE eqv pivot (key y) := by
          intro i y hi hy
          by_cases hiR : i = R
          · subst hiR; rw [hsR, hyl] at hy; simp at hy; subst hy; exact Or.inl hkl
          · rw [hsk i (by omega) hiR] at hy; exact habove i y (by omega) hy
        have heq' : eqv pivot (key yr) = false := by simpa using heq
        simp only [heq', Bool.not_false, if_true, eS, Option.bind_some]
        by_cases hpL : pv = L
        · subst hpL
          simp only [if_true]
          obtain ⟨idx'', p, x', e, hp, r1, r2, r3, r4⟩ :=
            ih idx' (pv + 1) (R + 1) R x (by omega) (by omega) (by omega) (by rw [hsR, hx]) hkey
              hlow' (fun i y hi hy => hhigh' i y (by omega) hy) (by omega)
          exact ⟨idx'', p, x', e, hp.trans hperm, r1, r2, r3, r4⟩
        · simp only [hpL, if_false]
          obtain ⟨idx'', p, x', e, hp, r1, r2, r3, r4⟩ :=
            ih idx' (L + 1) R pv x (by omega) (by omega) (by omega)
              (by rw [hsk pv hpL (Ne.symm hRpv), hx]) hkey
              hlow' hhigh' (by omega)
          exact ⟨idx'', p, x', e, hp.trans hperm, r1, r2, r3, r4⟩

theorem partition_spec {eqv : K → K → Bool} (key : Nat → K) (idx : List Nat) (pv : Nat)
    (hpv : pv < idx.length) (hrefl : eqv (key idx[pv]) (key idx[pv]) = true) :
    ∃ idx' p x', partition eqv key idx pv = some (idx', p) ∧ idx'.Perm idx ∧
      idx'[p]? = some x' ∧ key x' = key idx[pv] ∧
      (∀ i y, i < p → idx'[i]? = some y → key y < key x') ∧
      (∀ i y, p < i → idx'[i]? = some y → LeE eqv (key x') (key y)) := by
  have hx : idx[pv]? = some idx[pv] := List.getElem?_eq_getElem hpv
  by_cases h1 : idx.length = 1
  · have hpv0 : pv = 0 := by omega
    refine ⟨idx, pv, idx[pv], by simp [partition, h1], List.Perm.refl _, hx, rfl, ?_, ?_⟩
    · intro i y hi hy; omega
    · intro i y hi hy
      have := (List.getElem?_eq_some_iff.1 hy).1; omega
  · obtain ⟨idx', p, x', e, hp, r1, r2, r3, r4⟩ :=
      partitionLoop_spec hrefl (key := key) (pivot := key idx[pv]) (idx.length + 1) idx 0
        idx.length pv idx[pv] (Nat.zero_le _) hpv (le_refl _) hx rfl
        (by intro i y hi; omega)
        (by
          intro i y hi hy
          have := (List.getElem?_eq_some_iff.1 hy).1; omega)
        (by omega)
    refine ⟨idx', p, x', by simp [partition, h1, hx, e], hp, r1, r2, ?_, ?_⟩
    · intro i y hi hy; rw [r2]; exact r3 i y hi hy
    · intro i y hi hy; rw [r2]; exact r4 i y hi hy

/-! ### median of three -/

/-- Ternary median: `m` is at least one and at most another of the other two. -/
theorem medianIndexOfThree_spec (key : Nat → K) (idx : List Nat) (h : 3 ≤ idx.length) :
    ∃ l m r x y z, medianIndexOfThree key idx = some r ∧
      (l = 0 ∧ m = (idx.length - 1) / 2 ∧ r = idx.length - 1 ∨
       l = 0 ∧ r = (idx.length - 1) / 2 ∧ m = idx.length - 1 ∨
       m = 0 ∧ l = (idx.length - 1) / 2 ∧ r = idx.length - 1 ∨
       m = 0 ∧ r = (idx.length - 1) / 2 ∧ l = idx.length - 1 ∨
       r = 0 ∧ l = (idx.length - 1) / 2 ∧ m = idx.length - 1 ∨
       r = 0 ∧ m = (idx.length - 1) / 2 ∧ l = idx.length - 1) ∧
      idx[l]? = some x ∧ idx[r]? = some y ∧ idx[m]? = some z ∧ key x ≤ key y ∧ key y ≤ key z := by
  have h0 : (0 : Nat) < idx.length := by omega
  have hr : idx.length - 1 < idx.length := by omega
  have hm : (idx.length - 1) / 2 < idx.length := by omega
  have e0 := List.getElem?_eq_getElem h0
  have er := List.getElem?_eq_getElem hr
  have em := List.getElem?_eq_getElem hm
  have h3 : ¬ idx.length < 3 := by omega
  simp only [medianIndexOfThree, h3, if_false]
  generalize idx[0] = a at e0
  generalize idx[idx.length - 1] = c at er
  generalize idx[(idx.length - 1) / 2] = b at em
  by_cases c1 : key b < key a
  · by_cases c2 : key c < key b
    · by_cases c3 : key a < key b
      · exact absurd c3 (not_lt.2 c1.le)
      · refine ⟨idx.length - 1, 0, (idx.length - 1) / 2, c, b, a, ?_, by simp, er, em, e0, c2.le, c1.le⟩
        simp [e0, er, em, c1, c2, c3]
    · by_cases c3 : key a < key c
      · refine ⟨(idx.length - 1) / 2, idx.length - 1, 0, b, a, c, ?_, by simp, em, e0, er, c1.le, c3.le⟩
        simp [e0, er, em, c1, c2, c3]
      · refine ⟨(idx.length - 1) / 2, 0, idx.length - 1, b, c, a, ?_, by simp, em, er, e0, not_lt.1 c2, not_lt.1 c3⟩
        simp [e0, er, em, c1, c2, c3]
  · by_cases c2 : key c < key a
    · by_cases c3 : key b < key a
      · exact absurd c3 c1
      · refine ⟨idx.length - 1, (idx.length - 1) / 2, 0, c, a, b, ?_, by simp, er, e0, em, c2.le, not_lt.1 c3⟩
        simp [e0, er, em, c1, c2]
    · by_cases c3 : key b < key c
      · refine ⟨0, idx.length - 1, (idx.length - 1) / 2, a, b, c, ?_, by simp, e0, em, er, not_lt.1 c1, c3.le⟩
        simp [e0, er, em, c1, c2, c3]
      · refine ⟨0, (idx.length - 1) / 2, idx.length - 1, a, c, b, ?_, by simp, e0, er, em, not_lt.1 c2, not_lt.1 c3⟩
        simp [e0, er, em, c1, c2, c3]

theorem medianIndexOfThree_lt (key : Nat → K) (idx : List Nat) (h : 0 < idx.length) :
    ∃ m, medianIndexOfThree key idx = some m ∧ m < idx.length := by
  by_cases h3 : idx.length < 3
  · exact ⟨0, by simp [medianIndexOfThree, h3], h⟩
  · obtain ⟨l, m, r, x, y, z, e, hh, _, hy, _⟩ := medianIndexOfThree_spec key idx (by omega)
    exact ⟨r, e, (List.getElem?_eq_some_iff.1 hy).1⟩

/-! ### list form of the partition, quickselect and quicksort -/

theorem partition_spec' {eqv : K → K → Bool} (key : Nat → K) (idx : List Nat) (pv : Nat)
    (hpv : pv < idx.length) (hrefl : eqv (key idx[pv]) (key idx[pv]) = true) :
    ∃ P x Q, partition eqv key idx pv = some (P ++ x :: Q, P.length) ∧
      (P ++ x :: Q).Perm idx ∧ key x = key idx[pv] ∧
      (∀ y ∈ P, key y < key x) ∧ (∀ y ∈ Q, LeE eqv (key x) (key y)) := by
  obtain ⟨idx', p, x, e, hperm, hx, hk, h1, h2⟩ := partition_spec key idx pv hpv hrefl
  have hp : p < idx'.length := (List.getElem?_eq_some_iff.1 hx).1
  have hdec : idx' = idx'.take p ++ x :: idx'.drop (p + 1) := by
    have hxe : idx'[p] = x := (List.getElem?_eq_some_iff.1 hx).2
    rw [← hxe, List.getElem_cons_drop, List.take_append_drop]
  have hlen : (idx'.take p).length = p := by simp; omega
  refine ⟨idx'.take p, x, idx'.drop (p + 1), ?_, ?_, hk, ?_, ?_⟩
  · rw [← hdec, hlen]; exact e
  · rw [← hdec]; exact hperm
  · intro y hy
    obtain ⟨i, hi, hiy⟩ := List.mem_iff_getElem.1 hy
    rw [hlen] at hi
    refine h1 i y hi ?_
    rw [← hiy, List.getElem_take]; exact List.getElem?_eq_getElem (by omega)
  · intro y hy
    obtain ⟨i, hi, hiy⟩ := List.mem_iff_getElem.1 hy
    simp only [List.length_drop] at hi
    refine h2 (p + 1 + i) y (by omega) ?_
    rw [← hiy, List.getElem_drop]; exact List.getElem?_eq_getElem (by omega)

theorem slice_append {α : Type*} (A S B : List α) :
    ((A ++ S ++ B).take (A.length + S.length)).drop A.length = S := by
  rw [List.take_append_of_le_length (by simp), List.take_of_length_le (by simp)]
  simp

theorem onRange_append {α β : Type*} (A S B : List α) (f : List α → Option (List α × β)) :
    onRange (A ++ S ++ B) A.length (A.length + S.length) f =
      (f S).map (fun r => (A ++ r.1 ++ B, r.2)) := by
  simp only [onRange, slice_append]
  have h1 : (A ++ S ++ B).take A.length = A := by simp [List.append_assoc]
  have h2 : (A ++ S ++ B).drop (A.length + S.length) = B := by
    rw [← List.length_append]; simp
  rw [h1, h2]
  cases f S <;> rfl

/-- What `quickselect` and `quicksort` need of the partition: nothing larger before the returned
position, nothing smaller after it up to `eqv`. -/
def PartOk (eqv : K → K → Bool) (key : Nat → K) : Prop :=
  ∀ (idx : List Nat) (pv : Nat), pv < idx.length →
    ∃ P x Q, partition eqv key idx pv = some (P ++ x :: Q, P.length) ∧
      (P ++ x :: Q).Perm idx ∧ (∀ y ∈ P, key y ≤ key x) ∧ (∀ y ∈ Q, LeE eqv (key x) (key y))

theorem GoodEq.partOk {eqv : K → K → Bool} (hg : GoodEq eqv) (key : Nat → K) : PartOk eqv key := by
  intro idx pv hpv
  obtain ⟨P, x, Q, e, h1, _, h2, h3⟩ := partition_spec' key idx pv hpv (hg.refl _)
  exact ⟨P, x, Q, e, h1, fun y hy => (h2 y hy).le, h3⟩

theorem quickselectLoop_part {eqv : K → K → Bool} {key : Nat → K} (hp : PartOk eqv key)
    (hmono : ∀ a b c, a ≤ b → LeE eqv b c → LeE eqv a c) (k : Nat) :
    ∀ (fuel : Nat) (A S B : List Nat), A.length ≤ k → k < A.length + S.length →
      (∀ a ∈ A, ∀ s ∈ S, LeE eqv (key a) (key s)) →
      (∀ s ∈ S, ∀ b ∈ B, LeE eqv (key s) (key b)) →
      S.length ≤ fuel →
      ∃ P x Q, quickselectLoop eqv key k fuel (A ++ S ++ B) A.length (A.length + S.length - 1) =
          some (P ++ x :: Q, k, k + 1) ∧ P.length = k ∧ (P ++ x :: Q).Perm (A ++ S ++ B) ∧
        (∀ a ∈ P, LeE eqv (key a) (key x)) ∧ (∀ b ∈ Q, LeE eqv (key x) (key b)) := by
  intro fuel
  induction fuel with
  | zero => intro A S B h1 h2 _ _ h; omega
  | succ fuel ih =>
    intro A S B hAk hkS hAS hSB hf
    have hSpos : 0 < S.length := by omega
    simp only [quickselectLoop]
    by_cases hone : S.length = 1
    · obtain ⟨x, rfl⟩ := List.length_eq_one_iff.1 hone
      have hk : A.length = k := by simp at hkS; omega
      refine ⟨A, x, B, ?_, hk, by simp, ?_, ?_⟩
      · simp [hk]
      · intro a ha; exact hAS a ha x (by simp)
      · intro b hb; exact hSB x (by simp) b hb
    · have hne : ¬ A.length = A.length + S.length - 1 := by omega
      have hright : A.length + S.length - 1 + 1 = A.length + S.length := by omega
      simp only [hne, if_false, hright, slice_append, onRange_append]
      obtain ⟨m, em, hm⟩ := medianIndexOfThree_lt key S hSpos
      simp only [em, Option.bind_eq_bind, Option.bind_some]
      obtain ⟨P, x, Q, ep, hperm, hP, hQ⟩ := hp S m hm
      simp only [ep, Option.map_some, Option.bind_some]
      have hlenS : P.length + 1 + Q.length = S.length := by
        have := hperm.length_eq; simp at this; omega
      have hPx : ∀ a ∈ P, LeE eqv (key a) (key x) := fun a ha => Or.inl (hP a ha)
      have hPQ : ∀ a ∈ P, ∀ b ∈ Q, LeE eqv (key a) (key b) :=
        fun a ha b hb => hmono _ _ _ (hP a ha) (hQ b hb)
      have hmemS : ∀ y, y ∈ P ++ x :: Q → y ∈ S := fun y hy => hperm.mem_iff.1 hy
      have hpermAll : (A ++ (P ++ x :: Q) ++ B).Perm (A ++ S ++ B) :=
        (hperm.append_left A).append_right B
      by_cases hk1 : k = A.length + P.length
      · refine ⟨A ++ P, x, Q ++ B, ?_, by simp [hk1], ?_, ?_, ?_⟩
        · simp [hk1, List.append_assoc]
        · simpa [List.append_assoc] using hpermAll
        · intro a ha
          rcases List.mem_append.1 ha with ha | ha
          · exact hAS a ha x (hmemS x (by simp))
          · exact hPx a ha
        · intro b hb
          rcases List.mem_append.1 hb with hb | hb
          · exact hQ b hb
          · exact hSB x (hmemS x (by simp)) b hb
      · simp only [hk1, if_false]
        by_cases hk2 : k < A.length + P.length
        · simp only [hk2, if_true]
          obtain ⟨P', x', Q', e', h1, h2, h3, h4⟩ := ih A P (x :: Q ++ B) hAk hk2
            (fun a ha s hs => hAS a ha s (hmemS s (by simp [hs])))
            (by
              intro s hs b hb
              simp only [List.cons_append, List.mem_cons, List.mem_append] at hb
              rcases hb with rfl | hb | hb
              · exact hPx s hs
              · exact hPQ s hs b hb
              · exact hSB s (hmemS s (by simp [hs])) b hb)
            (by omega)
          have heq : A ++ (P ++ x :: Q) ++ B = A ++ P ++ (x :: Q ++ B) := by
            simp [List.append_assoc]
          rw [heq]
          refine ⟨P', x', Q', e', h1, ?_, h3, h4⟩
          rw [heq] at hpermAll
          exact h2.trans hpermAll
        · simp only [hk2, if_false]
          obtain ⟨P', x', Q', e', h1, h2, h3, h4⟩ := ih (A ++ P ++ [x]) Q B
            (by simp; omega) (by simp; omega)
            (by
              intro a ha s hs
              simp only [List.mem_append, List.mem_singleton] at ha
              rcases ha with (ha | ha) | rfl
              · exact hAS a ha s (hmemS s (by simp [hs]))
              · exact hPQ a ha s hs
              · exact hQ s hs)
            (fun s hs b hb => hSB s (hmemS s (by simp [hs])) b hb)
            (by omega)
          have heq : A ++ (P ++ x :: Q) ++ B = A ++ P ++ [x] ++ Q ++ B := by
            simp [List.append_assoc]
          have hl1 : (A ++ P ++ [x]).length = A.length + P.length + 1 := by simp; omega
          have hl2 : A.length + P.length + 1 + Q.length - 1 = A.length + S.length - 1 := by omega
          rw [hl1, hl2] at e'
          rw [heq]
          refine ⟨P', x', Q', e', h1, ?_, h3, h4⟩
          rw [heq] at hpermAll
          exact h2.trans hpermAll

theorem quickselect_part {eqv : K → K → Bool} {key : Nat → K} (hp : PartOk eqv key)
    (hmono : ∀ a b c, a ≤ b → LeE eqv b c → LeE eqv a c) (idx : List Nat)
    (k : Nat) (hk : k < idx.length) :
    ∃ P x Q, quickselect eqv key idx k = some (P ++ x :: Q, k, k + 1) ∧ P.length = k ∧
      (P ++ x :: Q).Perm idx ∧
      (∀ a ∈ P, LeE eqv (key a) (key x)) ∧ (∀ b ∈ Q, LeE eqv (key x) (key b)) := by
  have h0 : ¬ idx.length = 0 := by omega
  obtain ⟨P, x, Q, e, h1, h2, h3, h4⟩ :=
    quickselectLoop_part hp hmono k (idx.length + 1) [] idx [] (by simp) (by simpa using hk)
      (by simp) (by simp) (by omega)
  refine ⟨P, x, Q, ?_, h1, by simpa using h2, h3, h4⟩
  simpa [quickselect, h0] using e

theorem quickselect_spec {eqv : K → K → Bool} (hg : GoodEq eqv) (key : Nat → K) (idx : List Nat)
    (k : Nat) (hk : k < idx.length) :
    ∃ P x Q, quickselect eqv key idx k = some (P ++ x :: Q, k, k + 1) ∧ P.length = k ∧
      (P ++ x :: Q).Perm idx ∧
      (∀ a ∈ P, LeE eqv (key a) (key x)) ∧ (∀ b ∈ Q, LeE eqv (key x) (key b)) :=
  quickselect_part (hg.partOk key) hg.mono idx k hk

theorem quicksort_part {eqv : K → K → Bool} {key : Nat → K} (hp : PartOk eqv key)
    (hmono : ∀ a b c, a ≤ b → LeE eqv b c → LeE eqv a c) :
    ∀ (fuel : Nat) (idx : List Nat) (pv : Nat), (2 ≤ idx.length → pv < idx.length) →
      idx.length < fuel →
      ∃ idx' p, quicksort eqv key fuel idx pv = some (idx', p) ∧ idx'.Perm idx ∧
        idx'.Pairwise (fun a b => LeE eqv (key a) (key b)) := by
  intro fuel
  induction fuel with
  | zero => intro idx pv _ h; omega
  | succ fuel ih =>
    intro idx pv hpv hf
    by_cases h2 : idx.length < 2
    · refine ⟨idx, pv, by simp [quicksort, h2], List.Perm.refl _, ?_⟩
      match idx, h2 with
      | [], _ => exact List.Pairwise.nil
      | [x], _ => simp
    · simp only [quicksort, h2, if_false]
      obtain ⟨P, x, Q, ep, hperm, hP, hQ⟩ := hp idx pv (hpv (by omega))
      have hlen : P.length + 1 + Q.length = idx.length := by
        have := hperm.length_eq; simp at this; omega
      have hmed : ∀ l : List Nat, ∃ m, medianIndexOfThree key l = some m ∧
          (2 ≤ l.length → m < l.length) := by
        intro l
        by_cases hl : 0 < l.length
        · obtain ⟨m, e, h⟩ := medianIndexOfThree_lt key l hl
          exact ⟨m, e, fun _ => h⟩
        · exact ⟨0, by simp [medianIndexOfThree]; omega, fun h => by omega⟩
      have ht : (P ++ x :: Q).take P.length = P := by simp
      have hd : (P ++ x :: Q).drop (P.length + 1) = Q := by
        rw [show P.length + 1 = (P ++ [x]).length by simp, show P ++ x :: Q = P ++ [x] ++ Q by simp]
        simp
      obtain ⟨ml, eml, hml⟩ := hmed P
      obtain ⟨mr, emr, hmr⟩ := hmed Q
      obtain ⟨P', p1, e1, hp1, hs1⟩ := ih P ml hml (by omega)
      obtain ⟨Q', p2, e2, hp2, hs2⟩ := ih Q mr hmr (by omega)
      simp only [ep, Option.bind_eq_bind, Option.bind_some, ht, hd, eml, emr]
      have r1 := onRange_append [] P (x :: Q) (fun sub => quicksort eqv key fuel sub ml)
      simp only [List.nil_append, List.length_nil, Nat.zero_add, e1, Option.map_some] at r1
      have hl1 : P'.length = P.length := hp1.length_eq
      have r2 := onRange_append (P' ++ [x]) Q [] (fun sub => quicksort eqv key fuel sub mr)
      simp only [e2, Option.map_some, List.append_nil, List.length_append, List.length_cons,
        List.length_nil, Nat.zero_add, hl1, List.append_assoc, List.cons_append,
        List.nil_append] at r2
      simp only [r1, Option.bind_some]
      have hl2 : (P' ++ x :: Q).length = P.length + 1 + Q.length := by simp; omega
      rw [hl2, r2]
      refine ⟨P' ++ x :: Q', P.length, by simp, ?_, ?_⟩
      · exact ((hp1.append_right _).trans ((hp2.cons x).append_left P)).trans hperm
      · rw [List.pairwise_append]
        refine ⟨hs1, ?_, ?_⟩
        · rw [List.pairwise_cons]
          exact ⟨fun b hb => hQ b (hp2.mem_iff.1 hb), hs2⟩
        · intro a ha b hb
          have ha' := hp1.mem_iff.1 ha
          rcases List.mem_cons.1 hb with rfl | hb
          · exact Or.inl (hP a ha')
          · exact hmono _ _ _ (hP a ha') (hQ b (hp2.mem_iff.1 hb))

theorem quicksort_spec {eqv : K → K → Bool} (hg : GoodEq eqv) (key : Nat → K) :
    ∀ (fuel : Nat) (idx : List Nat) (pv : Nat), (2 ≤ idx.length → pv < idx.length) →
      idx.length < fuel →
      ∃ idx' p, quicksort eqv key fuel idx pv = some (idx', p) ∧ idx'.Perm idx ∧
        idx'.Pairwise (fun a b => LeE eqv (key a) (key b)) :=
  quicksort_part (hg.partOk key) hg.mono

/-- `A` splits into a part strictly below everything in `S` and a suffix of values that are
lower bounds of `S` (hence all equal to each other). -/
def LeftSuffix (key : Nat → K) (A S : List Nat) : Prop :=
  ∃ A1 A2, A = A1 ++ A2 ∧ (∀ a ∈ A1, ∀ s ∈ A2 ++ S, key a < key s) ∧
    (∀ a ∈ A2, ∀ s ∈ A2 ++ S, key a ≤ key s)

theorem LeftSuffix.mono {key : Nat → K} {A S T : List Nat} (h : LeftSuffix key A S)
    (hT : ∀ t ∈ T, t ∈ S) : LeftSuffix key A T := by
  obtain ⟨A1, A2, e, h1, h2⟩ := h
  have hm : ∀ s ∈ A2 ++ T, s ∈ A2 ++ S := by
    intro s hs
    rcases List.mem_append.1 hs with h | h
    · exact List.mem_append_left _ h
    · exact List.mem_append_right _ (hT s h)
  exact ⟨A1, A2, e, fun a ha s hs => h1 a ha s (hm s hs), fun a ha s hs => h2 a ha s (hm s hs)⟩

/-- Splitting off the part before the selected element: strictly smaller values, then equal ones. -/
theorem LeftSuffix.split {key : Nat → K} {A S P Q : List Nat} {x : Nat} (h : LeftSuffix key A S)
    (hmem : ∀ y, y ∈ P ++ x :: Q → y ∈ S) (hP : ∀ y ∈ P, key y < key x) :
    ∃ B1 B2, A ++ P = B1 ++ B2 ∧ (∀ a ∈ B1, key a < key x) ∧ (∀ a ∈ B2, key a = key x) := by
  obtain ⟨A1, A2, rfl, h1, h2⟩ := h
  have hxS : x ∈ S := hmem x (by simp)
  by_cases hlt : ∀ a ∈ A2, key a < key x
  · refine ⟨A1 ++ A2 ++ P, [], by simp, ?_, by simp⟩
    intro a ha
    simp only [List.mem_append] at ha
    rcases ha with (ha | ha) | ha
    · exact h1 a ha x (by simp [hxS])
    · exact hlt a ha
    · exact hP a ha
  · push Not at hlt
    obtain ⟨b, hb, hbx⟩ := hlt
    have hbx' : key b = key x := le_antisymm (h2 b hb x (by simp [hxS])) hbx
    have hPnil : P = [] := by
      rcases P with _ | ⟨p, P⟩
      · rfl
      · have := hP p (by simp)
        have h3 := h2 b hb p (by simp [hmem p (by simp)])
        rw [hbx'] at h3
        exact absurd this (not_lt.2 h3)
    subst hPnil
    refine ⟨A1, A2, by simp, fun a ha => h1 a ha x (by simp [hxS]), ?_⟩
    intro a ha
    refine le_antisymm (h2 a ha x (by simp [hxS])) ?_
    rw [← hbx']; exact h2 b hb a (by simp [ha])

theorem LeftSuffix.step {key : Nat → K} {A S P Q : List Nat} {x : Nat} (h : LeftSuffix key A S)
    (hmem : ∀ y, y ∈ P ++ x :: Q → y ∈ S) (hP : ∀ y ∈ P, key y < key x)
    (hQ : ∀ y ∈ Q, key x ≤ key y) : LeftSuffix key (A ++ P ++ [x]) Q := by
  obtain ⟨B1, B2, e, h1, h2⟩ := h.split hmem hP
  refine ⟨B1, B2 ++ [x], by rw [e]; simp, ?_, ?_⟩
  · intro a ha s hs
    have hax := h1 a ha
    simp only [List.mem_append, List.mem_singleton] at hs
    rcases hs with (hs | rfl) | hs
    · rw [h2 s hs]; exact hax
    · exact hax
    · exact lt_of_lt_of_le hax (hQ s hs)
  · intro a ha s hs
    have hax : key a = key x := by
      simp only [List.mem_append, List.mem_singleton] at ha
      rcases ha with ha | rfl
      · exact h2 a ha
      · rfl
    rw [hax]
    simp only [List.mem_append, List.mem_singleton] at hs
    rcases hs with (hs | rfl) | hs
    · rw [h2 s hs]
    · exact le_refl _
    · exact hQ s hs

/-- Exact equality: before the selected element come the strictly smaller values, then the
equal ones. -/
theorem quickselectLoop_leftmost (key : Nat → K) (k : Nat) :
    ∀ (fuel : Nat) (A S B : List Nat), A.length ≤ k → k < A.length + S.length →
      LeftSuffix key A S → S.length ≤ fuel →
      ∃ P1 P2 x Q, quickselectLoop eqExact key k fuel (A ++ S ++ B) A.length
          (A.length + S.length - 1) = some (P1 ++ P2 ++ x :: Q, k, k + 1) ∧
        (P1 ++ P2).length = k ∧
        (∀ a ∈ P1, key a < key x) ∧ (∀ a ∈ P2, key a = key x) := by
  intro fuel
  induction fuel with
  | zero => intro A S B h1 h2 _ h; omega
  | succ fuel ih =>
    intro A S B hAk hkS hA hf
    have hSpos : 0 < S.length := by omega
    simp only [quickselectLoop]
    by_cases hone : S.length = 1
    · obtain ⟨x, rfl⟩ := List.length_eq_one_iff.1 hone
      have hk : A.length = k := by simp at hkS; omega
      obtain ⟨B1, B2, e, h1, h2⟩ := hA.split (P := []) (x := x) (Q := []) (by simp) (by simp)
      simp only [List.append_nil] at e
      refine ⟨B1, B2, x, B, ?_, by rw [← e]; exact hk, h1, h2⟩
      simp [hk, ← e]
    · have hne : ¬ A.length = A.length + S.length - 1 := by omega
      have hright : A.length + S.length - 1 + 1 = A.length + S.length := by omega
      simp only [hne, if_false, hright, slice_append, onRange_append]
      obtain ⟨m, em, hm⟩ := medianIndexOfThree_lt key S hSpos
      simp only [em, Option.bind_eq_bind, Option.bind_some]
      obtain ⟨P, x, Q, ep, hperm, _, hP, hQ⟩ := partition_spec' key S m hm (goodEq_exact.refl _)
      simp only [ep, Option.map_some, Option.bind_some]
      have hlenS : P.length + 1 + Q.length = S.length := by
        have := hperm.length_eq; simp at this; omega
      have hmemS : ∀ y, y ∈ P ++ x :: Q → y ∈ S := fun y hy => hperm.mem_iff.1 hy
      by_cases hk1 : k = A.length + P.length
      · obtain ⟨B1, B2, e, h1, h2⟩ := hA.split hmemS hP
        refine ⟨B1, B2, x, Q ++ B, ?_, by rw [← e]; simp [hk1], h1, h2⟩
        simp [hk1, ← e, List.append_assoc]
      · simp only [hk1, if_false]
        by_cases hk2 : k < A.length + P.length
        · simp only [hk2, if_true]
          have heq : A ++ (P ++ x :: Q) ++ B = A ++ P ++ (x :: Q ++ B) := by
            simp [List.append_assoc]
          rw [heq]
          exact ih A P (x :: Q ++ B) hAk hk2 (hA.mono (fun t ht => hmemS t (by simp [ht])))
            (by omega)
        · simp only [hk2, if_false]
          have heq : A ++ (P ++ x :: Q) ++ B = A ++ P ++ [x] ++ Q ++ B := by
            simp [List.append_assoc]
          have hl1 : (A ++ P ++ [x]).length = A.length + P.length + 1 := by simp; omega
          have hl2 : A.length + P.length + 1 + Q.length - 1 = A.length + S.length - 1 := by omega
          have := ih (A ++ P ++ [x]) Q B (by simp; omega) (by simp; omega)
            (hA.step hmemS hP (fun y hy => leE_exact.1 (hQ y hy))) (by omega)
          rw [hl1, hl2] at this
          rw [heq]; exact this

theorem quickselect_leftmost (key : Nat → K) (idx : List Nat) (k : Nat) (hk : k < idx.length) :
    ∃ P1 P2 x Q, quickselect eqExact key idx k = some (P1 ++ P2 ++ x :: Q, k, k + 1) ∧
      (P1 ++ P2).length = k ∧ (P1 ++ P2 ++ x :: Q).Perm idx ∧
      (∀ a ∈ P1, key a < key x) ∧ (∀ a ∈ P2, key a = key x) ∧ (∀ b ∈ Q, key x ≤ key b) := by
  have h0 : ¬ idx.length = 0 := by omega
  obtain ⟨P, x, Q, e, h1, h2, h3, h4⟩ := quickselect_spec goodEq_exact key idx k hk
  obtain ⟨P1, P2, x', Q', e', h1', h2', h3'⟩ :=
    quickselectLoop_leftmost key k (idx.length + 1) [] idx [] (by simp) (by simpa using hk)
      ⟨[], [], rfl, by simp, by simp⟩ (by omega)
  have e'' : quickselect eqExact key idx k = some (P1 ++ P2 ++ x' :: Q', k, k + 1) := by
    simpa [quickselect, h0] using e'
  rw [e''] at e
  simp only [Option.some.injEq, Prod.mk.injEq, and_true] at e
  have hinj := List.append_inj e (by omega)
  obtain ⟨hPP, hxx⟩ := hinj
  simp only [List.cons.injEq] at hxx
  obtain ⟨rfl, rfl⟩ := hxx
  refine ⟨P1, P2, x', Q', e'', h1', ?_, h2', h3', fun b hb => leE_exact.1 (h4 b hb)⟩
  rw [hPP]; exact h2

end Verif.Sorting
