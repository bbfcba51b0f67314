import Verif.Lemmas.KDTree
import Verif.Lemmas.Search

/-
The construction and the search when `<` is only irreflexive, as it is for IEEE floating point numbers
with NaN and infinities: nothing leaves its range, everything ends.
-/

namespace Verif.Sorting

/-- What is asked of the comparisons: no value is below itself, and a value that is equal to something is
equal to itself.  `|b - a| <= eps` on floating point numbers: infinities and NaN are equal to nothing. -/
structure AnyOrder {K : Type} [LT K] (eqv : K → K → Bool) : Prop where
  irrefl : ∀ a : K, ¬ a < a
  self : ∀ a b, eqv a b = true → eqv a a = true

variable {K : Type} [LT K] [DecidableLT K]

theorem scanUp_safe {key : Nat → K} {pivot : K} {idx : List Nat} :
    ∀ (fuel l p x : Nat), l ≤ p → idx[p]? = some x → ¬ key x < pivot → p - l < fuel →
      ∃ L y, scanUp key pivot idx fuel l = some L ∧ l ≤ L ∧ L ≤ p ∧ idx[L]? = some y ∧ ¬ key y < pivot := by
  intro fuel
  induction fuel with
  | zero => intro l p x _ _ _ h; omega
  | succ fuel ih =>
    intro l p x hlp hx hkey hf
    have hpl : p < idx.length := (List.getElem?_eq_some_iff.1 hx).1
    have hl : l < idx.length := by omega
    obtain ⟨y, hy⟩ : ∃ y, idx[l]? = some y := ⟨idx[l], List.getElem?_eq_getElem hl⟩
    simp only [scanUp, hy, Option.bind_eq_bind, Option.bind_some]
    by_cases hlt : key y < pivot
    · have hne : l ≠ p := by rintro rfl; rw [hx] at hy; simp at hy; subst hy; exact hkey hlt
      obtain ⟨L, z, h1, h2, h3, h4, h5⟩ := ih (l + 1) p x (by omega) hx hkey (by omega)
      exact ⟨L, z, by simp [hlt, h1], by omega, h3, h4, h5⟩
    · exact ⟨l, y, by simp [hlt], Nat.le_refl _, hlp, hy, hlt⟩

theorem scanDown_safe {key : Nat → K} {pivot : K} {idx : List Nat} :
    ∀ (r p x : Nat), p < r → r ≤ idx.length → idx[p]? = some x → ¬ pivot < key x →
      ∃ R y, scanDown key pivot idx r = some R ∧ p ≤ R ∧ R < r ∧ idx[R]? = some y ∧ ¬ pivot < key y := by
  intro r
  induction r with
  | zero => intro p x h; omega
  | succ r ih =>
    intro p x hpr hlen hx hkey
    have hr : r < idx.length := by omega
    obtain ⟨y, hy⟩ : ∃ y, idx[r]? = some y := ⟨idx[r], List.getElem?_eq_getElem hr⟩
    simp only [scanDown, hy, Option.bind_eq_bind, Option.bind_some]
    by_cases hlt : pivot < key y
    · have hne : r ≠ p := by rintro rfl; rw [hx] at hy; simp at hy; subst hy; exact hkey hlt
      obtain ⟨R, z, h1, h2, h3, h4, h5⟩ := ih p x (by omega) (by omega) hx hkey
      exact ⟨R, z, by simp [hlt, h1], h2, by omega, h4, h5⟩
    · exact ⟨r, y, by simp [hlt], by omega, by omega, hy, hlt⟩

/-- A pivot that is equal to itself stays at `pv`. -/
theorem partitionLoop_safe_self {eqv : K → K → Bool} {key : Nat → K} {pivot : K}
    (hirr : ¬ pivot < pivot) (hself : eqv pivot pivot = true) :
    ∀ (fuel : Nat) (idx : List Nat) (lp rp pv x : Nat),
      lp ≤ pv → pv < rp → rp ≤ idx.length → idx[pv]? = some x → key x = pivot → rp - lp < fuel →
      ∃ idx' p, partitionLoop eqv key pivot fuel idx lp rp pv = some (idx', p) ∧ idx'.Perm idx ∧
        p < idx.length := by
  intro fuel
  induction fuel with
  | zero => intro idx lp rp pv x _ _ _ _ _ h; omega
  | succ fuel ih =>
    intro idx lp rp pv x h1 h2 h3 hx hkey hf
    have hpvlen : pv < idx.length := by omega
    obtain ⟨L, yl, eL, hL1, hL2, hyl, _⟩ :=
      scanUp_safe (key := key) (pivot := pivot) (idx.length + 1) lp pv x h1 hx (by rwa [hkey]) (by omega)
    obtain ⟨R, yr, eR, hR1, hR2, hyr, _⟩ :=
      scanDown_safe (key := key) (pivot := pivot) rp pv x h2 h3 hx (by rwa [hkey])
    simp only [partitionLoop, eL, eR, Option.bind_eq_bind, Option.bind_some]
    by_cases hLR : L ≥ R
    · exact ⟨idx, pv, by simp [hLR], List.Perm.refl _, hpvlen⟩
    · have hLlen : L < idx.length := by omega
      have hRlen : R < idx.length := by omega
      simp only [hLR, if_false, hyr, Option.bind_some]
      by_cases heq : eqv pivot (key yr) = true
      · simp only [heq, Bool.not_true, Bool.false_eq_true, if_false, hyl, Option.bind_some]
        by_cases hLpv : L = pv
        · subst hLpv
          have hxl : yl = x := by rw [hx] at hyl; simpa using hyl.symm
          subst hxl
          have he : eqv (key yl) pivot = true := by rw [hkey]; exact hself
          simp only [he, if_true, ne_eq, not_true_eq_false, if_false]
          exact ih idx L R L yl (Nat.le_refl _) (by omega) (by omega) hx hkey (by omega)
        · obtain ⟨idx', eS, hperm, hsL, hsp, hsk⟩ := swap_some hLlen hpvlen
          have hlen' : idx'.length = idx.length := hperm.length_eq
          obtain ⟨idx'', p, e, hp, hlt⟩ :=
            ih idx' L R L x (Nat.le_refl _) (by omega) (by omega) (by rw [hsL, hx]) hkey (by omega)
          have main : ∃ idx'' p, partitionLoop eqv key pivot fuel idx' L R L = some (idx'', p) ∧
              idx''.Perm idx ∧ p < idx.length := ⟨idx'', p, e, hp.trans hperm, by omega⟩
          by_cases hel : eqv (key yl) pivot = true
          · simpa [hel, hLpv, eS] using main
          · simpa [hel, eS] using main
      · have hRpv : R ≠ pv := by
          rintro rfl
          rw [hx] at hyr; simp at hyr; subst hyr
          rw [hkey] at heq; exact heq hself
        obtain ⟨idx', eS, hperm, hsL, hsR, hsk⟩ := swap_some hLlen hRlen
        have hlen' : idx'.length = idx.length := hperm.length_eq
        have heq' : eqv pivot (key yr) = false := by simpa using heq
        simp only [heq', Bool.not_false, if_true, eS, Option.bind_some]
        by_cases hpL : pv = L
        · subst hpL
          simp only [if_true]
          obtain ⟨idx'', p, e, hp, hlt⟩ :=
            ih idx' (pv + 1) (R + 1) R x (by omega) (by omega) (by omega) (by rw [hsR, hx]) hkey (by omega)
          exact ⟨idx'', p, e, hp.trans hperm, by omega⟩
        · simp only [hpL, if_false]
          obtain ⟨idx'', p, e, hp, hlt⟩ :=
            ih idx' (L + 1) R pv x (by omega) (by omega) (by omega)
              (by rw [hsk pv hpL (Ne.symm hRpv), hx]) hkey (by omega)
          exact ⟨idx'', p, e, hp.trans hperm, by omega⟩

/-- A pivot that is equal to nothing: `pv` can become the position of another value, but the values that
were exchanged stop the two scans. -/
theorem partitionLoop_safe_none {eqv : K → K → Bool} {key : Nat → K} {pivot : K}
    (hnone : ∀ b, eqv pivot b = false) :
    ∀ (fuel : Nat) (idx : List Nat) (lp rp pv u d x y : Nat),
      lp ≤ u → idx[u]? = some x → ¬ key x < pivot → d < rp → idx[d]? = some y → ¬ pivot < key y →
      rp ≤ idx.length → pv < idx.length → rp - lp < fuel →
      ∃ idx' p, partitionLoop eqv key pivot fuel idx lp rp pv = some (idx', p) ∧ idx'.Perm idx ∧
        p < idx.length := by
  intro fuel
  induction fuel with
  | zero => intro idx lp rp pv u d x y _ _ _ _ _ _ _ _ h; omega
  | succ fuel ih =>
    intro idx lp rp pv u d x y hu hx hkx hd hy hky hrp hpv hf
    have hul : u < idx.length := (List.getElem?_eq_some_iff.1 hx).1
    obtain ⟨L, yl, eL, hL1, hL2, hyl, hkl⟩ :=
      scanUp_safe (key := key) (pivot := pivot) (idx.length + 1) lp u x hu hx hkx (by omega)
    obtain ⟨R, yr, eR, hR1, hR2, hyr, hkr⟩ :=
      scanDown_safe (key := key) (pivot := pivot) rp d y hd hrp hy hky
    simp only [partitionLoop, eL, eR, Option.bind_eq_bind, Option.bind_some]
    by_cases hLR : L ≥ R
    · exact ⟨idx, pv, by simp [hLR], List.Perm.refl _, hpv⟩
    · have hLlen : L < idx.length := by omega
      have hRlen : R < idx.length := by omega
      obtain ⟨idx', eS, hperm, hsL, hsR, _⟩ := swap_some hLlen hRlen
      have hlen' : idx'.length = idx.length := hperm.length_eq
      simp only [hLR, if_false, hyr, Option.bind_some, hnone, Bool.not_false, if_true, eS]
      split
      · obtain ⟨idx'', p, e, hp, hlt⟩ := ih idx' (L + 1) (R + 1) R R L yl yr (by omega) (by rw [hsR, hyl]) hkl
          (by omega) (by rw [hsL, hyr]) hkr (by omega) (by omega) (by omega)
        exact ⟨idx'', p, e, hp.trans hperm, by omega⟩
      · obtain ⟨idx'', p, e, hp, hlt⟩ := ih idx' (L + 1) R pv R L yl yr (by omega) (by rw [hsR, hyl]) hkl
          (by omega) (by rw [hsL, hyr]) hkr (by omega) (by omega) (by omega)
        exact ⟨idx'', p, e, hp.trans hperm, by omega⟩

theorem partition_safe {eqv : K → K → Bool} (ho : AnyOrder eqv) (key : Nat → K) (idx : List Nat) (pv : Nat)
    (hpv : pv < idx.length) :
    ∃ idx' p, partition eqv key idx pv = some (idx', p) ∧ idx'.Perm idx ∧ p < idx.length := by
  have hx : idx[pv]? = some idx[pv] := List.getElem?_eq_getElem hpv
  by_cases h1 : idx.length = 1
  · exact ⟨idx, pv, by simp [partition, h1], List.Perm.refl _, hpv⟩
  · simp only [partition, h1, if_false, hx, Option.bind_eq_bind, Option.bind_some]
    by_cases hs : eqv (key idx[pv]) (key idx[pv]) = true
    · exact partitionLoop_safe_self (ho.irrefl _) hs _ idx 0 idx.length pv _ (Nat.zero_le _) hpv
        (Nat.le_refl _) hx rfl (by omega)
    · refine partitionLoop_safe_none ?_ _ idx 0 idx.length pv pv pv _ _ (Nat.zero_le _) hx (ho.irrefl _) hpv hx
        (ho.irrefl _) (Nat.le_refl _) hpv (by omega)
      intro b
      cases hb : eqv (key idx[pv]) b with
      | false => rfl
      | true => exact absurd (ho.self _ _ hb) hs

theorem partition_safe' {eqv : K → K → Bool} (ho : AnyOrder eqv) (key : Nat → K) (idx : List Nat) (pv : Nat)
    (hpv : pv < idx.length) :
    ∃ P x Q, partition eqv key idx pv = some (P ++ x :: Q, P.length) ∧ (P ++ x :: Q).Perm idx := by
  obtain ⟨idx', p, e, hperm, hp⟩ := partition_safe ho key idx pv hpv
  have hp' : p < idx'.length := by rw [hperm.length_eq]; exact hp
  have hdec : idx' = idx'.take p ++ idx'[p] :: idx'.drop (p + 1) := by
    rw [List.getElem_cons_drop, List.take_append_drop]
  have hlen : (idx'.take p).length = p := by simp; omega
  refine ⟨idx'.take p, idx'[p], idx'.drop (p + 1), ?_, ?_⟩
  · rw [← hdec, hlen]; exact e
  · rw [← hdec]; exact hperm

theorem median_safe (key : Nat → K) (idx : List Nat) :
    ∃ m, medianIndexOfThree key idx = some m ∧ (0 < idx.length → m < idx.length) := by
  by_cases h3 : idx.length < 3
  · exact ⟨0, by simp [medianIndexOfThree, h3], id⟩
  · have h0 : (0 : Nat) < idx.length := by omega
    have hr : idx.length - 1 < idx.length := by omega
    have hm : (idx.length - 1) / 2 < idx.length := by omega
    have e0 := List.getElem?_eq_getElem h0
    have er := List.getElem?_eq_getElem hr
    have em := List.getElem?_eq_getElem hm
    simp only [medianIndexOfThree, h3, if_false]
    generalize idx[0] = a at e0
    generalize idx[idx.length - 1] = c at er
    generalize idx[(idx.length - 1) / 2] = b at em
    by_cases c1 : key b < key a
    · by_cases c2 : key c < key b
      · by_cases c3 : key a < key b
        · exact ⟨0, by simp [e0, er, em, c1, c2, c3], fun _ => h0⟩
        · exact ⟨(idx.length - 1) / 2, by simp [e0, er, em, c1, c2, c3], fun _ => hm⟩
      · by_cases c3 : key a < key c
        · exact ⟨0, by simp [e0, er, em, c1, c2, c3], fun _ => h0⟩
        · exact ⟨idx.length - 1, by simp [e0, er, em, c1, c2, c3], fun _ => hr⟩
    · by_cases c2 : key c < key a
      · exact ⟨0, by simp [e0, er, em, c1, c2], fun _ => h0⟩
      · by_cases c3 : key b < key c
        · exact ⟨(idx.length - 1) / 2, by simp [e0, er, em, c1, c2, c3], fun _ => hm⟩
        · exact ⟨idx.length - 1, by simp [e0, er, em, c1, c2, c3], fun _ => hr⟩

theorem quickselectLoop_safe {eqv : K → K → Bool} (ho : AnyOrder eqv) (key : Nat → K) (k : Nat) :
    ∀ (fuel : Nat) (A S B : List Nat), A.length ≤ k → k < A.length + S.length → S.length ≤ fuel →
      ∃ P x Q, quickselectLoop eqv key k fuel (A ++ S ++ B) A.length (A.length + S.length - 1) =
          some (P ++ x :: Q, k, k + 1) ∧ P.length = k ∧ (P ++ x :: Q).Perm (A ++ S ++ B) := by
  intro fuel
  induction fuel with
  | zero => intro A S B h1 h2 h; omega
  | succ fuel ih =>
    intro A S B hAk hkS hf
    have hSpos : 0 < S.length := by omega
    simp only [quickselectLoop]
    by_cases hone : S.length = 1
    · obtain ⟨x, rfl⟩ := List.length_eq_one_iff.1 hone
      have hk : A.length = k := by simp at hkS; omega
      exact ⟨A, x, B, by simp [hk], hk, by simp⟩
    · have hne : ¬ A.length = A.length + S.length - 1 := by omega
      have hright : A.length + S.length - 1 + 1 = A.length + S.length := by omega
      simp only [hne, if_false, hright, slice_append, onRange_append]
      obtain ⟨m, em, hm⟩ := median_safe key S
      simp only [em, Option.bind_eq_bind, Option.bind_some]
      obtain ⟨P, x, Q, ep, hperm⟩ := partition_safe' ho key S m (hm hSpos)
      simp only [ep, Option.map_some, Option.bind_some]
      have hlenS : P.length + 1 + Q.length = S.length := by
        have := hperm.length_eq; simp at this; omega
      have hpermAll : (A ++ (P ++ x :: Q) ++ B).Perm (A ++ S ++ B) :=
        (hperm.append_left A).append_right B
      by_cases hk1 : k = A.length + P.length
      · refine ⟨A ++ P, x, Q ++ B, ?_, by simp [hk1], ?_⟩
        · simp [hk1, List.append_assoc]
        · simpa [List.append_assoc] using hpermAll
      · simp only [hk1, if_false]
        by_cases hk2 : k < A.length + P.length
        · simp only [hk2, if_true]
          obtain ⟨P', x', Q', e', h1, h2⟩ := ih A P (x :: Q ++ B) hAk hk2 (by omega)
          have heq : A ++ (P ++ x :: Q) ++ B = A ++ P ++ (x :: Q ++ B) := by
            simp [List.append_assoc]
          rw [heq]
          refine ⟨P', x', Q', e', h1, ?_⟩
          rw [heq] at hpermAll
          exact h2.trans hpermAll
        · simp only [hk2, if_false]
          obtain ⟨P', x', Q', e', h1, h2⟩ := ih (A ++ P ++ [x]) Q B
            (by simp; omega) (by simp; omega) (by omega)
          have heq : A ++ (P ++ x :: Q) ++ B = A ++ P ++ [x] ++ Q ++ B := by
            simp [List.append_assoc]
          have hl1 : (A ++ P ++ [x]).length = A.length + P.length + 1 := by simp; omega
          have hl2 : A.length + P.length + 1 + Q.length - 1 = A.length + S.length - 1 := by omega
          rw [hl1, hl2] at e'
          rw [heq]
          refine ⟨P', x', Q', e', h1, ?_⟩
          rw [heq] at hpermAll
          exact h2.trans hpermAll

theorem quickselect_safe {eqv : K → K → Bool} (ho : AnyOrder eqv) (key : Nat → K) (idx : List Nat)
    (k : Nat) (hk : k < idx.length) :
    ∃ P x Q, quickselect eqv key idx k = some (P ++ x :: Q, k, k + 1) ∧ P.length = k ∧
      (P ++ x :: Q).Perm idx := by
  have h0 : ¬ idx.length = 0 := by omega
  obtain ⟨P, x, Q, e, h1, h2⟩ :=
    quickselectLoop_safe ho key k (idx.length + 1) [] idx [] (by simp) (by simpa using hk) (by omega)
  refine ⟨P, x, Q, ?_, h1, by simpa using h2⟩
  simpa [quickselect, h0] using e

theorem quicksort_safe {eqv : K → K → Bool} (ho : AnyOrder eqv) (key : Nat → K) :
    ∀ (fuel : Nat) (idx : List Nat) (pv : Nat), (2 ≤ idx.length → pv < idx.length) →
      idx.length < fuel →
      ∃ idx' p, quicksort eqv key fuel idx pv = some (idx', p) ∧ idx'.Perm idx := by
  intro fuel
  induction fuel with
  | zero => intro idx pv _ h; omega
  | succ fuel ih =>
    intro idx pv hpv hf
    by_cases h2 : idx.length < 2
    · exact ⟨idx, pv, by simp [quicksort, h2], List.Perm.refl _⟩
    · simp only [quicksort, h2, if_false]
      obtain ⟨P, x, Q, ep, hperm⟩ := partition_safe' ho key idx pv (hpv (by omega))
      have hlen : P.length + 1 + Q.length = idx.length := by
        have := hperm.length_eq; simp at this; omega
      have ht : (P ++ x :: Q).take P.length = P := by simp
      have hd : (P ++ x :: Q).drop (P.length + 1) = Q := by
        rw [show P.length + 1 = (P ++ [x]).length by simp, show P ++ x :: Q = P ++ [x] ++ Q by simp]
        simp
      obtain ⟨ml, eml, hml⟩ := median_safe key P
      obtain ⟨mr, emr, hmr⟩ := median_safe key Q
      obtain ⟨P', p1, e1, hp1⟩ := ih P ml (fun h => hml (by omega)) (by omega)
      obtain ⟨Q', p2, e2, hp2⟩ := ih Q mr (fun h => hmr (by omega)) (by omega)
      simp only [ep, Option.bind_eq_bind, Option.bind_some, ht, hd, eml, emr]
      have r1 := onRange_append [] P (x :: Q) (fun sub => quicksort eqv key fuel sub ml)
      simp only [List.nil_append, List.length_nil, Nat.zero_add, e1, Option.map_some] at r1
      have hl1 : P'.length = P.length := hp1.length_eq
      have r2 := onRange_append (P' ++ [x]) Q [] (fun sub => quicksort eqv key fuel sub mr)
      simp only [e2, Option.map_some, List.append_nil, List.length_append, List.length_cons,
        List.length_nil, Nat.zero_add, hl1, List.append_assoc, List.cons_append,
        List.nil_append] at r2
      simp only [r1, Option.bind_some]
      have hl2 : (P' ++ x :: Q).length = P.length + 1 + Q.length := by simp; omega
      rw [hl2, r2]
      exact ⟨P' ++ x :: Q', P.length, by simp,
        ((hp1.append_right _).trans ((hp2.cons x).append_left P)).trans hperm⟩

end Verif.Sorting

namespace Verif.KDTree

open Verif.Sorting

variable {K : Type} [LT K] [DecidableLT K]

theorem splitsBy_any {eqv : K → K → Bool} (ho : AnyOrder eqv) (x : Nat → Nat → K) :
    SplitsBy eqv x (fun _ _ _ => True) (fun _ _ _ => True) := by
  intro axis idx hne
  have hpos : 0 < idx.length := List.length_pos_iff.2 hne
  have hk : (idx.length - 1) / 2 < idx.length := by omega
  obtain ⟨P, m, Q, e, hlen, hperm⟩ := quickselect_safe ho (fun i => x i axis) idx _ hk
  obtain ⟨A, B, hAB, es, _, _⟩ :=
    shiftLeft_spec eqv (fun i => x i axis) (x m axis) (m :: Q) _ P rfl
  have hget : (P ++ m :: Q)[(idx.length - 1) / 2]? = some m := by
    rw [← hlen]; simp
  rw [hlen] at es
  have hq : quickselectMedian eqv (fun i => x i axis) idx =
      (do let p ← (A ++ (B ++ m :: Q))[A.length]?
          some ((A ++ (B ++ m :: Q)).take A.length, p, (A ++ (B ++ m :: Q)).drop (A.length + 1))) := by
    have hR : P ++ m :: Q = A ++ (B ++ m :: Q) := by rw [hAB]; simp
    unfold quickselectMedian
    simp only [e, Option.bind_eq_bind, Option.bind_some, hget, es]
    rw [hR]
  rw [hAB] at hperm
  rw [hq]
  rcases B with _ | ⟨b, B⟩
  · simp only [List.nil_append, List.append_nil] at hperm hq ⊢
    exact ⟨A, m, Q, by simp, hperm, fun _ _ => trivial, fun _ _ => trivial⟩
  · exact ⟨A, b, B ++ m :: Q, by simp, by simpa using hperm, fun _ _ => trivial, fun _ _ => trivial⟩

theorem make_safe {eqv : K → K → Bool} (ho : AnyOrder eqv) (x : Nat → Nat → K)
    (policy : List Nat → Nat → Box K → Nat) (bucketSize maxDepth nf : Nat)
    (hpol : ∀ idx d box, policy idx d box < nf) (vmax vlowest : K) (idx : List Nat) :
    ∃ idx' t, make eqv x policy bucketSize maxDepth nf vmax vlowest idx = some (idx', t) ∧
      idx'.Perm idx ∧ t.indices = idx' ∧ t.AxesLt nf ∧
      (∀ s ∈ t.subtrees 0, NodeLimits bucketSize maxDepth s.1 s.2) := by
  obtain ⟨idx', t, e, h1, h2, _, _, _, h3, h4⟩ := build_spec (le := fun _ _ => True) (fun _ => trivial)
    (fun _ _ _ _ => trivial) (fun _ _ _ _ => trivial) (splitsBy_any ho x) policy bucketSize maxDepth nf hpol
    (idx.length + 1) idx 0 (tightBound x nf vmax vlowest idx) (by omega) (tightBound_length ..) (by omega)
    (fun _ _ _ _ _ => ⟨trivial, trivial⟩)
  exact ⟨idx', t, by simp [make, e], h1, h2, h3, h4⟩

end Verif.KDTree

namespace Verif.Search

open Verif.KDTree Verif.Buffer

variable {K : Type} [LT K] [DecidableLT K] {D : Type} [LT D] [DecidableLT D]

/-- What every buffer keeps, whatever the distances are. -/
structure BufSafe (dist : Nat → D) (cap : Nat) (b : Buf D) : Prop where
  cap_eq : b.maxCapacity = cap
  len : b.indices.length ≤ cap
  dists : b.distances = b.indices.map dist
  pos : b.furthestPos < max 1 b.indices.length

theorem maxElementLoop_pos (l : List D) (pos best : Nat) (v : D) (h : best < pos) :
    (maxElementLoop l pos best v).1 < pos + l.length := by
  induction l generalizing pos best v with
  | nil => simpa [maxElementLoop] using h
  | cons y l ih =>
    simp only [maxElementLoop]
    split
    · have := ih (pos + 1) pos y (by omega); simp only [List.length_cons]; omega
    · have := ih (pos + 1) best v (by omega); simp only [List.length_cons]; omega

theorem remaining_eq_zero {cap : Nat} {b : Buf D} (hc : b.maxCapacity = cap) (hl : b.indices.length ≤ cap)
    (h2 : cap < 2 ^ 64) : b.remaining = 0 ↔ b.indices.length = cap := by
  unfold Buf.remaining
  rw [hc]
  unfold sizeMod
  by_cases h : b.indices.length = cap
  · rw [h]
    simp
  · have : cap + 2 ^ 64 - b.indices.length = (cap - b.indices.length) + 2 ^ 64 := by omega
    rw [this, Nat.add_mod_right, Nat.mod_eq_of_lt (by omega)]
    omega

theorem update_safe {dist : Nat → D} {cap : Nat} (h1 : 1 ≤ cap) (h2 : cap < 2 ^ 64) {b : Buf D}
    (h : BufSafe dist cap b) (i : Nat) :
    ∃ b', b.update i (dist i) = some b' ∧ BufSafe dist cap b' ∧
      b'.indices.length = min cap (b.indices.length + 1) ∧ b'.indices.Subperm (i :: b.indices) := by
  have happ : (b.indices ++ [i]).Subperm (i :: b.indices) := (List.perm_append_singleton i _).subperm
  have hpos := h.pos
  have hlen := h.len
  unfold Buf.update
  by_cases h0 : b.indices.length = 0
  · rw [if_pos h0]
    refine ⟨_, rfl, ⟨h.cap_eq, ?_, ?_, ?_⟩, ?_, happ⟩
    · simp [h0]; omega
    · simp [h.dists]
    · simp only [List.length_append, List.length_cons, List.length_nil]; omega
    · simp [h0]; omega
  · rw [if_neg h0]
    by_cases hr : b.remaining = 0
    · have hfull : b.indices.length = cap := (remaining_eq_zero h.cap_eq h.len h2).1 hr
      rw [if_neg (by simp [hr])]
      split
      · have hp : b.furthestPos < b.indices.length := by omega
        have hp' : b.furthestPos < b.distances.length := by rw [h.dists, List.length_map]; exact hp
        have hne : b.distances.set b.furthestPos (dist i) ≠ [] := by
          intro he
          have := congrArg List.length he
          rw [List.length_set] at this
          simp at this
          simp [this] at hp'
        obtain ⟨y, ys, hys⟩ := List.exists_cons_of_ne_nil hne
        have hyl : ys.length + 1 = b.indices.length := by
          have := congrArg List.length hys
          rw [List.length_set, h.dists, List.length_map, List.length_cons] at this
          omega
        have hmax := maxElementLoop_pos ys 1 0 y (by omega)
        have hset : (b.indices.set b.furthestPos i).Subperm (i :: b.indices) := by
          have hperm := List.set_perm_cons_eraseIdx hp i
          exact hperm.subperm.trans ((List.eraseIdx_sublist _ _).cons_cons i).subperm
        have hd : b.distances.set b.furthestPos (dist i) =
            (b.indices.set b.furthestPos i).map dist := by rw [h.dists, List.map_set]
        split
        · simp only [assign, hp, hp', if_true, Option.bind_eq_bind, Option.bind_some, hys,
            getMaxIndexValuePair]
          refine ⟨_, rfl, ⟨h.cap_eq, ?_, ?_, ?_⟩, ?_, hset⟩
          · simpa using h.len
          · simp only; rw [← hys, hd]
          · simp only [List.length_set]; omega
          · simp only [List.length_set]; omega
        · simp only [assign, hp, hp', if_true, Option.bind_eq_bind, Option.bind_some, hys,
            getMaxIndexValuePair]
          refine ⟨_, rfl, ⟨h.cap_eq, ?_, ?_, ?_⟩, ?_, hset⟩
          · simpa using h.len
          · simp only; rw [← hys, hd]
          · simp only [List.length_set]; omega
          · simp only [List.length_set]; omega
      · exact ⟨b, rfl, h, by omega, (List.sublist_cons_self i _).subperm⟩
    · have hnf : b.indices.length < cap := by
        have := mt (remaining_eq_zero h.cap_eq h.len h2).2 hr
        omega
      rw [if_pos (by simpa using hr)]
      refine ⟨_, rfl, ⟨?_, ?_, ?_, ?_⟩, ?_, ?_⟩
      all_goals (dsimp only; split <;> split)
      all_goals first
        | exact h.cap_eq
        | exact happ
        | (simp only [List.length_append, List.length_cons, List.length_nil]; omega)
        | (simp [h.dists]; done)

theorem subperm_append_right {α : Type} {a b : List α} (h : a.Subperm b) (c : List α) :
    (a ++ c).Subperm (b ++ c) := by
  obtain ⟨l, h1, h2⟩ := h
  exact ⟨l ++ c, h1.append_right c, h2.append_right c⟩

theorem offer_safe {dist : Nat → D} {cap : Nat} (h1 : 1 ≤ cap) (h2 : cap < 2 ^ 64) (L : List Nat) {b : Buf D}
    (h : BufSafe dist cap b) :
    ∃ b', L.foldlM (Buf.offer (candAll dist)) b = some b' ∧ BufSafe dist cap b' ∧
      b'.indices.length = min cap (b.indices.length + L.length) ∧ b'.indices.Subperm (b.indices ++ L) := by
  induction L generalizing b with
  | nil =>
    exact ⟨b, rfl, h, by have := h.len; simp; omega, by simpa using List.Subperm.refl _⟩
  | cons i L ih =>
    obtain ⟨b1, e1, s1, l1, p1⟩ := update_safe h1 h2 h i
    obtain ⟨b2, e2, s2, l2, p2⟩ := ih s1
    refine ⟨b2, ?_, s2, ?_, ?_⟩
    · simp only [List.foldlM_cons, Buf.offer, candAll, Option.bind_eq_bind, e1, Option.bind_some]
      exact e2
    · rw [l2, l1, List.length_cons]; omega
    · refine p2.trans ((subperm_append_right p1 L).trans ?_)
      exact (List.perm_middle.symm).subperm

theorem walk_safe [LE D] [DecidableLE D] {dist : Nat → D} {cap : Nat} (h1 : 1 ≤ cap) (h2 : cap < 2 ^ 64)
    (x : Nat → Nat → K) (q : Nat → K) (gap : K → K → D) (t : KDTree.Tree K) {b : Buf D}
    (h : BufSafe dist cap b) :
    ∃ b', walk x q (staticOps x q gap (candAll dist)) t b = some b' ∧ BufSafe dist cap b' ∧
      b'.indices.length = min cap (b.indices.length + t.indices.length) ∧
      b'.indices.Subperm (b.indices ++ t.indices) := by
  induction t generalizing b with
  | leaf idx box => exact offer_safe h1 h2 idx h
  | node p a box l r ihl ihr =>
    obtain ⟨b1, e1, s1, l1, p1⟩ := offer_safe h1 h2 [p] h
    have hvisit : ∀ (b : Buf D) (left : Bool), BufSafe dist cap b → b.indices.length < cap →
        (staticOps x q gap (candAll dist)).visit b left p a = true := by
      intro b left hb hlt
      have hr : b.remaining ≠ 0 := fun hr => by
        have := (remaining_eq_zero hb.cap_eq hb.len h2).1 hr
        omega
      simp only [staticOps, visitSibling, ne_eq, hr, not_false_eq_true, decide_true, Bool.true_or]
    have e1' : offerAll (staticOps x q gap (candAll dist)) b [p] = some b1 := e1
    simp only [walk, Option.bind_eq_bind, e1', Option.bind_some]
    simp only [List.length_cons, List.length_nil] at l1
    have hsub : ∀ {c s : List Nat} {b2 b3 : Buf D}, (c ++ s).Perm (l.indices ++ r.indices) →
        b2.indices.Subperm (b1.indices ++ c) → b3.indices.Subperm (b2.indices ++ s) →
        b3.indices.Subperm (b.indices ++ (KDTree.Tree.node p a box l r).indices) := by
      intro c s b2 b3 hp h2 h3
      refine h3.trans ((subperm_append_right h2 s).trans
        ((subperm_append_right (subperm_append_right p1 c) s).trans ?_))
      have : (b.indices ++ [p] ++ c ++ s).Perm (b.indices ++ (l.indices ++ p :: r.indices)) := by
        rw [List.append_assoc, List.append_assoc]
        refine List.Perm.append_left _ ?_
        exact (hp.cons p).trans List.perm_middle.symm
      exact this.subperm
    have hlen : (KDTree.Tree.node p a box l r).indices.length = l.indices.length + 1 + r.indices.length := by
      simp [KDTree.Tree.indices]; omega
    rw [hlen]
    have finish : ∀ (b2 : Buf D) (left : Bool) (c s : KDTree.Tree K), BufSafe dist cap b2 →
        b2.indices.length = min cap (b1.indices.length + c.indices.length) →
        c.indices.length + s.indices.length = l.indices.length + r.indices.length →
        (c.indices ++ s.indices).Perm (l.indices ++ r.indices) →
        b2.indices.Subperm (b1.indices ++ c.indices) →
        (∃ b', walk x q (staticOps x q gap (candAll dist)) s b2 = some b' ∧ BufSafe dist cap b' ∧
          b'.indices.length = min cap (b2.indices.length + s.indices.length) ∧
          b'.indices.Subperm (b2.indices ++ s.indices)) →
        ∃ b', (if (staticOps x q gap (candAll dist)).visit b2 left p a = true then
            walk x q (staticOps x q gap (candAll dist)) s b2 else some b2) = some b' ∧ BufSafe dist cap b' ∧
          b'.indices.length = min cap (b.indices.length + (l.indices.length + 1 + r.indices.length)) ∧
          b'.indices.Subperm (b.indices ++ (KDTree.Tree.node p a box l r).indices) := by
      intro b2 left c s s2 l2 hcs hperm p2 hw
      by_cases hv : (staticOps x q gap (candAll dist)).visit b2 left p a = true
      · obtain ⟨b3, e3, s3, l3, p3⟩ := hw
        rw [if_pos hv]
        refine ⟨b3, e3, s3, ?_, hsub hperm p2 p3⟩
        clear h2
        omega
      · rw [if_neg hv]
        have hfull : ¬ b2.indices.length < cap := fun hc => hv (hvisit b2 left s2 hc)
        have := s2.len
        refine ⟨b2, rfl, s2, ?_, hsub hperm p2 (List.sublist_append_left _ _).subperm⟩
        clear h2
        omega
    by_cases hq : q a < x p a
    · rw [if_pos hq]
      obtain ⟨b2, e2, s2, l2, p2⟩ := ihl s1
      rw [e2, Option.bind_some]
      exact finish b2 true l r s2 l2 rfl (List.Perm.refl _) p2 (ihr s2)
    · rw [if_neg hq]
      obtain ⟨b2, e2, s2, l2, p2⟩ := ihr s1
      rw [e2, Option.bind_some]
      exact finish b2 false r l s2 l2 (Nat.add_comm _ _) List.perm_append_comm p2 (ihl s2)

end Verif.Search
