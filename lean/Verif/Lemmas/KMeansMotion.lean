import Verif.Model.KMeans
import Mathlib.Algebra.Module.LinearMap.Defs
import Mathlib.Algebra.Order.Field.Basic
import Mathlib.Tactic.Module

/-
The loops of k-means on data that was moved by an affine map that preserves distances.
-/

namespace Verif.KMeans

set_option linter.unusedSectionVars false

/-! ### loops that only use distances -/

section Dist

variable {V W K : Type} [LinearOrder K] {dist : V → V → K} {dist' : W → W → K} {φ : V → W}

theorem nearestLoop_move (h : ∀ a b, dist' (φ a) (φ b) = dist a b) (x : V) :
    ∀ (cs : List V) (j : Nat) (acc : Nat × K),
      nearestLoop dist' (φ x) j (cs.map φ) acc = nearestLoop dist x j cs acc
  | [], _, _ => rfl
  | c :: cs, j, (mi, md) => by
    simp only [List.map_cons, nearestLoop, h, nearestLoop_move h x cs]

theorem nearestIndices_move (h : ∀ a b, dist' (φ a) (φ b) = dist a b) (inf : K) (xs cs : List V) :
    nearestIndices inf dist' (xs.map φ) (cs.map φ) = nearestIndices inf dist xs cs := by
  simp only [nearestIndices, List.map_map, Function.comp_def, nearestLoop_move h]

theorem minLoop_move (h : ∀ a b, dist' (φ a) (φ b) = dist a b) (x : V) : ∀ (cs : List V) (md : K),
    minLoop dist' (φ x) (cs.map φ) md = minLoop dist x cs md
  | [], _ => rfl
  | c :: cs, md => by simp only [List.map_cons, minLoop, h, minLoop_move h x cs]

theorem nearestDistances_move (h : ∀ a b, dist' (φ a) (φ b) = dist a b) (inf : K) (xs cs : List V) :
    nearestDistances inf dist' (xs.map φ) (cs.map φ) = nearestDistances inf dist xs cs := by
  simp only [nearestDistances, List.map_map, Function.comp_def, minLoop_move h]

theorem secondLoop_move (h : ∀ a b, dist' (φ a) (φ b) = dist a b) (eq : K → K → Bool) (x : V) :
    ∀ (cs : List V) (acc : K × K),
      secondLoop eq dist' (φ x) (cs.map φ) acc = secondLoop eq dist x cs acc
  | [], _ => rfl
  | c :: cs, (f, s) => by simp only [List.map_cons, secondLoop, h, secondLoop_move h eq x cs]

theorem secondDistances_move (h : ∀ a b, dist' (φ a) (φ b) = dist a b) (vmax : K) (eq : K → K → Bool)
    (xs cs : List V) :
    secondDistances vmax eq dist' (xs.map φ) (cs.map φ) = secondDistances vmax eq dist xs cs := by
  simp only [secondDistances, List.map_map, Function.comp_def, secondLoop_move h]

theorem neighborLoop_move (h : ∀ a b, dist' (φ a) (φ b) = dist a b) (i : Nat) (c : V) :
    ∀ (os : List V) (j : Nat) (md : K),
      neighborLoop dist' i (φ c) j (os.map φ) md = neighborLoop dist i c j os md
  | [], _, _ => rfl
  | o :: os, j, md => by simp only [List.map_cons, neighborLoop, h, neighborLoop_move h i c os]

theorem neighborDistances_move (h : ∀ a b, dist' (φ a) (φ b) = dist a b) (inf : K) (cs : List V) :
    neighborDistances inf dist' (cs.map φ) = neighborDistances inf dist cs := by
  simp only [neighborDistances, List.zipIdx_map, List.map_map]
  refine List.map_congr_left fun p _ => ?_
  exact neighborLoop_move h p.2 p.1 cs 0 inf

end Dist

/-! ### sums -/

section Sums

variable {V W K : Type} [AddCommGroup V] [AddCommGroup W] [Field K] [LinearOrder K]
  [IsStrictOrderedRing K] [Module K V] [Module K W] (L : V →ₗ[K] W) (v : W)

/-- The position sum of a cluster after the motion `x ↦ L x + v`. -/
def moveSumOf (n : Nat) (u : V) : W := L u + n • v

theorem zipWith_set (f : Nat → V → W) (a : List Nat) (b : List V) (j n : Nat) (u : V) :
    List.zipWith f (a.set j n) (b.set j u) = (List.zipWith f a b).set j (f n u) := by
  induction a generalizing b j with
  | nil => simp
  | cons x a ih =>
    cases b with
    | nil => simp
    | cons y b =>
      cases j with
      | zero => simp
      | succ j => simp [ih]

theorem sumsLoop_move : ∀ (ps : List (V × Nat)) (sizes : List Nat) (sums : List V),
    sizes.length = sums.length →
    sumsLoop (List.zipWith (moveSumOf L v) sizes sums) (ps.map fun p => (L p.1 + v, p.2)) =
      (sizesLoop sizes (ps.map Prod.snd)).bind fun sz =>
        (sumsLoop sums ps).map (List.zipWith (moveSumOf L v) sz)
  | [], sizes, sums, _ => rfl
  | (x, j) :: ps, sizes, sums, hlen => by
    simp only [List.map_cons, sumsLoop, sizesLoop, List.getElem?_zipWith]
    by_cases hj : j < sizes.length
    · rw [List.getElem?_eq_getElem hj, List.getElem?_eq_getElem (hlen ▸ hj)]
      simp only [Option.bind_eq_bind, Option.bind_some]
      rw [← sumsLoop_move ps _ _ (by simpa using hlen), zipWith_set]
      congr 2
      simp only [moveSumOf, map_add]
      module
    · rw [List.getElem?_eq_none (not_lt.1 hj)]
      rfl

theorem clusterSums_move (k : Nat) (xs : List V) (a : List Nat) (hlen : a.length = xs.length) :
    clusterSums k (xs.map fun x => L x + v) a = (clusterSizes k a).bind fun sz =>
      (clusterSums k xs a).map (List.zipWith (moveSumOf L v) sz) := by
  have h := sumsLoop_move L v (xs.zip a) (List.replicate k 0) (List.replicate k 0) (by simp)
  have h0 : List.zipWith (moveSumOf L v) (List.replicate k 0) (List.replicate k 0) =
      List.replicate k 0 := by
    rw [List.zipWith_replicate]; simp [moveSumOf]
  rw [h0, List.map_snd_zip hlen.le] at h
  unfold clusterSums clusterSizes
  rw [← h, List.zip_map_left]
  congr 1

theorem sizesLoop_length : ∀ (a s : List Nat) {r : List Nat}, sizesLoop s a = some r →
    r.length = s.length
  | [], s, r, h => by rw [← Option.some.inj h]
  | j :: a, s, r, h => by
    simp only [sizesLoop, Option.bind_eq_bind, Option.bind_eq_some_iff] at h
    obtain ⟨n, _, h⟩ := h
    rw [sizesLoop_length a _ h, List.length_set]

theorem sumsLoop_length : ∀ (ps : List (V × Nat)) (s : List V) {r : List V}, sumsLoop s ps = some r →
    r.length = s.length
  | [], s, r, h => by rw [← Option.some.inj h]
  | (x, j) :: a, s, r, h => by
    simp only [sumsLoop, Option.bind_eq_bind, Option.bind_eq_some_iff] at h
    obtain ⟨n, _, h⟩ := h
    rw [sumsLoop_length a _ h, List.length_set]

theorem sizesLoop_pos : ∀ (a s : List Nat) {r : List Nat}, sizesLoop s a = some r →
    ∀ (j n m : Nat), s[j]? = some m → r[j]? = some n → (j ∈ a ∨ m ≠ 0) → n ≠ 0
  | [], s, r, h, j, n, m, hm, hn, hp => by
    rw [← Option.some.inj h, hm] at hn
    rcases hp with hp | hp
    · exact absurd hp (by simp)
    · rw [← Option.some.inj hn]; exact hp
  | i :: a, s, r, h, j, n, m, hm, hn, hp => by
    simp only [sizesLoop, Option.bind_eq_bind, Option.bind_eq_some_iff] at h
    obtain ⟨n0, hn0, h⟩ := h
    by_cases hij : i = j
    · subst hij
      refine sizesLoop_pos a _ h i n (n0 + 1) ?_ hn (Or.inr (by omega))
      rw [List.getElem?_set_self (List.getElem?_eq_some_iff.1 hm).1]
    · refine sizesLoop_pos a _ h j n m ?_ hn ?_
      · rw [List.getElem?_set_ne hij]; exact hm
      · rcases hp with hp | hp
        · rcases List.mem_cons.1 hp with rfl | hp
          · exact absurd rfl hij
          · exact Or.inl hp
        · exact Or.inr hp

/-! ### Lloyd -/

/-- The state of `Lloyd` on the moved data. -/
def LState.move (s : LState V K) : LState W K :=
  { s with centroids := s.centroids.map fun x => L x + v }

variable {L v} {dist : V → V → K} {dist' : W → W → K}
  (h : ∀ a b, dist' (L a + v) (L b + v) = dist a b)

include h in
theorem lloydInit_move (inf : K) (xs cs : List V) :
    lloydInit inf dist' (xs.map fun x => L x + v) (cs.map fun x => L x + v) =
      (lloydInit inf dist xs cs).move L v := by
  have h' : ∀ a b, dist' ((fun x => L x + v) a) ((fun x => L x + v) b) = dist a b := h
  simp only [lloydInit, LState.move, nearestIndices_move h', nearestDistances_move h']

include h in
/-- A Lloyd step commutes with the motion when it is linear or no cluster is empty. -/
theorem lloydStep_move (inf : K) (xs : List V) (s : LState V K)
    (hlen : s.assigned.length = xs.length)
    (hv : v = 0 ∨ ∀ j, j < s.centroids.length → j ∈ s.assigned) :
    lloydStep inf dist' (xs.map fun x => L x + v) (s.move L v) =
      (lloydStep inf dist xs s).map (LState.move L v) := by
  have hl : (s.move L v).centroids.length = s.centroids.length := by simp [LState.move]
  have ha : (s.move L v).assigned = s.assigned := rfl
  unfold lloydStep
  rw [hl, ha, clusterSums_move L v _ _ _ hlen]
  cases h1 : clusterSizes s.centroids.length s.assigned with
  | none => rfl
  | some sizes =>
    cases h2 : clusterSums s.centroids.length xs s.assigned with
    | none => rfl
    | some sums =>
      simp only [Option.bind_eq_bind, Option.bind_some, Option.map_some]
      rw [← lloydInit_move h]
      congr 2
      have hls : sizes.length = s.centroids.length := by
        rw [sizesLoop_length _ _ h1]; simp
      have hlu : sums.length = s.centroids.length := by
        rw [sumsLoop_length _ _ h2]; simp
      apply List.ext_getElem (by simp)
      intro j hj1 hj2
      have hj : j < sizes.length := by simp at hj1; omega
      simp only [List.getElem_zipWith, List.getElem_map]
      have hju : j < sums.length := by omega
      by_cases hz : sizes[j] = 0
      · have hv0 : v = 0 := by
          rcases hv with hv | hv
          · exact hv
          · exact absurd hz (sizesLoop_pos _ _ h1 j _ 0 (by
              rw [List.getElem?_replicate, if_pos (by omega)]) (List.getElem?_eq_getElem hj)
              (Or.inl (hv j (by omega))))
        subst hv0
        simp [lloydCentroid, moveSumOf, hz]
      · simp only [lloydCentroid, if_neg hz, moveSumOf, smul_add, map_smul]
        congr 1
        rw [← Nat.cast_smul_eq_nsmul K, smul_smul, inv_mul_cancel₀ (by exact_mod_cast hz), one_smul]

/-! ### Hamerly -/

/-- The state of `Hamerly` on the moved data. -/
def HState.move (L : V →ₗ[K] W) (v : W) (s : HState V K) : HState W K :=
  { centroids := s.centroids.map fun x => L x + v, cached := s.cached, near := s.near, sizes := s.sizes,
    sums := List.zipWith (moveSumOf L v) s.sizes s.sums, loss := s.loss }

include h in
theorem hamerlyInit_move (inf vmax : K) (eq : K → K → Bool) (xs cs : List V) :
    hamerlyInit inf vmax eq dist' (xs.map fun x => L x + v) (cs.map fun x => L x + v) =
      (hamerlyInit inf vmax eq dist xs cs).map (HState.move L v) := by
  have h' : ∀ a b, dist' ((fun x => L x + v) a) ((fun x => L x + v) b) = dist a b := h
  unfold hamerlyInit
  simp only [nearestIndices_move h', nearestDistances_move h', secondDistances_move h',
    neighborDistances_move h', List.length_map]
  rw [clusterSums_move L v _ _ _ (by simp [nearestIndices])]
  cases h1 : clusterSizes cs.length (nearestIndices inf dist xs cs) with
  | none => rfl
  | some sizes =>
    cases h2 : clusterSums cs.length xs (nearestIndices inf dist xs cs) with
    | none => rfl
    | some sums => rfl

theorem hamerlyInit_length {inf vmax : K} {eq : K → K → Bool} {xs cs : List V} {s : HState V K}
    (h : hamerlyInit inf vmax eq dist xs cs = some s) : s.sizes.length = s.sums.length := by
  simp only [hamerlyInit, Option.bind_eq_bind, Option.bind_eq_some_iff, Option.some.injEq] at h
  obtain ⟨sizes, h1, sums, h2, rfl⟩ := h
  rw [sizesLoop_length _ _ h1, sumsLoop_length _ _ h2]
  simp

theorem scanLoop_move {φ : V → W} (h : ∀ a b, dist' (φ a) (φ b) = dist a b) (x : V) :
    ∀ (cs : List V) (j : Nat) (acc : Nat × K × K),
      scanLoop dist' (φ x) j (cs.map φ) acc = scanLoop dist x j cs acc
  | [], _, _ => rfl
  | c :: cs, j, (a, u, l) => by simp only [List.map_cons, scanLoop, h, scanLoop_move h x cs]

theorem moveSize_length {sizes r : List Nat} {a b : Nat} (h : moveSize sizes a b = some r) :
    r.length = sizes.length := by
  simp only [moveSize, Option.bind_eq_bind, Option.bind_eq_some_iff] at h
  obtain ⟨n, _, h⟩ := h
  split at h
  · exact absurd h (by simp)
  · obtain ⟨m, _, h⟩ := Option.bind_eq_some_iff.1 h
    rw [← Option.some.inj h]; simp

theorem moveSum_length {sums r : List V} {x : V} {a b : Nat} (h : moveSum sums x a b = some r) :
    r.length = sums.length := by
  simp only [moveSum, Option.bind_eq_bind, Option.bind_eq_some_iff] at h
  obtain ⟨n, _, m, _, h⟩ := h
  rw [← Option.some.inj h]; simp

theorem moveSum_move (sizes : List Nat) (sums : List V) (hlen : sizes.length = sums.length) (x : V)
    {a b : Nat} (hab : a ≠ b) {sizes' : List Nat} (h : moveSize sizes a b = some sizes') :
    moveSum (List.zipWith (moveSumOf L v) sizes sums) (L x + v) a b =
      (moveSum sums x a b).map (List.zipWith (moveSumOf L v) sizes') := by
  simp only [moveSize, Option.bind_eq_bind, Option.bind_eq_some_iff] at h
  obtain ⟨n, hn, h⟩ := h
  split at h
  · exact absurd h (by simp)
  · rename_i hn0
    obtain ⟨m, hm, h⟩ := Option.bind_eq_some_iff.1 h
    obtain rfl := Option.some.inj h
    rw [List.getElem?_set_ne hab] at hm
    have ha := (List.getElem?_eq_some_iff.1 hn).1
    have hb := (List.getElem?_eq_some_iff.1 hm).1
    have hsa : sums[a]? = some (sums[a]'(hlen ▸ ha)) := List.getElem?_eq_getElem _
    have hsb : sums[b]? = some (sums[b]'(hlen ▸ hb)) := List.getElem?_eq_getElem _
    simp only [moveSum, List.getElem?_zipWith, hn, hm, hsa, hsb, Option.bind_eq_bind, Option.bind_some,
      List.getElem?_set_ne hab, Option.map_some, Option.some.injEq, zipWith_set]
    congr 1
    · congr 1
      obtain ⟨n, rfl⟩ : ∃ m, n = m + 1 := ⟨n - 1, by omega⟩
      simp only [moveSumOf, map_sub, Nat.add_sub_cancel]
      module
    · simp only [moveSumOf, map_add]
      module

include h in
theorem swapSample_move (inf : K) (cs : List V) (near : List K) (x : V) (q : Cached K) (sizes : List Nat)
    (sums : List V) (hlen : sizes.length = sums.length) (loss : K) :
    swapSample inf dist' (cs.map fun x => L x + v) near (L x + v) q sizes
        (List.zipWith (moveSumOf L v) sizes sums) loss =
      (swapSample inf dist cs near x q sizes sums loss).map
        fun r => (r.1, r.2.1, List.zipWith (moveSumOf L v) r.2.1 r.2.2.1, r.2.2.2) := by
  have h' : ∀ a b, dist' ((fun x => L x + v) a) ((fun x => L x + v) b) = dist a b := h
  unfold swapSample
  cases near[q.assigned]? with
  | none => rfl
  | some na =>
    simp only [Option.bind_eq_bind, Option.bind_some, List.getElem?_map]
    split
    · cases cs[q.assigned]? with
      | none => rfl
      | some c =>
        simp only [Option.map_some, Option.bind_some, h]
        rw [show scanLoop dist' (L x + v) 0 (cs.map fun x => L x + v) (q.assigned, dist x c, inf) =
          scanLoop dist x 0 cs (q.assigned, dist x c, inf) from scanLoop_move h' x cs 0 _]
        split
        · split
          · rename_i hne
            cases hms : moveSize sizes q.assigned
                (scanLoop dist x 0 cs (q.assigned, dist x c, inf)).1 with
            | none => rfl
            | some sizes' =>
              simp only [Option.bind_some]
              rw [moveSum_move sizes sums hlen x hne hms]
              cases moveSum sums x q.assigned
                (scanLoop dist x 0 cs (q.assigned, dist x c, inf)).1 <;> rfl
          · rfl
        · rfl
    · rfl

theorem swapSample_length {inf : K} {cs : List V} {near : List K} {x : V} {q : Cached K}
    {sizes : List Nat} {sums : List V} {loss : K} {r : Cached K × List Nat × List V × K}
    (h : swapSample inf dist cs near x q sizes sums loss = some r) :
    r.2.1.length = sizes.length ∧ r.2.2.1.length = sums.length := by
  simp only [swapSample, Option.bind_eq_bind, Option.bind_eq_some_iff] at h
  obtain ⟨na, _, h⟩ := h
  split at h
  · obtain ⟨c, _, h⟩ := Option.bind_eq_some_iff.1 h
    split at h
    · split at h
      · obtain ⟨sz, h1, h⟩ := Option.bind_eq_some_iff.1 h
        obtain ⟨sm, h2, h⟩ := Option.bind_eq_some_iff.1 h
        rw [← Option.some.inj h]
        exact ⟨moveSize_length h1, moveSum_length h2⟩
      · rw [← Option.some.inj h]; exact ⟨rfl, rfl⟩
    · rw [← Option.some.inj h]; exact ⟨rfl, rfl⟩
  · rw [← Option.some.inj h]; exact ⟨rfl, rfl⟩

include h in
theorem swapLoop_move (inf : K) (cs : List V) (near : List K) : ∀ (ps : List (V × Cached K))
    (sizes : List Nat) (sums : List V), sizes.length = sums.length → ∀ loss : K,
    swapLoop inf dist' (cs.map fun x => L x + v) near (ps.map fun p => (L p.1 + v, p.2)) sizes
        (List.zipWith (moveSumOf L v) sizes sums) loss =
      (swapLoop inf dist cs near ps sizes sums loss).map
        fun r => (r.1, r.2.1, List.zipWith (moveSumOf L v) r.2.1 r.2.2.1, r.2.2.2)
  | [], sizes, sums, _, loss => rfl
  | (x, q) :: ps, sizes, sums, hlen, loss => by
    simp only [List.map_cons, swapLoop]
    rw [swapSample_move h inf cs near x q sizes sums hlen loss]
    cases hs : swapSample inf dist cs near x q sizes sums loss with
    | none => rfl
    | some r =>
      have hl := swapSample_length hs
      simp only [Option.bind_eq_bind, Option.bind_some, Option.map_some]
      rw [swapLoop_move inf cs near ps r.2.1 r.2.2.1 (by omega) r.2.2.2]
      cases swapLoop inf dist cs near ps r.2.1 r.2.2.1 r.2.2.2 <;> rfl

theorem swapLoop_length {inf : K} {cs : List V} {near : List K} : ∀ {ps : List (V × Cached K)}
    {sizes : List Nat} {sums : List V} {loss : K} {r : List (Cached K) × List Nat × List V × K},
    swapLoop inf dist cs near ps sizes sums loss = some r →
    r.2.1.length = sizes.length ∧ r.2.2.1.length = sums.length
  | [], sizes, sums, loss, r, h => by
    rw [← Option.some.inj h]; exact ⟨rfl, rfl⟩
  | (x, q) :: ps, sizes, sums, loss, r, h => by
    simp only [swapLoop, Option.bind_eq_bind, Option.bind_eq_some_iff] at h
    obtain ⟨a, h1, b, h2, h⟩ := h
    have l1 := swapSample_length h1
    have l2 := swapLoop_length h2
    rw [← Option.some.inj h]
    exact ⟨l2.1.trans l1.1, l2.2.trans l1.2⟩

theorem updateCentroids_move (cs : List V) (sizes : List Nat) (sums : List V) :
    updateCentroids (K := K) (cs.map fun x => L x + v) sizes (List.zipWith (moveSumOf L v) sizes sums) =
      (updateCentroids (K := K) cs sizes sums).map fun x => L x + v := by
  induction cs generalizing sizes sums with
  | nil => rfl
  | cons c cs ih =>
    cases sizes with
    | nil => rfl
    | cons n sizes =>
      cases sums with
      | nil => rfl
      | cons u sums =>
        have := ih sizes sums
        simp only [updateCentroids] at this
        simp only [updateCentroids, List.map_cons, List.zipWith_cons_cons, List.zip_cons_cons, this]
        congr 1
        unfold hamerlyCentroid
        split
        · rename_i hn
          simp only [moveSumOf, smul_add, map_smul]
          congr 1
          rw [← Nat.cast_smul_eq_nsmul K, smul_smul, inv_mul_cancel₀ (by exact_mod_cast hn), one_smul]
        · rfl

include h in
theorem hamerlyStep_move (inf lowest : K) (xs : List V) (s : HState V K)
    (hlen : s.sizes.length = s.sums.length) :
    hamerlyStep inf lowest dist' (xs.map fun x => L x + v) (s.move L v) =
      (hamerlyStep inf lowest dist xs s).map (HState.move L v) := by
  have h' : ∀ a b, dist' ((fun x => L x + v) a) ((fun x => L x + v) b) = dist a b := h
  have hz : ((xs.map fun x => L x + v).zip s.cached) =
      (xs.zip s.cached).map fun p => (L p.1 + v, p.2) := by
    rw [List.zip_map_left]; rfl
  unfold hamerlyStep
  simp only [HState.move, hz]
  rw [swapLoop_move h inf s.centroids s.near _ _ _ hlen]
  cases swapLoop inf dist s.centroids s.near (xs.zip s.cached) s.sizes s.sums s.loss with
  | none => rfl
  | some r =>
    simp only [Option.bind_eq_bind, Option.bind_some, Option.map_some, updateCentroids_move,
      neighborDistances_move h']
    have hvel : ∀ a b : List V, List.zipWith dist' (a.map fun x => L x + v) (b.map fun x => L x + v) =
        List.zipWith dist a b := by
      intro a b
      rw [List.zipWith_map]
      simp only [h]
    rw [hvel]
    cases updateBounds lowest (List.zipWith dist s.centroids
      (updateCentroids (K := K) s.centroids r.2.1 r.2.2.1)) r.1 <;> rfl

theorem hamerlyStep_length {inf lowest : K} {xs : List V} {s s' : HState V K}
    (h : hamerlyStep inf lowest dist xs s = some s') (hlen : s.sizes.length = s.sums.length) :
    s'.sizes.length = s'.sums.length := by
  simp only [hamerlyStep, Option.bind_eq_bind, Option.bind_eq_some_iff, Option.some.injEq] at h
  obtain ⟨r, h1, c, _, rfl⟩ := h
  have := swapLoop_length h1
  simp only
  omega

end Sums

/-! ### fit and the initialisers -/

section Fit

variable {S S' C C' K : Type} [LinearOrder K]

theorem iterate_hom {step : S → Option S} {step' : S' → Option S'} {cent : S → C} {cent' : S' → C'}
    {same : C → C → Bool} {same' : C' → C' → Bool} (o : Options) (φS : S → S') (φC : C → C')
    (I : S → Prop) (hstep : ∀ s, I s → step' (φS s) = (step s).map φS)
    (hI : ∀ s s', I s → step s = some s' → I s') (hcent : ∀ s, cent' (φS s) = φC (cent s))
    (hsame : ∀ a b, same' (φC a) (φC b) = same a b) : ∀ (iter : Nat) (s : S) (cand prev : C) (pat : Nat),
    I s → iterate step' cent' same' o iter (φS s) (φC cand) (φC prev) pat =
      (iterate step cent same o iter s cand prev pat).map fun r => (φS r.1, φC r.2)
  | 0, _, _, _, _, _ => rfl
  | iter + 1, s, cand, prev, pat, hs => by
    simp only [iterate, hstep s hs]
    cases h1 : step s with
    | none => rfl
    | some s' =>
      have hs' := hI s s' hs h1
      simp only [Option.map_some, Option.bind_eq_bind, Option.bind_some, hcent, hsame]
      split
      · split
        · rfl
        · exact iterate_hom o φS φC I hstep hI hcent hsame iter s' _ _ _ hs'
      · exact iterate_hom o φS φC I hstep hI hcent hsame iter s' _ _ _ hs'

theorem mapM_hom {A B A' B' : Type} (f : A → Option B) (g : A' → Option B') (α : A → A') (β : B → B')
    (h : ∀ a, g (α a) = (f a).map β) : ∀ l : List A, (l.map α).mapM g = (l.mapM f).map (List.map β)
  | [] => by simp
  | a :: l => by
    rw [List.map_cons, List.mapM_cons, List.mapM_cons, h, mapM_hom f g α β h l]
    cases f a with
    | none => rfl
    | some b =>
      cases List.mapM f l <;> rfl

theorem fit_hom {init : C → Option S} {init' : C' → Option S'} {step : S → Option S}
    {step' : S' → Option S'} {cent : S → C} {cent' : S' → C'} {loss : S → K} {loss' : S' → K}
    {same : C → C → Bool} {same' : C' → C' → Bool} {isEmpty : C → Bool} {isEmpty' : C' → Bool}
    (o : Options) (φS : S → S') (φC : C → C')
    (I : S → Prop) (hinit : ∀ c, init' (φC c) = (init c).map φS) (hI0 : ∀ c s, init c = some s → I s)
    (hstep : ∀ s, I s → step' (φS s) = (step s).map φS)
    (hI : ∀ s s', I s → step s = some s' → I s') (hcent : ∀ s, cent' (φS s) = φC (cent s))
    (hloss : ∀ s, loss' (φS s) = loss s)
    (hsame : ∀ a b, same' (φC a) (φC b) = same a b) (hempty : ∀ c, isEmpty' (φC c) = isEmpty c)
    (none' stored : C) (drawn : Nat → C) :
    fit init' step' cent' loss' same' isEmpty' (φC none') o (φC stored) (fun i => φC (drawn i)) =
      (fit init step cent loss same isEmpty none' o stored drawn).map φC := by
  have hc : (if isEmpty' (φC stored) = true then (List.range o.nInit).map (fun i => φC (drawn i))
      else [φC stored]) =
      (if isEmpty stored = true then (List.range o.nInit).map drawn else [stored]).map φC := by
    rw [hempty]
    split
    · rw [List.map_map]; rfl
    · rfl
  unfold fit
  simp only [hc]
  rw [mapM_hom (fun c => (init c).bind fun s => iterate step cent same o o.maxIter s c none' 0) _ φC
    (fun r : S × C => (φS r.1, φC r.2)) (by
      intro c
      rw [hinit]
      cases h1 : init c with
      | none => rfl
      | some s =>
        exact iterate_hom o φS φC I hstep hI hcent hsame o.maxIter s c none' 0 (hI0 c s h1))]
  cases List.mapM (fun c => (init c).bind fun s => iterate step cent same o o.maxIter s c none' 0)
      (if isEmpty stored = true then (List.range o.nInit).map drawn else [stored]) with
  | none => rfl
  | some runs =>
    simp only [Option.map_some, Option.bind_eq_bind, Option.bind_some, List.map_map, Function.comp_def,
      hloss, List.getElem?_map]
    cases Stats.argmin none (runs.map fun r => loss r.1) with
    | none => rfl
    | some i =>
      simp only [Option.bind_some]
      cases runs[i]? <;> rfl

variable {V W : Type} [AddCommGroup V] [AddCommGroup W] {F : Type} [Field F] [LinearOrder F]
  [Module F V] [Module F W] {dist : V → V → F} {dist' : W → W → F} {φ : V → W}

theorem plusPlusLoop_move (h : ∀ a b, dist' (φ a) (φ b) = dist a b) (inf : F)
    (draw : Nat → List F → Option Nat) (xs : List V) : ∀ (k : Nat) (cs : List V),
    plusPlusLoop inf dist' draw (xs.map φ) k (cs.map φ) =
      (plusPlusLoop inf dist draw xs k cs).map (List.map φ)
  | 0, _ => rfl
  | k + 1, cs => by
    simp only [plusPlusLoop, nearestDistances_move h, List.getElem?_map]
    cases draw k (nearestDistances inf dist xs cs) with
    | none => rfl
    | some i =>
      simp only [Option.bind_eq_bind, Option.bind_some]
      cases xs[i]? with
      | none => rfl
      | some x =>
        simp only [Option.map_some, Option.bind_some]
        rw [← plusPlusLoop_move h inf draw xs k (cs ++ [x])]
        simp

theorem plusPlus_move (h : ∀ a b, dist' (φ a) (φ b) = dist a b) (inf : F)
    (draw : Nat → List F → Option Nat) (first : Nat) (xs : List V) (k : Nat) :
    plusPlus inf dist' draw first (xs.map φ) k =
      (plusPlus inf dist draw first xs k).map (List.map φ) := by
  simp only [plusPlus, List.getElem?_map]
  cases xs[first]? with
  | none => rfl
  | some x =>
    simp only [Option.map_some, Option.bind_eq_bind, Option.bind_some]
    exact plusPlusLoop_move h inf draw xs (k - 1) [x]

end Fit

end Verif.KMeans
