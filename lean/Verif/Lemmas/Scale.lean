import Verif.Model.KMedoidsFit
import Verif.Lemmas.KMeansMotion
import Mathlib.Algebra.BigOperators.Ring.List
import Mathlib.Tactic.Ring

/-
The loops of k-means and k-medoids when all distances are multiplied by a positive factor.
-/

namespace Verif.Scale

set_option linter.unusedSectionVars false

variable {K : Type} [Field K] [LinearOrder K] [IsStrictOrderedRing K] {c : K} (hc : 0 < c)

include hc

omit hc in
theorem sum_scale (l : List K) : (l.map (c * ·)).sum = c * l.sum := by
  induction l with
  | nil => simp
  | cons a l ih => simp only [List.map_cons, List.sum_cons, ih, mul_add]

theorem lt_iff (a b : K) : c * a < c * b ↔ a < b := mul_lt_mul_iff_right₀ hc

theorem bestLoop_scale {r : K → K → Bool} (hr : ∀ a b, r (c * a) (c * b) = r a b) :
    ∀ (l : List K) (pos bp : Nat) (b : K),
    Stats.bestLoop r (l.map (c * ·)) pos bp (c * b) =
      ((Stats.bestLoop r l pos bp b).1, c * (Stats.bestLoop r l pos bp b).2)
  | [], _, _, _ => rfl
  | a :: l, pos, bp, b => by
    simp only [List.map_cons, Stats.bestLoop, hr]
    split <;> exact bestLoop_scale hr l _ _ _

theorem minPair_scale (l : List K) :
    Stats.minPair (l.map (c * ·)) = (Stats.minPair l).map fun p => (p.1, c * p.2) := by
  cases l with
  | nil => rfl
  | cons a l =>
    simp only [Stats.minPair, Stats.best, List.map_cons, Option.map_some]
    rw [bestLoop_scale hc fun a b => by simp only [lt_iff hc]]

theorem maxPair_scale (l : List K) :
    Stats.maxPair (l.map (c * ·)) = (Stats.maxPair l).map fun p => (p.1, c * p.2) := by
  cases l with
  | nil => rfl
  | cons a l =>
    simp only [Stats.maxPair, Stats.best, List.map_cons, Option.map_some]
    rw [bestLoop_scale hc fun a b => by simp only [lt_iff hc]]

theorem secondMaxPair_scale (lowest : K) (l : List K) :
    Stats.secondMaxPair (c * lowest) (l.map (c * ·)) =
      (Stats.secondMaxPair lowest l).map fun p => (p.1, c * p.2) := by
  simp only [Stats.secondMaxPair, maxPair_scale hc]
  cases Stats.maxPair l with
  | none => rfl
  | some p =>
    simp only [Option.map_some, Option.bind_eq_bind, Option.bind_some, List.length_map]
    split
    · rfl
    · rw [← maxPair_scale hc, List.map_set]

theorem argmin_scale (l : List K) : Stats.argmin none (l.map (c * ·)) = Stats.argmin none l := by
  simp only [Stats.argmin, minPair_scale hc, Option.map_map]
  rfl

/-! ### k-means -/

section KMeans

open Verif.KMeans

variable {V : Type} {dist dist' : V → V → K} (hd : ∀ a b, dist' a b = c * dist a b)

include hd

theorem nearestLoop_scale (x : V) : ∀ (cs : List V) (j mi : Nat) (md : K),
    nearestLoop dist' x j cs (mi, c * md) =
      ((nearestLoop dist x j cs (mi, md)).1, c * (nearestLoop dist x j cs (mi, md)).2)
  | [], _, _, _ => rfl
  | o :: cs, j, mi, md => by
    simp only [nearestLoop, hd, lt_iff hc]
    split <;> exact nearestLoop_scale x cs _ _ _

theorem nearestIndices_scale (inf : K) (xs cs : List V) :
    nearestIndices (c * inf) dist' xs cs = nearestIndices inf dist xs cs := by
  simp only [nearestIndices, nearestLoop_scale hc hd]

theorem minLoop_scale (x : V) : ∀ (cs : List V) (md : K),
    minLoop dist' x cs (c * md) = c * minLoop dist x cs md
  | [], _ => rfl
  | o :: cs, md => by
    simp only [minLoop, hd, lt_iff hc]
    split <;> exact minLoop_scale x cs _

theorem nearestDistances_scale (inf : K) (xs cs : List V) :
    nearestDistances (c * inf) dist' xs cs = (nearestDistances inf dist xs cs).map (c * ·) := by
  simp only [nearestDistances, minLoop_scale hc hd, List.map_map, Function.comp_def]

theorem secondLoop_scale {eq eq' : K → K → Bool} (he : ∀ a b, eq' (c * a) (c * b) = eq a b) (x : V) :
    ∀ (cs : List V) (f s : K), KMeans.secondLoop eq' dist' x cs (c * f, c * s) =
      (c * (KMeans.secondLoop eq dist x cs (f, s)).1, c * (KMeans.secondLoop eq dist x cs (f, s)).2)
  | [], _, _ => rfl
  | o :: cs, f, s => by
    simp only [KMeans.secondLoop, hd, lt_iff hc, he]
    split
    · exact secondLoop_scale he x cs _ _
    · split <;> exact secondLoop_scale he x cs _ _

theorem secondDistances_scale {eq eq' : K → K → Bool} (he : ∀ a b, eq' (c * a) (c * b) = eq a b)
    (vmax : K) (xs cs : List V) :
    secondDistances (c * vmax) eq' dist' xs cs = (secondDistances vmax eq dist xs cs).map (c * ·) := by
  simp only [secondDistances, secondLoop_scale hc hd he, List.map_map, Function.comp_def]

theorem neighborLoop_scale (i : Nat) (x : V) : ∀ (os : List V) (j : Nat) (md : K),
    neighborLoop dist' i x j os (c * md) = c * neighborLoop dist i x j os md
  | [], _, _ => rfl
  | o :: os, j, md => by
    simp only [neighborLoop, hd, lt_iff hc]
    split <;> exact neighborLoop_scale i x os _ _

theorem neighborDistances_scale (inf : K) (cs : List V) :
    neighborDistances (c * inf) dist' cs = (neighborDistances inf dist cs).map (c * ·) := by
  simp only [neighborDistances, neighborLoop_scale hc hd, List.map_map, Function.comp_def]

variable [AddCommGroup V] [Module K V]

omit hc hd in
/-- The state of `Lloyd` in other units. -/
def lscale (c : K) (s : LState V K) : LState V K :=
  ⟨s.centroids, s.assigned, s.distances.map (c * ·), c * s.loss⟩

theorem lloydInit_scale (inf : K) (xs cs : List V) :
    lloydInit (c * inf) dist' xs cs = lscale c (lloydInit inf dist xs cs) := by
  simp only [lloydInit, lscale, nearestIndices_scale hc hd, nearestDistances_scale hc hd,
    sum_scale]

theorem lloydStep_scale (inf : K) (xs : List V) (s : LState V K) :
    lloydStep (c * inf) dist' xs (lscale c s) = (lloydStep inf dist xs s).map (lscale c) := by
  simp only [lloydStep, lloydInit_scale hc hd]
  simp only [lscale, Option.bind_eq_bind]
  cases clusterSizes s.centroids.length s.assigned with
  | none => rfl
  | some sizes => cases clusterSums s.centroids.length xs s.assigned <;> rfl

omit hc hd in
/-- The entries of one sample of `Hamerly` in other units. -/
def cscale (c : K) (q : Cached K) : Cached K := ⟨q.assigned, c * q.upper, c * q.lower⟩

omit hc hd in
/-- The state of `Hamerly` in other units. -/
def hscale (c : K) (s : HState V K) : HState V K :=
  ⟨s.centroids, s.cached.map (cscale c), s.near.map (c * ·), s.sizes, s.sums, c * s.loss⟩

theorem hamerlyInit_scale {eq eq' : K → K → Bool} (he : ∀ a b, eq' (c * a) (c * b) = eq a b)
    (inf vmax : K) (xs cs : List V) :
    hamerlyInit (c * inf) (c * vmax) eq' dist' xs cs =
      (hamerlyInit inf vmax eq dist xs cs).map (hscale c) := by
  simp only [hamerlyInit, nearestIndices_scale hc hd, nearestDistances_scale hc hd,
    secondDistances_scale hc hd he, neighborDistances_scale hc hd, Option.bind_eq_bind]
  cases clusterSizes cs.length (nearestIndices inf dist xs cs) with
  | none => rfl
  | some sizes =>
    cases clusterSums cs.length xs (nearestIndices inf dist xs cs) with
    | none => rfl
    | some sums =>
      simp only [Option.bind_some, Option.map_some, hscale, sum_scale,
        Option.some.injEq, HState.mk.injEq, and_true, true_and]
      rw [List.zip_map, List.zipWith_map_right, List.map_zipWith]
      rfl

theorem scanLoop_scale (x : V) : ∀ (cs : List V) (j a : Nat) (u l : K),
    scanLoop dist' x j cs (a, c * u, c * l) =
      ((scanLoop dist x j cs (a, u, l)).1, c * (scanLoop dist x j cs (a, u, l)).2.1,
        c * (scanLoop dist x j cs (a, u, l)).2.2)
  | [], _, _, _, _ => rfl
  | o :: cs, j, a, u, l => by
    simp only [scanLoop, hd, lt_iff hc]
    split
    · split
      · exact scanLoop_scale x cs _ _ _ _
      · split <;> exact scanLoop_scale x cs _ _ _ _
    · exact scanLoop_scale x cs _ _ _ _

theorem swapSample_scale (inf : K) (cs : List V) (near : List K) (x : V) (q : Cached K)
    (sizes : List Nat) (sums : List V) (loss : K) :
    KMeans.swapSample (c * inf) dist' cs (near.map (c * ·)) x (cscale c q) sizes sums (c * loss) =
      (KMeans.swapSample inf dist cs near x q sizes sums loss).map fun r =>
        (cscale c r.1, r.2.1, r.2.2.1, c * r.2.2.2) := by
  unfold KMeans.swapSample
  simp only [cscale, List.getElem?_map]
  cases near[q.assigned]? with
  | none => rfl
  | some na =>
    simp only [Option.map_some, Option.bind_eq_bind, Option.bind_some]
    have hmax : max (c * na / 2) (c * q.lower) = c * max (na / 2) q.lower := by
      rw [mul_max_of_nonneg _ _ hc.le, mul_div_assoc]
    simp only [hmax, gt_iff_lt, lt_iff hc]
    split
    · cases cs[q.assigned]? with
      | none => rfl
      | some o =>
        simp only [Option.bind_some, hd, lt_iff hc, scanLoop_scale hc hd]
        split
        · split
          · cases moveSize sizes q.assigned
                (scanLoop dist x 0 cs (q.assigned, dist x o, inf)).1 with
            | none => rfl
            | some sizes' =>
              simp only [Option.bind_some]
              cases moveSum sums x q.assigned
                (scanLoop dist x 0 cs (q.assigned, dist x o, inf)).1 with
              | none => rfl
              | some sums' =>
                simp only [Option.bind_some, Option.map_some, Option.some.injEq, Prod.mk.injEq, true_and]
                ring
          · rfl
        · rfl
    · rfl

theorem swapLoop_scale (inf : K) (cs : List V) (near : List K) : ∀ (ps : List (V × Cached K))
    (sizes : List Nat) (sums : List V) (loss : K),
    swapLoop (c * inf) dist' cs (near.map (c * ·)) (ps.map fun p => (p.1, cscale c p.2)) sizes sums
        (c * loss) =
      (swapLoop inf dist cs near ps sizes sums loss).map fun r =>
        (r.1.map (cscale c), r.2.1, r.2.2.1, c * r.2.2.2)
  | [], _, _, _ => rfl
  | (x, q) :: ps, sizes, sums, loss => by
    simp only [List.map_cons, swapLoop, swapSample_scale hc hd]
    cases KMeans.swapSample inf dist cs near x q sizes sums loss with
    | none => rfl
    | some r =>
      simp only [Option.bind_eq_bind, Option.bind_some, Option.map_some]
      rw [swapLoop_scale inf cs near ps r.2.1 r.2.2.1 r.2.2.2]
      cases swapLoop inf dist cs near ps r.2.1 r.2.2.1 r.2.2.2 <;> rfl

omit hd [AddCommGroup V] [Module K V] in
theorem updateBounds_scale (lowest : K) (vel : List K) (cached : List (Cached K)) :
    updateBounds (c * lowest) (vel.map (c * ·)) (cached.map (cscale c)) =
      (updateBounds lowest vel cached).map (List.map (cscale c)) := by
  simp only [updateBounds, maxPair_scale hc, secondMaxPair_scale hc]
  cases Stats.maxPair vel with
  | none => rfl
  | some f =>
    simp only [Option.map_some, Option.bind_eq_bind, Option.bind_some]
    cases Stats.secondMaxPair lowest vel with
    | none => rfl
    | some s =>
      simp only [Option.map_some, Option.bind_some]
      refine mapM_hom _ _ (cscale c) (cscale c) (fun q => ?_) cached
      simp only [cscale, List.getElem?_map]
      cases vel[q.assigned]? with
      | none => rfl
      | some v =>
        simp only [Option.map_some, Option.bind_some, cscale, mul_add, mul_sub]
        by_cases hq : q.assigned = f.1 <;> simp [hq]

theorem hamerlyStep_scale (inf lowest : K) (xs : List V) (s : HState V K) :
    hamerlyStep (c * inf) (c * lowest) dist' xs (hscale c s) =
      (hamerlyStep inf lowest dist xs s).map (hscale c) := by
  have hz : xs.zip (s.cached.map (cscale c)) =
      (xs.zip s.cached).map fun p => (p.1, cscale c p.2) := by
    rw [List.zip_map_right]; rfl
  unfold hamerlyStep
  simp only [hscale, hz, swapLoop_scale hc hd]
  cases swapLoop inf dist s.centroids s.near (xs.zip s.cached) s.sizes s.sums s.loss with
  | none => rfl
  | some r =>
    simp only [Option.bind_eq_bind, Option.bind_some, Option.map_some, neighborDistances_scale hc hd]
    have hv : ∀ a b : List V, List.zipWith dist' a b = (List.zipWith dist a b).map (c * ·) := by
      intro a b
      rw [List.map_zipWith, show dist' = fun a b => c * dist a b from funext₂ hd]
    rw [hv, updateBounds_scale hc]
    cases updateBounds lowest (List.zipWith dist s.centroids
      (updateCentroids (K := K) s.centroids r.2.1 r.2.2.1)) r.1 <;> rfl

end KMeans

/-! ### the alias method -/

theorem aliasInit_scale (w : List K) : Random.aliasInit (w.map (c * ·)) = Random.aliasInit w := by
  have h : ∀ x : K, c * x * ((w.length : K) / (c * w.sum)) = x * ((w.length : K) / w.sum) := by
    intro x
    rw [mul_comm c x, mul_assoc, mul_div_assoc', mul_div_mul_left _ _ hc.ne']
  unfold Random.aliasInit
  simp only [List.isEmpty_map, List.length_map, sum_scale, List.map_map,
    Function.comp_def, h]

/-! ### k-medoids -/

section KMedoids

open Verif.KMedoids

theorem firstLoop_scale : ∀ (l : List K) (j i : Nat) (m : K),
    firstLoop j (l.map (c * ·)) (i, c * m) = ((firstLoop j l (i, m)).1, c * (firstLoop j l (i, m)).2)
  | [], _, _, _ => rfl
  | v :: l, j, i, m => by
    simp only [List.map_cons, firstLoop, lt_iff hc]
    split <;> exact firstLoop_scale l _ _ _

omit hc in
/-- The entries of a sample of `FasterPAM` in other units. -/
def rscale (c : K) (r : Rec K) : Rec K := ⟨r.i1, c * r.d1, r.i2, c * r.d2⟩

theorem secondRec_scale {eq eq' : K → K → Bool} (he : ∀ a b, eq' (c * a) (c * b) = eq a b) :
    ∀ (l : List K) (j : Nat) (r : Rec K),
      KMedoids.secondLoop eq' j (l.map (c * ·)) (rscale c r) = rscale c (KMedoids.secondLoop eq j l r)
  | [], _, _ => rfl
  | v :: l, j, ⟨i1, d1, i2, d2⟩ => by
    simp only [List.map_cons, KMedoids.secondLoop, rscale, lt_iff hc, he]
    split
    · exact secondRec_scale he l _ ⟨_, _, _, _⟩
    · split <;> exact secondRec_scale he l _ ⟨_, _, _, _⟩

omit hc in
/-- The state of `FasterPAM` in other units. -/
def pscale (c : K) (s : PState K) : PState K :=
  ⟨s.medoids, s.buf.map (rscale c), s.removal.map (c * ·), c * s.loss⟩

variable {d d' : Nat → Nat → K} (hd : ∀ a b, d' a b = c * d a b)

omit hc in
include hd in
theorem row_scale (ms : List Nat) (o : Nat) : row d' ms o = (row d ms o).map (c * ·) := by
  simp only [row, hd, List.map_map, Function.comp_def]

include hd

theorem medoidIndices_scale (vmax : K) (n : Nat) (ms : List Nat) :
    KMedoids.nearestIndices (c * vmax) d' n ms = KMedoids.nearestIndices vmax d n ms := by
  simp only [KMedoids.nearestIndices, first, row_scale hd, firstLoop_scale hc]

theorem medoidDistances_scale (vmax : K) (n : Nat) (ms : List Nat) :
    KMedoids.nearestDistances (c * vmax) d' n ms =
      (KMedoids.nearestDistances vmax d n ms).map (List.map (c * ·)) := by
  simp only [KMedoids.nearestDistances, first, row_scale hd, firstLoop_scale hc]
  split
  · rfl
  · simp only [Option.map_some, List.map_map, Function.comp_def]

theorem second_scale {eq eq' : K → K → Bool} (he : ∀ a b, eq' (c * a) (c * b) = eq a b) (vmax : K)
    (ms : List Nat) (o : Nat) :
    second (c * vmax) eq' (row d' ms o) = rscale c (second vmax eq (row d ms o)) := by
  simp only [second, row_scale hd]
  exact secondRec_scale hc he _ 0 ⟨0, vmax, 0, vmax⟩

omit hc hd in
/-- Like `rscale` with the third nearest medoid. -/
def r3scale (c : K) (r : Rec3 K) : Rec3 K := ⟨r.i1, c * r.d1, r.i2, c * r.d2, r.i3, c * r.d3⟩

omit hd in
theorem thirdRec_scale {eq eq' : K → K → Bool} (he : ∀ a b, eq' (c * a) (c * b) = eq a b) :
    ∀ (l : List K) (j : Nat) (r : Rec3 K),
      thirdLoop eq' j (l.map (c * ·)) (r3scale c r) = r3scale c (thirdLoop eq j l r)
  | [], _, _ => rfl
  | v :: l, j, ⟨i1, d1, i2, d2, i3, d3⟩ => by
    simp only [List.map_cons, thirdLoop, r3scale, lt_iff hc, he]
    split
    · exact thirdRec_scale he l _ ⟨_, _, _, _, _, _⟩
    · split
      · exact thirdRec_scale he l _ ⟨_, _, _, _, _, _⟩
      · split <;> exact thirdRec_scale he l _ ⟨_, _, _, _, _, _⟩

theorem third_scale {eq eq' : K → K → Bool} (he : ∀ a b, eq' (c * a) (c * b) = eq a b) (vmax : K)
    (ms : List Nat) (o : Nat) :
    third (c * vmax) eq' (row d' ms o) = r3scale c (third vmax eq (row d ms o)) := by
  simp only [third, row_scale hd]
  exact thirdRec_scale hc he _ 0 ⟨0, vmax, 0, vmax, 0, vmax⟩

omit hd in
theorem addAt_scale (l : List K) (i : Nat) (v : K) :
    addAt (l.map (c * ·)) i (c * v) = (addAt l i v).map (List.map (c * ·)) := by
  simp only [addAt, List.getElem?_map]
  cases l[i]? with
  | none => rfl
  | some x => simp [List.map_set, mul_add]

omit hd in
theorem removalLoop_scale : ∀ (rs : List (Rec K)) (acc : List K),
    removalLoop (rs.map (rscale c)) (acc.map (c * ·)) =
      (removalLoop rs acc).map (List.map (c * ·))
  | [], _ => rfl
  | r :: rs, acc => by
    simp only [List.map_cons, removalLoop, rscale, ← mul_sub, addAt_scale hc]
    cases addAt acc r.i1 (r.d2 - r.d1) with
    | none => rfl
    | some a => exact removalLoop_scale rs a

omit hd in
theorem removal_scale (k : Nat) (rs : List (Rec K)) :
    removal k (rs.map (rscale c)) = (removal k rs).map (List.map (c * ·)) := by
  have := removalLoop_scale hc rs (List.replicate k 0)
  simpa [removal] using this

theorem nthIndices_scale {eq eq' : K → K → Bool} (he : ∀ a b, eq' (c * a) (c * b) = eq a b)
    (vmax : K) (n : Nat) (ms : List Nat) (nth : Nat) :
    nthIndices (c * vmax) eq' d' n ms nth = nthIndices vmax eq d n ms nth := by
  unfold nthIndices
  simp only [medoidIndices_scale hc hd, second_scale hc hd he, third_scale hc hd he, rscale, r3scale]

theorem nthDistances_scale {eq eq' : K → K → Bool} (he : ∀ a b, eq' (c * a) (c * b) = eq a b)
    (vmax : K) (n : Nat) (ms : List Nat) (nth : Nat) :
    nthDistances (c * vmax) eq' d' n ms nth =
      (nthDistances vmax eq d n ms nth).map (List.map (c * ·)) := by
  unfold nthDistances
  simp only [medoidDistances_scale hc hd, second_scale hc hd he, third_scale hc hd he, rscale, r3scale]
  repeat' split
  all_goals first
    | rfl
    | simp only [Option.map_some, List.map_map, Function.comp_def]

theorem pamInit_scale {eq eq' : K → K → Bool} (he : ∀ a b, eq' (c * a) (c * b) = eq a b) (vmax : K)
    (n : Nat) (ms : List Nat) :
    pamInit (c * vmax) eq' d' n ms = (pamInit vmax eq d n ms).map (pscale c) := by
  unfold pamInit
  simp only [nthIndices_scale hc hd he, nthDistances_scale hc hd he]
  cases nthIndices vmax eq d n ms 1 with
  | none => rfl
  | some i1s =>
  cases nthIndices vmax eq d n ms 2 with
  | none => rfl
  | some i2s =>
  cases nthDistances vmax eq d n ms 1 with
  | none => rfl
  | some d1s =>
  cases nthDistances vmax eq d n ms 2 with
  | none => rfl
  | some d2s =>
    simp only [Option.map_some, Option.bind_eq_bind, Option.bind_some]
    have := KMeans.mapM_hom (fun o => (i1s[o]?).bind fun i1 => (d1s[o]?).bind fun d1 =>
        (i2s[o]?).bind fun i2 => (d2s[o]?).bind fun d2 => pure (Rec.mk i1 d1 i2 d2))
      (fun o => (i1s[o]?).bind fun i1 => ((d1s.map (c * ·))[o]?).bind fun d1 =>
        (i2s[o]?).bind fun i2 => ((d2s.map (c * ·))[o]?).bind fun d2 => pure (Rec.mk i1 d1 i2 d2))
      id (rscale c) (by
        intro o
        simp only [id, List.getElem?_map]
        cases i1s[o]? with
        | none => rfl
        | some i1 =>
        cases d1s[o]? with
        | none => rfl
        | some d1 =>
        cases i2s[o]? with
        | none => rfl
        | some i2 => cases d2s[o]? <;> rfl) (List.range n)
    rw [List.map_id] at this
    rw [this]
    cases List.mapM (fun o => (i1s[o]?).bind fun i1 => (d1s[o]?).bind fun d1 =>
        (i2s[o]?).bind fun i2 => (d2s[o]?).bind fun d2 => pure (Rec.mk i1 d1 i2 d2)) (List.range n) with
    | none => rfl
    | some buf =>
      simp only [Option.map_some, Option.bind_some, removal_scale hc, sum_scale]
      cases removal ms.length buf <;> rfl

theorem swapGainLoop_scale (buf : List (Rec K)) (o : Nat) : ∀ (os : List Nat) (mi : List K) (xc : K),
    swapGainLoop d' (buf.map (rscale c)) o os (mi.map (c * ·)) (c * xc) =
      (swapGainLoop d buf o os mi xc).map fun r => (r.1.map (c * ·), c * r.2)
  | [], _, _ => rfl
  | p :: os, mi, xc => by
    simp only [swapGainLoop, List.getElem?_map]
    cases buf[p]? with
    | none => rfl
    | some r =>
      simp only [Option.map_some, Option.bind_eq_bind, Option.bind_some, rscale, hd, lt_iff hc, ← mul_sub,
        ← mul_add, addAt_scale hc]
      split
      · cases addAt mi r.i1 (r.d1 - r.d2) with
        | none => rfl
        | some m => exact swapGainLoop_scale buf o os _ _
      · split
        · cases addAt mi r.i1 (d o p - r.d2) with
          | none => rfl
          | some m => exact swapGainLoop_scale buf o os _ _
        · exact swapGainLoop_scale buf o os _ _

theorem findBestSwap_scale (n : Nat) (s : PState K) (o : Nat) :
    findBestSwap d' n (pscale c s) o = (findBestSwap d n s o).map fun r => (c * r.1, r.2) := by
  have h := swapGainLoop_scale hc hd s.buf o (List.range n) s.removal 0
  rw [mul_zero] at h
  unfold findBestSwap
  simp only [pscale, h]
  cases swapGainLoop d s.buf o (List.range n) s.removal 0 with
  | none => rfl
  | some r =>
    simp only [Option.map_some, Option.bind_eq_bind, Option.bind_some, minPair_scale hc]
    cases Stats.minPair r.1 with
    | none => rfl
    | some p => simp [mul_add]

omit hd in
theorem refillLoop_scale (i1 b : Nat) : ∀ (l : List K) (j it : Nat) (dt : K),
    refillLoop i1 b j (l.map (c * ·)) (it, c * dt) =
      ((refillLoop i1 b j l (it, dt)).1, c * (refillLoop i1 b j l (it, dt)).2)
  | [], _, _, _ => rfl
  | v :: l, j, it, dt => by
    simp only [List.map_cons, refillLoop, lt_iff hc]
    split
    · split <;> exact refillLoop_scale i1 b l _ _ _
    · exact refillLoop_scale i1 b l _ _ _

omit hd in
theorem swapRec_scale (l : List K) (own : Bool) (doc : K) (b : Nat) (r : Rec K) :
    KMedoids.swapSample (l.map (c * ·)) own (c * doc) b (rscale c r) =
      rscale c (KMedoids.swapSample l own doc b r) := by
  unfold KMedoids.swapSample
  simp only [rscale, lt_iff hc, refillLoop_scale hc]
  repeat' split
  all_goals simp_all

omit hd in
theorem lossLoop_scale (buf : List (Rec K)) (o : Nat) : ∀ (os : List Nat) (acc : K),
    lossLoop (buf.map (rscale c)) o os (c * acc) = (lossLoop buf o os acc).map (c * ·)
  | [], _ => rfl
  | p :: os, acc => by
    simp only [lossLoop, List.getElem?_map]
    split
    · exact lossLoop_scale buf o os acc
    · cases buf[p]? with
      | none => rfl
      | some r =>
        simp only [Option.map_some, Option.bind_eq_bind, Option.bind_some, rscale, ← mul_add]
        exact lossLoop_scale buf o os _

theorem swapBuffers_scale (n : Nat) (ms : List Nat) (buf : List (Rec K)) (o b : Nat) :
    swapBuffers d' n ms (buf.map (rscale c)) o b =
      (swapBuffers d n ms buf o b).map fun r => (r.1.map (rscale c), c * r.2) := by
  unfold swapBuffers
  have h := KMeans.mapM_hom (fun p => (buf[p]?).bind fun r =>
      pure (KMedoids.swapSample (row d ms p) (decide (p = o)) (d o p) b r))
    (fun p => ((buf.map (rscale c))[p]?).bind fun r =>
      pure (KMedoids.swapSample (row d' ms p) (decide (p = o)) (d' o p) b r)) id (rscale c) (by
      intro p
      simp only [id, List.getElem?_map, row_scale hd, hd]
      cases buf[p]? with
      | none => rfl
      | some r =>
        simp only [Option.map_some, Option.bind_some, swapRec_scale hc]
        rfl) (List.range n)
  rw [List.map_id] at h
  simp only [Option.bind_eq_bind]
  rw [h]
  cases List.mapM (fun p => (buf[p]?).bind fun r =>
      pure (KMedoids.swapSample (row d ms p) (decide (p = o)) (d o p) b r)) (List.range n) with
  | none => rfl
  | some buf' =>
    have h0 := lossLoop_scale hc buf' o (List.range n) 0
    rw [mul_zero] at h0
    simp only [Option.map_some, Option.bind_some, h0]
    cases lossLoop buf' o (List.range n) 0 <;> rfl

theorem tryCandidate_scale (n : Nat) (s : PState K) (o : Nat) :
    tryCandidate d' n (pscale c s) o = (tryCandidate d n s o).map (pscale c) := by
  unfold tryCandidate
  simp only [findBestSwap_scale hc hd]
  simp only [pscale, List.getElem?_map]
  cases s.buf[o]? with
  | none => rfl
  | some r =>
    simp only [Option.map_some, Option.bind_eq_bind, Option.bind_some, rscale]
    split
    · rfl
    · cases findBestSwap d n s o with
      | none => rfl
      | some p =>
        have h0 : c * p.1 < 0 ↔ p.1 < 0 := by
          have := lt_iff hc p.1 0
          rwa [mul_zero] at this
        simp only [Option.map_some, Option.bind_some, h0]
        split
        · rw [swapBuffers_scale hc hd]
          cases swapBuffers d n (s.medoids.set p.2 o) s.buf o p.2 with
          | none => rfl
          | some q =>
            simp only [Option.map_some, Option.bind_some, removal_scale hc]
            cases removal (s.medoids.set p.2 o).length q.1 <;> rfl
        · rfl

theorem stepLoop_scale (n : Nat) : ∀ (cs : List Nat) (s : PState K),
    stepLoop d' n cs (pscale c s) = (stepLoop d n cs s).map (pscale c)
  | [], _ => rfl
  | o :: cs, s => by
    simp only [stepLoop, tryCandidate_scale hc hd]
    cases tryCandidate d n s o with
    | none => rfl
    | some s' => exact stepLoop_scale n cs s'

theorem pamStep_scale (n : Nat) (s : PState K) :
    pamStep d' n (pscale c s) = (pamStep d n s).map (pscale c) :=
  stepLoop_scale hc hd n (List.range n) s

end KMedoids

end Verif.Scale
