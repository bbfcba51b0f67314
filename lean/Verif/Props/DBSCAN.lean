import Verif.Lemmas.DBSCAN
import Verif.Props.Search
import Verif.Props.Distances

/-
Properties C23-C26: DBSCAN.

The `C2x` theorems are about floating data in exact real arithmetic with the Euclidean distance,
end to end: a k-d tree built with any options, the radius queries on it, and the label propagation.
The `_abstract` theorems are about the label propagation alone, for any radius query that returns
exactly the samples of a symmetric neighbour relation.
-/

namespace Verif.DBSCAN

open Verif.KDTree Verif.Search Verif.Distances Verif.Sorting

/-! ### the label propagation for any symmetric neighbour relation -/

section Abstract

variable {n : Nat} {N : Nat → Nat → Bool} {minSamples : Nat}

/-- What `predict` guarantees about its labels. -/
structure Guarantees (n : Nat) (N : Nat → Nat → Bool) (minSamples : Nat) (label : List Nat) :
    Prop where
  /-- one label per sample -/
  length : label.length = n
  /-- clusters of core samples -/
  clusters : ∀ i j : Nat, Core n N minSamples i → Core n N minSamples j →
    (label.getD i 0 = label.getD j 0 ↔ DensityConnected n N minSamples i j)
  /-- core samples are never noise -/
  core : ∀ i : Nat, Core n N minSamples i → label.getD i 0 ≠ 0
  /-- labelled samples are core or take the label of a core sample in reach -/
  border : ∀ i : Nat, i < n → label.getD i 0 ≠ 0 → Core n N minSamples i ∨
    ∃ k : Nat, Core n N minSamples k ∧ N k i = true ∧ label.getD k 0 = label.getD i 0
  /-- a sample in reach of a core sample is missed only if it comes before all core samples of the
  cluster of that sample -/
  missed : ∀ i k m : Nat, i < n → label.getD i 0 = 0 → Core n N minSamples k → N k i = true →
    DensityConnected n N minSamples k m → i < m
  /-- the labels are `1..K` -/
  labels : ∃ K : Nat, ∀ l : Nat, (1 ≤ l ∧ l ≤ K) ↔ ∃ i : Nat, i < n ∧ label.getD i 0 = l ∧ l ≠ 0
  /-- every label is that of a core sample -/
  attained : ∀ i : Nat, i < n → label.getD i 0 ≠ 0 →
    ∃ k : Nat, Core n N minSamples k ∧ label.getD k 0 = label.getD i 0

theorem predict_guarantees (hN : ∀ i j, N i j = N j i) {query : Nat → Option (List Nat)}
    (hq : QueryOk n N query) :
    ∃ label, predict query minSamples n = some label ∧ Guarantees n N minSamples label := by
  obtain ⟨s, c, e, hl, h⟩ := predict_spec (minSamples := minSamples) hN hq
  have hvis : ∀ i, i < n → s.vis i = true := fun i hi => h.before i hi hi
  have hconn : ∀ i j, DensityConnected n N minSamples i j → s.prd i = s.prd j := by
    intro i j hij
    have h2 := hij.2.2
    induction h2 with
    | refl => rfl
    | tail h1 h2 ih =>
      rw [ih ⟨hij.1, h2.1, h1⟩]
      exact h.same _ _ (hvis _ h2.1.1) (hvis _ h2.2.1.1) h2.1 h2.2.1 h2.2.2
  refine ⟨s.pred, e, ⟨hl.2, ?_, ?_, ?_, ?_, ⟨c, ?_⟩, ?_⟩⟩
  · intro i j hi hj
    exact ⟨fun hij => h.conn i j hi hj (h.visCore i (hvis i hi.1) hi) hij, fun hij => hconn i j hij⟩
  · intro i hi; exact h.visCore i (hvis i hi.1) hi
  · intro i _ hi0; exact h.border i hi0
  · intro i k m hi hi0 hk hki hkm
    rcases h.closed k i (hvis k hk.1) hk hi hki with ⟨_, h1 | h1⟩ | ⟨_, h1⟩
    · exact absurd hi0 h1
    · exact h1 m hkm.2.1 (hconn k m hkm).symm
    · simp at h1
  · intro l
    constructor
    · rintro ⟨h1, h2⟩
      obtain ⟨i, hi, e'⟩ := h.attained l h1 h2
      exact ⟨i, hi.1, e', by omega⟩
    · rintro ⟨i, _, rfl, h0⟩
      exact ⟨by omega, h.predLe i⟩
  · intro i _ hi0
    rcases h.border i hi0 with h1 | ⟨k, h1, _, h3⟩
    · exact ⟨i, h1, rfl⟩
    · exact ⟨k, h1, h3⟩

/-- **C23**, label propagation alone. -/
theorem C23_abstract (hN : ∀ i j, N i j = N j i) {query : Nat → Option (List Nat)}
    (hq : QueryOk n N query) :
    ∃ label, predict query minSamples n = some label ∧
      ∀ i j, Core n N minSamples i → Core n N minSamples j →
        (label.getD i 0 = label.getD j 0 ↔ DensityConnected n N minSamples i j) := by
  obtain ⟨label, e, h⟩ := predict_guarantees (minSamples := minSamples) hN hq
  exact ⟨label, e, h.clusters⟩

end Abstract

/-! ### end to end on floating data -/

theorem euclidean_comm {nf : Nat} {u v : Nat → ℝ} {d e : ℝ}
    (h1 : euclidean (row nf u) (row nf v) = some d) (h2 : euclidean (row nf v) (row nf u) = some e) :
    d = e := by
  rw [euclidean_eq (by simp [row])] at h1 h2
  rw [← Option.some.inj h1, ← Option.some.inj h2]
  rw [sum_zipWith_comm (f := fun a b => (a - b) * (a - b)) (by intro a b; ring)]

/-- Samples `i` and `j` are within the radius of each other. -/
noncomputable def within (dist : Nat → Nat → ℝ) (radius : ℝ) (i j : Nat) : Bool :=
  decide (dist i j < radius)

/-- The radius queries on floating data are exact, for a tree built with any options. `dist i j` is
the Euclidean distance between samples `i` and `j`, `inf` stands for the floating infinity, and the
indices given to the tree are those of the data set in any order. -/
theorem predictTree_query (eps : ℝ) (he : 0 ≤ eps) (nf n : Nat) (hn : n < 2 ^ 64)
    (x : Nat → Nat → ℝ) (dist : Nat → Nat → ℝ)
    (hd : ∀ i j, euclidean (row nf (x j)) (row nf (x i)) = some (dist i j))
    (radius inf : ℝ) (hinf : ∀ i p a, |x p a - x i a| < inf)
    (policy : List Nat → Nat → Box ℝ → Nat) (bucketSize maxDepth : Nat)
    (hpol : ∀ idx d box, policy idx d box < nf) (vmax vlowest : ℝ)
    (idx : List Nat) (hidx : idx.Perm (List.range n)) :
    ∃ idx' t, make (eqEps eps) x policy bucketSize maxDepth nf vmax vlowest idx = some (idx', t) ∧
      (∀ i j, within dist radius i j = within dist radius j i) ∧
      QueryOk n (within dist radius) (radiusQuery x (fun v w => |v - w|) dist radius inf t) := by
  obtain ⟨idx', t, e, hp, hi, _⟩ :=
    make_float eps he x policy bucketSize maxDepth nf hpol vmax vlowest idx
  have hpi : t.indices.Perm (List.range n) := (hi ▸ hp : t.indices.Perm idx).trans hidx
  have hlen : t.indices.length = n := by rw [hpi.length_eq, List.length_range]
  refine ⟨idx', t, e, ?_, ?_⟩
  · intro i j
    unfold within
    rw [euclidean_comm (hd i j) (hd j i)]
  · intro i _
    obtain ⟨b, h1, hl, h2⟩ := radius_any_tree x (x i) (fun v w => |v - w|) (dist i) radius inf
      (GapBelow.of_lt (hinf i)) t (by rw [hlen]; exact hn)
    refine ⟨b.indices, by simp [radiusQuery, h1], ?_⟩
    have h3 := h2.map Prod.fst
    rw [List.map_fst_zip (by omega), List.map_map] at h3
    simp only [Function.comp_def, List.map_id'] at h3
    exact h3.trans (hpi.filter _)

/-- End to end: the guarantees for floating data. -/
theorem predictTree_guarantees (eps : ℝ) (he : 0 ≤ eps) (nf n : Nat) (hn : n < 2 ^ 64)
    (x : Nat → Nat → ℝ) (dist : Nat → Nat → ℝ)
    (hd : ∀ i j, euclidean (row nf (x j)) (row nf (x i)) = some (dist i j))
    (radius inf : ℝ) (hinf : ∀ i p a, |x p a - x i a| < inf)
    (policy : List Nat → Nat → Box ℝ → Nat) (bucketSize maxDepth : Nat)
    (hpol : ∀ idx d box, policy idx d box < nf) (vmax vlowest : ℝ)
    (idx : List Nat) (hidx : idx.Perm (List.range n)) (minSamples : Nat) :
    ∃ idx' t label, make (eqEps eps) x policy bucketSize maxDepth nf vmax vlowest idx = some (idx', t) ∧
      predictTree x (fun v w => |v - w|) dist radius inf t minSamples n = some label ∧
      Guarantees n (within dist radius) minSamples label := by
  obtain ⟨idx', t, e, hN, hq⟩ := predictTree_query eps he nf n hn x dist hd radius inf hinf policy
    bucketSize maxDepth hpol vmax vlowest idx hidx
  obtain ⟨label, h1, h2⟩ := predict_guarantees (minSamples := minSamples) hN hq
  exact ⟨idx', t, label, e, h1, h2⟩

/-- **C23.** Two core samples get the same label exactly when a chain of core samples, each within
the radius of the next, links them. -/
theorem C23_clusters (eps : ℝ) (he : 0 ≤ eps) (nf n : Nat) (hn : n < 2 ^ 64)
    (x : Nat → Nat → ℝ) (dist : Nat → Nat → ℝ)
    (hd : ∀ i j, euclidean (row nf (x j)) (row nf (x i)) = some (dist i j))
    (radius inf : ℝ) (hinf : ∀ i p a, |x p a - x i a| < inf)
    (policy : List Nat → Nat → Box ℝ → Nat) (bucketSize maxDepth : Nat)
    (hpol : ∀ idx d box, policy idx d box < nf) (vmax vlowest : ℝ)
    (idx : List Nat) (hidx : idx.Perm (List.range n)) (minSamples : Nat) :
    ∃ idx' t label,
      make (eqEps eps) x policy bucketSize maxDepth nf vmax vlowest idx = some (idx', t) ∧
      predictTree x (fun v w => |v - w|) dist radius inf t minSamples n = some label ∧
      ∀ i j, Core n (within dist radius) minSamples i → Core n (within dist radius) minSamples j →
        (label.getD i 0 = label.getD j 0 ↔ DensityConnected n (within dist radius) minSamples i j) := by
  obtain ⟨idx', t, label, e1, e2, h⟩ := predictTree_guarantees eps he nf n hn x dist hd radius inf hinf policy bucketSize
    maxDepth hpol vmax vlowest idx hidx minSamples
  exact ⟨idx', t, label, e1, e2, h.clusters⟩

/-- **C24**, part that holds. A core sample is never noise; a sample that is neither core nor within
the radius of a core sample is noise; a sample that is within the radius of a core sample `k` is
labelled unless it comes, in index order, before every core sample of the cluster of `k`.
What is missing: that last case, in which the sample can wrongly be noise
(`C24_counterexample`). -/
theorem C24_noise_partial (eps : ℝ) (he : 0 ≤ eps) (nf n : Nat) (hn : n < 2 ^ 64)
    (x : Nat → Nat → ℝ) (dist : Nat → Nat → ℝ)
    (hd : ∀ i j, euclidean (row nf (x j)) (row nf (x i)) = some (dist i j))
    (radius inf : ℝ) (hinf : ∀ i p a, |x p a - x i a| < inf)
    (policy : List Nat → Nat → Box ℝ → Nat) (bucketSize maxDepth : Nat)
    (hpol : ∀ idx d box, policy idx d box < nf) (vmax vlowest : ℝ)
    (idx : List Nat) (hidx : idx.Perm (List.range n)) (minSamples : Nat) :
    ∃ idx' t label,
      make (eqEps eps) x policy bucketSize maxDepth nf vmax vlowest idx = some (idx', t) ∧
      predictTree x (fun v w => |v - w|) dist radius inf t minSamples n = some label ∧
      (∀ i, Core n (within dist radius) minSamples i → label.getD i 0 ≠ 0) ∧
      (∀ i < n, ¬ Core n (within dist radius) minSamples i →
        (∀ k, Core n (within dist radius) minSamples k → ¬ dist k i < radius) → label.getD i 0 = 0) ∧
      (∀ i < n, ∀ k m, Core n (within dist radius) minSamples k → dist k i < radius →
        DensityConnected n (within dist radius) minSamples k m → m ≤ i → label.getD i 0 ≠ 0) := by
  obtain ⟨idx', t, label, e1, e2, h⟩ := predictTree_guarantees eps he nf n hn x dist hd radius inf hinf policy bucketSize
    maxDepth hpol vmax vlowest idx hidx minSamples
  refine ⟨idx', t, label, e1, e2, h.core, ?_, ?_⟩
  · intro i hi hc hk
    by_contra h0
    rcases h.border i hi h0 with h1 | ⟨k, h1, h2, _⟩
    · exact hc h1
    · exact hk k h1 (by simpa [within] using h2)
  · intro i hi k m hk hki hkm hmi h0
    have := h.missed i k m hi h0 hk (by simpa [within] using hki) hkm
    omega

/-- **C25.** `predict` terminates without undefined behaviour, returns one label per sample, and the
non-zero labels are exactly `1..K`; the core samples of a cluster have one label and different
clusters have different labels (`C23_clusters`), and each label is used by a core sample, so `K` is
the number of clusters. -/
theorem C25_labels (eps : ℝ) (he : 0 ≤ eps) (nf n : Nat) (hn : n < 2 ^ 64)
    (x : Nat → Nat → ℝ) (dist : Nat → Nat → ℝ)
    (hd : ∀ i j, euclidean (row nf (x j)) (row nf (x i)) = some (dist i j))
    (radius inf : ℝ) (hinf : ∀ i p a, |x p a - x i a| < inf)
    (policy : List Nat → Nat → Box ℝ → Nat) (bucketSize maxDepth : Nat)
    (hpol : ∀ idx d box, policy idx d box < nf) (vmax vlowest : ℝ)
    (idx : List Nat) (hidx : idx.Perm (List.range n)) (minSamples : Nat) :
    ∃ idx' t label,
      make (eqEps eps) x policy bucketSize maxDepth nf vmax vlowest idx = some (idx', t) ∧
      predictTree x (fun v w => |v - w|) dist radius inf t minSamples n = some label ∧
      label.length = n ∧
      (∃ K, ∀ l, (1 ≤ l ∧ l ≤ K) ↔ ∃ i < n, label.getD i 0 = l ∧ l ≠ 0) ∧
      ∀ i < n, label.getD i 0 ≠ 0 →
        ∃ k, Core n (within dist radius) minSamples k ∧ label.getD k 0 = label.getD i 0 := by
  obtain ⟨idx', t, label, e1, e2, h⟩ := predictTree_guarantees eps he nf n hn x dist hd radius inf hinf policy bucketSize
    maxDepth hpol vmax vlowest idx hidx minSamples
  exact ⟨idx', t, label, e1, e2, h.length, h.labels, h.attained⟩

/-- **C26.** A sample with a non-zero label is core or is within the radius of a core sample with the
same label. -/
theorem C26_border (eps : ℝ) (he : 0 ≤ eps) (nf n : Nat) (hn : n < 2 ^ 64)
    (x : Nat → Nat → ℝ) (dist : Nat → Nat → ℝ)
    (hd : ∀ i j, euclidean (row nf (x j)) (row nf (x i)) = some (dist i j))
    (radius inf : ℝ) (hinf : ∀ i p a, |x p a - x i a| < inf)
    (policy : List Nat → Nat → Box ℝ → Nat) (bucketSize maxDepth : Nat)
    (hpol : ∀ idx d box, policy idx d box < nf) (vmax vlowest : ℝ)
    (idx : List Nat) (hidx : idx.Perm (List.range n)) (minSamples : Nat) :
    ∃ idx' t label,
      make (eqEps eps) x policy bucketSize maxDepth nf vmax vlowest idx = some (idx', t) ∧
      predictTree x (fun v w => |v - w|) dist radius inf t minSamples n = some label ∧
      ∀ i < n, label.getD i 0 ≠ 0 → ¬ Core n (within dist radius) minSamples i →
        ∃ k, Core n (within dist radius) minSamples k ∧ dist k i < radius ∧ label.getD k 0 = label.getD i 0 := by
  obtain ⟨idx', t, label, e1, e2, h⟩ := predictTree_guarantees eps he nf n hn x dist hd radius inf hinf policy bucketSize
    maxDepth hpol vmax vlowest idx hidx minSamples
  refine ⟨idx', t, label, e1, e2, ?_⟩
  intro i hi h0 hc
  rcases h.border i hi h0 with h1 | ⟨k, h1, h2, h3⟩
  · exact absurd h1 hc
  · exact ⟨k, h1, by simpa [within] using h2, h3⟩

/-! ### counterexample to C24

Four samples on a line at 0, 2, 1, 3 (in this order), radius 2, more than 2 neighbours required.
Samples 1 and 2 are core and linked; sample 0 is within the radius of the core sample 2.  Sample 0
is processed first and marked as noise.  Sample 1 starts the cluster; sample 2 is reached from it,
but its neighbour 0 is dropped because it has been visited, so it stays noise.  The coordinates and
distances are integers small enough to be exact in any floating format; `inf` is 1000. -/

/-- Coordinates of the counterexample. -/
def lineX : Nat → Nat → ℤ := fun i _ => [0, 2, 1, 3].getD i 0

/-- Distances of the counterexample. -/
def lineDist (i j : Nat) : ℤ := |lineX j 0 - lineX i 0|

/-- Labels given by the tree-based DBSCAN on the counterexample. -/
def lineLabels : Option (List Nat) := do
  let (_, t) ← make eqExact lineX (fun _ _ _ => 0) 1 5 1 1000 (-1000) [0, 1, 2, 3]
  predictTree lineX (fun v w => |v - w|) lineDist 2 1000 t 2 4

/-- Neighbour relation of the counterexample. -/
def lineN (i j : Nat) : Bool := decide (lineDist i j < 2)

/-- **C24** is false: sample 0 is within the radius of the core sample 2 but is labelled as noise. -/
theorem C24_counterexample :
    ∃ label, lineLabels = some label ∧ label.getD 0 0 = 0 ∧ Core 4 lineN 2 2 ∧ lineDist 2 0 < 2 ∧
      label.getD 2 0 = 1 :=
  ⟨[0, 1, 1, 1], by decide +kernel, by decide +kernel, by unfold Core; decide +kernel,
    by decide +kernel, by decide +kernel⟩

/-! Concrete case with two clusters, a border sample and noise: positions 0 1 2 | 10 11 12 | 13 | 30,
in shuffled order, radius 2, more than 2 neighbours required. -/

/-- Positions of the example. -/
def exPos (i : Nat) : ℤ := [1, 11, 0, 12, 2, 10, 30, 13].getD i 0

example : predict (fun i => some ((List.range 8).filter (fun j => |exPos j - exPos i| < 2))) 2 8 =
    some [1, 2, 1, 2, 1, 2, 0, 2] := by decide +kernel

example : QueryOk 8 (fun i j => |exPos j - exPos i| < 2)
    (fun i => some ((List.range 8).filter (fun j => |exPos j - exPos i| < 2))) :=
  fun _ _ => ⟨_, rfl, .refl _⟩

theorem exPos_bounds (i : Nat) : 0 ≤ exPos i ∧ exPos i ≤ 30 := by
  unfold exPos
  by_cases h : i < 8
  · interval_cases i <;> decide
  · have : ([1, 11, 0, 12, 2, 10, 30, 13] : List ℤ)[i]? = none := by simp; omega
    simp [List.getD, this]

/-- The hypotheses of the end-to-end theorems are met by the example seen as real data. -/
example : ∃ (x : Nat → Nat → ℝ) (dist : Nat → Nat → ℝ) (inf : ℝ),
    (∀ i j, euclidean (row 1 (x j)) (row 1 (x i)) = some (dist i j)) ∧
    (∀ i p a, |x p a - x i a| < inf) ∧ (∀ i a, x i a = exPos i) := by
  refine ⟨fun i _ => exPos i, _, 100, fun i j => euclidean_eq (by simp [row]), ?_, fun _ _ => rfl⟩
  intro i p _
  have h1 : (0 : ℝ) ≤ exPos i ∧ (exPos i : ℝ) ≤ 30 := by exact_mod_cast exPos_bounds i
  have h2 : (0 : ℝ) ≤ exPos p ∧ (exPos p : ℝ) ≤ 30 := by exact_mod_cast exPos_bounds p
  rw [abs_lt]
  constructor <;> linarith [h1.1, h1.2, h2.1, h2.2]

end Verif.DBSCAN
