import Verif.Lemmas.BoruvkaThree
import Verif.Props.Boruvka

/-
Property C30 with three neighbours: the spanning tree of `make_tree`
(datastruct/graph/spanning_tree/BoruvkasAlgorithm.hpp:422-460) is minimal for the mutual reachability
distance.
-/

namespace Verif.Boruvka

open Verif.KDTree Verif.Buffer Verif.Search Verif.Sorting Verif.Distances Verif.ClosestPair
  Verif.Graph Verif.Rank

set_option linter.unusedSectionVars false

theorem dist_self {nf : Nat} {x : Nat → Nat → ℝ} {dist : Nat → Nat → ℝ}
    (hd : ∀ q i, euclidean (row nf (x i)) (row nf (x q)) = some (dist q i)) (q : Nat) :
    dist q q = 0 := by
  have h4 := hd q q
  rw [euclidean_eq (by simp [row])] at h4
  rw [← Option.some.inj h4]
  have : (List.zipWith (fun a b : ℝ => (a - b) * (a - b)) (row nf (x q)) (row nf (x q))).sum
      = 0 := by
    generalize row nf (x q) = l
    induction l with
    | nil => rfl
    | cons a l ih => simp [ih]
  rw [this, Real.sqrt_zero]

/-- With three neighbours at most one other sample is nearer than the core distance. -/
theorem core_unique {n k : Nat} {d : Nat → ℝ} {slack v : ℝ} (hs : 0 ≤ slack) (hk : k ≤ 3) {r : Nat}
    (hr : r < n) (h0 : d r = 0) (hnn : ∀ a, 0 ≤ d a)
    (h : IsKthUpTo slack k ((List.range n).map d) v) {p q : Nat} (hp : p < n) (hq : q < n)
    (hpr : p ≠ r) (hqr : q ≠ r) (hpd : d p + slack < v) (hqd : d q + slack < v) : p = q := by
  by_contra hpq
  have h3 := h.lt
  rw [List.filter_map, List.length_map] at h3
  have hsub : [r, p, q].Subperm ((List.range n).filter
      ((fun a => decide (a + slack < v)) ∘ d)) := by
    refine List.subperm_of_subset (by simp [hpr.symm, hqr.symm, hpq]) ?_
    intro a ha
    rw [List.mem_filter]
    simp only [List.mem_cons, List.not_mem_nil, or_false] at ha
    have := hnn p
    rcases ha with rfl | rfl | rfl
    · exact ⟨by simpa using hr, by simp only [Function.comp]; exact decide_eq_true (by linarith)⟩
    · exact ⟨by simpa using hp, by simp only [Function.comp]; exact decide_eq_true hpd⟩
    · exact ⟨by simpa using hq, by simp only [Function.comp]; exact decide_eq_true hqd⟩
  have := hsub.length_le
  simp only [List.length_cons, List.length_nil] at this
  omega

/-- From two neighbours on some other sample is within the core distance. -/
theorem core_other {n k : Nat} {d : Nat → ℝ} {slack v : ℝ} (hk : 2 ≤ k) {r : Nat}
    (h : IsKthUpTo slack k ((List.range n).map d) v) : ∃ j, j < n ∧ j ≠ r ∧ d j ≤ v := by
  by_contra hno
  have h3 := h.le
  rw [List.filter_map, List.length_map] at h3
  have hsub : ((List.range n).filter ((fun a => decide (a ≤ v)) ∘ d)).Subperm [r] := by
    refine List.subperm_of_subset (List.nodup_range.filter _) ?_
    intro a ha
    obtain ⟨h4, h5⟩ := List.mem_filter.1 ha
    by_contra hne
    refine hno ⟨a, by simpa using h4, by simpa using hne, ?_⟩
    simpa [Function.comp] using h5
  have := hsub.length_le
  simp only [List.length_cons, List.length_nil] at this
  omega

/-- **C30** with three neighbours: `make_tree` returns a spanning tree weighted with the mutual
reachability distance whose total weight exceeds that of any spanning tree by at most `6 * eps` per
edge, `eps` being the tolerance with which floating values are compared while the k-d tree is
built. -/
theorem C30_minimal_three (n : Nat) (hn : 0 < n) (eps : ℝ) (he : 0 ≤ eps) (nf : Nat)
    (x : Nat → Nat → ℝ) (dist : Nat → Nat → ℝ)
    (hd : ∀ q i, euclidean (row nf (x i)) (row nf (x q)) = some (dist q i))
    (policy : List Nat → Nat → Box ℝ → Nat) (bucketSize maxDepth : Nat)
    (hpol : ∀ idx d box, policy idx d box < nf) (vmax vlowest inf : ℝ)
    (hinf : ∀ q i, q < n → i < n → dist q i < inf)
    (ord : Orders ℝ) (hord : ord.Valid) :
    ∃ idx' t T, make (eqEps eps) x policy bucketSize maxDepth nf vmax vlowest (List.range n) =
        some (idx', t) ∧
      (∀ fuel, Nat.log 2 n + 1 ≤ fuel →
        makeTree x (fun v w => |v - w|) dist inf t ord n 3 fuel = some T) ∧
      IsSpanningTree n T ∧
      ∃ core : Nat → ℝ,
        (∀ q, q < n → IsKthUpTo (2 * eps) (min 3 n) ((List.range n).map (dist q)) (core q)) ∧
        (∀ e ∈ T, e.2.2 = max (max (core e.1) (core e.2.1)) (dist e.1 e.2.1)) ∧
        ∀ S : List (Edge ℝ), IsSpanningTree n S →
          (∀ e ∈ S, e.2.2 = max (max (core e.1) (core e.2.1)) (dist e.1 e.2.1)) →
          total T ≤ total S + (n - 1 : ℕ) * (6 * eps) := by
  obtain ⟨idx', t, e, hp, hi, _, ho, _, ha, _⟩ :=
    make_float eps he x policy bucketSize maxDepth nf hpol vmax vlowest (List.range n)
  have hmem : ∀ i, i ∈ t.indices ↔ i < n := fun i => by
    rw [hi, hp.mem_iff, List.mem_range]
  have ht := goodTree_float he hd ho ha (n := n) (fun i h => (hmem i).1 h)
  obtain ⟨cores, ec, hcl, hcore⟩ := coreDistances_of (fun q _ =>
    coreDistance_float hn he hd inf ho ha (by rw [hi]; exact hp) (by norm_num : 1 ≤ 3)
      (by norm_num) q)
  obtain ⟨core, hcdef⟩ : ∃ core : Nat → ℝ, ∀ q, core q = cores.getD q 0 := ⟨_, fun _ => rfl⟩
  have hcv : ∀ q, q < n → cores[q]? = some (core q) ∧
      IsKthUpTo (2 * eps) (min 3 n) ((List.range n).map (dist q)) (core q) := by
    intro q hq
    obtain ⟨v, h1, h2⟩ := hcore q hq
    have : core q = v := by rw [hcdef]; simp [List.getD_eq_getElem?_getD, h1]
    rw [this]
    exact ⟨h1, h2⟩
  have hclt : ∀ q, q < n → core q < inf := by
    intro q hq
    obtain ⟨j, hj, hjv⟩ := List.mem_map.1 (hcv q hq).2.mem
    rw [← hjv]
    exact hinf q j hq (by simpa using hj)
  obtain ⟨wt, hwt⟩ : ∃ wt : Nat → Nat → ℝ, ∀ q i, wt q i = max (max (core q) (core i)) (dist q i) :=
    ⟨_, fun _ _ => rfl⟩
  have hwsymm : ∀ q i, wt q i = wt i q := by
    intro q i
    rw [hwt, hwt, max_comm (core q), dist_symm hd]
  have hw_core : ∀ q i, core q ≤ wt q i := fun q i => by
    rw [hwt]; exact (le_max_left _ _).trans (le_max_left _ _)
  have hw_dist : ∀ q i, dist q i ≤ wt q i := fun q i => by rw [hwt]; exact le_max_right _ _
  have hweight : ∀ q i, q < n → i < n → mutualReach cores q i (dist q i) = some (wt q i) := by
    intro q i hq hi
    simp only [mutualReach, (hcv q hq).1, (hcv i hi).1, Option.bind_eq_bind, Option.bind_some, hwt]
  have hwlt : ∀ q i, q < n → i < n → wt q i < inf := by
    intro q i hq hi
    rw [hwt]
    exact max_lt (max_lt (hclt q hq) (hclt i hi)) (hinf q i hq hi)
  -- the pairs below the threshold
  have hGs : ∀ (s : ℝ) a b, (a < n ∧ b < n ∧ a ≠ b ∧ wt a b < s) →
      (b < n ∧ a < n ∧ b ≠ a ∧ wt b a < s) := by
    rintro s a b ⟨h1, h2, h3, h4⟩
    exact ⟨h2, h1, h3.symm, by rw [hwsymm]; exact h4⟩
  -- the samples picked by `r` when its core distance is large
  have hpickU : ∀ q i, q < n → i < n → q ≠ i → dist q i + 4 * eps < core i → ∀ p,
      Picked dist (fun d d' => d' ≤ d + 2 * eps) n i p → p = q := by
    rintro q i hq hi hne h1 p ⟨h2, h3, h4⟩
    obtain ⟨d', h5, h6⟩ := h4 q hq hne
    rw [dist_symm hd] at h1
    exact core_unique (by linarith) (by omega) hi (dist_self hd i) (dist_nonneg hd i) (hcv i hi).2
      h2 hq h3 hne (by linarith) (by linarith)
  have hfin : ∃ f0 f', Forest.init n = some f0 ∧
      makeLoop x (fun v w => |v - w|) dist (mutualReach cores) inf t ord (Nat.log 2 n + 1) 0 f0 =
        some f' ∧
      IsSpanningTree n f'.mst ∧ (∀ e ∈ f'.mst, e.2.2 = wt e.1 e.2.1) ∧
      ∀ s : ℝ, Indep (fun a b => a < n ∧ b < n ∧ a ≠ b ∧ wt a b < s)
        (f'.mst.filter (fun a => decide (s + 6 * eps ≤ a.2.2))) := by
    by_cases hn3 : 2 < n
    · refine makeLoop_three (near := fun d d' => d' ≤ d + 2 * eps)
        (J := fun q i => q < n ∧ i < n ∧ q ≠ i ∧ dist q i + 4 * eps < core i)
        (G := fun (s : ℝ) a b => a < n ∧ b < n ∧ a ≠ b ∧ wt a b < s)
        (bad := fun s w => decide (s + 6 * eps ≤ w)) ?_ ?_ hn3 hord ?_ ?_ _ (by omega)
      · exact ⟨ht, fun i h => (hmem i).2 h, hweight,
          fun _ k hk hr _ => ⟨k, hk, hr, fun i hi _ _ => hwlt k i hk hi⟩, fun _ _ _ h => h.elim,
          fun _ _ _ h => h.elim, fun _ _ _ _ _ _ _ _ _ _ _ _ _ _ h => h.elim⟩
      · refine ⟨ht, fun i h => (hmem i).2 h, hweight,
          fun _ k hk hr _ => ⟨k, hk, hr, fun i hi _ _ => hwlt k i hk hi⟩, hGs, fun s a b h => ⟨h.1, h.2.1⟩, ?_⟩
        rintro s w q i j d' hq hi hne hJ hb h1 h2 h3 ⟨_, _, _, h4⟩
        have hb' := of_decide_eq_true hb
        have h5 := hw_core q j
        have h6 := hw_dist q j
        have h7 : ¬ dist q i + 4 * eps < core i := fun h => hJ ⟨hq, hi, hne, h⟩
        rw [hwt q i] at h1
        rcases max_choice (max (core q) (core i)) (dist q i) with h8 | h8
        · rcases max_choice (core q) (core i) with h9 | h9
          · rw [h8, h9] at h1; linarith
          · rw [h8, h9] at h1; linarith
        · rw [h8] at h1; linarith
      · rintro s q i hq hpk hb
        have hb' := of_decide_eq_true hb
        obtain ⟨hi, hne, hnear⟩ := hpk
        -- the nearest sample is within the core distance
        obtain ⟨j, hj, hjq, hjd⟩ := core_other (r := q) (by omega) (hcv q hq).2
        obtain ⟨d', h1, h2⟩ := hnear j hj hjq
        by_cases hc : core i ≤ core q + 6 * eps
        · left
          rintro y ⟨_, _, _, h4⟩
          have h5 := hw_core q y
          rw [hwt q i] at hb'
          rcases max_choice (max (core q) (core i)) (dist q i) with h8 | h8
          · rcases max_choice (core q) (core i) with h9 | h9
            · rw [h8, h9] at hb'; linarith
            · rw [h8, h9] at hb'; linarith
          · rw [h8] at hb'; linarith
        · right
          have hc' := not_le.1 hc
          refine ⟨?_, hpickU q i hq hi hne.symm (by linarith)⟩
          rintro y ⟨_, _, _, h4⟩
          have h5 := hw_core i y
          have : wt q i = core i := by
            rw [hwt, max_eq_right (by linarith : core q ≤ core i), max_eq_left (by linarith)]
          rw [this] at hb'
          linarith
      · rintro q i ⟨hq, hi, hne, h⟩
        exact ⟨hi, hpickU q i hq hi hne h⟩
    · refine makeLoop_tree (near := fun d d' => d' ≤ d + 2 * eps) (J := fun _ _ => False)
        (G := fun (s : ℝ) a b => a < n ∧ b < n ∧ a ≠ b ∧ wt a b < s)
        (bad := fun s w => decide (s + 6 * eps ≤ w)) ?_ hn (fun _ _ h => h.elim) hord _ (by omega)
      refine ⟨ht, fun i h => (hmem i).2 h, hweight,
          fun _ k hk hr _ => ⟨k, hk, hr, fun i hi _ _ => hwlt k i hk hi⟩, hGs, fun s a b h => ⟨h.1, h.2.1⟩, ?_⟩
      rintro s w q i j d' hq hi hne _ hb h1 h2 h3 ⟨_, hj, hqj, h4⟩
      have hb' := of_decide_eq_true hb
      have : i = j := by omega
      subst this
      linarith
  obtain ⟨f0, f', e0, e1, hT, hw, hind⟩ := hfin
  refine ⟨idx', t, f'.mst, e, ?_, hT, core, fun q hq => (hcv q hq).2,
    fun a ha => by rw [hw a ha, hwt], ?_⟩
  · intro fuel hf
    refine makeTree_mono hf ?_
    simp only [makeTree, e0, Option.bind_eq_bind, Option.bind_some,
      if_pos (by norm_num : 3 > 1), ec, e1]
  · intro S hS hSw
    have hSw' : ∀ e ∈ S, e.2.2 = wt e.1 e.2.1 := fun a ha => by rw [hSw a ha, hwt]
    refine total_le_of hn hT hind hS.connects ?_ ?_
    · intro a ha
      rw [hSw' a ha]
      exact (dist_nonneg hd _ _).trans (hw_dist _ _)
    · intro s a ha hlt
      by_cases h1 : a.1 = a.2.1
      · exact Or.inl h1
      · exact Or.inr ⟨(hS.vertices a ha).1, (hS.vertices a ha).2, h1, by
          rw [← hSw' a ha]; exact hlt⟩

/-- **C30** with three neighbours and exact comparisons: a minimum spanning tree for the mutual
reachability distance, the core distance being the third smallest distance, the sample itself
included. -/
theorem C30_minimal_three_exact (n : Nat) (hn : 0 < n) (nf : Nat)
    (x : Nat → Nat → ℝ) (dist : Nat → Nat → ℝ)
    (hd : ∀ q i, euclidean (row nf (x i)) (row nf (x q)) = some (dist q i))
    (policy : List Nat → Nat → Box ℝ → Nat) (bucketSize maxDepth : Nat)
    (hpol : ∀ idx d box, policy idx d box < nf) (vmax vlowest inf : ℝ)
    (hinf : ∀ q i, q < n → i < n → dist q i < inf)
    (ord : Orders ℝ) (hord : ord.Valid) :
    ∃ fuel idx' t T, make (eqEps 0) x policy bucketSize maxDepth nf vmax vlowest (List.range n) =
        some (idx', t) ∧
      makeTree x (fun v w => |v - w|) dist inf t ord n 3 fuel = some T ∧
      IsSpanningTree n T ∧
      ∃ core : Nat → ℝ,
        (∀ q, q < n → IsKth (min 3 n) ((List.range n).map (dist q)) (core q)) ∧
        (∀ e ∈ T, e.2.2 = max (max (core e.1) (core e.2.1)) (dist e.1 e.2.1)) ∧
        ∀ S : List (Edge ℝ), IsSpanningTree n S →
          (∀ e ∈ S, e.2.2 = max (max (core e.1) (core e.2.1)) (dist e.1 e.2.1)) →
          total T ≤ total S := by
  obtain ⟨idx', t, T, h1, h2, h3, core, h4, h5, h6⟩ := C30_minimal_three n hn 0 le_rfl nf x dist hd
    policy bucketSize maxDepth hpol vmax vlowest inf hinf ord hord
  refine ⟨_, idx', t, T, h1, h2 _ le_rfl, h3, core, fun q hq => ?_, h5, fun S hS hw => ?_⟩
  · have h7 := h4 q hq
    exact ⟨h7.mem, h7.le, by simpa using h7.lt⟩
  · simpa using h6 S hS hw

/-- Non-vacuity: the five samples of the counterexample for four neighbours, with three. -/
example : witTree 3 3 = some [(0, 1, 9), (1, 4, 5), (2, 3, 9), (3, 4, 6)] := by decide +kernel

/-- Non-vacuity: the hypotheses hold for six real samples on a line. -/
example : ∃ (x : Nat → Nat → ℝ) (dist : Nat → Nat → ℝ) (inf : ℝ) (ord : Orders ℝ), ord.Valid ∧
    (∀ q i, euclidean (row 1 (x i)) (row 1 (x q)) = some (dist q i)) ∧
    (∀ q i, q < 6 → i < 6 → dist q i < inf) ∧ dist 1 4 = 9 := by
  refine ⟨fun i _ => (i : ℝ) * 3, fun q i => |(i : ℝ) * 3 - q * 3|, 100,
    ⟨fun _ l => l, fun _ l => l⟩, ⟨fun _ _ => .refl _, fun _ _ => .refl _⟩, ?_, ?_, ?_⟩
  · intro q i
    rw [euclidean_eq (by simp [row])]
    simp [row, Real.sqrt_mul_self_eq_abs]
  · intro q i hq hi
    have h1 : (q : ℝ) < 6 := by exact_mod_cast hq
    have h2 : (i : ℝ) < 6 := by exact_mod_cast hi
    have h3 : (0 : ℝ) ≤ q := by positivity
    have h4 : (0 : ℝ) ≤ i := by positivity
    rw [abs_lt]
    constructor <;> linarith
  · norm_num

end Verif.Boruvka
