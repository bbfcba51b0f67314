import Verif.Props.SingleLinkage
import Verif.Props.DBSCAN

/-
Property C84: cutting the dendrogram of HDBSCAN at a radius gives the clusters of DBSCAN.
-/

namespace Verif.HDBSCAN

open Verif.KDTree Verif.Search Verif.Sorting Verif.Distances Verif.ClosestPair Verif.Graph
  Verif.Boruvka Verif.Dendrogram Verif.Rank
open Verif.DBSCAN (Core DensityConnected degree within)

/-- The `k`-th smallest value is below `r` exactly when `k` values are. -/
theorem isKth_lt_iff {k : Nat} {l : List ℝ} {v r : ℝ} (h : IsKth k l v) :
    v < r ↔ k ≤ (l.filter (fun a => a < r)).length := by
  constructor
  · intro hv
    refine h.le.trans ?_
    rw [← List.countP_eq_length_filter, ← List.countP_eq_length_filter]
    exact List.countP_mono_left (fun a _ ha => decide_eq_true ((of_decide_eq_true ha).trans_lt hv))
  · intro hk
    by_contra hc
    have h1 : (l.filter (fun a => decide (a < r))).length ≤
        (l.filter (fun a => decide (a < v))).length := by
      rw [← List.countP_eq_length_filter, ← List.countP_eq_length_filter]
      exact List.countP_mono_left (fun a _ ha => decide_eq_true
        ((of_decide_eq_true ha).trans_le (not_lt.1 hc)))
    have := h.lt
    omega

theorem degree_eq (n : Nat) (dist : Nat → Nat → ℝ) (r : ℝ) (i : Nat) :
    degree n (within dist r) i = (((List.range n).map (dist i)).filter (fun a => a < r)).length := by
  unfold degree
  rw [List.filter_map, List.length_map]
  rfl

/-- A sample is core for `k - 1` and `r` exactly when its core distance is below `r`. -/
theorem core_iff {n k : Nat} {dist : Nat → Nat → ℝ} {r v : ℝ} (hk : 1 ≤ k) {i : Nat} (hi : i < n)
    (h : IsKth k ((List.range n).map (dist i)) v) : Core n (within dist r) (k - 1) i ↔ v < r := by
  rw [isKth_lt_iff h, Core, degree_eq]
  exact ⟨fun h => by omega, fun h => ⟨hi, by omega⟩⟩

/-- One step below `r` in the mutual reachability distance. -/
theorem reachDist_lt_iff {n k : Nat} {dist : Nat → Nat → ℝ} {core : Nat → ℝ} {r : ℝ} (hk : 1 ≤ k)
    (hkn : k ≤ n) (hself : ∀ i, dist i i = 0) (hnn : ∀ i j, 0 ≤ dist i j)
    (hcore : 1 < k → ∀ q, q < n → IsKth (min k n) ((List.range n).map (dist q)) (core q))
    {a b : Nat} (ha : a < n) (hb : b < n) :
    reachDist k core dist a b < r ↔ Core n (within dist r) (k - 1) a ∧
      Core n (within dist r) (k - 1) b ∧ within dist r a b = true := by
  rw [within, decide_eq_true_eq]
  by_cases hk1 : k ≤ 1
  · have : k = 1 := by omega
    subst this
    rw [reachDist, if_pos hk1]
    refine ⟨fun h => ?_, fun h => h.2.2⟩
    have hpos : ∀ i, i < n → Core n (within dist r) (1 - 1) i := by
      intro i hi
      refine ⟨hi, List.length_pos_of_mem (a := i) (List.mem_filter.2 ⟨List.mem_range.2 hi, ?_⟩)⟩
      rw [within, hself]
      exact decide_eq_true ((hnn a b).trans_lt h)
    exact ⟨hpos a ha, hpos b hb, h⟩
  · have h1 := hcore (by omega)
    rw [min_eq_left hkn] at h1
    rw [core_iff hk ha (h1 a ha), core_iff hk hb (h1 b hb), reachDist, if_neg hk1, max_lt_iff,
      max_lt_iff, and_assoc]

/-- Chains below `r` in the mutual reachability distance are the chains of DBSCAN. -/
theorem reach_iff_connected {n k : Nat} {dist : Nat → Nat → ℝ} {core : Nat → ℝ} {r : ℝ} (hk : 1 ≤ k)
    (hkn : k ≤ n) (hself : ∀ i, dist i i = 0) (hnn : ∀ i j, 0 ≤ dist i j)
    (hsym : ∀ i j, dist i j = dist j i)
    (hcore : 1 < k → ∀ q, q < n → IsKth (min k n) ((List.range n).map (dist q)) (core q))
    {a b : Nat} (hab : a ≠ b) :
    Reach n (fun a b => reachDist k core dist a b < r) a b ↔
      DensityConnected n (within dist r) (k - 1) a b := by
  have hstep : ∀ a b, (a < n ∧ b < n ∧ reachDist k core dist a b < r) ↔
      (Core n (within dist r) (k - 1) a ∧ Core n (within dist r) (k - 1) b ∧
        within dist r a b = true) := by
    intro a b
    constructor
    · rintro ⟨ha, hb, h⟩
      exact (reachDist_lt_iff hk hkn hself hnn hcore ha hb).1 h
    · intro h
      exact ⟨h.1.1, h.2.1.1, (reachDist_lt_iff hk hkn hself hnn hcore h.1.1 h.2.1.1).2 h⟩
  constructor
  · intro h
    have key : a = b ∨ DensityConnected n (within dist r) (k - 1) a b := by
      clear hab
      induction h with
      | rel a b h => exact .inr ⟨((hstep a b).1 h).1, ((hstep a b).1 h).2.1, .single ((hstep a b).1 h)⟩
      | refl a => exact .inl rfl
      | symm a b hx ih =>
        clear hx
        rcases ih with h | ⟨h1, h2, h3⟩
        · exact .inl h.symm
        · refine .inr ⟨h2, h1, ?_⟩
          clear h1 h2
          induction h3 with
          | refl => exact .refl
          | @tail u v _ h ih =>
            refine Relation.ReflTransGen.head ⟨h.2.1, h.1, ?_⟩ ih
            rw [within, hsym v u]
            exact h.2.2
      | trans a b c _ _ ih1 ih2 =>
        rcases ih1 with rfl | ⟨h1, h2, h3⟩
        · exact ih2
        · rcases ih2 with rfl | ⟨h4, h5, h6⟩
          · exact .inr ⟨h1, h2, h3⟩
          · exact .inr ⟨h1, h5, h3.trans h6⟩
    exact key.resolve_left hab
  · rintro ⟨-, -, h⟩
    clear hab
    induction h with
    | refl => exact .refl _
    | tail _ h2 ih => exact .trans _ _ _ ih (.rel _ _ ((hstep _ _).2 h2))

/-- Links by edges below `r` are links by edges up to some level below `r`. -/
theorem linked_lt_iff {T : List (Edge ℝ)} {r : ℝ} (hr : 0 < r) (a b : Nat) :
    Linked (T.filter (fun e => e.2.2 < r)) a b ↔
      ∃ c, 0 ≤ c ∧ c < r ∧ Linked (T.filter (fun e => e.2.2 ≤ c)) a b := by
  constructor
  · intro h
    have hmax : ∃ c, 0 ≤ c ∧ c < r ∧ ∀ e ∈ T, e.2.2 < r → e.2.2 ≤ c := by
      clear h
      induction T with
      | nil => exact ⟨0, le_refl _, hr, by simp⟩
      | cons e T ih =>
        obtain ⟨c, h0, h1, h2⟩ := ih
        by_cases he : e.2.2 < r
        · refine ⟨max c e.2.2, le_max_of_le_left h0, max_lt h1 he, ?_⟩
          intro f hf hfr
          rcases List.mem_cons.1 hf with rfl | hf
          · exact le_max_right _ _
          · exact (h2 f hf hfr).trans (le_max_left _ _)
        · refine ⟨c, h0, h1, ?_⟩
          intro f hf hfr
          rcases List.mem_cons.1 hf with rfl | hf
          · exact absurd hfr he
          · exact h2 f hf hfr
    obtain ⟨c, h0, h1, h2⟩ := hmax
    refine ⟨c, h0, h1, linked_mono ?_ h⟩
    intro e he
    simp only [List.mem_filter, decide_eq_true_eq] at he ⊢
    exact ⟨he.1, h2 e he.1 he.2⟩
  · rintro ⟨c, -, h1, h⟩
    refine linked_mono ?_ h
    intro e he
    simp only [List.mem_filter, decide_eq_true_eq] at he ⊢
    exact ⟨he.1, he.2.trans_lt h1⟩

/-- **C84** for any minimum spanning tree of the mutual reachability distances: below the radius it
links two samples exactly when DBSCAN's chains of core samples do. -/
theorem C84_tree {n k : Nat} {dist : Nat → Nat → ℝ} {core : Nat → ℝ} {r : ℝ} (hk : 1 ≤ k)
    (hkn : k ≤ n) (hself : ∀ i, dist i i = 0) (hnn : ∀ i j, 0 ≤ dist i j)
    (hsym : ∀ i j, dist i j = dist j i)
    (hcore : 1 < k → ∀ q, q < n → IsKth (min k n) ((List.range n).map (dist q)) (core q))
    {T : List (Edge ℝ)} (hT : IsMinimum n (reachDist k core dist) T) {a b : Nat} (hab : a ≠ b) :
    Linked (T.filter (fun e => e.2.2 < r)) a b ↔
      DensityConnected n (within dist r) (k - 1) a b := by
  rw [(C79_threshold hT r a b).2, reach_iff_connected hk hkn hself hnn hsym hcore hab]

/-- **C84** end to end (exact comparisons, at most three neighbours).  HDBSCAN with `k` neighbours and
DBSCAN with `min_samples = k - 1` and a positive `radius` run on the same data, with any options of
their k-d trees: two different samples are joined in the dendrogram at a level below `radius` exactly
when both are core samples of DBSCAN with the same label, and a sample is joined to another one below
`radius` only if DBSCAN does not mark it as noise. -/
theorem C84_cut (n : Nat) (hn2 : n < 2 ^ 64) (nf : Nat)
    (x : Nat → Nat → ℝ) (dist : Nat → Nat → ℝ)
    (hd : ∀ q i, euclidean (row nf (x i)) (row nf (x q)) = some (dist q i))
    (policy policy' : List Nat → Nat → Box ℝ → Nat) (bucketSize maxDepth bucketSize' maxDepth' : Nat)
    (hpol : ∀ idx d box, policy idx d box < nf) (hpol' : ∀ idx d box, policy' idx d box < nf)
    (vmax vlowest inf : ℝ) (hinf : ∀ q i, q < n → i < n → dist q i < inf)
    (hinf' : ∀ i p a, |x p a - x i a| < inf)
    (ord : Orders ℝ) (hord : ord.Valid) (k : Nat) (hk1 : 1 ≤ k) (hk : k ≤ 3) (hkn : k ≤ n)
    (core : Nat → ℝ)
    (hcore : 1 < k → ∀ q, q < n → IsKth (min k n) ((List.range n).map (dist q)) (core q))
    (sort : List (Edge ℝ) → List (Edge ℝ)) (hsort : SortsByWeight sort)
    (idx : List Nat) (hidx : idx.Perm (List.range n)) (radius : ℝ) (hr : 0 < radius) :
    ∃ p p' T root label,
      make (eqEps 0) x policy bucketSize maxDepth nf vmax vlowest (List.range n) = some p ∧
      (∀ fuel, Nat.log 2 n + 1 ≤ fuel →
        makeTree x (fun v w => |v - w|) dist inf p.2 ord n k fuel = some T) ∧
      build (sort T) = some root ∧
      make (eqEps 0) x policy' bucketSize' maxDepth' nf vmax vlowest idx = some p' ∧
      DBSCAN.predictTree x (fun v w => |v - w|) dist radius inf p'.2 (k - 1) n = some label ∧
      ∀ a b, a < n → b < n → a ≠ b →
        ((∃ c, 0 ≤ c ∧ c < radius ∧ root.Under c a b) ↔
          Core n (within dist radius) (k - 1) a ∧ Core n (within dist radius) (k - 1) b ∧
            label.getD a 0 = label.getD b 0) ∧
        ((∃ c, 0 ≤ c ∧ c < radius ∧ root.Under c a b) → label.getD a 0 ≠ 0) := by
  have hn : 0 < n := by omega
  obtain ⟨idx1, t, T, h1, h2, h3⟩ := makeTree_minimum n hn nf x dist hd policy bucketSize maxDepth hpol
    vmax vlowest inf hinf ord hord k hk core hcore
  obtain ⟨root, h4, _, h5⟩ := C33_levels h3.tree
    (fun e he => by rw [h3.weights e he]; exact reachDist_nonneg hd k core _ _)
    (hsort.perm T) (hsort.sorted T)
  obtain ⟨idx2, t', label, e1, e2, g⟩ := DBSCAN.predictTree_guarantees 0 le_rfl nf n hn2 x dist hd radius
    inf hinf' policy' bucketSize' maxDepth' hpol' vmax vlowest idx hidx (k - 1)
  have key : ∀ a b, a < n → b < n → a ≠ b →
      ((∃ c, 0 ≤ c ∧ c < radius ∧ root.Under c a b) ↔
          Core n (within dist radius) (k - 1) a ∧ Core n (within dist radius) (k - 1) b ∧
            label.getD a 0 = label.getD b 0) := by
    intro a b ha hb hab
    have hU : (∃ c, 0 ≤ c ∧ c < radius ∧ root.Under c a b) ↔
        Linked (T.filter (fun e => e.2.2 < radius)) a b := by
      rw [linked_lt_iff hr]
      constructor
      · rintro ⟨c, c1, c2, c3⟩
        exact ⟨c, c1, c2, (h5 c c1 a b ha hb).1 c3⟩
      · rintro ⟨c, c1, c2, c3⟩
        exact ⟨c, c1, c2, (h5 c c1 a b ha hb).2 c3⟩
    rw [hU, C84_tree hk1 hkn (dist_self hd) (dist_nonneg hd) (fun i j => dist_symm hd i j) hcore h3 hab]
    constructor
    · intro h
      exact ⟨h.1, h.2.1, (g.clusters a b h.1 h.2.1).2 h⟩
    · rintro ⟨c1, c2, c3⟩
      exact (g.clusters a b c1 c2).1 c3
  refine ⟨(idx1, t), (idx2, t'), T, root, label, h1, h2, h4, e1, e2, ?_⟩
  intro a b ha hb hab
  refine ⟨key a b ha hb hab, fun h => g.core a ((key a b ha hb hab).1 h).1⟩

/-- **C84 is false of the code for four neighbours.**  DBSCAN with `min_samples = 3` and radius 8 puts
the core samples 1 and 3 of `witX` in one cluster, but no edge of the tree HDBSCAN makes with four
neighbours is below 8 (the tree is not minimal, `C79_four_neighbours_counterexample`). -/
theorem C84_four_neighbours_counterexample :
    DBSCAN.predict (fun i => some ((List.range 5).filter (fun j => |witX j 0 - witX i 0| < 8))) 3 5 =
      some [1, 1, 1, 1, 1] ∧
    ((List.range 5).filter (fun j => |witX j 0 - witX 1 0| < 8)).length > 3 ∧
    ((List.range 5).filter (fun j => |witX j 0 - witX 3 0| < 8)).length > 3 ∧
    (witTree 4 3).map (fun T => T.filter (fun e => e.2.2 < 8)) = some [] := by
  decide +kernel

/-! ### concrete case: samples 0, 1, 3, 7 on a line, two neighbours, radius 2.5 -/

/-- Distances to the nearest other sample. -/
noncomputable def lineCore : Nat → ℝ := fun i => ([1, 1, 2, 4] : List ℝ).getD i 0

theorem lineCore_isKth : ∀ q, q < 4 →
    IsKth (min 2 4) ((List.range 4).map (fun i => |lineX i 0 - lineX q 0|)) (lineCore q) := by
  intro q hq
  have : q = 0 ∨ q = 1 ∨ q = 2 ∨ q = 3 := by omega
  rcases this with rfl | rfl | rfl | rfl <;>
    refine ⟨?_, ?_, ?_⟩ <;>
    norm_num [lineX, lineCore, List.range_succ, List.filter_cons]

/-- The hypotheses of `C84_cut` are met. -/
example (ord : Orders ℝ) (hord : ord.Valid) (sort : List (Edge ℝ) → List (Edge ℝ))
    (hsort : SortsByWeight sort) :=
  have hb : ∀ i j, |lineX i 0 - lineX j 0| < 100 := by
    have hb : ∀ i, 0 ≤ lineX i 0 ∧ lineX i 0 ≤ 7 := by
      intro i
      unfold lineX
      rcases i with _ | _ | _ | _ | i <;> simp <;> norm_num
    intro i j
    rw [abs_lt]
    have := hb i; have := hb j
    constructor <;> linarith
  C84_cut 4 (by norm_num) 1 lineX (fun q i => |lineX i 0 - lineX q 0|) lineX_dist
    (fun _ _ _ => 0) (fun _ _ _ => 0) 1 8 2 3 (fun _ _ _ => one_pos) (fun _ _ _ => one_pos) 0 0 100
    (fun q i _ _ => hb i q) (fun i p _ => hb p i) ord hord 2 (by norm_num) (by norm_num) (by norm_num)
    lineCore (fun _ => lineCore_isKth) sort hsort [2, 0, 3, 1] (by decide) 2.5 (by norm_num)

end Verif.HDBSCAN
