import Verif.Lemmas.ClosestPair

/-
Properties C19, C20: shortest edges between two sets of samples
(search/ClosestPairOfSamples.hpp).
-/

namespace Verif.ClosestPair

open Verif.KDTree Verif.Buffer Verif.Search Verif.Sorting Verif.Distances

set_option linter.unusedSectionVars false

/-! ### brute force -/

section Simple

variable {D : Type} [LinearOrder D] [Zero D]

theorem foldl_simpleStep (dist : Nat → Nat → D) (i : Nat) : ∀ (others : List Nat) (e0 : Edge D),
    (others.foldl (simpleStep dist i) e0).2.2 ≤ e0.2.2 ∧
    (∀ j ∈ others, 0 < dist i j → (others.foldl (simpleStep dist i) e0).2.2 ≤ dist i j) ∧
    (others.foldl (simpleStep dist i) e0 = e0 ∨
      ∃ j ∈ others, others.foldl (simpleStep dist i) e0 = (i, j, dist i j) ∧ 0 < dist i j ∧
        dist i j < e0.2.2) := by
  intro others
  induction others with
  | nil => intro e0; simp
  | cons j js ih =>
    intro e0
    simp only [List.foldl_cons]
    obtain ⟨h1, h2, h3⟩ := ih (simpleStep dist i e0 j)
    by_cases hc : dist i j > 0 ∧ dist i j < e0.2.2
    · have e : simpleStep dist i e0 j = (i, j, dist i j) := by simp [simpleStep, hc]
      rw [e] at h1 h2 h3 ⊢
      dsimp only at h1 h3
      refine ⟨h1.trans hc.2.le, ?_, ?_⟩
      · intro j' hj' hp
        rcases List.mem_cons.1 hj' with rfl | hj'
        · exact h1
        · exact h2 j' hj' hp
      · right
        rcases h3 with h3 | ⟨j', hj', h4, h5, h6⟩
        · exact ⟨j, by simp, h3, hc.1, hc.2⟩
        · exact ⟨j', by simp [hj'], h4, h5, h6.trans hc.2⟩
    · have e : simpleStep dist i e0 j = e0 := by simp only [simpleStep, hc, if_false]
      rw [e] at h1 h2 h3 ⊢
      refine ⟨h1, ?_, ?_⟩
      · intro j' hj' hp
        rcases List.mem_cons.1 hj' with rfl | hj'
        · have : ¬ dist i j' < e0.2.2 := fun h => hc ⟨hp, h⟩
          exact h1.trans (not_lt.1 this)
        · exact h2 j' hj' hp
      · rcases h3 with h3 | ⟨j', hj', h4⟩
        · exact Or.inl h3
        · exact Or.inr ⟨j', by simp [hj'], h4⟩

theorem foldl_simple (dist : Nat → Nat → D) (others : List Nat) :
    ∀ (indices : List Nat) (e0 : Edge D),
    (simpleDualSet dist indices others e0).2.2 ≤ e0.2.2 ∧
    (∀ i ∈ indices, ∀ j ∈ others, 0 < dist i j →
      (simpleDualSet dist indices others e0).2.2 ≤ dist i j) ∧
    (simpleDualSet dist indices others e0 = e0 ∨
      ∃ i ∈ indices, ∃ j ∈ others, simpleDualSet dist indices others e0 = (i, j, dist i j) ∧
        0 < dist i j ∧ dist i j < e0.2.2) := by
  intro indices
  unfold simpleDualSet
  induction indices with
  | nil => intro e0; simp
  | cons i is ih =>
    intro e0
    simp only [List.foldl_cons]
    obtain ⟨h1, h2, h3⟩ := foldl_simpleStep dist i others e0
    obtain ⟨h4, h5, h6⟩ := ih (others.foldl (simpleStep dist i) e0)
    refine ⟨h4.trans h1, ?_, ?_⟩
    · intro i' hi' j hj hp
      rcases List.mem_cons.1 hi' with rfl | hi'
      · exact h4.trans (h2 j hj hp)
      · exact h5 i' hi' j hj hp
    · rcases h6 with h6 | ⟨i', hi', j', hj', h7, h8, h9⟩
      · rcases h3 with h3 | ⟨j', hj', h7, h8, h9⟩
        · exact Or.inl (h6.trans h3)
        · exact Or.inr ⟨i, by simp, j', hj', h6.trans h7, h8, h9⟩
      · exact Or.inr ⟨i', by simp [hi'], j', hj', h7, h8, lt_of_lt_of_le h9 h1⟩

/-- **C20.** `simple_dual_set_shortest_edge` returns the initial edge when no pair at positive
distance is closer than it; otherwise it returns a pair of the two sets, at positive distance, with
its distance, closer than the initial edge and at most as far as every pair at positive distance.
Pairs of identical points (distance zero) are never returned. -/
theorem C20_simple_shortest (dist : Nat → Nat → D) (indices others : List Nat) (e0 : Edge D) :
    ((∀ i ∈ indices, ∀ j ∈ others, 0 < dist i j → e0.2.2 ≤ dist i j) →
      simpleDualSet dist indices others e0 = e0) ∧
    ((∃ i ∈ indices, ∃ j ∈ others, 0 < dist i j ∧ dist i j < e0.2.2) →
      ∃ i ∈ indices, ∃ j ∈ others, simpleDualSet dist indices others e0 = (i, j, dist i j) ∧
        0 < dist i j ∧ dist i j < e0.2.2 ∧
        ∀ i' ∈ indices, ∀ j' ∈ others, 0 < dist i' j' → dist i j ≤ dist i' j') := by
  obtain ⟨h1, h2, h3⟩ := foldl_simple dist others indices e0
  constructor
  · intro hall
    rcases h3 with h3 | ⟨i, hi, j, hj, h4, h5, h6⟩
    · exact h3
    · exact absurd h6 (not_lt.2 (hall i hi j hj h5))
  · rintro ⟨i, hi, j, hj, hp, hlt⟩
    rcases h3 with h3 | ⟨i', hi', j', hj', h4, h5, h6⟩
    · have := h2 i hi j hj hp
      rw [h3] at this
      exact absurd hlt (not_lt.2 this)
    · refine ⟨i', hi', j', hj', h4, h5, h6, ?_⟩
      intro a ha b hb hab
      have := h2 a ha b hb hab
      rwa [h4] at this

/-- **C20**, default initial edge on integral data: `infinity<ValueType>()` is `0`, so nothing is
ever closer and the result is the pair (0, 0) at distance 0, whatever the data. -/
theorem C20_default_edge_integral (dist : Nat → Nat → ℤ) (indices others : List Nat) :
    simpleDualSet dist indices others (defaultEdge 0) = (0, 0, 0) := by
  refine (C20_simple_shortest dist indices others (defaultEdge 0)).1 ?_
  intro i _ j _ h
  exact h.le

end Simple

/-- Non-vacuity of C20: two sets on a line sharing a point; the shared point is ignored. -/
example : simpleDualSet (fun i j => |([0, 10, 13] : List ℤ).getD i 0 - ([20, 10, 11] : List ℤ).getD j 0|)
    [0, 1, 2] [0, 1, 2] (0, 0, 1000) = (1, 2, 1) := by decide +kernel

/-! ### union-find search -/

/-- The trees built on floating data answer nearest-neighbour queries up to `2 * eps`. -/
theorem goodTree_float {eps : ℝ} (he : 0 ≤ eps) {nf : Nat} {x y : Nat → Nat → ℝ}
    {dist : Nat → Nat → ℝ}
    (hd : ∀ q i, euclidean (row nf (x i)) (row nf (y q)) = some (dist q i)) {n : Nat}
    {t : KDTree.Tree ℝ} (ho : t.SplitBy (fun a i p => x i a ≤ x p a + 2 * eps)
      (fun a p i => x p a ≤ x i a + 2 * eps)) (ha : t.AxesLt nf) (hv : ∀ i ∈ t.indices, i < n) :
    GoodTree x y (fun v w => |v - w|) dist n (fun d d' => d' ≤ d + 2 * eps) t where
  valid := hv
  refl := fun d => by linarith
  prune := by
    refine ⟨_, _, splitBy_axes ho ha, ?_⟩
    intro q r rep
    refine PruneOk.at (pruneOk_float he (hd q) ?_)
    intro i d h
    split at h
    · simp at h
    · simpa [candAll] using h.symm

/-- **C19** on floating data (exact real arithmetic; the equality tolerance `eps` of the tree
construction may cost `2 * eps`).  The other set has a sample outside of the component of `rep`:
the result is an edge from a query to a sample outside of that component, weighted with its
distance, and no such pair is shorter by more than `2 * eps`. -/
theorem C19_shortest_edge (n : Nat) (ops : List UF.Op) (hops : ∀ op ∈ ops, op.Valid n)
    (eps : ℝ) (he : 0 ≤ eps) (nf : Nat) (x y : Nat → Nat → ℝ) (dist : Nat → Nat → ℝ)
    (hd : ∀ q i, euclidean (row nf (x i)) (row nf (y q)) = some (dist q i))
    (policy : List Nat → Nat → Box ℝ → Nat) (bucketSize maxDepth : Nat)
    (hpol : ∀ idx d box, policy idx d box < nf) (vmax vlowest inf : ℝ)
    (queries others : List Nat) (hne : queries ≠ []) (hother : ∀ i ∈ others, i < n)
    (rep : Nat) (hrep : rep < n) (hinf : ∀ q ∈ queries, ∀ i ∈ others, dist q i < inf)
    (hex : ∃ j ∈ others, ¬ UF.Together ops rep j) :
    ∃ s s' q i w, UF.run (UF.init n) ops = some s ∧
      sequentialDualSet (eqEps eps) x y (fun v w => |v - w|) dist inf policy bucketSize maxDepth nf
        vmax vlowest queries others s rep = some (s', (q, i, w)) ∧
      q ∈ queries ∧ i ∈ others ∧ ¬ UF.Together ops rep i ∧ w = dist q i ∧
      ∀ q' ∈ queries, ∀ j ∈ others, ¬ UF.Together ops rep j → w ≤ dist q' j + 2 * eps := by
  obtain ⟨s, r, es, hs, htog⟩ := UF.run_init_spec n ops hops
  obtain ⟨idx', t, e, hp, hi, _, ho, _, ha, _⟩ :=
    make_float eps he x policy bucketSize maxDepth nf hpol vmax vlowest others
  have hmem : ∀ i, i ∈ t.indices ↔ i ∈ others := fun i => by rw [hi]; exact hp.mem_iff
  have ht := goodTree_float he hd ho ha (n := n) (fun i h => hother i ((hmem i).1 h))
  obtain ⟨j, hj, hjt⟩ := hex
  have hnr : ∀ i, r rep ≠ r i ↔ ¬ UF.Together ops rep i := fun i => not_congr (htog rep i)
  obtain ⟨s', ed, e1, _, hcase, hle, hall⟩ := shortestFrom_spec ht inf plainWeight dist hrep
    ⟨j, (hmem j).2 hj, (hnr j).2 hjt⟩ queries s (defaultEdge inf) hs (fun _ _ _ _ => rfl)
  have hbest : ∀ q' ∈ queries, ∀ j ∈ others, ¬ UF.Together ops rep j →
      ed.2.2 ≤ dist q' j + 2 * eps := by
    intro q' hq' j hj hjt
    obtain ⟨i, _, _, h1, h2⟩ := hall q' hq'
    obtain ⟨d', h3, h4⟩ := h2 j ((hmem j).2 hj) ((hnr j).2 hjt)
    exact h1.trans (h4.trans h3)
  rcases hcase with h | ⟨q, hq, i, hi', h, hri, _⟩
  · obtain ⟨q, hq⟩ := List.exists_mem_of_ne_nil _ hne
    obtain ⟨i, hi', _, h1, _⟩ := hall q hq
    rw [h] at h1
    exact absurd (hinf q hq i ((hmem i).1 hi')) (not_lt.2 h1)
  · refine ⟨s, s', q, i, dist q i, es, ?_, hq, (hmem i).1 hi', (hnr i).1 hri, rfl, ?_⟩
    · simp only [sequentialDualSet, e, Option.bind_eq_bind, Option.bind_some, e1, h]
    · rw [h] at hbest; exact hbest

/-- The trees built on signed integral data answer nearest-neighbour queries exactly. -/
theorem goodTree_signed {nf : Nat} {x y : Nat → Nat → ℤ} {dist : Nat → Nat → ℤ}
    (hd : ∀ q i, manhattan (row nf (x i)) (row nf (y q)) = some (dist q i)) {n : Nat}
    {t : KDTree.Tree ℤ} (ho : t.SplitBy (fun a i p => x i a < x p a) (fun a p i => x p a ≤ x i a))
    (ha : t.AxesLt nf) (hv : ∀ i ∈ t.indices, i < n) :
    GoodTree x y (fun v w => |v - w|) dist n Eq t where
  valid := hv
  refl := fun _ => rfl
  prune := by
    refine ⟨_, _, splitBy_axes ho ha, ?_⟩
    intro q r rep
    refine PruneOk.at (pruneOk_exact (gapSound_manhattan (hd q)) ?_)
    intro i d h
    split at h
    · simp at h
    · simpa [candAll] using h.symm

theorem manhattan_nonneg {a b : List ℤ} {d : ℤ} (hl : a.length ≤ b.length)
    (h : manhattan a b = some d) : 0 ≤ d := by
  rw [manhattan_eq hl, Option.some.injEq] at h
  rw [← h]
  exact sum_zipWith_nonneg (fun a b : ℤ => |a - b|) (fun _ _ => abs_nonneg _) _ _

/-- **C19 fails on integral data**: `infinity<ValueType>()` is `0`, no distance is below it, and
for all inputs the result is the default edge (0, 0) with weight 0. -/
theorem C19_integral_default_edge (n : Nat) (ops : List UF.Op) (hops : ∀ op ∈ ops, op.Valid n)
    (nf : Nat) (x y : Nat → Nat → ℤ) (dist : Nat → Nat → ℤ)
    (hd : ∀ q i, manhattan (row nf (x i)) (row nf (y q)) = some (dist q i))
    (policy : List Nat → Nat → Box ℤ → Nat) (bucketSize maxDepth : Nat)
    (hpol : ∀ idx d box, policy idx d box < nf) (vmax vlowest : ℤ)
    (queries others : List Nat) (hother : ∀ i ∈ others, i < n)
    (rep : Nat) (hrep : rep < n) (hex : ∃ j ∈ others, ¬ UF.Together ops rep j) :
    ∃ s s', UF.run (UF.init n) ops = some s ∧
      sequentialDualSet eqExact x y (fun v w => |v - w|) dist 0 policy bucketSize maxDepth nf
        vmax vlowest queries others s rep = some (s', (0, 0, 0)) := by
  obtain ⟨s, r, es, hs, htog⟩ := UF.run_init_spec n ops hops
  obtain ⟨idx', t, e, hp, hi, _, ho, _, ha, _⟩ :=
    make_exact x policy bucketSize maxDepth nf hpol vmax vlowest others
  have hmem : ∀ i, i ∈ t.indices ↔ i ∈ others := fun i => by rw [hi]; exact hp.mem_iff
  have ht := goodTree_signed hd ho ha (n := n) (fun i h => hother i ((hmem i).1 h))
  obtain ⟨j, hj, hjt⟩ := hex
  obtain ⟨s', ed, e1, _, hcase, _, _⟩ := shortestFrom_spec ht 0 plainWeight dist hrep
    ⟨j, (hmem j).2 hj, fun h => hjt ((htog rep j).1 h)⟩ queries s (defaultEdge 0) hs
    (fun _ _ _ _ => rfl)
  refine ⟨s, s', es, ?_⟩
  rcases hcase with h | ⟨q, hq, i, _, _, _, hlt⟩
  · simp only [sequentialDualSet, e, Option.bind_eq_bind, Option.bind_some, e1, h]
    rfl
  · exact absurd (manhattan_nonneg (by simp [row]) (hd q i)) (not_le.2 hlt.1)

/-! Non-vacuity: samples 0, 1, 7, 9 on a line, components {0, 1}, {2}, {3}; the queries are 0, 1.
(Integers with a large `inf` stand for floating values; with `inf = 0` the same call gives the
default edge.) -/

def lineX : Nat → Nat → ℤ := fun i _ => ([0, 1, 7, 9] : List ℤ).getD i 0

example : ((UF.run (UF.init 4) [.merge 0 1]).bind fun s =>
    (sequentialDualSet eqExact lineX lineX (fun v w => |v - w|)
      (fun q i => |lineX i 0 - lineX q 0|) 1000 (fun _ _ _ => 0) 1 10 1 1000 (-1000)
      [0, 1] [0, 1, 2, 3] s 0).map Prod.snd) = some (1, 2, 6) := by decide +kernel

example : ((UF.run (UF.init 4) [.merge 0 1]).bind fun s =>
    (sequentialDualSet eqExact lineX lineX (fun v w => |v - w|)
      (fun q i => |lineX i 0 - lineX q 0|) 0 (fun _ _ _ => 0) 1 10 1 1000 (-1000)
      [0, 1] [0, 1, 2, 3] s 0).map Prod.snd) = some (0, 0, 0) := by decide +kernel

example : ¬ UF.Together [.merge 0 1] 0 2 := by
  obtain ⟨s, r, h1, h2, h3⟩ := UF.run_init_spec 4 [.merge 0 1] (by simp [UF.Op.Valid])
  rw [← h3]
  intro h
  obtain ⟨_, e1, _⟩ := UF.find_spec h2 (i := 0) (by omega)
  obtain ⟨_, e2, _⟩ := UF.find_spec h2 (i := 2) (by omega)
  have hs : s = { parents := [0, 0, 2, 3], ranks := [1, 0, 0, 0] } := by
    have : UF.run (UF.init 4) [.merge 0 1] =
      some { parents := [0, 0, 2, 3], ranks := [1, 0, 0, 0] } := by decide
    rw [this] at h1; exact (Option.some.inj h1).symm
  subst hs
  have f1 : (UF.find { parents := [0, 0, 2, 3], ranks := [1, 0, 0, 0] } 0).map Prod.snd = some 0 := by
    decide
  have f2 : (UF.find { parents := [0, 0, 2, 3], ranks := [1, 0, 0, 0] } 2).map Prod.snd = some 2 := by
    decide
  rw [e1] at f1; rw [e2] at f2
  simp at f1 f2
  omega

end Verif.ClosestPair
