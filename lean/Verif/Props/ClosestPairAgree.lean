import Verif.Model.ClosestPairDual
import Verif.Props.ClosestPair
import Verif.Props.DualTree

/-
C103: the three functions of search/ClosestPairOfSamples.hpp that look for the closest pair of two sets.
They build their trees with the default depth limit, so that each tree is one leaf (C11): the tolerance of
the floating comparisons in the construction has no effect, and the answers are exact.
-/

namespace Verif.ClosestPair

open Verif.KDTree Verif.Buffer Verif.Search Verif.Sorting Verif.Distances
open Verif.DualTree (realEnv staticOffer allPairs shortestEdge)
open Verif.DualTree.Spec (IsShortest)

/-! ### two leaves -/

/-- A tree of one leaf answers nearest-neighbour queries exactly: nothing is pruned. -/
theorem goodTree_leaf {K D : Type} [LinearOrder K] [LinearOrder D] (x y : Nat → Nat → K) (gap : K → K → D)
    (dist : Nat → Nat → D) {n : Nat} {idx : List Nat} (box : Box K) (hv : ∀ i ∈ idx, i < n) :
    GoodTree x y gap dist n Eq (.leaf idx box) where
  valid := hv
  refl := fun _ => rfl
  prune := ⟨fun _ _ _ => False, fun _ _ _ => False, trivial, fun _ _ _ _ _ _ _ _ _ _ h => by
    rcases h with h | h <;> exact h.2.elim⟩

/-- **C103**, `dual_set_shortest_edge`, one neighbour per query: on floating data (exact real arithmetic,
any tolerance `eps` and any axis policies in the construction) the edge is a closest pair of the two sets. -/
theorem C103_dual_set (heap : DualTree.Heap (WithTop ℝ)) (eps : ℝ) (nf : Nat) (xq xr : Nat → Nat → ℝ) (dist : Nat → Nat → ℝ)
    (hd : ∀ a b, euclidean (row nf (xq a)) (row nf (xr b)) = some (dist a b))
    (pq pr : List Nat → Nat → Box ℝ → Nat) (vmax vlowest : ℝ) (queries others : List Nat)
    (hq : queries ≠ []) (hr : others ≠ []) :
    ∃ a ∈ queries, ∃ b ∈ others,
      dualSet (realEnv heap 1 (staticOffer (allPairs dist))) (eqEps eps) xq xr pq pr nf nf vmax vlowest queries
        others () = some (a, b, ((dist a b : ℝ) : WithTop ℝ)) ∧
      ∀ a' ∈ queries, ∀ b' ∈ others, dist a b ≤ dist a' b' := by
  have hbox : ∀ (x : Nat → Nat → ℝ) (idx : List Nat),
      (KDTree.Tree.leaf idx (tightBound x nf vmax vlowest idx)).BoxesOk (fun a b => a ≤ b + 0) x := by
    intro x idx i hi
    have := tightBound_inBox x nf vmax vlowest idx i hi
    simpa using this
  have ok := DualTree.realEnv_ok (heap := heap) (S := Unit) (c := 0) (le_refl _) (nf := nf)
    (tq := .leaf queries (tightBound xq nf vmax vlowest queries))
    (tr := .leaf others (tightBound xr nf vmax vlowest others))
    (tightBound_length ..) (tightBound_length ..) (hbox xq queries) (hbox xr others) hd
    (cand := allPairs dist) (fun a b d h => (Option.some.inj h).symm)
    (offer := staticOffer (allPairs dist)) (Good := fun _ => True)
    (fun q _ s _ b b' i _ h => ⟨(), trivial, by simp [staticOffer, h]⟩)
  simp only [dualSet, C11_default_depth_single_leaf, Option.bind_eq_bind, Option.bind_some]
  rcases DualTree.shortestEdge_ok ok (s := ()) trivial with ⟨⟨a, b, w⟩, h1, h2, h3, h4, h5⟩ | ⟨_, h2⟩
  · have hw : ((dist a b : ℝ) : WithTop ℝ) = w := Option.some.inj h4
    subst hw
    refine ⟨a, h2, b, h3, h1, fun a' ha' b' hb' => ?_⟩
    have := h5 a' ha' b' hb' _ rfl
    simpa using this
  · obtain ⟨a, ha⟩ := List.exists_mem_of_ne_nil _ hq
    obtain ⟨b, hb⟩ := List.exists_mem_of_ne_nil _ hr
    have := h2 a ha b hb _ rfl
    exact absurd this (not_le.2 (WithTop.coe_lt_top (dist a b + 2 * 0 * Real.sqrt nf)))

/-- **C103**, `dual_set_shortest_distance`: the distance between the two sets. -/
theorem C103_dual_set_distance (heap : DualTree.Heap (WithTop ℝ)) (eps : ℝ) (nf : Nat) (xq xr : Nat → Nat → ℝ) (dist : Nat → Nat → ℝ)
    (hd : ∀ a b, euclidean (row nf (xq a)) (row nf (xr b)) = some (dist a b))
    (pq pr : List Nat → Nat → Box ℝ → Nat) (vmax vlowest : ℝ) (queries others : List Nat)
    (hq : queries ≠ []) (hr : others ≠ []) :
    ∃ w : ℝ, dualSetDistance (realEnv heap 1 (staticOffer (allPairs dist))) (eqEps eps) xq xr pq pr nf nf vmax
        vlowest queries others () = some (w : WithTop ℝ) ∧
      (∃ a ∈ queries, ∃ b ∈ others, dist a b = w) ∧ ∀ a ∈ queries, ∀ b ∈ others, w ≤ dist a b := by
  obtain ⟨a, ha, b, hb, h, hmin⟩ := C103_dual_set heap eps nf xq xr dist hd pq pr vmax vlowest queries others hq hr
  exact ⟨dist a b, by simp [dualSetDistance, h], ⟨a, ha, b, hb, rfl⟩, hmin⟩

/-- **C103**, `sequential_dual_set_shortest_edge` as it is called (default depth limit), any data type,
equality, gap and distance: the edge is a closest pair among those whose reference is not connected with
`rep`. -/
theorem C103_sequential {K D : Type} [LinearOrder K] [LinearOrder D] (n : Nat) (ops : List UF.Op)
    (hops : ∀ op ∈ ops, op.Valid n) (eqv : K → K → Bool) (nf : Nat) (x y : Nat → Nat → K) (gap : K → K → D)
    (dist : Nat → Nat → D) (policy : List Nat → Nat → Box K → Nat) (bucketSize : Nat) (vmax vlowest : K)
    (inf : D) (queries others : List Nat) (hne : queries ≠ []) (hother : ∀ i ∈ others, i < n)
    (rep : Nat) (hrep : rep < n) (hinf : ∀ q ∈ queries, ∀ i ∈ others, dist q i < inf)
    (hex : ∃ j ∈ others, ¬ UF.Together ops rep j) :
    ∃ s s' q i, UF.run (UF.init n) ops = some s ∧
      sequentialDualSet eqv x y gap dist inf policy bucketSize 0 nf vmax vlowest queries others s rep =
        some (s', (q, i, dist q i)) ∧
      q ∈ queries ∧ i ∈ others ∧ ¬ UF.Together ops rep i ∧
      ∀ q' ∈ queries, ∀ j ∈ others, ¬ UF.Together ops rep j → dist q i ≤ dist q' j := by
  obtain ⟨s, r, es, hs, htog⟩ := UF.run_init_spec n ops hops
  have ht := goodTree_leaf x y gap dist (tightBound x nf vmax vlowest others) hother
  obtain ⟨j, hj, hjt⟩ := hex
  have hnr : ∀ i, r rep ≠ r i ↔ ¬ UF.Together ops rep i := fun i => not_congr (htog rep i)
  obtain ⟨s', ed, e1, _, hcase, hle, hall⟩ := shortestFrom_spec ht inf plainWeight dist hrep
    ⟨j, hj, (hnr j).2 hjt⟩ queries s (defaultEdge inf) hs (fun _ _ _ _ => rfl)
  have hbest : ∀ q' ∈ queries, ∀ j ∈ others, ¬ UF.Together ops rep j → ed.2.2 ≤ dist q' j := by
    intro q' hq' j hj hjt
    obtain ⟨i, _, _, h1, h2⟩ := hall q' hq'
    obtain ⟨d', h3, h4⟩ := h2 j hj ((hnr j).2 hjt)
    subst h3
    exact h1.trans h4
  rcases hcase with h | ⟨q, hq, i, hi', h, hri, _⟩
  · obtain ⟨q, hq⟩ := List.exists_mem_of_ne_nil _ hne
    obtain ⟨i, hi', _, h1, _⟩ := hall q hq
    rw [h] at h1
    exact absurd (hinf q hq i hi') (not_lt.2 h1)
  · refine ⟨s, s', q, i, es, ?_, hq, hi', (hnr i).1 hri, ?_⟩
    · simp only [sequentialDualSet, C11_default_depth_single_leaf, Option.bind_eq_bind, Option.bind_some, e1, h]
    · rw [h] at hbest; exact hbest

/-- **C103.** Two sets of floating samples without a common point, the references not connected with the
queries: the brute-force search, the search with two trees and the search with one tree and a union-find
structure return edges of the same length. -/
theorem C103_agree (heap : DualTree.Heap (WithTop ℝ)) (n : Nat) (ops : List UF.Op) (hops : ∀ op ∈ ops, op.Valid n) (eps : ℝ) (nf : Nat)
    (xq xr : Nat → Nat → ℝ) (dist : Nat → Nat → ℝ)
    (hd : ∀ a b, euclidean (row nf (xq a)) (row nf (xr b)) = some (dist a b))
    (pq pr policy : List Nat → Nat → Box ℝ → Nat) (bucketSize : Nat) (vmax vlowest inf : ℝ)
    (queries others : List Nat) (hq : queries ≠ []) (hr : others ≠ []) (hother : ∀ i ∈ others, i < n)
    (rep : Nat) (hrep : rep < n) (hinf : ∀ a ∈ queries, ∀ b ∈ others, dist a b < inf)
    (happart : ∀ j ∈ others, ¬ UF.Together ops rep j)
    (hpos : ∀ a ∈ queries, ∀ b ∈ others, 0 < dist a b) (e0 : Edge ℝ) (he0 : e0.2.2 = inf) :
    ∃ s s' w a1 b1 a2 b2 a3 b3, UF.run (UF.init n) ops = some s ∧
      simpleDualSet dist queries others e0 = (a1, b1, w) ∧
      dualSet (realEnv heap 1 (staticOffer (allPairs dist))) (eqEps eps) xq xr pq pr nf nf vmax vlowest queries
        others () = some (a2, b2, (w : WithTop ℝ)) ∧
      sequentialDualSet (eqEps eps) xr xq (fun v w => |v - w|) dist inf policy bucketSize 0 nf vmax vlowest
        queries others s rep = some (s', (a3, b3, w)) := by
  obtain ⟨a2, ha2, b2, hb2, h2, hm2⟩ := C103_dual_set heap eps nf xq xr dist hd pq pr vmax vlowest queries others hq hr
  obtain ⟨j, hj⟩ := List.exists_mem_of_ne_nil _ hr
  obtain ⟨s, s', a3, b3, es, h3, ha3, hb3, _, hm3⟩ := C103_sequential n ops hops (eqEps eps) nf xr xq
    (fun v w => |v - w|) dist policy bucketSize vmax vlowest inf queries others hq hother rep hrep hinf
    ⟨j, hj, happart j hj⟩
  obtain ⟨a1, ha1, b1, hb1, h1, _, _, hm1⟩ := (C20_simple_shortest dist queries others e0).2
    ⟨a2, ha2, b2, hb2, hpos a2 ha2 b2 hb2, by rw [he0]; exact hinf a2 ha2 b2 hb2⟩
  have e12 : dist a1 b1 = dist a2 b2 := le_antisymm (hm1 a2 ha2 b2 hb2 (hpos a2 ha2 b2 hb2)) (hm2 a1 ha1 b1 hb1)
  have e32 : dist a3 b3 = dist a2 b2 := le_antisymm (hm3 a2 ha2 b2 hb2 (happart b2 hb2)) (hm2 a3 ha3 b3 hb3)
  exact ⟨s, s', dist a2 b2, a1, b1, a2, b2, a3, b3, es, by rw [h1, e12], h2, by rw [h3, e32]⟩

/-! ### concrete cases -/

/-- Positions of eight samples on a line; 3 and 7 coincide. -/
def agreeX (i _ : Nat) : ℤ := [0, 3, 5, 9, 14, 20, 22, 9].getD i 0

/-- Distance of two samples. -/
def agreeDist (a b : Nat) : ℤ := |agreeX a 0 - agreeX b 0|

/-- `dual_set_shortest_edge` on the line. -/
def agreeDual (capacity : Nat) (qs rs : List Nat) : Option (Edge ℤ) :=
  dualSet (DualTree.lineEnv 1000 capacity fun a b => some (agreeDist a b)) eqExact agreeX agreeX
    (fun _ _ _ => 0) (fun _ _ _ => 0) 1 1 1000 (-1000) qs rs ()

/-- `sequential_dual_set_shortest_edge` on the line, after merging the queries. -/
def agreeSequential (qs rs : List Nat) (ops : List UF.Op) (rep : Nat) : Option (Edge ℤ) := do
  let s ← UF.run (UF.init 8) ops
  let r ← sequentialDualSet eqExact agreeX agreeX (fun v w => |v - w|) agreeDist 1000 (fun _ _ _ => 0) 40 0 1
    1000 (-1000) qs rs s rep
  some r.2

/-- The three functions on sets without a common point. -/
example : simpleDualSet agreeDist [0, 3, 6] [1, 4, 5] (0, 0, 1000) = (6, 5, 2) ∧
    agreeDual 1 [0, 3, 6] [1, 4, 5] = some (6, 5, 2) ∧
    agreeSequential [0, 3, 6] [1, 4, 5] [.merge 0 3, .merge 3 6] 0 = some (6, 5, 2) := by decide +kernel

/-- **C103**, finding: with a point in both sets the brute-force search leaves out the pair at distance 0
and the others return it. -/
theorem C103_common_point_counterexample :
    simpleDualSet agreeDist [0, 3, 6] [1, 7, 5] (0, 0, 1000) = (6, 5, 2) ∧
    agreeDual 1 [0, 3, 6] [1, 7, 5] = some (3, 7, 0) ∧
    agreeSequential [0, 3, 6] [1, 7, 5] [.merge 0 3, .merge 3 6] 0 = some (3, 7, 0) := by decide +kernel

/-- **C103**, finding: called without buffer arguments, `dual_set_shortest_edge` uses buffers of the default
capacity 0 and takes the top of an empty queue, whatever the sets. -/
theorem C103_no_arguments_counterexample {K D : Type} [LinearOrder K] [LinearOrder D]
    (env : DualTree.Env K D Unit) (hcap : env.capacity = 0)
    (hoff : ∀ q s b i s' b', env.offer q s b i = some (s', b') → b'.maxCapacity = b.maxCapacity)
    (eqv : K → K → Bool) (xq xr : Nat → Nat → K) (pq pr : List Nat → Nat → Box K → Nat) (nfq nfr : Nat)
    (vmax vlowest : K) (queries others : List Nat) :
    dualSet env eqv xq xr pq pr nfq nfr vmax vlowest queries others () = none := by
  simp only [dualSet, C11_default_depth_single_leaf, Option.bind_eq_bind, Option.bind_some]
  exact DualTree.C65_default_capacity env hcap hoff () _ _

end Verif.ClosestPair
