import Verif.Lemmas.KDTree
import Mathlib.Algebra.Order.Ring.Int

/-
Properties C08-C11 and the box part of C22: the k-d tree construction.
`eqExact` is the equality used on integral data, `eqEps eps` the one used on floating data.
`policy` is an arbitrary axis-selection policy returning existing features.
-/

namespace Verif.KDTree

open Verif.Sorting

set_option linter.unusedSectionVars false

variable {K : Type} [LinearOrder K]

theorem make_of_build {K : Type} [LT K] [DecidableLT K] {eqv : K → K → Bool} {x : Nat → Nat → K}
    {policy : List Nat → Nat → Box K → Nat} {bucketSize maxDepth nf : Nat} {vmax vlowest : K}
    {idx idx' : List Nat} {t : Tree K} {box : Box K}
    (e : build eqv x policy bucketSize maxDepth (idx.length + 1) idx 0
      (tightBound x nf vmax vlowest idx) = some (idx', t, box)) :
    make eqv x policy bucketSize maxDepth nf vmax vlowest idx = some (idx', t) := by
  simp [make, e]

theorem make_exact (x : Nat → Nat → K) (policy : List Nat → Nat → Box K → Nat)
    (bucketSize maxDepth nf : Nat) (hpol : ∀ idx d box, policy idx d box < nf) (vmax vlowest : K)
    (idx : List Nat) :
    ∃ idx' t, make eqExact x policy bucketSize maxDepth nf vmax vlowest idx = some (idx', t) ∧
      idx'.Perm idx ∧ t.indices = idx' ∧ t.box = tightBound x nf vmax vlowest idx ∧
      t.Ordered x ∧ t.BoxesOk (· ≤ ·) x ∧ t.AxesLt nf ∧
      (∀ s ∈ t.subtrees 0, NodeLimits bucketSize maxDepth s.1 s.2) := by
  obtain ⟨idx', t, e, h⟩ := build_spec (le := (· ≤ ·)) le_refl (fun _ _ _ h => le_of_lt h)
    (fun _ _ _ h => h) (splitsBy_exact x) policy bucketSize maxDepth nf hpol (idx.length + 1) idx 0
    (tightBound x nf vmax vlowest idx) (by omega) (tightBound_length ..) (by omega)
    (tightBound_inBox _ _ _ _ _)
  exact ⟨idx', t, make_of_build e, h⟩

theorem make_tol {F : Type} [Field F] [LinearOrder F] [IsStrictOrderedRing F] {eqv : F → F → Bool}
    (hg : GoodEq eqv) (eps : F) (he : 0 ≤ eps) (x : Nat → Nat → F)
    (htol : ∀ a i j, eqv (x i a) (x j a) = true → |x j a - x i a| ≤ eps) (policy : List Nat → Nat → Box F → Nat)
    (bucketSize maxDepth nf : Nat) (hpol : ∀ idx d box, policy idx d box < nf) (vmax vlowest : F)
    (idx : List Nat) :
    ∃ idx' t, make eqv x policy bucketSize maxDepth nf vmax vlowest idx = some (idx', t) ∧
      idx'.Perm idx ∧ t.indices = idx' ∧ t.box = tightBound x nf vmax vlowest idx ∧
      t.SplitBy (fun a i p => x i a ≤ x p a + 2 * eps) (fun a p i => x p a ≤ x i a + 2 * eps) ∧
      t.BoxesOk (fun a b => a ≤ b + 2 * eps) x ∧ t.AxesLt nf ∧
      (∀ s ∈ t.subtrees 0, NodeLimits bucketSize maxDepth s.1 s.2) := by
  obtain ⟨idx', t, e, h⟩ := build_spec (le := fun a b => a ≤ b + 2 * eps)
    (fun a => by linarith) (fun _ _ _ h => h) (fun _ _ _ h => h) (splitsBy_tol hg eps he x htol) policy
    bucketSize maxDepth nf hpol (idx.length + 1) idx 0
    (tightBound x nf vmax vlowest idx) (by omega) (tightBound_length ..) (by omega)
    (fun i hi f seg hf => by
      have := tightBound_inBox x nf vmax vlowest idx i hi f seg hf
      constructor
      · linarith [this.1]
      · linarith [this.2])
  exact ⟨idx', t, make_of_build e, h⟩

theorem make_float {F : Type} [Field F] [LinearOrder F] [IsStrictOrderedRing F] (eps : F)
    (he : 0 ≤ eps) (x : Nat → Nat → F) (policy : List Nat → Nat → Box F → Nat)
    (bucketSize maxDepth nf : Nat) (hpol : ∀ idx d box, policy idx d box < nf) (vmax vlowest : F)
    (idx : List Nat) :
    ∃ idx' t, make (eqEps eps) x policy bucketSize maxDepth nf vmax vlowest idx = some (idx', t) ∧
      idx'.Perm idx ∧ t.indices = idx' ∧ t.box = tightBound x nf vmax vlowest idx ∧
      t.SplitBy (fun a i p => x i a ≤ x p a + 2 * eps) (fun a p i => x p a ≤ x i a + 2 * eps) ∧
      t.BoxesOk (fun a b => a ≤ b + 2 * eps) x ∧ t.AxesLt nf ∧
      (∀ s ∈ t.subtrees 0, NodeLimits bucketSize maxDepth s.1 s.2) :=
  make_tol (goodEq_eps he) eps he x (fun _ _ _ h => by
    simpa only [eqEps, decide_eq_true_eq] using h) policy bucketSize maxDepth nf hpol vmax vlowest idx

/-- The samples stored in the nodes, one node at a time, are exactly the samples of the tree. -/
theorem own_perm {K : Type} (t : Tree K) (d : Nat) :
    ((t.subtrees d).flatMap (fun s => s.2.own)).Perm t.indices := by
  induction t generalizing d with
  | leaf idx box => simp [Tree.subtrees, Tree.own, Tree.indices]
  | node p a box l r ihl ihr =>
    simp only [Tree.subtrees, List.flatMap_cons, List.flatMap_append, Tree.own, Tree.indices]
    have h1 := List.Perm.append (ihl (d + 1)) (ihr (d + 1))
    exact (h1.cons p).trans List.perm_middle.symm

/-- **C08.** On integral data the constructor succeeds, permutes the index range, the tree read
from left to right is the permuted range, and the nodes together hold each index exactly as often
as the caller supplied it. -/
theorem C08_exactly_once (x : Nat → Nat → K) (policy : List Nat → Nat → Box K → Nat)
    (bucketSize maxDepth nf : Nat) (hpol : ∀ idx d box, policy idx d box < nf) (vmax vlowest : K)
    (idx : List Nat) :
    ∃ idx' t, make eqExact x policy bucketSize maxDepth nf vmax vlowest idx = some (idx', t) ∧
      idx'.Perm idx ∧ t.indices = idx' ∧
      ((t.subtrees 0).flatMap (fun s => s.2.own)).Perm idx := by
  obtain ⟨idx', t, e, h1, h2, _⟩ := make_exact x policy bucketSize maxDepth nf hpol vmax vlowest idx
  exact ⟨idx', t, e, h1, h2, (own_perm t 0).trans (h2 ▸ h1)⟩

/-- **C08** on floating data. -/
theorem C08_exactly_once_float {F : Type} [Field F] [LinearOrder F] [IsStrictOrderedRing F]
    (eps : F) (he : 0 ≤ eps) (x : Nat → Nat → F) (policy : List Nat → Nat → Box F → Nat)
    (bucketSize maxDepth nf : Nat) (hpol : ∀ idx d box, policy idx d box < nf) (vmax vlowest : F)
    (idx : List Nat) :
    ∃ idx' t, make (eqEps eps) x policy bucketSize maxDepth nf vmax vlowest idx = some (idx', t) ∧
      idx'.Perm idx ∧ t.indices = idx' ∧
      ((t.subtrees 0).flatMap (fun s => s.2.own)).Perm idx := by
  obtain ⟨idx', t, e, h1, h2, _⟩ :=
    make_float eps he x policy bucketSize maxDepth nf hpol vmax vlowest idx
  exact ⟨idx', t, e, h1, h2, (own_perm t 0).trans (h2 ▸ h1)⟩

/-- **C09.** On integral data, at every inner node the samples of the left subtree are strictly
smaller than the pivot on the cut axis and those of the right subtree at least the pivot. -/
theorem C09_split_order (x : Nat → Nat → K) (policy : List Nat → Nat → Box K → Nat)
    (bucketSize maxDepth nf : Nat) (hpol : ∀ idx d box, policy idx d box < nf) (vmax vlowest : K)
    (idx : List Nat) :
    ∃ idx' t, make eqExact x policy bucketSize maxDepth nf vmax vlowest idx = some (idx', t) ∧
      t.Ordered x := by
  obtain ⟨idx', t, e, _, _, _, h, _⟩ :=
    make_exact x policy bucketSize maxDepth nf hpol vmax vlowest idx
  exact ⟨idx', t, e, h⟩

/-- **C09** on floating data: the library's equality identifies values at distance at most `eps`
(`numeric_limits::epsilon()`), and the order at a split holds up to `2 * eps`. -/
theorem C09_split_order_float {F : Type} [Field F] [LinearOrder F] [IsStrictOrderedRing F]
    (eps : F) (he : 0 ≤ eps) (x : Nat → Nat → F) (policy : List Nat → Nat → Box F → Nat)
    (bucketSize maxDepth nf : Nat) (hpol : ∀ idx d box, policy idx d box < nf) (vmax vlowest : F)
    (idx : List Nat) :
    ∃ idx' t, make (eqEps eps) x policy bucketSize maxDepth nf vmax vlowest idx = some (idx', t) ∧
      t.SplitBy (fun a i p => x i a ≤ x p a + 2 * eps)
        (fun a p i => x p a ≤ x i a + 2 * eps) := by
  obtain ⟨idx', t, e, _, _, _, h, _⟩ :=
    make_float eps he x policy bucketSize maxDepth nf hpol vmax vlowest idx
  exact ⟨idx', t, e, h⟩

/-- **C10.** On integral data the box of every node contains all samples of its subtree and the
boxes of its children; the root box is the tight box of the data. -/
theorem C10_node_bounds (x : Nat → Nat → K) (policy : List Nat → Nat → Box K → Nat)
    (bucketSize maxDepth nf : Nat) (hpol : ∀ idx d box, policy idx d box < nf) (vmax vlowest : K)
    (idx : List Nat) :
    ∃ idx' t, make eqExact x policy bucketSize maxDepth nf vmax vlowest idx = some (idx', t) ∧
      t.BoxesOk (· ≤ ·) x ∧ t.box = tightBound x nf vmax vlowest idx := by
  obtain ⟨idx', t, e, _, _, hb, _, h, _⟩ :=
    make_exact x policy bucketSize maxDepth nf hpol vmax vlowest idx
  exact ⟨idx', t, e, h, hb⟩

/-- **C10** on floating data: containment up to `2 * eps`. -/
theorem C10_node_bounds_float {F : Type} [Field F] [LinearOrder F] [IsStrictOrderedRing F]
    (eps : F) (he : 0 ≤ eps) (x : Nat → Nat → F) (policy : List Nat → Nat → Box F → Nat)
    (bucketSize maxDepth nf : Nat) (hpol : ∀ idx d box, policy idx d box < nf) (vmax vlowest : F)
    (idx : List Nat) :
    ∃ idx' t, make (eqEps eps) x policy bucketSize maxDepth nf vmax vlowest idx = some (idx', t) ∧
      t.BoxesOk (fun a b => a ≤ b + 2 * eps) x ∧ t.box = tightBound x nf vmax vlowest idx := by
  obtain ⟨idx', t, e, _, _, hb, _, h, _⟩ :=
    make_float eps he x policy bucketSize maxDepth nf hpol vmax vlowest idx
  exact ⟨idx', t, e, h, hb⟩

/-- **C11.** The construction terminates (with the fuel `n + 1` of `make`), no node is deeper than
`maxDepth`, a leaf has at most `bucketSize` samples unless it is at `maxDepth`, and an inner node
has more than `bucketSize` samples. -/
theorem C11_limits (x : Nat → Nat → K) (policy : List Nat → Nat → Box K → Nat)
    (bucketSize maxDepth nf : Nat) (hpol : ∀ idx d box, policy idx d box < nf) (vmax vlowest : K)
    (idx : List Nat) :
    ∃ idx' t, make eqExact x policy bucketSize maxDepth nf vmax vlowest idx = some (idx', t) ∧
      ∀ s ∈ t.subtrees 0, NodeLimits bucketSize maxDepth s.1 s.2 := by
  obtain ⟨idx', t, e, _, _, _, _, _, _, h⟩ :=
    make_exact x policy bucketSize maxDepth nf hpol vmax vlowest idx
  exact ⟨idx', t, e, h⟩

/-- **C11** on floating data. -/
theorem C11_limits_float {F : Type} [Field F] [LinearOrder F] [IsStrictOrderedRing F]
    (eps : F) (he : 0 ≤ eps) (x : Nat → Nat → F) (policy : List Nat → Nat → Box F → Nat)
    (bucketSize maxDepth nf : Nat) (hpol : ∀ idx d box, policy idx d box < nf) (vmax vlowest : F)
    (idx : List Nat) :
    ∃ idx' t, make (eqEps eps) x policy bucketSize maxDepth nf vmax vlowest idx = some (idx', t) ∧
      ∀ s ∈ t.subtrees 0, NodeLimits bucketSize maxDepth s.1 s.2 := by
  obtain ⟨idx', t, e, _, _, _, _, _, _, h⟩ :=
    make_float eps he x policy bucketSize maxDepth nf hpol vmax vlowest idx
  exact ⟨idx', t, e, h⟩

/-- **C11**, default options: `max_depth = infinity<size_t>() = 0` gives a single leaf with the
indices in their original order, whatever the equality and the policy. -/
theorem C11_default_depth_single_leaf (eqv : K → K → Bool) (x : Nat → Nat → K)
    (policy : List Nat → Nat → Box K → Nat) (bucketSize nf : Nat) (vmax vlowest : K)
    (idx : List Nat) :
    make eqv x policy bucketSize 0 nf vmax vlowest idx =
      some (idx, .leaf idx (tightBound x nf vmax vlowest idx)) := by
  simp [make, build]

/-- **C22** (box part). For a non-empty index range whose values are inside the limits of the data
type, `make_tight_bound` has one segment per feature, contains all samples, and is contained in
every box that contains all samples. -/
theorem C22_tight_bound (x : Nat → Nat → K) (nf : Nat) (vmax vlowest : K) (idx : List Nat)
    (hne : idx ≠ []) (hlim : ∀ i ∈ idx, ∀ f, vlowest ≤ x i f ∧ x i f ≤ vmax) :
    (tightBound x nf vmax vlowest idx).length = nf ∧
    (∀ i ∈ idx, InBox (· ≤ ·) x (tightBound x nf vmax vlowest idx) i) ∧
    ∀ c : Box K, c.length = nf → (∀ i ∈ idx, InBox (· ≤ ·) x c i) →
      SubBox (· ≤ ·) (tightBound x nf vmax vlowest idx) c := by
  refine ⟨tightBound_length .., tightBound_inBox _ _ _ _ _, ?_⟩
  intro c hc hin
  refine ⟨by rw [tightBound_length, hc], ?_⟩
  intro f s t hs ht
  have hlt : f < nf := by have := lt_of_getElem? ht; omega
  obtain ⟨lo, hi, e, h1, h2, h3, h4, h5⟩ := tightFold_get x f idx
    (List.replicate nf (vmax, vlowest)) (vmax, vlowest) (by simp [hlt])
  unfold tightBound at hs
  rw [e] at hs
  simp only [Option.some.injEq] at hs
  subst hs
  obtain ⟨i0, hi0⟩ := List.exists_mem_of_ne_nil _ hne
  have hget : ∀ i ∈ idx, t.1 ≤ x i f ∧ x i f ≤ t.2 := fun i hi => hin i hi f t ht
  constructor
  · rcases h4 with h4 | ⟨i, hi, h4⟩
    · dsimp only at h4 ⊢
      rw [h4]; exact (hget i0 hi0).1.trans (hlim i0 hi0 f).2
    · dsimp only; rw [h4]; exact (hget i hi).1
  · rcases h5 with h5 | ⟨i, hi, h5⟩
    · dsimp only at h5 ⊢
      rw [h5]; exact (hlim i0 hi0 f).1.trans (hget i0 hi0).2
    · dsimp only; rw [h5]; exact (hget i hi).2

/-! Concrete case: seven 2-dimensional samples with duplicate coordinates. -/

/-- Coordinates of the example. -/
def exampleX : Nat → Nat → ℤ := fun i f =>
  (([[2, 3], [5, 4], [9, 6], [4, 7], [5, 1], [7, 2], [5, 2]] : List (List ℤ)).getD i []).getD f 0

/-- The tree of the example: cycle through the axes, bucket size 1, at most 5 levels. -/
def exampleTree : Option (List Nat × Tree ℤ) :=
  make eqExact exampleX (fun _ d _ => d % 2) 1 5 2 1000 (-1000) [0, 1, 2, 3, 4, 5, 6]

example : exampleTree.map Prod.fst = some [0, 3, 6, 4, 5, 1, 2] := by decide +kernel

example : exampleTree.map (fun r => (r.2.subtrees 0).map (fun s => (s.1, s.2.own))) =
    some [(0, [6]), (1, [0]), (2, []), (2, [3]), (1, [5]), (2, [4]), (2, [1]), (3, []), (3, [2])] := by
  decide +kernel

end Verif.KDTree
