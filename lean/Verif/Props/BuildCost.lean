import Verif.Lemmas.BuildCost
import Verif.Props.Balance

/-
C114: how many tests on coordinates the construction of a k-d tree makes.
-/

namespace Verif.KDTree

open Verif.Sorting

set_option linter.unusedSectionVars false

variable {K : Type} [LinearOrder K]

/-- The counted construction exists and is the construction, whenever that succeeds. -/
theorem makeC_of_make {eqv : K → K → Bool} {x : Nat → Nat → K} {policy : List Nat → Nat → Box K → Nat}
    {bucketSize maxDepth nf : Nat} {vmax vlowest : K} {idx idx' : List Nat} {t : Tree K}
    (e : make eqv x policy bucketSize maxDepth nf vmax vlowest idx = some (idx', t)) :
    ∃ c box, makeC eqv x policy bucketSize maxDepth nf vmax vlowest idx = some ((idx', t), c) ∧
      buildC eqv x policy bucketSize maxDepth (idx.length + 1) idx 0 (tightBound x nf vmax vlowest idx) =
        some ((idx', t, box), c) := by
  rw [← makeC_erase] at e
  obtain ⟨⟨r, c⟩, h1, h2⟩ := Option.map_eq_some_iff.1 e
  obtain rfl : r = (idx', t) := h2
  have h1' := h1
  simp only [makeC, Option.bind_eq_bind] at h1'
  obtain ⟨⟨⟨i, t', box⟩, c'⟩, h3, h4⟩ := Option.bind_eq_some_iff.1 h1'
  simp only [Option.some.injEq, Prod.mk.injEq] at h4
  obtain ⟨⟨rfl, rfl⟩, rfl⟩ := h4
  exact ⟨c', box, h1, h3⟩

/-- The statements below for any equality. -/
theorem makeC_cost {eqv : K → K → Bool} (hg : GoodEq eqv) {x : Nat → Nat → K}
    {policy : List Nat → Nat → Box K → Nat} {bucketSize maxDepth nf : Nat} {vmax vlowest : K}
    {idx idx' : List Nat} {t : Tree K}
    (e : make eqv x policy bucketSize maxDepth nf vmax vlowest idx = some (idx', t)) :
    ∃ c, makeC eqv x policy bucketSize maxDepth nf vmax vlowest idx = some ((idx', t), c) ∧
      c ≤ t.height * (idx.length * (4 * idx.length + 3)) ∧
      c ≤ idx.length * (idx.length * (4 * idx.length + 3)) ∧
      (idx.Nodup → (∀ axis, ∀ a ∈ idx, ∀ b ∈ idx, a ≠ b → eqv (x a axis) (x b axis) = false) →
        c ≤ (Nat.log 2 idx.length + 1) * (idx.length * (4 * idx.length + 3))) ∧
      (1 ≤ bucketSize → (∀ axis, ∀ a ∈ idx, ∀ b ∈ idx, x a axis = x b axis) →
        c = ((List.range (min maxDepth (idx.length - bucketSize))).map fun i => equalSplit (idx.length - i)).sum ∧
        (idx.length ≤ maxDepth → (idx.length - bucketSize) ^ 3 ≤ 4 * c)) := by
  obtain ⟨c, box, h1, h2⟩ := makeC_of_make e
  obtain ⟨h3, h4⟩ := buildC_cost hg _ _ _ _ _ _ _ _ h2
  refine ⟨c, h1, h3, h3.trans (Nat.mul_le_mul h4 le_rfl), ?_, ?_⟩
  · intro hnd hd
    exact h3.trans (Nat.mul_le_mul ((make_shape hg e).2.1 hnd hd).2 le_rfl)
  · intro hb heq
    have h5 := buildC_equal hg hb _ _ _ _ _ _ _ _ heq h2
    rw [Nat.sub_zero] at h5
    refine ⟨h5, fun hd => ?_⟩
    by_cases hn : bucketSize ≤ idx.length
    · have := cubic idx.length bucketSize hn
      rw [h5, Nat.min_eq_right (by omega)]
      refine le_trans (le_of_eq ?_) this
      ring
    · rw [show idx.length - bucketSize = 0 by omega]
      simp

/-- **C114**: for any data, axis policy and options the construction makes at most `4 * n + 3` tests for each
sample and level, hence at most `n ^ 2 * (4 * n + 3)`. -/
theorem C114_build (x : Nat → Nat → K) (policy : List Nat → Nat → Box K → Nat)
    (bucketSize maxDepth nf : Nat) (hpol : ∀ idx d box, policy idx d box < nf) (vmax vlowest : K)
    (idx : List Nat) :
    ∃ idx' t c, makeC eqExact x policy bucketSize maxDepth nf vmax vlowest idx = some ((idx', t), c) ∧
      make eqExact x policy bucketSize maxDepth nf vmax vlowest idx = some (idx', t) ∧
      c ≤ t.height * (idx.length * (4 * idx.length + 3)) ∧
      c ≤ idx.length * (idx.length * (4 * idx.length + 3)) := by
  obtain ⟨idx', t, e, _⟩ := make_exact x policy bucketSize maxDepth nf hpol vmax vlowest idx
  obtain ⟨c, h1, h2, h3, -⟩ := makeC_cost goodEq_exact e
  exact ⟨idx', t, c, h1, e, h2, h3⟩

/-- **C114** on floating data. -/
theorem C114_build_float {F : Type} [Field F] [LinearOrder F] [IsStrictOrderedRing F] (eps : F) (he : 0 ≤ eps)
    (x : Nat → Nat → F) (policy : List Nat → Nat → Box F → Nat) (bucketSize maxDepth nf : Nat)
    (hpol : ∀ idx d box, policy idx d box < nf) (vmax vlowest : F) (idx : List Nat) :
    ∃ idx' t c, makeC (eqEps eps) x policy bucketSize maxDepth nf vmax vlowest idx = some ((idx', t), c) ∧
      make (eqEps eps) x policy bucketSize maxDepth nf vmax vlowest idx = some (idx', t) ∧
      c ≤ t.height * (idx.length * (4 * idx.length + 3)) ∧
      c ≤ idx.length * (idx.length * (4 * idx.length + 3)) := by
  obtain ⟨idx', t, e, _⟩ := make_float eps he x policy bucketSize maxDepth nf hpol vmax vlowest idx
  obtain ⟨c, h1, h2, h3, -⟩ := makeC_cost (goodEq_eps he) e
  exact ⟨idx', t, c, h1, e, h2, h3⟩

/-- **C114**, samples that differ on every axis: at most `(log2 n + 1) * n * (4 * n + 3)` tests. -/
theorem C114_distinct (x : Nat → Nat → K) (policy : List Nat → Nat → Box K → Nat)
    (bucketSize maxDepth nf : Nat) (hpol : ∀ idx d box, policy idx d box < nf) (vmax vlowest : K)
    (idx : List Nat) (hnd : idx.Nodup)
    (hdist : ∀ axis, ∀ a ∈ idx, ∀ b ∈ idx, a ≠ b → x a axis ≠ x b axis) :
    ∃ r c, makeC eqExact x policy bucketSize maxDepth nf vmax vlowest idx = some (r, c) ∧
      c ≤ (Nat.log 2 idx.length + 1) * (idx.length * (4 * idx.length + 3)) := by
  obtain ⟨idx', t, e, _⟩ := make_exact x policy bucketSize maxDepth nf hpol vmax vlowest idx
  obtain ⟨c, h1, -, -, h2, -⟩ := makeC_cost goodEq_exact e
  exact ⟨_, c, h1, h2 hnd (fun axis a ha b hb hab => decide_eq_false (hdist axis a ha b hb hab))⟩

/-- **C114**, equal samples: the number of tests is cubic.  At least a quarter of `(n - bucketSize) ^ 3` tests
are made unless `maxDepth` stops the construction, and the number is known exactly. -/
theorem C114_equal (x : Nat → Nat → K) (policy : List Nat → Nat → Box K → Nat)
    (bucketSize maxDepth nf : Nat) (hpol : ∀ idx d box, policy idx d box < nf) (vmax vlowest : K)
    (idx : List Nat) (hb : 1 ≤ bucketSize) (heq : ∀ axis, ∀ a ∈ idx, ∀ b ∈ idx, x a axis = x b axis) :
    ∃ r c, makeC eqExact x policy bucketSize maxDepth nf vmax vlowest idx = some (r, c) ∧
      c = ((List.range (min maxDepth (idx.length - bucketSize))).map fun i => equalSplit (idx.length - i)).sum ∧
      (idx.length ≤ maxDepth → (idx.length - bucketSize) ^ 3 ≤ 4 * c) := by
  obtain ⟨idx', t, e, _⟩ := make_exact x policy bucketSize maxDepth nf hpol vmax vlowest idx
  obtain ⟨c, h1, -, -, -, h2⟩ := makeC_cost goodEq_exact e
  exact ⟨_, c, h1, h2 hb heq⟩

/-- **C114**, equal samples of floating type. -/
theorem C114_equal_float {F : Type} [Field F] [LinearOrder F] [IsStrictOrderedRing F] (eps : F) (he : 0 ≤ eps)
    (x : Nat → Nat → F) (policy : List Nat → Nat → Box F → Nat) (bucketSize maxDepth nf : Nat)
    (hpol : ∀ idx d box, policy idx d box < nf) (vmax vlowest : F)
    (idx : List Nat) (hb : 1 ≤ bucketSize) (heq : ∀ axis, ∀ a ∈ idx, ∀ b ∈ idx, x a axis = x b axis) :
    ∃ r c, makeC (eqEps eps) x policy bucketSize maxDepth nf vmax vlowest idx = some (r, c) ∧
      c = ((List.range (min maxDepth (idx.length - bucketSize))).map fun i => equalSplit (idx.length - i)).sum ∧
      (idx.length ≤ maxDepth → (idx.length - bucketSize) ^ 3 ≤ 4 * c) := by
  obtain ⟨idx', t, e, _⟩ := make_float eps he x policy bucketSize maxDepth nf hpol vmax vlowest idx
  obtain ⟨c, h1, -, -, -, h2⟩ := makeC_cost (goodEq_eps he) e
  exact ⟨_, c, h1, h2 hb heq⟩

/-! Non-vacuity: twelve equal samples and twelve different ones, bucket size 1. -/

def exampleTests (x : Nat → ℤ) : Option Nat :=
  (makeC eqExact (fun i _ => x i) (fun _ _ _ => 0) 1 100 1 1000 (-1000) (List.range 12)).map (·.2)

example : exampleTests (fun _ => 5) = some (((List.range 11).map fun i => equalSplit (12 - i)).sum) ∧
    exampleTests (fun _ => 5) = some 574 ∧ exampleTests (fun i => (5 * i : ℤ) % 12) = some 79 := by
  decide +kernel

end Verif.KDTree
