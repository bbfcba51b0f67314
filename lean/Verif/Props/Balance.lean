import Verif.Lemmas.Balance
import Verif.Props.KDTree

/-
Property C74: how deep the k-d tree is.  `x i a` is coordinate `a` of sample `i`; the axis policy is
arbitrary.  On floating data "equal" means at distance at most `eps`, as in the library.
-/

namespace Verif.KDTree

open Verif.Sorting

set_option linter.unusedSectionVars false

variable {K : Type} [LinearOrder K]

theorem build_of_make {eqv : K → K → Bool} {x : Nat → Nat → K}
    {policy : List Nat → Nat → Box K → Nat} {bucketSize maxDepth nf : Nat} {vmax vlowest : K}
    {idx idx' : List Nat} {t : Tree K}
    (e : make eqv x policy bucketSize maxDepth nf vmax vlowest idx = some (idx', t)) :
    ∃ box, build eqv x policy bucketSize maxDepth (idx.length + 1) idx 0
      (tightBound x nf vmax vlowest idx) = some (idx', t, box) := by
  simp only [make, Option.bind_eq_bind] at e
  obtain ⟨⟨i, t', box⟩, h1, h2⟩ := Option.bind_eq_some_iff.1 e
  simp only [Option.some.injEq, Prod.mk.injEq] at h2
  obtain ⟨rfl, rfl⟩ := h2
  exact ⟨box, h1⟩

/-- From a power of two to the logarithm. -/
theorem le_log_of_pow_le {h n : Nat} (hp : 2 ^ h ≤ max 1 (2 * n)) : h ≤ Nat.log 2 n + 1 := by
  by_cases hn : n = 0
  · subst hn
    have : h = 0 := by
      by_contra hh
      have : 2 ^ 1 ≤ 2 ^ h := Nat.pow_le_pow_right (by omega) (by omega)
      omega
    omega
  · have h1 : 2 ^ h ≤ 2 * n := by omega
    cases h with
    | zero => omega
    | succ k =>
      have : 2 ^ k ≤ n := by rw [Nat.pow_succ] at h1; omega
      have := Nat.le_log_of_pow_le (by omega : 1 < 2) this
      omega

/-- The three statements for any of the two equalities. -/
theorem make_shape {eqv : K → K → Bool} (hg : GoodEq eqv) {x : Nat → Nat → K}
    {policy : List Nat → Nat → Box K → Nat} {bucketSize maxDepth nf : Nat} {vmax vlowest : K}
    {idx idx' : List Nat} {t : Tree K}
    (e : make eqv x policy bucketSize maxDepth nf vmax vlowest idx = some (idx', t)) :
    (2 ^ t.leftTurns ≤ idx.length + 1 ∧
      t.Sizes (fun n l r => l ≤ (n - 1) / 2 ∧ l + r + 1 = n)) ∧
    (idx.Nodup → (∀ axis, ∀ a ∈ idx, ∀ b ∈ idx, a ≠ b → eqv (x a axis) (x b axis) = false) →
      t.Sizes (fun n l r => l = (n - 1) / 2 ∧ r = n / 2) ∧
        t.height ≤ Nat.log 2 idx.length + 1) ∧
    ((∀ axis, ∀ a ∈ idx, ∀ b ∈ idx, eqv (x a axis) (x b axis) = true) →
      t.Sizes (fun n l r => l = 0 ∧ r = n - 1) ∧
        t.height = min maxDepth (idx.length - bucketSize)) := by
  obtain ⟨box, hb⟩ := build_of_make e
  obtain ⟨hp, h1, h2, h3⟩ := build_sizes hg _ _ _ _ _ _ _ hb
  refine ⟨⟨?_, h1⟩, ?_, ?_⟩
  · rw [← hp.length_eq]; exact leftTurns_le h1
  · intro hnd hd
    have h4 := h2 hnd hd
    refine ⟨h4, ?_⟩
    have h5 := height_le h4
    rw [hp.length_eq] at h5
    exact le_log_of_pow_le h5
  · intro he
    have h4 := h3 he
    exact ⟨h4.1, by simpa using h4.2 (Nat.zero_le _)⟩

/-- **C74**, part that holds without any assumption on the data: at every inner node with `n`
samples at most `(n - 1) / 2` are under the left child, so a path from the root takes at most
`log2 (n + 1)` steps to the left. -/
theorem C74_left_half (x : Nat → Nat → K) (policy : List Nat → Nat → Box K → Nat)
    (bucketSize maxDepth nf : Nat) (hpol : ∀ idx d box, policy idx d box < nf) (vmax vlowest : K)
    (idx : List Nat) :
    ∃ idx' t, make eqExact x policy bucketSize maxDepth nf vmax vlowest idx = some (idx', t) ∧
      2 ^ t.leftTurns ≤ idx.length + 1 ∧
      t.Sizes (fun n l r => l ≤ (n - 1) / 2 ∧ l + r + 1 = n) := by
  obtain ⟨idx', t, e, _⟩ := make_exact x policy bucketSize maxDepth nf hpol vmax vlowest idx
  exact ⟨idx', t, e, (make_shape goodEq_exact e).1⟩

/-- **C74** on floating data, without any assumption on the data. -/
theorem C74_left_half_float {F : Type} [Field F] [LinearOrder F] [IsStrictOrderedRing F]
    (eps : F) (he : 0 ≤ eps) (x : Nat → Nat → F) (policy : List Nat → Nat → Box F → Nat)
    (bucketSize maxDepth nf : Nat) (hpol : ∀ idx d box, policy idx d box < nf) (vmax vlowest : F)
    (idx : List Nat) :
    ∃ idx' t, make (eqEps eps) x policy bucketSize maxDepth nf vmax vlowest idx = some (idx', t) ∧
      2 ^ t.leftTurns ≤ idx.length + 1 ∧
      t.Sizes (fun n l r => l ≤ (n - 1) / 2 ∧ l + r + 1 = n) := by
  obtain ⟨idx', t, e, _⟩ := make_float eps he x policy bucketSize maxDepth nf hpol vmax vlowest idx
  exact ⟨idx', t, e, (make_shape (goodEq_eps he) e).1⟩

/-- **C74**, balance (partial: distinct samples must differ on every axis).  Then every inner node
splits its `n` samples into `(n - 1) / 2`, the pivot, and `n / 2`, and the height is at most
`log2 n + 1`. -/
theorem C74_balanced_partial (x : Nat → Nat → K) (policy : List Nat → Nat → Box K → Nat)
    (bucketSize maxDepth nf : Nat) (hpol : ∀ idx d box, policy idx d box < nf) (vmax vlowest : K)
    (idx : List Nat) (hnd : idx.Nodup)
    (hdist : ∀ axis, ∀ a ∈ idx, ∀ b ∈ idx, a ≠ b → x a axis ≠ x b axis) :
    ∃ idx' t, make eqExact x policy bucketSize maxDepth nf vmax vlowest idx = some (idx', t) ∧
      t.Sizes (fun n l r => l = (n - 1) / 2 ∧ r = n / 2) ∧
      t.height ≤ Nat.log 2 idx.length + 1 := by
  obtain ⟨idx', t, e, _⟩ := make_exact x policy bucketSize maxDepth nf hpol vmax vlowest idx
  exact ⟨idx', t, e, (make_shape goodEq_exact e).2.1 hnd
    (fun axis a ha b hb hab => decide_eq_false (hdist axis a ha b hb hab))⟩

/-- **C74**, balance on floating data (partial: distinct samples must differ by more than `eps` on
every axis). -/
theorem C74_balanced_float_partial {F : Type} [Field F] [LinearOrder F] [IsStrictOrderedRing F]
    (eps : F) (he : 0 ≤ eps) (x : Nat → Nat → F) (policy : List Nat → Nat → Box F → Nat)
    (bucketSize maxDepth nf : Nat) (hpol : ∀ idx d box, policy idx d box < nf) (vmax vlowest : F)
    (idx : List Nat) (hnd : idx.Nodup)
    (hdist : ∀ axis, ∀ a ∈ idx, ∀ b ∈ idx, a ≠ b → eps < |x a axis - x b axis|) :
    ∃ idx' t, make (eqEps eps) x policy bucketSize maxDepth nf vmax vlowest idx = some (idx', t) ∧
      t.Sizes (fun n l r => l = (n - 1) / 2 ∧ r = n / 2) ∧
      t.height ≤ Nat.log 2 idx.length + 1 := by
  obtain ⟨idx', t, e, _⟩ := make_float eps he x policy bucketSize maxDepth nf hpol vmax vlowest idx
  exact ⟨idx', t, e, (make_shape (goodEq_eps he) e).2.1 hnd
    (fun axis a ha b hb hab => decide_eq_false (not_le.2 (hdist axis b hb a ha hab.symm)))⟩

/-- **C74** is false with repeated samples: when all samples are equal, every left child is empty
and the height is `n - bucketSize` (capped by `maxDepth`) instead of logarithmic. -/
theorem C74_duplicates (x : Nat → Nat → K) (policy : List Nat → Nat → Box K → Nat)
    (bucketSize maxDepth nf : Nat) (hpol : ∀ idx d box, policy idx d box < nf) (vmax vlowest : K)
    (idx : List Nat) (heq : ∀ axis, ∀ a ∈ idx, ∀ b ∈ idx, x a axis = x b axis) :
    ∃ idx' t, make eqExact x policy bucketSize maxDepth nf vmax vlowest idx = some (idx', t) ∧
      t.Sizes (fun n l r => l = 0 ∧ r = n - 1) ∧
      t.height = min maxDepth (idx.length - bucketSize) := by
  obtain ⟨idx', t, e, _⟩ := make_exact x policy bucketSize maxDepth nf hpol vmax vlowest idx
  exact ⟨idx', t, e, (make_shape goodEq_exact e).2.2
    (fun axis a ha b hb => decide_eq_true (heq axis a ha b hb))⟩

/-- **C74**, floating data whose coordinates all lie within `eps` of each other. -/
theorem C74_duplicates_float {F : Type} [Field F] [LinearOrder F] [IsStrictOrderedRing F]
    (eps : F) (he : 0 ≤ eps) (x : Nat → Nat → F) (policy : List Nat → Nat → Box F → Nat)
    (bucketSize maxDepth nf : Nat) (hpol : ∀ idx d box, policy idx d box < nf) (vmax vlowest : F)
    (idx : List Nat) (heq : ∀ axis, ∀ a ∈ idx, ∀ b ∈ idx, |x a axis - x b axis| ≤ eps) :
    ∃ idx' t, make (eqEps eps) x policy bucketSize maxDepth nf vmax vlowest idx = some (idx', t) ∧
      t.Sizes (fun n l r => l = 0 ∧ r = n - 1) ∧
      t.height = min maxDepth (idx.length - bucketSize) := by
  obtain ⟨idx', t, e, _⟩ := make_float eps he x policy bucketSize maxDepth nf hpol vmax vlowest idx
  exact ⟨idx', t, e, (make_shape (goodEq_eps he) e).2.2
    (fun axis a ha b hb => decide_eq_true (heq axis b hb a ha))⟩

/-- Height and left turns of a tree of 7 samples with one feature, bucket size 1. -/
def exampleShape (x : Nat → ℤ) : Option (Nat × Nat) :=
  (make eqExact (fun i _ => x i) (fun _ _ _ => 0) 1 100 1 1000 (-1000) [0, 1, 2, 3, 4, 5, 6]).map
    (fun r => (r.2.height, r.2.leftTurns))

/-- Distinct samples: height 2. -/
example : exampleShape (fun i => ((3 * i : Nat) : ℤ) % 7) = some (2, 2) := by decide +kernel

/-- Equal samples: height 6 > log2 7 + 1 = 3, so the assumption of `C74_balanced_partial` is
necessary. -/
theorem C74_duplicates_counterexample : exampleShape (fun _ => 5) = some (6, 1) ∧
    Nat.log 2 7 + 1 = 3 := by
  constructor <;> decide +kernel

/-- The hypotheses of `C74_balanced_partial` hold for the samples `3 * i mod 7`. -/
example : ∀ a ∈ [0, 1, 2, 3, 4, 5, 6], ∀ b ∈ [0, 1, 2, 3, 4, 5, 6], a ≠ b →
    ((3 * a : Nat) : ℤ) % 7 ≠ ((3 * b : Nat) : ℤ) % 7 := by decide

end Verif.KDTree
