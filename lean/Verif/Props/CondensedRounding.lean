import Verif.Lemmas.CondensedRounding
import Verif.Props.Dendrogram
import Verif.Props.RoundingRange

/-
C126: the clusters of HDBSCAN when stabilities are computed in floating arithmetic.
-/

namespace Verif.Dendrogram

open Verif.Rounding

/-! ### any arithmetic -/

/-- Whatever the arithmetic on stabilities gives, the labels describe clusters of the hierarchy that do not
overlap and cover every leaf cluster; the leaf clusters themselves when they are asked for, and not the whole
data set unless that is allowed. -/
theorem C126_labels {D : Type} [CommRing D] [LinearOrder D] [IsStrictOrderedRing D] (A : Arith D)
    (invA inv : D → D) (m : Nat) (allow ret : Bool) (root : STree D) (hg : Good root)
    (n : Nat) (hn : ∀ x, x ∈ root.leaves ↔ x < n) :
    ∃ flat cs, extractFlat (condensedTreeA A invA m allow ret root) = some flat ∧
      Cut (condenseRoot inv m root) cs ∧ Labels n flat cs ∧
      (ret = true → ∀ c ∈ cs, c.isLeaf = true) ∧
      (ret = false → Allowed allow (condenseRoot inv m root) cs) := by
  have hS : Sim (fun _ _ => True) (condenseRootA A invA m root) (condenseRoot inv m root) :=
    condense_sim A invA inv m _ (fun _ _ _ => True) (by simp) (by simp) (by simp) (by simp) (by simp) root _ _
      rfl rfl (STree.self_mem_subtrees _) hg trivial
  obtain ⟨ns, cs, h1, h2, h3, h4, h5, h6⟩ := tree_sim A invA inv m allow ret root _ (fun _ _ _ => True) hS
    (by simp) (by simp)
  obtain ⟨flat, e, hL, -⟩ := labels_of_cut inv m root hg n hn h1 h2 h3 h4
  exact ⟨flat, cs, e, h3, hL, h5, fun h => (h6 h).1⟩

/-! ### floating arithmetic -/

variable {p : Nat} {emax : ℤ} {R : RoundingE p emax} {fl : ℝ → ℝ}

theorem Computes.small (hp : 1 ≤ p) (hE : (p : ℤ) + 1 ≤ emax) (hfl : Computes R fl) :
    Small (unit p) (tiny emax) ((2 : ℝ) ^ (emax - 1)) fl := by
  intro x hx
  have hf : IsFloatE p emax ((2 : ℝ) ^ (emax - 1)) := isFloatE_zpow (by unfold emin; omega)
  have h1 : |R.rnd x| ≤ (2 : ℝ) ^ (emax - 1) := by
    rw [R.abs]
    have := R.mono hx
    rwa [R.of_isFloat hf] at this
  rw [hfl x (h1.trans_lt (zpow_lt_zpow_right₀ (by norm_num) (by omega)))]
  have hu := Rounding.unit_pos (p := p)
  by_cases h : tiny emax ≤ |x|
  · have h2 := ((R.normal hp (away p hp)).rel_error x).1
    rw [R.normal_eq hp _ h] at h2
    exact h2.trans (mul_le_mul_of_nonneg_left (le_max_left _ _) hu.le)
  · push Not at h
    refine (R.small_error hp h.le).trans ?_
    have e : (2 : ℝ) ^ (emin p emax - 1) = unit p * tiny emax := by
      unfold unit tiny emin
      rw [← zpow_add₀ (by norm_num)]
      congr 1
      omega
    rw [e]
    exact mul_le_mul_of_nonneg_left (le_max_right _ _) hu.le

theorem Computes.of_float (hfl : Computes R fl) {x : ℝ} (h : IsFloatE p emax x) (hx : |x| < (2 : ℝ) ^ emax) :
    fl x = x := by
  rw [hfl x (by rwa [R.of_isFloat h]), R.of_isFloat h]

theorem pow_unit_le (hp : 2 ≤ p) {n : Nat} (hn : n ≤ 2 ^ p) : (1 + unit p) ^ (2 * n + 3) ≤ 32 := by
  have hu := Rounding.unit_pos (p := p)
  have h4 : (4 : ℝ) ≤ 2 ^ p := by
    calc (4 : ℝ) = 2 ^ 2 := by norm_num
      _ ≤ 2 ^ p := pow_le_pow_right₀ (by norm_num) hp
  have hup : unit p * 2 ^ p = 1 := by
    unfold unit
    rw [← zpow_natCast (2 : ℝ) p, ← zpow_add₀ (by norm_num)]
    simp
  have hn' : (n : ℝ) ≤ 2 ^ p := by exact_mod_cast hn
  have h1 : unit p * ((2 * n + 3 : Nat) : ℝ) ≤ 3 := by
    push_cast
    have := mul_le_mul_of_nonneg_left hn' hu.le
    nlinarith
  have h2 : 1 + unit p ≤ Real.exp (unit p) := by
    have := Real.add_one_le_exp (unit p)
    linarith
  calc (1 + unit p) ^ (2 * n + 3) ≤ Real.exp (unit p) ^ (2 * n + 3) := pow_le_pow_left₀ (by linarith) h2 _
    _ = Real.exp (unit p * ((2 * n + 3 : Nat) : ℝ)) := by rw [← Real.exp_nat_mul, mul_comm]
    _ ≤ Real.exp 3 := Real.exp_le_exp.2 h1
    _ = Real.exp 1 ^ 3 := by rw [← Real.exp_nat_mul]; norm_num
    _ ≤ 3 ^ 3 := pow_le_pow_left₀ (Real.exp_pos _).le (by have := Real.exp_one_lt_d9; linarith) 3
    _ ≤ 32 := by norm_num

theorem divOne_le (lv : ℝ) : |divOne (epsilon p) lv| ≤ (2 : ℝ) ^ ((p : ℤ) - 1) := by
  unfold divOne
  split
  · rw [abs_zero]; positivity
  · rename_i h
    push Not at h
    have he : 0 < epsilon p := by unfold epsilon; positivity
    rw [abs_div, abs_one]
    calc 1 / |lv| ≤ 1 / epsilon p := one_div_le_one_div_of_le he h.le
      _ = _ := by
        unfold epsilon
        rw [one_div, ← zpow_neg]
        congr 1
        ring

theorem Computes.inRange (hp : 2 ≤ p) (hE : 2 * (p : ℤ) + 6 ≤ emax) (hfl : Computes R fl) {n : Nat} (hn : n ≤ 2 ^ p)
    {Λ : ℝ} (h1 : tiny emax ≤ Λ) (h2 : Λ ≤ (2 : ℝ) ^ ((p : ℤ) - 1)) :
    InRange (unit p) (tiny emax) Λ ((2 : ℝ) ^ (emax - 1)) n fl where
  hu := Rounding.unit_pos.le
  hw := by unfold tiny; positivity
  hΛ := h1
  small := hfl.small (by omega) (by omega)
  nat k hk := by
    have hk' : k ≤ 2 ^ p := hk.trans hn
    refine hfl.of_float ⟨k, 0, ?_, by unfold emin; omega, by simp⟩ ?_
    · rw [abs_of_nonneg (by positivity)]; exact_mod_cast hk'
    · rw [abs_of_nonneg (by positivity)]
      have h3 : (k : ℝ) ≤ (2 : ℝ) ^ (p : ℤ) := by rw [zpow_natCast]; exact_mod_cast hk'
      exact h3.trans_lt (zpow_lt_zpow_right₀ (by norm_num) (by omega))
  top := by
    have h3 := pow_unit_le hp hn
    have h4 : (n : ℝ) ≤ (2 : ℝ) ^ (p : ℤ) := by rw [zpow_natCast]; exact_mod_cast hn
    have hΛ : 0 ≤ Λ := le_trans (by unfold tiny; positivity) h1
    calc (1 + unit p) ^ (2 * n + 3) * (2 * Λ * n)
        ≤ (2 : ℝ) ^ (5 : ℤ) * (2 * (2 : ℝ) ^ ((p : ℤ) - 1) * (2 : ℝ) ^ (p : ℤ)) := by
          refine mul_le_mul (h3.trans (by norm_num)) ?_ (by positivity) (by positivity)
          exact mul_le_mul (mul_le_mul_of_nonneg_left h2 (by norm_num)) h4 (by positivity) (by positivity)
      _ = (2 : ℝ) ^ (2 * (p : ℤ) + 5) := by
          rw [← zpow_one_add₀ (by norm_num), ← zpow_add₀ (by norm_num), ← zpow_add₀ (by norm_num)]
          congr 1
          ring
      _ ≤ (2 : ℝ) ^ (emax - 1) := zpow_le_zpow_right₀ (by norm_num) (by omega)

/-- The error of a stability of a cluster with `k` samples, where no `1 / level` exceeds `Λ`, after `j`
roundings. -/
noncomputable def stabilityErr (p : Nat) (Λ : ℝ) (j k : Nat) : ℝ := ((1 + unit p) ^ j - 1) * (2 * Λ * k)

theorem stabilityErr_mono {Λ Λ' : ℝ} (h : Λ ≤ Λ') (j k : Nat) : stabilityErr p Λ j k ≤ stabilityErr p Λ' j k := by
  have h1 := pow_sub_one_nonneg (Rounding.unit_pos (p := p)).le j
  have h2 : (0 : ℝ) ≤ k := Nat.cast_nonneg k
  unfold stabilityErr
  gcongr

theorem Sim.forall₂ {P : ℝ → CNode ℝ → Prop} {ta t : CTree ℝ} (h : Sim P ta t) :
    List.Forall₂ (fun a c => a.root.slink = c.root.slink ∧ P a.root.stability c.root) ta.subtrees t.subtrees := by
  induction h with
  | leaf h1 _ h3 => exact .cons ⟨h1, h3⟩ .nil
  | split h1 _ h3 _ _ _ ihl ihr => exact .cons ⟨h1, h3⟩ (List.rel_append ihl ihr)

/-- Computed stabilities are close to the exact ones, cluster by cluster, and below the overflow threshold. -/
theorem C126_stability (hp : 2 ≤ p) (hE : 2 * (p : ℤ) + 6 ≤ emax) (hfl : Computes R fl) (fused : Bool) (m : Nat)
    (root : STree ℝ) (hg : Good root) (hn : root.leaves.length ≤ 2 ^ p) (Λ : ℝ) (hΛ : tiny emax ≤ Λ)
    (hlv : ∀ s ∈ root.subtrees, |divOne (epsilon p) s.level| ≤ Λ) :
    List.Forall₂ (fun a c => a.root.slink = c.root.slink ∧
        |a.root.stability - c.root.stability| ≤ stabilityErr p Λ (3 + c.samples.length) c.samples.length ∧
        |a.root.stability| < (2 : ℝ) ^ emax)
      (condenseRootA (floatArith fl fused) (fun lv => fl (divOne (epsilon p) lv)) m root).subtrees
      (condenseRoot (divOne (epsilon p)) m root).subtrees := by
  have hB : tiny emax ≤ (2 : ℝ) ^ ((p : ℤ) - 1) := zpow_le_zpow_right₀ (by norm_num) (by omega)
  have H := hfl.inRange hp hE hn (le_min hΛ hB) (min_le_right Λ _)
  have hS := condense_near H fused (divOne (epsilon p)) m root hg le_rfl
    (fun s hs => le_min (hlv s hs) (divOne_le _))
  refine hS.forall₂.imp ?_
  rintro a c ⟨e, hN, hc⟩
  refine ⟨e, hN.1.trans ?_, ?_⟩
  · exact stabilityErr_mono (min_le_left _ _) _ _
  · refine (hN.abs_le.trans (H.le ?_ hc)).trans_lt (zpow_lt_zpow_right₀ (by norm_num) (by omega))
    omega

/-- The clusters selected in floating arithmetic are, up to the error of the stabilities, as stable as those of
any allowed cut of the hierarchy, stabilities being exact. -/
theorem C126_near_optimal (hp : 2 ≤ p) (hE : 2 * (p : ℤ) + 6 ≤ emax) (hfl : Computes R fl) (fused : Bool) (m : Nat)
    (allow : Bool) (root : STree ℝ) (hg : Good root) (n : Nat) (hn : ∀ x, x ∈ root.leaves ↔ x < n) (hnp : n ≤ 2 ^ p)
    (Λ : ℝ) (hΛ : tiny emax ≤ Λ) (hlv : ∀ s ∈ root.subtrees, |divOne (epsilon p) s.level| ≤ Λ) :
    ∃ flat cs, extractFlat (condensedTreeF fl fused (epsilon p) m allow false root) = some flat ∧
      Cut (condenseRoot (divOne (epsilon p)) m root) cs ∧ Labels n flat cs ∧
      Allowed allow (condenseRoot (divOne (epsilon p)) m root) cs ∧
      ∀ cs', Cut (condenseRoot (divOne (epsilon p)) m root) cs' →
        Allowed allow (condenseRoot (divOne (epsilon p)) m root) cs' →
        totalStability cs' ≤ totalStability cs + 2 * stabilityErr p Λ (3 + 2 * n) n := by
  have hlen : root.leaves.length = n := by
    have hperm : root.leaves.Perm (List.range n) := by
      rw [List.perm_ext_iff_of_nodup hg.nodup List.nodup_range]
      intro x; rw [hn, List.mem_range]
    rw [hperm.length_eq, List.length_range]
  have hB : tiny emax ≤ (2 : ℝ) ^ ((p : ℤ) - 1) := zpow_le_zpow_right₀ (by norm_num) (by omega)
  have H := hfl.inRange hp hE hnp (le_min hΛ hB) (min_le_right Λ _)
  obtain ⟨ns, cs, h1, h2, h3, h4, h5, h6⟩ := tree_near H fused (divOne (epsilon p)) m allow root hg hlen.le
    (fun s hs => le_min (hlv s hs) (divOne_le _))
  obtain ⟨flat, e, hL, -⟩ := labels_of_cut (divOne (epsilon p)) m root hg n hn h1 h2 h3 h4
  refine ⟨flat, cs, e, h3, hL, h5, fun cs' hc ha => (h6 cs' hc ha).trans ?_⟩
  rw [hlen]
  have := stabilityErr_mono (p := p) (min_le_left Λ ((2 : ℝ) ^ ((p : ℤ) - 1))) (3 + 2 * n) n
  unfold stabilityErr at *
  linarith

/-- The labels for some clusters are unique. -/
theorem Labels.unique {D : Type} {n : Nat} {f g : List Nat} {cs : List (CTree D)} (hf : Labels n f cs)
    (hg : Labels n g cs) : f = g := by
  refine List.ext_getElem? fun i => ?_
  by_cases hi : i < n
  · have h1 : i < f.length := by rw [hf.length]; exact hi
    rw [List.getElem?_eq_getElem h1]
    rcases hv : f[i] with _ | j
    · exact ((hg.noise i).2 ((hf.noise i).1 (by rw [List.getElem?_eq_getElem h1, hv]))).symm
    · exact ((hg.positive i j).2 ((hf.positive i j).1 (by rw [List.getElem?_eq_getElem h1, hv]))).symm
  · rw [List.getElem?_eq_none (by rw [hf.length]; omega), List.getElem?_eq_none (by rw [hg.length]; omega)]

/-- When one allowed cut is more stable than all others by more than the error, it is selected: the labels are
those of exact arithmetic. -/
theorem C126_separated (hp : 2 ≤ p) (hE : 2 * (p : ℤ) + 6 ≤ emax) (hfl : Computes R fl) (fused : Bool) (m : Nat)
    (allow : Bool) (root : STree ℝ) (hg : Good root) (n : Nat) (hn : ∀ x, x ∈ root.leaves ↔ x < n) (hnp : n ≤ 2 ^ p)
    (Λ : ℝ) (hΛ : tiny emax ≤ Λ) (hlv : ∀ s ∈ root.subtrees, |divOne (epsilon p) s.level| ≤ Λ)
    (best : List (CTree ℝ)) (hb : Cut (condenseRoot (divOne (epsilon p)) m root) best)
    (hba : Allowed allow (condenseRoot (divOne (epsilon p)) m root) best)
    (hsep : ∀ cs', Cut (condenseRoot (divOne (epsilon p)) m root) cs' →
      Allowed allow (condenseRoot (divOne (epsilon p)) m root) cs' → cs' ≠ best →
      totalStability cs' + 2 * stabilityErr p Λ (3 + 2 * n) n < totalStability best) :
    ∃ flat, extractFlat (condensedTreeF fl fused (epsilon p) m allow false root) = some flat ∧ Labels n flat best ∧
      extractFlat (condensedTree (divOne (epsilon p)) m allow false root) = some flat := by
  obtain ⟨flat, cs, e, hc, hL, ha, ho⟩ :=
    C126_near_optimal hp hE hfl fused m allow root hg n hn hnp Λ hΛ hlv
  obtain ⟨flat', cs', e', hc', hL', -, -, ho', -⟩ := extract_full (divOne (epsilon p)) m allow false root hg n hn
  obtain ⟨ha', ho'⟩ := ho' rfl
  have h1 : cs = best := by
    by_contra h
    have := ho best hb hba
    have := hsep cs hc ha h
    linarith
  have h2 : cs' = best := by
    by_contra h
    have := (ho' best hb hba).1
    have := hsep cs' hc' ha' h
    have h3 := pow_sub_one_nonneg (Rounding.unit_pos (p := p)).le (3 + 2 * n)
    have h4 : 0 ≤ Λ := le_trans (by unfold tiny; positivity) hΛ
    have : 0 ≤ stabilityErr p Λ (3 + 2 * n) n := by unfold stabilityErr; positivity
    linarith
  subst h1
  subst h2
  rw [hL'.unique hL] at e'
  exact ⟨flat, e, hL, e'⟩

/-- When no level exceeds the epsilon of the format, all stabilities are computed as 0 and the structure of the
data has no effect: the root is the only cluster if that is allowed, otherwise its two children are. -/
theorem C126_tiny (hfl : Computes R fl) (fused : Bool) (inv : ℝ → ℝ) (m : Nat) (allow : Bool)
    (root : STree ℝ) (hg : Good root) (n : Nat) (hn : ∀ x, x ∈ root.leaves ↔ x < n)
    (hlv : ∀ s ∈ root.subtrees, |s.level| ≤ epsilon p) :
    ∃ flat cs, extractFlat (condensedTreeF fl fused (epsilon p) m allow false root) = some flat ∧ Labels n flat cs ∧
      ((allow = true ∨ (condenseRoot inv m root).isLeaf = true) ∧ cs = [condenseRoot inv m root] ∨
        allow = false ∧ ∃ nd l r, condenseRoot inv m root = .split nd l r ∧ cs = [l, r]) := by
  have f0 : fl 0 = 0 := hfl.of_float isFloatE_zero (by rw [abs_zero]; positivity)
  have hm : ∀ k, (floatArith fl fused).mass 0 k 0 0 = 0 := by
    intro k
    cases fused <;> simp [floatArith, f0]
  have hz : ∀ s ∈ root.subtrees, fl (divOne (epsilon p) s.level) = 0 := by
    intro s hs
    rw [divOne, if_pos (hlv s hs), f0]
  have hS : Sim (fun s _ => s = 0)
      (condenseRootA (floatArith fl fused) (fun lv => fl (divOne (epsilon p) lv)) m root) (condenseRoot inv m root) := by
    refine condense_sim _ _ inv m _
      (fun a _ s => a.stability = 0 ∧ a.lambdaMin = 0 ∧ s ∈ root.subtrees) ?_ ?_ ?_ ?_ ?_ root _ _
      rfl rfl (STree.self_mem_subtrees _) hg ⟨rfl, rfl, STree.self_mem_subtrees _⟩
    · rintro a _ i ⟨h, -, -⟩; exact h
    · rintro a _ c lv sz l r b ⟨h1, h2, h3⟩
      have := hz _ h3
      simp only [STree.level] at this
      simp only [CNode.addMassA, h1, h2, this, hm]
    · rintro a _ c lv sz l r ⟨h1, h2, h3⟩
      have := hz _ h3
      simp only [STree.level] at this
      exact ⟨by simp only [CNode.addMassA, h1, h2, this, hm], h2, STree.subtrees_trans _ h3 l STree.left_mem⟩
    · rintro a _ c lv sz l r ⟨h1, h2, h3⟩
      have := hz _ h3
      simp only [STree.level] at this
      exact ⟨by simp only [CNode.addMassA, h1, h2, this, hm], h2, STree.subtrees_trans _ h3 r STree.right_mem⟩
    · rintro a _ c lv sz l r ⟨h1, h2, h3⟩
      have := hz _ h3
      simp only [STree.level] at this
      exact ⟨⟨rfl, this, STree.subtrees_trans _ h3 l STree.left_mem⟩,
        ⟨rfl, this, STree.subtrees_trans _ h3 r STree.right_mem⟩⟩
  obtain ⟨ns, cs, h1, h2, h3, h4, -, h6⟩ := tree_sim (floatArith fl fused) (fun lv => fl (divOne (epsilon p) lv)) inv m
    allow false root _ (fun t v cs => v = 0 ∧ cs = [t]) hS (by rintro n s h; exact ⟨h, rfl⟩) (by
      rintro n s l r sl sr a b rfl _ _ _ ⟨rfl, rfl⟩ ⟨rfl, rfl⟩
      simp [floatArith, f0])
  obtain ⟨flat, e, hL, -⟩ := labels_of_cut inv m root hg n hn h1 h2 h3 h4
  refine ⟨flat, cs, e, hL, ?_⟩
  rcases (h6 rfl).2 with ⟨h, v, -, hv⟩ | ⟨h, nd, l, r, sl, sr, a, b, et, hcs, -, -, -, -, ⟨-, ha⟩, ⟨-, hb⟩⟩
  · exact .inl ⟨h, hv⟩
  · refine .inr ⟨h, nd, l, r, et, ?_⟩
    rw [hcs, ha, hb]
    rfl

/-- The error in terms of the unit roundoff. -/
theorem C126_error (hp : 2 ≤ p) {n : Nat} (hn : n ≤ 2 ^ p) {Λ : ℝ} (hΛ : 0 ≤ Λ) {j k : Nat} (hj : j ≤ 2 * n + 3) :
    stabilityErr p Λ j k ≤ 64 * j * k * Λ * unit p := by
  have hu := Rounding.unit_pos (p := p)
  have h1 : (1 + unit p) ^ j ≤ 32 := (pow_le_pow_right₀ (by linarith) hj).trans (pow_unit_le hp hn)
  have h2 : ∀ i : Nat, (1 + unit p) ^ i - 1 ≤ i * unit p * (1 + unit p) ^ i := by
    intro i
    induction i with
    | zero => simp
    | succ i ih =>
      have : 0 ≤ (1 + unit p) ^ i := by positivity
      have h3 : (1 + unit p) ^ i ≤ (1 + unit p) ^ i * (1 + unit p) := by nlinarith
      rw [pow_succ]
      push_cast
      have h4 : (i : ℝ) * unit p * (1 + unit p) ^ i ≤ i * unit p * ((1 + unit p) ^ i * (1 + unit p)) :=
        mul_le_mul_of_nonneg_left h3 (by positivity)
      nlinarith
  have h3 : (1 + unit p) ^ j - 1 ≤ j * unit p * 32 :=
    (h2 j).trans (mul_le_mul_of_nonneg_left h1 (by positivity))
  calc stabilityErr p Λ j k ≤ (j * unit p * 32) * (2 * Λ * k) := mul_le_mul_of_nonneg_right h3 (by positivity)
    _ = _ := by ring

/-! ### the same code -/

/-- Exact operations. -/
def exactArith (D : Type) [CommRing D] [LinearOrder D] : Arith D where
  mass s n l k := s + n * (l - k)
  add a b := a + b
  gt a b := decide (a > b)

/-- With exact operations the functions are those of Model/Dendrogram.lean. -/
theorem C126_exact {D : Type} [CommRing D] [LinearOrder D] (inv : D → D) (m : Nat) (allow ret : Bool)
    (root : STree D) :
    condensedTreeA (exactArith D) inv m allow ret root =
      condensedTree inv m allow ret root := by
  have h1 : ∀ (s : STree D) (n : CNode D),
      condenseA (exactArith D) inv m n s = condense inv m n s := by
    intro s
    induction s with
    | leaf i => intro n; rfl
    | node c lv sz l r ihl ihr =>
      intro n
      rw [condenseA, condense]
      simp only [ihl, ihr]
      rfl
  have h2 : ∀ t : CTree D,
      selectA (exactArith D) t = select t := by
    intro t
    induction t with
    | leaf n => rfl
    | split n l r ihl ihr =>
      rw [selectA, select, ihl, ihr]
      simp only [exactArith, decide_eq_true_eq]
  simp only [condensedTreeA, condensedTree, condenseRootA, condenseRoot, h1, h2]
  rfl

/-! ### what rounding changes -/

/-- Two samples. -/
def pair {D : Type} (i j : Nat) (level : D) : STree D := .node i level 2 (.leaf i) (.leaf j)

/-- Six samples: two pairs at distance `c`, joined at `b`, and a third pair at `d`, joined at `a`. -/
def six {D : Type} (a b c d : D) : STree D :=
  .node 0 a 6 (.node 0 b 4 (pair 0 1 c) (pair 2 3 c)) (pair 4 5 d)

theorem six_good {a b c d : ℝ} (h0 : 0 ≤ c) (h1 : c ≤ b) (h2 : b ≤ a) (h3 : 0 ≤ d) (h4 : d ≤ a) :
    Good (six a b c d) where
  nodup := by simp [six, pair, STree.leaves]
  size := by simp [six, pair, STree.subtrees, STree.leaves, STree.size]
  height := by simp [six, pair, STree.subtrees, STree.children, STree.level, *]
  rep := by simp [six, pair, STree.subtrees, STree.leaves, STree.representative]

theorem six_leaves {a b c d : ℝ} (x : Nat) : x ∈ (six a b c d).leaves ↔ x < 6 := by
  simp [six, pair, STree.leaves]
  omega

/-- The labels depend on one comparison. -/
theorem six_labels {D : Type} [CommRing D] (A : Arith D) (inv : D → D) (a b c d : D) :
    extractFlat (condensedTreeA A inv 2 false false (six a b c d)) =
      if A.gt (A.add (A.mass 0 2 (inv c) (inv b)) (A.mass 0 2 (inv c) (inv b))) (A.mass 0 4 (inv b) (inv a)) = true
      then some [1, 1, 2, 2, 3, 3] else some [1, 1, 1, 1, 2, 2] := by
  have hc : condenseRootA A inv 2 (six a b c d) =
      .split ⟨six a b c d, 0, A.mass 0 6 (inv a) 0, false⟩
        (.split ⟨.node 0 b 4 (pair 0 1 c) (pair 2 3 c), inv a, A.mass 0 4 (inv b) (inv a), false⟩
          (.leaf ⟨pair 0 1 c, inv b, A.mass 0 2 (inv c) (inv b), true⟩)
          (.leaf ⟨pair 2 3 c, inv b, A.mass 0 2 (inv c) (inv b), true⟩))
        (.leaf ⟨pair 4 5 d, inv a, A.mass 0 2 (inv d) (inv a), true⟩) := rfl
  rw [condensedTreeA, hc]
  generalize A.mass 0 6 (inv a) 0 = s0
  generalize A.mass 0 4 (inv b) (inv a) = s1
  generalize A.mass 0 2 (inv c) (inv b) = s2
  generalize A.mass 0 2 (inv d) (inv a) = s3
  cases h : A.gt (A.add s2 s2) s1
  · cases h' : A.gt (A.add s1 s3) s0 <;> simp only [selectA, h, h', if_true, Bool.false_eq_true, if_false] <;> rfl
  · cases h' : A.gt (A.add (A.add s2 s2) s3) s0 <;> simp only [selectA, h, h', if_true, Bool.false_eq_true, if_false] <;> rfl

theorem divOne_of_lt {lv : ℝ} (h : epsilon 53 < lv) : divOne (epsilon 53) lv = 1 / lv := by
  rw [divOne, if_neg (by push Not; exact h.trans_le (le_abs_self lv))]

theorem epsilon_53 : epsilon 53 = 1 / 2 ^ 52 := by unfold epsilon; norm_num

theorem small_float {R : RoundingE 53 1024} (hfl : Computes R fl) {k e : ℤ} (hk : |k| ≤ 4) (he : -1074 ≤ e)
    (hlt : |(k : ℝ) * 2 ^ e| < (2 : ℝ) ^ (4 : ℤ)) : fl (k * 2 ^ e) = k * 2 ^ e :=
  hfl.of_float ⟨k, e, hk.trans (by norm_num), by unfold emin; norm_num; exact he, rfl⟩
    (hlt.trans_le (zpow_le_zpow_right₀ (by norm_num) (by norm_num)))

/-- Rounding changes the selection: two pairs are split by exact arithmetic, but not by any rounding to nearest
in double precision, since `1 - 2^-60` is rounded to 1. -/
theorem C126_selection_counterexample (R : RoundingE 53 1024) (fl : ℝ → ℝ) (hfl : Computes R fl) (fused : Bool) :
    Good (six (2 ^ 60 : ℝ) 1 (1 / 2) 1) ∧
    extractFlat (condensedTreeF fl fused (epsilon 53) 2 false false (six (2 ^ 60) 1 (1 / 2) 1)) =
      some [1, 1, 1, 1, 2, 2] ∧
    extractFlat (condensedTree (divOne (epsilon 53)) 2 false false (six (2 ^ 60) 1 (1 / 2) 1)) =
      some [1, 1, 2, 2, 3, 3] := by
  have d1 : divOne (epsilon 53) 1 = 1 := by rw [divOne_of_lt (by rw [epsilon_53]; norm_num)]; norm_num
  have d2 : divOne (epsilon 53) (1 / 2) = 2 := by rw [divOne_of_lt (by rw [epsilon_53]; norm_num)]; norm_num
  have d3 : divOne (epsilon 53) (2 ^ 60) = 1 / 2 ^ 60 := by rw [divOne_of_lt (by rw [epsilon_53]; norm_num)]
  have htop : (2 : ℝ) ^ (4 : ℤ) ≤ (2 : ℝ) ^ (1024 : ℤ) := zpow_le_zpow_right₀ (by norm_num) (by norm_num)
  have hfloat := fun k e h1 h2 h3 => small_float hfl (k := k) (e := e) h1 h2 h3
  have f1 : fl 1 = 1 := by simpa using hfloat 1 0 (by norm_num) (by norm_num) (by norm_num)
  have f2 : fl 2 = 2 := by simpa using hfloat 2 0 (by norm_num) (by norm_num) (by norm_num)
  have f4 : fl 4 = 4 := by simpa using hfloat 4 0 (by norm_num) (by norm_num) (by norm_num)
  have f60 : fl (1 / 2 ^ 60) = 1 / 2 ^ 60 := by
    have := hfloat 1 (-60) (by norm_num) (by norm_num) (by norm_num)
    norm_num at this ⊢
    exact this
  have fr : fl (1 - 1 / 2 ^ 60) = 1 := by
    have h1 : IsFloatE 53 1024 1 := ⟨1, 0, by norm_num, by unfold emin; norm_num, by simp⟩
    have h2 := R.nearest (1 - 1 / 2 ^ 60) 1 h1
    have h3 : |R.rnd (1 - 1 / 2 ^ 60) - 1| ≤ 1 / 2 ^ 59 := by
      rw [show (1 : ℝ) - (1 - 1 / 2 ^ 60) = 1 / 2 ^ 60 by ring,
        abs_of_nonneg (by positivity : (0 : ℝ) ≤ 1 / 2 ^ 60)] at h2
      generalize R.rnd (1 - 1 / 2 ^ 60) = y at h2
      rw [abs_le] at h2 ⊢
      norm_num at h2 ⊢
      constructor <;> linarith [h2.1, h2.2]
    have h4 : R.rnd (1 - 1 / 2 ^ 60) ≤ 1 := by
      have := R.mono (by norm_num : (1 : ℝ) - 1 / 2 ^ 60 ≤ 1)
      rwa [R.of_isFloat h1] at this
    have h5 := (abs_le.1 h3).1
    obtain ⟨k, e, hk, -, he⟩ := R.isFloat (1 - 1 / 2 ^ 60)
    have h6 : R.rnd (1 - 1 / 2 ^ 60) = 1 := by
      rcases le_or_gt (-53) e with hle | hlt
      · obtain ⟨d, hd⟩ := Int.le.dest hle
        have h7 : R.rnd (1 - 1 / 2 ^ 60) * 2 ^ 53 = ((k * 2 ^ d : ℤ) : ℝ) := by
          rw [he, ← hd, zpow_add₀ (by norm_num)]
          push_cast
          rw [zpow_natCast]
          norm_num
          ring
        have h8 : ((2 ^ 53 - 1 : ℤ) : ℝ) < ((k * 2 ^ d : ℤ) : ℝ) := by
          rw [← h7]
          norm_num at h5 ⊢
          linarith
        have h9 : ((k * 2 ^ d : ℤ) : ℝ) ≤ ((2 ^ 53 : ℤ) : ℝ) := by
          rw [← h7]
          norm_num
          linarith
        have h10 : k * 2 ^ d = 2 ^ 53 := by
          have a1 : (2 ^ 53 - 1 : ℤ) < k * 2 ^ d := by exact_mod_cast h8
          have a2 : k * 2 ^ d ≤ (2 ^ 53 : ℤ) := by exact_mod_cast h9
          omega
        rw [h10] at h7
        norm_num at h7
        linarith
      · exfalso
        have h7 : (k : ℝ) ≤ 2 ^ 53 := by
          have : k ≤ 2 ^ 53 := (le_abs_self k).trans hk
          exact_mod_cast this
        have h8 : (2 : ℝ) ^ e ≤ 1 / 2 ^ 54 := by
          calc (2 : ℝ) ^ e ≤ (2 : ℝ) ^ (-54 : ℤ) := zpow_le_zpow_right₀ (by norm_num) (by omega)
            _ = _ := by norm_num
        have h9 : (k : ℝ) * (2 : ℝ) ^ e ≤ 2 ^ 53 * (1 / 2 ^ 54) :=
          mul_le_mul h7 h8 (two_zpow_pos e).le (by norm_num)
        rw [he] at h5
        norm_num at h5 h9
        linarith
    rw [hfl _ (by rw [h6, abs_one]; exact lt_of_lt_of_le (by norm_num) htop), h6]
  refine ⟨six_good (by norm_num) (by norm_num) (by norm_num) (by norm_num) (by norm_num), ?_, ?_⟩
  · rw [condensedTreeF, six_labels]
    have m1 : (floatArith fl fused).mass 0 2 (fl (divOne (epsilon 53) (1 / 2))) (fl (divOne (epsilon 53) 1)) = 2 := by
      rw [d1, d2, f1, f2]
      cases fused <;> simp only [floatArith, Bool.false_eq_true, if_false, if_true, Nat.cast_ofNat] <;> norm_num [f1, f2]
    have m2 : (floatArith fl fused).mass 0 4 (fl (divOne (epsilon 53) 1)) (fl (divOne (epsilon 53) (2 ^ 60))) = 4 := by
      rw [d1, d3, f1, f60]
      cases fused <;> simp only [floatArith, Bool.false_eq_true, if_false, if_true, Nat.cast_ofNat, fr, f4, zero_add,
        mul_one]
    rw [m1, m2]
    have : (floatArith fl fused).gt ((floatArith fl fused).add 2 2) 4 = false := by
      simp only [floatArith]
      rw [show (2 : ℝ) + 2 = 4 by norm_num, f4]
      simp
    rw [this]
    rfl
  · rw [← C126_exact, six_labels]
    simp only [exactArith, d1, d2, d3]
    norm_num

/-- The clusters depend on the unit of length: the same six samples, all distances divided by `2^60`. -/
theorem C126_scale_counterexample (R : RoundingE 53 1024) (fl : ℝ → ℝ) (hfl : Computes R fl) (fused : Bool) :
    Good (six (4 : ℝ) 2 1 2) ∧
    extractFlat (condensedTreeF fl fused (epsilon 53) 2 false false (six 4 2 1 2)) = some [1, 1, 2, 2, 3, 3] ∧
    extractFlat (condensedTreeF fl fused (epsilon 53) 2 false false
      (six (4 / 2 ^ 60) (2 / 2 ^ 60) (1 / 2 ^ 60) (2 / 2 ^ 60))) = some [1, 1, 1, 1, 2, 2] := by
  have d1 : divOne (epsilon 53) 1 = 1 := by rw [divOne_of_lt (by rw [epsilon_53]; norm_num)]; norm_num
  have d2 : divOne (epsilon 53) 2 = 1 / 2 := by rw [divOne_of_lt (by rw [epsilon_53]; norm_num)]
  have d4 : divOne (epsilon 53) 4 = 1 / 4 := by rw [divOne_of_lt (by rw [epsilon_53]; norm_num)]
  have d0 : ∀ x : ℝ, 0 ≤ x → x ≤ 4 → divOne (epsilon 53) (x / 2 ^ 60) = 0 := by
    intro x h0 h4
    rw [divOne, if_pos]
    rw [abs_of_nonneg (by positivity), epsilon_53, div_le_div_iff₀ (by positivity) (by positivity)]
    norm_num
    linarith
  have hfloat := fun k e h1 h2 h3 => small_float hfl (k := k) (e := e) h1 h2 h3
  have f0 : fl 0 = 0 := by simpa using hfloat 0 0 (by norm_num) (by norm_num) (by norm_num)
  have f1 : fl 1 = 1 := by simpa using hfloat 1 0 (by norm_num) (by norm_num) (by norm_num)
  have f2 : fl 2 = 2 := by simpa using hfloat 2 0 (by norm_num) (by norm_num) (by norm_num)
  have f4 : fl 4 = 4 := by simpa using hfloat 4 0 (by norm_num) (by norm_num) (by norm_num)
  have fh : fl (1 / 2) = 1 / 2 := by
    have := hfloat 1 (-1) (by norm_num) (by norm_num) (by norm_num)
    norm_num at this ⊢
    exact this
  have fq : fl (1 / 4) = 1 / 4 := by
    have := hfloat 1 (-2) (by norm_num) (by norm_num) (by norm_num)
    norm_num at this ⊢
    exact this
  refine ⟨six_good (by norm_num) (by norm_num) (by norm_num) (by norm_num) (by norm_num), ?_, ?_⟩
  · rw [condensedTreeF, six_labels]
    have m1 : (floatArith fl fused).mass 0 2 (fl (divOne (epsilon 53) 1)) (fl (divOne (epsilon 53) 2)) = 1 := by
      rw [d1, d2, f1, fh]
      simp only [floatArith, Nat.cast_ofNat]
      rw [show (1 : ℝ) - 1 / 2 = 1 / 2 by norm_num, fh, f2, show (2 : ℝ) * (1 / 2) = 1 by norm_num, f1, zero_add, f1]
      simp
    have m2 : (floatArith fl fused).mass 0 4 (fl (divOne (epsilon 53) 2)) (fl (divOne (epsilon 53) 4)) = 1 := by
      rw [d2, d4, fh, fq]
      simp only [floatArith, Nat.cast_ofNat]
      rw [show (1 : ℝ) / 2 - 1 / 4 = 1 / 4 by norm_num, fq, f4, show (4 : ℝ) * (1 / 4) = 1 by norm_num, f1, zero_add,
        f1]
      simp
    rw [m1, m2]
    have : (floatArith fl fused).gt ((floatArith fl fused).add 1 1) 1 = true := by
      simp only [floatArith]
      rw [show (1 : ℝ) + 1 = 2 by norm_num, f2]
      norm_num
    rw [this]
    rfl
  · rw [condensedTreeF, six_labels]
    rw [d0 1 (by norm_num) (by norm_num), d0 2 (by norm_num) (by norm_num), d0 4 (by norm_num) (by norm_num), f0]
    have m0 : ∀ k, (floatArith fl fused).mass 0 k 0 0 = 0 := by
      intro k
      cases fused <;> simp [floatArith, f0]
    rw [m0, m0]
    have : (floatArith fl fused).gt ((floatArith fl fused).add 0 0) 0 = false := by simp [floatArith, f0]
    rw [this]
    rfl

/-! ### concrete cases -/

theorem six_level : ∀ s ∈ (six (4 : ℝ) 2 1 2).subtrees, |divOne (epsilon 53) s.level| ≤ 1 := by
  have h : ∀ lv : ℝ, 1 ≤ lv → |divOne (epsilon 53) lv| ≤ 1 := by
    intro lv h
    rw [divOne_of_lt (lt_of_lt_of_le (by rw [epsilon_53]; norm_num) h), abs_of_nonneg (by positivity)]
    exact div_le_one_of_le₀ h (by linarith)
  have h0 : |divOne (epsilon 53) 0| ≤ 1 := by
    rw [divOne, if_pos (by rw [abs_zero, epsilon_53]; positivity)]
    norm_num
  simp only [six, pair, STree.subtrees]
  intro s hs
  simp only [List.mem_cons, List.mem_append, List.not_mem_nil, or_false] at hs
  rcases hs with rfl | (rfl | (rfl | rfl | rfl) | (rfl | rfl | rfl)) | (rfl | rfl | rfl) <;>
    simp only [STree.level] <;> first | exact h0 | exact h _ (by norm_num)

theorem six_good' : Good (six (4 : ℝ) 2 1 2) :=
  six_good (by norm_num) (by norm_num) (by norm_num) (by norm_num) (by norm_num)

example (A : Arith ℝ) (ret : Bool) :=
  C126_labels A (fun x => x) (fun x => x) 2 false ret (six 4 2 1 2) six_good' 6 six_leaves

example := C126_stability (R := awayE 53 1024 (by norm_num)) (fl := (awayE 53 1024 (by norm_num)).rnd)
  (by norm_num) (by norm_num) (fun _ _ => rfl) true 2 (six 4 2 1 2) six_good' (by simp [six, pair, STree.leaves]) 1
  (zpow_le_one_of_nonpos₀ (by norm_num) (by norm_num)) six_level

example := C126_near_optimal (R := awayE 53 1024 (by norm_num)) (fl := (awayE 53 1024 (by norm_num)).rnd)
  (by norm_num) (by norm_num) (fun _ _ => rfl) true 2 false (six 4 2 1 2) six_good' 6 six_leaves (by norm_num) 1
  (zpow_le_one_of_nonpos₀ (by norm_num) (by norm_num)) six_level

/-- The three pairs are the best clusters of `six 4 2 1 2` by a margin: every rounding finds them. -/
example (R : RoundingE 53 1024) (fl : ℝ → ℝ) (hfl : Computes R fl) (fused : Bool) :
    ∃ flat, extractFlat (condensedTreeF fl fused (epsilon 53) 2 false false (six 4 2 1 2)) = some flat ∧
      extractFlat (condensedTree (divOne (epsilon 53)) 2 false false (six 4 2 1 2)) = some flat := by
  have d1 : divOne (epsilon 53) 1 = 1 := by rw [divOne_of_lt (by rw [epsilon_53]; norm_num)]; norm_num
  have d2 : divOne (epsilon 53) 2 = 1 / 2 := by rw [divOne_of_lt (by rw [epsilon_53]; norm_num)]
  have d4 : divOne (epsilon 53) 4 = 1 / 4 := by rw [divOne_of_lt (by rw [epsilon_53]; norm_num)]
  have hT : condenseRoot (divOne (epsilon 53)) 2 (six 4 2 1 2) =
      .split ⟨six 4 2 1 2, 0, 0 + (6 : Nat) * (divOne (epsilon 53) 4 - 0), false⟩
        (.split ⟨.node 0 2 4 (pair 0 1 1) (pair 2 3 1), divOne (epsilon 53) 4,
            0 + (4 : Nat) * (divOne (epsilon 53) 2 - divOne (epsilon 53) 4), false⟩
          (.leaf ⟨pair 0 1 1, divOne (epsilon 53) 2,
            0 + (2 : Nat) * (divOne (epsilon 53) 1 - divOne (epsilon 53) 2), true⟩)
          (.leaf ⟨pair 2 3 1, divOne (epsilon 53) 2,
            0 + (2 : Nat) * (divOne (epsilon 53) 1 - divOne (epsilon 53) 2), true⟩))
        (.leaf ⟨pair 4 5 2, divOne (epsilon 53) 4,
          0 + (2 : Nat) * (divOne (epsilon 53) 2 - divOne (epsilon 53) 4), true⟩) := rfl
  have herr := C126_error (p := 53) (n := 6) (by norm_num) (by norm_num) (Λ := 1) (by norm_num) (j := 3 + 2 * 6) (k := 6)
    (by norm_num)
  have hu : unit 53 = 1 / 2 ^ 53 := by unfold unit; norm_num
  rw [hu] at herr
  norm_num at herr
  obtain ⟨flat, e1, -, e2⟩ := C126_separated (by norm_num) (by norm_num) hfl fused 2 false (six 4 2 1 2) six_good' 6
    six_leaves (by norm_num) 1 (zpow_le_one_of_nonpos₀ (by norm_num) (by norm_num)) six_level _
    (by rw [hT]; exact .children _ (.children _ (.here _) (.here _)) (.here _)) (.inr (.inr (by simp))) (by
      rw [hT, d1, d2, d4]
      intro cs' h' hal hne
      cases h' with
      | here => simp [Allowed, CTree.isLeaf] at hal
      | children _ ha hb =>
        cases hb
        cases ha with
        | here =>
          simp only [totalStability, CTree.root, List.map_append, List.map_cons, List.map_nil, List.sum_append,
            List.sum_cons, List.sum_nil]
          norm_num
          linarith
        | children _ ha hb =>
          cases ha
          cases hb
          exact absurd rfl hne)
  exact ⟨flat, e1, e2⟩

example := C126_tiny (R := awayE 53 1024 (by norm_num)) (fl := (awayE 53 1024 (by norm_num)).rnd)
  (fun _ _ => rfl) true (fun x => x) 2 false (six (1 / 2 ^ 54) (1 / 2 ^ 55) (1 / 2 ^ 56) 0)
  (six_good (by norm_num) (by norm_num) (by norm_num) (by norm_num) (by norm_num)) 6 six_leaves (by
    simp only [six, pair, STree.subtrees]
    intro s hs
    simp only [List.mem_cons, List.mem_append, List.not_mem_nil, or_false] at hs
    rcases hs with rfl | (rfl | (rfl | rfl | rfl) | (rfl | rfl | rfl)) | (rfl | rfl | rfl) <;>
      simp only [STree.level] <;> rw [epsilon_53] <;> norm_num [abs_le])

end Verif.Dendrogram
