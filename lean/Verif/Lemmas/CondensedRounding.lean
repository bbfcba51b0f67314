import Verif.Model.CondensedRounding
import Verif.Lemmas.Condensed
import Verif.Lemmas.RoundingRange
import Mathlib.Analysis.SpecialFunctions.Exponential
import Mathlib.Analysis.Complex.ExponentialBounds

/-
The condensed tree built with some arithmetic beside the exact one.
-/

namespace Verif.Dendrogram

section Sim

variable {D : Type}

/-- Two condensed trees with the same clusters and marks, whose stabilities are related by `P`. -/
inductive Sim (P : D → CNode D → Prop) : CTree D → CTree D → Prop
  | leaf {a n : CNode D} (h1 : a.slink = n.slink) (h2 : a.selected = n.selected) (h3 : P a.stability n) :
      Sim P (.leaf a) (.leaf n)
  | split {a n : CNode D} {la l ra r : CTree D} (h1 : a.slink = n.slink) (h2 : a.selected = n.selected)
      (h3 : P a.stability n) (h4 : l.samples.length + r.samples.length ≤ n.slink.leaves.length)
      (hl : Sim P la l) (hr : Sim P ra r) : Sim P (.split a la ra) (.split n l r)

theorem Sim.slink {P : D → CNode D → Prop} {ta t : CTree D} (h : Sim P ta t) : ta.root.slink = t.root.slink := by
  cases h with
  | leaf h1 => exact h1
  | split h1 => exact h1

theorem Sim.isLeaf {P : D → CNode D → Prop} {ta t : CTree D} (h : Sim P ta t) : ta.isLeaf = t.isLeaf := by
  cases h <;> rfl

variable [Ring D]

theorem Sim.fresh {P : D → CNode D → Prop} {ta t : CTree D} (h : Sim P ta t) (hf : Fresh t) : Fresh ta := by
  induction h with
  | leaf _ h2 => exact h2.trans hf
  | split _ h2 _ _ _ _ ihl ihr => exact ⟨h2.trans hf.1, ihl hf.2.1, ihr hf.2.2⟩

/-- Building the tree keeps a relation between the two nodes under construction. -/
theorem condense_sim [LE D] (A : Arith D) (invA inv : D → D) (m : Nat) (P : D → CNode D → Prop)
    (I : CNode D → CNode D → STree D → Prop)
    (hleaf : ∀ a n i, I a n (.leaf i) → P a.stability { n with selected := true })
    (hend : ∀ a n c lv sz l r b, I a n (.node c lv sz l r) →
      P (a.addMassA A sz (invA lv)).stability { n.addMass sz (inv lv) with selected := b })
    (hleft : ∀ a n c lv sz l r, I a n (.node c lv sz l r) →
      I (a.addMassA A r.size (invA lv)) (n.addMass r.size (inv lv)) l)
    (hright : ∀ a n c lv sz l r, I a n (.node c lv sz l r) →
      I (a.addMassA A l.size (invA lv)) (n.addMass l.size (inv lv)) r)
    (hnew : ∀ a n c lv sz l r, I a n (.node c lv sz l r) →
      I ⟨l, invA lv, 0, false⟩ ⟨l, inv lv, 0, false⟩ l ∧ I ⟨r, invA lv, 0, false⟩ ⟨r, inv lv, 0, false⟩ r) :
    ∀ (s : STree D) (a n : CNode D), a.slink = n.slink → a.selected = n.selected → s ∈ n.slink.subtrees →
      Good n.slink → I a n s → Sim P (condenseA A invA m a s) (condense inv m n s) := by
  intro s
  induction s with
  | leaf i =>
    intro a n h1 _ _ _ hI
    exact .leaf h1 rfl (hleaf a n i hI)
  | node c lv sz l r ihl ihr =>
    intro a n h1 h2 hs hg hI
    have hl := STree.subtrees_trans _ hs l STree.left_mem
    have hr := STree.subtrees_trans _ hs r STree.right_mem
    rw [condenseA, condense]
    split
    · refine .split h1 h2 (hend a n c lv sz l r n.selected hI) ?_
        (ihl _ _ rfl rfl (STree.self_mem_subtrees _) (hg.sub hl) (hnew a n c lv sz l r hI).1)
        (ihr _ _ rfl rfl (STree.self_mem_subtrees _) (hg.sub hr) (hnew a n c lv sz l r hI).2)
      have := STree.leaves_length_le hg.nodup hs
      simp only [CTree.samples, (condense_root inv m _ _).1, CNode.addMass]
      simpa [STree.leaves] using this
    · split
      · exact ihl _ _ h1 h2 hl hg (hleft a n c lv sz l r hI)
      · split
        · exact ihr _ _ h1 h2 hr hg (hright a n c lv sz l r hI)
        · exact .leaf h1 rfl (hend a n c lv sz l r true hI)

/-- The selection keeps a relation between the returned stability and the cut that is selected. -/
theorem select_sim (A : Arith D) (P : D → CNode D → Prop) (Q : CTree D → D → List (CTree D) → Prop)
    (h0 : ∀ n s, P s n → Q (.leaf n) s [.leaf n])
    (h1 : ∀ n s l r sl sr a b, P s n → l.samples.length + r.samples.length ≤ n.slink.leaves.length →
      Cut l a → Cut r b → Q l sl a → Q r sr b →
      if A.gt (A.add sl sr) s = true then Q (.split n l r) (A.add sl sr) (a ++ b)
      else Q (.split n l r) s [.split n l r]) :
    ∀ {ta t : CTree D}, Sim P ta t → Fresh t →
      ∃ ns cs, shallowest (selectA A ta).1 = some ns ∧ Cut t cs ∧
        ns.map (fun n => n.slink) = cs.map (fun c => c.root.slink) ∧
        (selectA A ta).1.root.slink = t.root.slink ∧ Q t (selectA A ta).2 cs := by
  intro ta t h
  induction h with
  | @leaf a n e1 e2 e3 =>
    intro hf
    have hf : n.selected = true := hf
    refine ⟨[a], [.leaf n], ?_, .here _, by simp [e1, CTree.root], e1, h0 n _ e3⟩
    rw [selectA, shallowest, if_pos (e2.trans hf)]
  | @split a n la l ra r e1 e2 e3 e4 _ _ ihl ihr =>
    rintro ⟨f0, f1, f2⟩
    obtain ⟨na, ca, s1, c1, m1, -, q1⟩ := ihl f1
    obtain ⟨nb, cb, s2, c2, m2, -, q2⟩ := ihr f2
    have hq := h1 n _ l r _ _ _ _ e3 e4 c1 c2 q1 q2
    rw [selectA]
    dsimp only
    split
    · rename_i hgt
      rw [if_pos hgt] at hq
      refine ⟨na ++ nb, ca ++ cb, ?_, .children n c1 c2, by simp [m1, m2], e1, hq⟩
      dsimp only
      rw [shallowest, if_neg (by simp [e2, f0]), s1, s2]
      rfl
    · rename_i hgt
      rw [if_neg hgt] at hq
      exact ⟨[{ a with selected := true }], [.split n l r], rfl, .here _, by simp [e1, CTree.root], e1, hq⟩

/-- The clusters that are returned, for all options. -/
theorem tree_sim [LE D] (A : Arith D) (invA inv : D → D) (m : Nat) (allow ret : Bool) (root : STree D)
    (P : D → CNode D → Prop) (Q : CTree D → D → List (CTree D) → Prop)
    (hS : Sim P (condenseRootA A invA m root) (condenseRoot inv m root))
    (h0 : ∀ n s, P s n → Q (.leaf n) s [.leaf n])
    (h1 : ∀ n s l r sl sr a b, P s n → l.samples.length + r.samples.length ≤ n.slink.leaves.length →
      Cut l a → Cut r b → Q l sl a → Q r sr b →
      if A.gt (A.add sl sr) s = true then Q (.split n l r) (A.add sl sr) (a ++ b)
      else Q (.split n l r) s [.split n l r]) :
    ∃ ns cs, shallowest (condensedTreeA A invA m allow ret root) = some ns ∧
      (condensedTreeA A invA m allow ret root).root.slink = root ∧ Cut (condenseRoot inv m root) cs ∧
      ns.map (fun n => n.slink) = cs.map (fun c => c.root.slink) ∧
      (ret = true → ∀ c ∈ cs, c.isLeaf = true) ∧
      (ret = false → Allowed allow (condenseRoot inv m root) cs ∧
        ((allow = true ∨ (condenseRoot inv m root).isLeaf = true) ∧ (∃ v, Q (condenseRoot inv m root) v cs) ∨
          allow = false ∧ ∃ n l r sl sr a b, condenseRoot inv m root = .split n l r ∧ cs = a ++ b ∧
            (∃ s, P s n) ∧ l.samples.length + r.samples.length ≤ n.slink.leaves.length ∧
            Cut l a ∧ Cut r b ∧ Q l sl a ∧ Q r sr b)) := by
  have hfresh : Fresh (condenseRoot inv m root) := condense_fresh inv m root _ rfl
  have hroot : (condenseRoot inv m root).root.slink = root := (condense_root inv m root _).1
  generalize condenseRoot inv m root = t at *
  unfold condensedTreeA
  generalize condenseRootA A invA m root = ta at *
  dsimp only
  cases ret with
  | true =>
    rw [if_pos rfl]
    -- the leaf clusters of both trees
    have key : ∀ {ta t : CTree D}, Sim P ta t → Fresh t → ∃ ns cs, shallowest ta = some ns ∧ Cut t cs ∧
        ns.map (fun n => n.slink) = cs.map (fun c => c.root.slink) ∧ ∀ c ∈ cs, c.isLeaf = true := by
      intro ta t h
      induction h with
      | @leaf a n e1 e2 _ =>
        intro hf
        have hf : n.selected = true := hf
        exact ⟨[a], [.leaf n], by rw [shallowest, if_pos (e2.trans hf)], .here _, by simp [e1, CTree.root],
          by simp [CTree.isLeaf]⟩
      | @split a n la l ra r e1 e2 _ _ _ _ ihl ihr =>
        rintro ⟨f0, f1, f2⟩
        obtain ⟨na, ca, s1, c1, m1, l1⟩ := ihl f1
        obtain ⟨nb, cb, s2, c2, m2, l2⟩ := ihr f2
        refine ⟨na ++ nb, ca ++ cb, ?_, .children n c1 c2, by simp [m1, m2], ?_⟩
        · rw [shallowest, if_neg (by simp [e2, f0]), s1, s2]; rfl
        · intro c hc
          rcases List.mem_append.1 hc with hc | hc
          · exact l1 c hc
          · exact l2 c hc
    obtain ⟨ns, cs, k1, k2, k3, k4⟩ := key hS hfresh
    exact ⟨ns, cs, k1, hS.slink.trans hroot, k2, k3, fun _ => k4, by simp⟩
  | false =>
    rw [if_neg (by simp)]
    have hleaf : (selectA A ta).1.isLeaf = t.isLeaf := by
      rw [← hS.isLeaf]
      cases ta with
      | leaf n => rfl
      | split n l r => rw [selectA]; dsimp only; split <;> rfl
    rw [hleaf]
    by_cases hc : (!allow && !t.isLeaf) = true
    · rw [if_pos hc]
      simp only [Bool.and_eq_true, Bool.not_eq_true'] at hc
      cases hS with
      | leaf => simp [CTree.isLeaf] at hc
      | @split a n la l ra r e1 e2 e3 e4 hl hr =>
        obtain ⟨_, f1, f2⟩ := hfresh
        obtain ⟨na, ca, s1, c1, m1, -, q1⟩ := select_sim A P Q h0 h1 hl f1
        obtain ⟨nb, cb, s2, c2, m2, -, q2⟩ := select_sim A P Q h0 h1 hr f2
        refine ⟨na ++ nb, ca ++ cb, ?_, ?_, .children n c1 c2, by simp [m1, m2], by simp, fun _ => ⟨?_, ?_⟩⟩
        · rw [selectA]
          dsimp only
          split <;> · simp only [CTree.unselectRoot, shallowest]; rw [s1, s2]; rfl
        · rw [selectA]
          dsimp only
          split <;> exact e1.trans hroot
        · have := c1.length_pos
          have := c2.length_pos
          exact .inr (.inr (by rw [List.length_append]; omega))
        · exact .inr ⟨hc.1, n, l, r, _, _, ca, cb, rfl, rfl, ⟨_, e3⟩, e4, c1, c2, q1, q2⟩
    · rw [if_neg hc]
      obtain ⟨ns, cs, k1, k2, k3, k4, k5⟩ := select_sim A P Q h0 h1 hS hfresh
      have hor : allow = true ∨ t.isLeaf = true := by
        cases allow <;> simp_all
      refine ⟨ns, cs, k1, k4.trans hroot, k2, k3, by simp, fun _ => ⟨?_, .inl ⟨hor, _, k5⟩⟩⟩
      rcases hor with h | h
      · exact .inl h
      · exact .inr (.inl h)

end Sim

/-! ### errors -/

section Near

/-- `y` is an approximation of `x` after `j` roundings, where no number involved exceeds `A`. -/
def Near (u : ℝ) (j : Nat) (A y x : ℝ) : Prop := |y - x| ≤ ((1 + u) ^ j - 1) * A ∧ |x| ≤ A

variable {u : ℝ} {j k : Nat} {A B x y x' y' : ℝ}

theorem pow_sub_one_nonneg (hu : 0 ≤ u) (j : Nat) : 0 ≤ (1 + u) ^ j - 1 := by
  have : (1 : ℝ) ≤ (1 + u) ^ j := one_le_pow₀ (by linarith)
  linarith

theorem Near.mono (hu : 0 ≤ u) (h : Near u j A y x) (hj : j ≤ k) (hA : A ≤ B) : Near u k B y x := by
  have h0 : 0 ≤ A := (abs_nonneg x).trans h.2
  have h1 : (1 + u) ^ j ≤ (1 + u) ^ k := pow_le_pow_right₀ (by linarith) hj
  exact ⟨h.1.trans (mul_le_mul (by linarith) hA h0 (pow_sub_one_nonneg hu k)), h.2.trans hA⟩

theorem Near.abs_le (h : Near u j A y x) : |y| ≤ (1 + u) ^ j * A := by
  have := abs_add_le (y - x) x
  rw [sub_add_cancel] at this
  linarith [h.1, h.2]

theorem Near.add (h : Near u j A y x) (h' : Near u j B y' x') : Near u j (A + B) (y + y') (x + x') := by
  refine ⟨?_, (abs_add_le _ _).trans (add_le_add h.2 h'.2)⟩
  rw [add_sub_add_comm, mul_add]
  exact (abs_add_le _ _).trans (add_le_add h.1 h'.1)

theorem Near.neg (h : Near u j A y x) : Near u j A (-y) (-x) := by
  refine ⟨?_, by rw [abs_neg]; exact h.2⟩
  rw [neg_sub_neg, abs_sub_comm]
  exact h.1

theorem Near.sub (h : Near u j A y x) (h' : Near u j B y' x') : Near u j (A + B) (y - y') (x - x') := by
  rw [sub_eq_add_neg, sub_eq_add_neg]
  exact h.add h'.neg

theorem Near.smul (h : Near u j A y x) (n : Nat) : Near u j (A * n) (n * y) (n * x) := by
  have hn : (0 : ℝ) ≤ n := Nat.cast_nonneg n
  refine ⟨?_, ?_⟩
  · rw [← mul_sub, abs_mul, abs_of_nonneg hn]
    calc _ ≤ (n : ℝ) * (((1 + u) ^ j - 1) * A) := mul_le_mul_of_nonneg_left h.1 hn
      _ = _ := by ring
  · rw [abs_mul, abs_of_nonneg hn, mul_comm]
    exact mul_le_mul_of_nonneg_right h.2 hn

/-- What is needed of an operation: it errs by at most `u` relatively, or absolutely for results below `w`, up
to results of `M`. -/
def Small (u w M : ℝ) (fl : ℝ → ℝ) : Prop := ∀ x, |x| ≤ M → |fl x - x| ≤ u * max |x| w

theorem Near.round {w M : ℝ} {fl : ℝ → ℝ} (hu : 0 ≤ u) (hfl : Small u w M fl) (h : Near u j A y x) (hw : w ≤ A)
    (hM : (1 + u) ^ j * A ≤ M) : Near u (j + 1) A (fl y) x := by
  refine ⟨?_, h.2⟩
  have hA : 0 ≤ A := (abs_nonneg x).trans h.2
  have h1 : (1 : ℝ) ≤ (1 + u) ^ j := one_le_pow₀ (by linarith)
  have h2 := hfl y (h.abs_le.trans hM)
  have h3 : max |y| w ≤ (1 + u) ^ j * A := max_le h.abs_le (by nlinarith)
  have h4 := mul_le_mul_of_nonneg_left h3 hu
  have h5 := abs_add_le (fl y - y) (y - x)
  rw [sub_add_sub_cancel] at h5
  calc _ ≤ u * ((1 + u) ^ j * A) + ((1 + u) ^ j - 1) * A := by linarith [h.1]
    _ = _ := by rw [pow_succ]; ring

end Near

section Numeric

variable {u w Λ M : ℝ} {N : Nat} {fl : ℝ → ℝ}

/-- The conditions under which all computed numbers are in range. -/
structure InRange (u w Λ M : ℝ) (N : Nat) (fl : ℝ → ℝ) : Prop where
  hu : 0 ≤ u
  hw : 0 ≤ w
  hΛ : w ≤ Λ
  small : Small u w M fl
  nat : ∀ k : Nat, k ≤ N → fl k = k
  top : (1 + u) ^ (2 * N + 3) * (2 * Λ * N) ≤ M

theorem InRange.le (H : InRange u w Λ M N fl) {j k : Nat} (hj : j ≤ 2 * N + 3) (hk : k ≤ N) :
    (1 + u) ^ j * (2 * Λ * k) ≤ M := by
  have hu := H.hu
  have hΛ : 0 ≤ Λ := H.hw.trans H.hΛ
  have h1 : (1 + u) ^ j ≤ (1 + u) ^ (2 * N + 3) := pow_le_pow_right₀ (by linarith) hj
  have h2 : (k : ℝ) ≤ N := by exact_mod_cast hk
  exact (mul_le_mul h1 (mul_le_mul_of_nonneg_left h2 (by linarith)) (by positivity) (by positivity)).trans H.top

theorem InRange.ge (H : InRange u w Λ M N fl) {k : Nat} (hk : 1 ≤ k) : w ≤ 2 * Λ * k := by
  have hΛ : 0 ≤ Λ := H.hw.trans H.hΛ
  have : (1 : ℝ) ≤ k := by exact_mod_cast hk
  nlinarith [H.hΛ]

/-- One call of `add_excess_of_mass`. -/
theorem mass_near (H : InRange u w Λ M N fl) (fused : Bool) {a k : Nat} {s' s l' l m' m : ℝ}
    (hs : Near u (3 + a) (2 * Λ * a) s' s) (hl : Near u 1 Λ l' l) (hm : Near u 1 Λ m' m) (hk : 1 ≤ k)
    (hN : a + k ≤ N) :
    Near u (3 + (a + k)) (2 * Λ * (a + k : Nat)) ((floatArith fl fused).mass s' k l' m') (s + k * (l - m)) := by
  have hu := H.hu
  have hΛ : 0 ≤ Λ := H.hw.trans H.hΛ
  have e1 : Λ + Λ = 2 * Λ * (1 : Nat) := by push_cast; ring
  have h1 : Near u 2 (2 * Λ * (1 : Nat)) (fl (l' - m')) (l - m) := by
    refine Near.round hu H.small (j := 1) ?_ (H.ge le_rfl) (H.le (by omega) (by omega))
    rw [← e1]
    exact hl.sub hm
  have h2 : Near u 2 (2 * Λ * k) (k * fl (l' - m')) (k * (l - m)) := by
    have := h1.smul k
    simpa using this
  have hsum : ∀ q, Near u 3 (2 * Λ * k) q (k * (l - m)) →
      Near u (3 + (a + k)) (2 * Λ * (a + k : Nat)) (fl (s' + q)) (s + k * (l - m)) := by
    intro q hq
    have h3 : Near u (3 + a) (2 * Λ * (a + k : Nat)) (s' + q) (s + k * (l - m)) := by
      have := hs.add (hq.mono hu (by omega : 3 ≤ 3 + a) le_rfl)
      rwa [← mul_add, ← Nat.cast_add] at this
    have h4 := h3.round hu H.small (H.ge (by omega)) (H.le (by omega) hN)
    exact h4.mono hu (by omega) le_rfl
  unfold floatArith
  dsimp only
  rw [H.nat k (by omega)]
  split
  · exact hsum _ (h2.mono hu (by omega) le_rfl)
  · exact hsum _ (h2.round hu H.small (H.ge hk) (H.le (by omega) (by omega)))

/-- The relation between computed and exact stabilities. -/
def StabilityNear (u Λ : ℝ) (N : Nat) (s : ℝ) (n : CNode ℝ) : Prop :=
  Near u (3 + n.slink.leaves.length) (2 * Λ * n.slink.leaves.length) s n.stability ∧ n.slink.leaves.length ≤ N

theorem condense_near (H : InRange u w Λ M N fl) (fused : Bool) (inv : ℝ → ℝ) (m : Nat) (root : STree ℝ)
    (hg : Good root) (hN : root.leaves.length ≤ N) (hinv : ∀ s ∈ root.subtrees, |inv s.level| ≤ Λ) :
    Sim (StabilityNear u Λ N) (condenseRootA (floatArith fl fused) (fun lv => fl (inv lv)) m root)
      (condenseRoot inv m root) := by
  have hu := H.hu
  have hΛ : 0 ≤ Λ := H.hw.trans H.hΛ
  have near0 : ∀ (j : Nat) (B : ℝ), 0 ≤ B → Near u j B 0 0 := fun j B hB =>
    ⟨by simpa using mul_nonneg (pow_sub_one_nonneg hu j) hB, by simpa using hB⟩
  let I : CNode ℝ → CNode ℝ → STree ℝ → Prop := fun a n s =>
    s ∈ root.subtrees ∧ n.slink.leaves.length ≤ N ∧ Near u 1 Λ a.lambdaMin n.lambdaMin ∧
      ∃ k : Nat, k + s.leaves.length = n.slink.leaves.length ∧ Near u (3 + k) (2 * Λ * k) a.stability n.stability
  have hpos : 1 ≤ N := Nat.le_trans (STree.leaves_length_pos root) hN
  have inear : ∀ c lv sz l r, STree.node c lv sz l r ∈ root.subtrees → Near u 1 Λ (fl (inv lv)) (inv lv) := by
    intro c lv sz l r hs
    have h := hinv _ hs
    simp only [STree.level] at h
    refine Near.round hu H.small (j := 0) ⟨by simp, h⟩ H.hΛ ?_
    have := H.le (j := 0) (k := 1) (by omega) hpos
    rw [Nat.cast_one] at this
    linarith
  have step : ∀ a n c lv sz l r (x : STree ℝ) (k' : Nat), I a n (.node c lv sz l r) →
      x ∈ root.subtrees → k' + x.leaves.length = l.leaves.length + r.leaves.length → 1 ≤ k' →
      I (a.addMassA (floatArith fl fused) k' (fl (inv lv))) (n.addMass k' (inv lv)) x := by
    rintro a n c lv sz l r x k' ⟨hs, hn, hm, k, hk, hst⟩ hx hlen hk1
    simp only [STree.leaves, List.length_append] at hk
    refine ⟨hx, hn, hm, k + k', ?_, ?_⟩
    · simp only [CNode.addMass]; omega
    · exact mass_near H fused hst (inear c lv sz l r hs) hm hk1 (by omega)
  refine condense_sim _ _ inv m _ I ?_ ?_ ?_ ?_ ?_ root ⟨root, 0, 0, false⟩ ⟨root, 0, 0, false⟩ rfl rfl
    (STree.self_mem_subtrees _) hg ⟨STree.self_mem_subtrees _, hN, near0 _ _ hΛ, 0, by simp, near0 _ _ (by simp)⟩
  · rintro a n i ⟨_, hn, _, k, hk, hst⟩
    refine ⟨hst.mono hu (by dsimp only; omega) ?_, hn⟩
    exact mul_le_mul_of_nonneg_left (by exact_mod_cast (by dsimp only; omega)) (by linarith)
  · rintro a n c lv sz l r b ⟨hs, hn, hm, k, hk, hst⟩
    have hsz : sz = (STree.node c lv sz l r).leaves.length := hg.size _ hs
    have h1 := STree.leaves_length_pos (.node c lv sz l r)
    have := mass_near H fused hst (inear c lv sz l r hs) hm (k := sz) (by omega) (by omega)
    refine ⟨?_, hn⟩
    simp only [CNode.addMassA, CNode.addMass]
    have e : k + sz = n.slink.leaves.length := by omega
    rw [e] at this
    exact this
  · rintro a n c lv sz l r hI
    have hl := STree.subtrees_trans _ hI.1 l STree.left_mem
    have hr := STree.subtrees_trans _ hI.1 r STree.right_mem
    have e := hg.size _ hr
    have h1 := STree.leaves_length_pos r
    exact step a n c lv sz l r l r.size hI hl (by omega) (by omega)
  · rintro a n c lv sz l r hI
    have hl := STree.subtrees_trans _ hI.1 l STree.left_mem
    have hr := STree.subtrees_trans _ hI.1 r STree.right_mem
    have e := hg.size _ hl
    have h1 := STree.leaves_length_pos l
    exact step a n c lv sz l r r l.size hI hr (by omega) (by omega)
  · rintro a n c lv sz l r ⟨hs, hn, hm, k, hk, hst⟩
    have hl := STree.subtrees_trans _ hs l STree.left_mem
    have hr := STree.subtrees_trans _ hs r STree.right_mem
    simp only [STree.leaves, List.length_append] at hk
    exact ⟨⟨hl, by dsimp only; omega, inear c lv sz l r hs, 0, by simp, near0 _ _ (by simp)⟩,
      ⟨hr, by dsimp only; omega, inear c lv sz l r hs, 0, by simp, near0 _ _ (by simp)⟩⟩

/-- The returned stability is close to that of the selected cut, and no cut exceeds it by much. -/
def CutNear (u Λ : ℝ) (N : Nat) (t : CTree ℝ) (v : ℝ) (cs : List (CTree ℝ)) : Prop :=
  1 ≤ t.samples.length ∧ t.samples.length ≤ N ∧
  Near u (3 + 2 * t.samples.length) (2 * Λ * t.samples.length) v (totalStability cs) ∧
  ∀ cs', Cut t cs' → totalStability cs' ≤
    v + ((1 + u) ^ (3 + 2 * t.samples.length) - 1) * (2 * Λ * t.samples.length)

theorem cutNear_leaf (H : InRange u w Λ M N fl) (n : CNode ℝ) (s : ℝ) (h : StabilityNear u Λ N s n) :
    CutNear u Λ N (.leaf n) s [.leaf n] := by
  have h1 := h.1.mono H.hu (by omega : _ ≤ 3 + 2 * n.slink.leaves.length) le_rfl
  refine ⟨STree.leaves_length_pos n.slink, h.2, ?_, ?_⟩
  · simpa [totalStability, CTree.samples, CTree.root] using h1
  · intro cs' h'
    cases h'
    have := (abs_le.1 h1.1).1
    simp only [totalStability, CTree.samples, CTree.root, List.map_cons, List.map_nil, List.sum_cons, List.sum_nil]
    linarith

theorem cutNear_split (H : InRange u w Λ M N fl) (fused : Bool) (n : CNode ℝ) (s : ℝ) (l r : CTree ℝ) (sl sr : ℝ)
    (a b : List (CTree ℝ)) (h : StabilityNear u Λ N s n)
    (hlen : l.samples.length + r.samples.length ≤ n.slink.leaves.length) (_ : Cut l a) (_ : Cut r b)
    (ha : CutNear u Λ N l sl a) (hb : CutNear u Λ N r sr b) :
    if (floatArith fl fused).gt ((floatArith fl fused).add sl sr) s = true then
      CutNear u Λ N (.split n l r) ((floatArith fl fused).add sl sr) (a ++ b)
    else CutNear u Λ N (.split n l r) s [.split n l r] := by
  have hu := H.hu
  have hΛ : 0 ≤ Λ := H.hw.trans H.hΛ
  obtain ⟨a1, a2, a3, a4⟩ := ha
  obtain ⟨b1, b2, b3, b4⟩ := hb
  have es : (CTree.split n l r).samples.length = n.slink.leaves.length := rfl
  obtain ⟨hn, hnN⟩ := h
  simp only [floatArith, decide_eq_true_eq, CutNear, es]
  generalize n.slink.leaves.length = k at *
  generalize l.samples.length = k1 at *
  generalize r.samples.length = k2 at *
  have hn' := hn.mono hu (by omega : _ ≤ 3 + 2 * k) le_rfl
  have hhere : n.stability ≤ s + ((1 + u) ^ (3 + 2 * k) - 1) * (2 * Λ * k) := by
    have := (abs_le.1 hn'.1).1
    linarith
  -- both halves with the same exponent
  have hcast : ((k1 + k2 : Nat) : ℝ) ≤ k := by exact_mod_cast hlen
  have e12 : 2 * Λ * k1 + 2 * Λ * k2 = 2 * Λ * (k1 + k2 : Nat) := by push_cast; ring
  have hsum : Near u (2 + 2 * k) (2 * Λ * (k1 + k2 : Nat)) (sl + sr) (totalStability a + totalStability b) := by
    rw [← e12]
    exact (a3.mono hu (by omega) le_rfl).add (b3.mono hu (by omega) le_rfl)
  have hA : 2 * Λ * (k1 + k2 : Nat) ≤ 2 * Λ * k := mul_le_mul_of_nonneg_left hcast (by linarith)
  have hround : Near u (3 + 2 * k) (2 * Λ * k) (fl (sl + sr)) (totalStability (a ++ b)) := by
    rw [totalStability_append]
    have := hsum.round hu H.small (H.ge (by omega)) (H.le (by omega) (by omega))
    exact this.mono hu (by omega) hA
  have hchild : ∀ a' b', Cut l a' → Cut r b' → totalStability (a' ++ b') ≤
      fl (sl + sr) + ((1 + u) ^ (3 + 2 * k) - 1) * (2 * Λ * k) := by
    intro a' b' ha' hb'
    rw [totalStability_append]
    have g1 := a4 a' ha'
    have g2 := b4 b' hb'
    have p1 : (1 + u) ^ (3 + 2 * k1) ≤ (1 + u) ^ (2 + 2 * k) := pow_le_pow_right₀ (by linarith) (by omega)
    have p2 : (1 + u) ^ (3 + 2 * k2) ≤ (1 + u) ^ (2 + 2 * k) := pow_le_pow_right₀ (by linarith) (by omega)
    have q1 := mul_le_mul_of_nonneg_right (sub_le_sub_right p1 1) (by positivity : 0 ≤ 2 * Λ * k1)
    have q2 := mul_le_mul_of_nonneg_right (sub_le_sub_right p2 1) (by positivity : 0 ≤ 2 * Λ * k2)
    have q3 : ((1 + u) ^ (2 + 2 * k) - 1) * (2 * Λ * k1) + ((1 + u) ^ (2 + 2 * k) - 1) * (2 * Λ * k2) =
        ((1 + u) ^ (2 + 2 * k) - 1) * (2 * Λ * (k1 + k2 : Nat)) := by rw [← mul_add, e12]
    have q4 := mul_le_mul_of_nonneg_left hA (pow_sub_one_nonneg hu (2 + 2 * k))
    have r1 := H.small (sl + sr) (hsum.abs_le.trans (H.le (by omega) (by omega)))
    have hone : (1 : ℝ) ≤ (1 + u) ^ (2 + 2 * k) := one_le_pow₀ (by linarith)
    have r2 : max |sl + sr| w ≤ (1 + u) ^ (2 + 2 * k) * (2 * Λ * k) := by
      have := H.ge (k := k1 + k2) (by omega)
      refine max_le (hsum.abs_le.trans (mul_le_mul_of_nonneg_left hA (by positivity))) ?_
      nlinarith [H.hw]
    have r3 := mul_le_mul_of_nonneg_left r2 hu
    have r4 := (abs_le.1 r1).1
    have r5 : (1 + u) ^ (3 + 2 * k) = (1 + u) ^ (2 + 2 * k) * (1 + u) := by
      rw [← pow_succ]; congr 1; omega
    rw [r5]
    generalize (1 + u) ^ (2 + 2 * k) = P at *
    nlinarith
  have cover : ∀ v, n.stability ≤ v + ((1 + u) ^ (3 + 2 * k) - 1) * (2 * Λ * k) → fl (sl + sr) ≤ v →
      ∀ cs', Cut (.split n l r) cs' → totalStability cs' ≤ v + ((1 + u) ^ (3 + 2 * k) - 1) * (2 * Λ * k) := by
    intro v hv1 hv2 cs' h'
    cases h' with
    | here => simpa [totalStability, CTree.root] using hv1
    | children _ ha' hb' => exact (hchild _ _ ha' hb').trans (by linarith)
  split
  · rename_i hgt
    exact ⟨by omega, hnN, hround, cover _ (by linarith) le_rfl⟩
  · rename_i hgt
    refine ⟨by omega, hnN, ?_, cover _ hhere (by linarith)⟩
    simpa [totalStability, CTree.root] using hn'

/-- The selected cut is within twice the error of the best one. -/
theorem tree_near (H : InRange u w Λ M N fl) (fused : Bool) (inv : ℝ → ℝ) (m : Nat) (allow : Bool) (root : STree ℝ)
    (hg : Good root) (hN : root.leaves.length ≤ N) (hinv : ∀ s ∈ root.subtrees, |inv s.level| ≤ Λ) :
    ∃ ns cs, shallowest (condensedTreeA (floatArith fl fused) (fun lv => fl (inv lv)) m allow false root) = some ns ∧
      (condensedTreeA (floatArith fl fused) (fun lv => fl (inv lv)) m allow false root).root.slink = root ∧
      Cut (condenseRoot inv m root) cs ∧ ns.map (fun n => n.slink) = cs.map (fun c => c.root.slink) ∧
      Allowed allow (condenseRoot inv m root) cs ∧
      ∀ cs', Cut (condenseRoot inv m root) cs' → Allowed allow (condenseRoot inv m root) cs' →
        totalStability cs' ≤ totalStability cs +
          2 * (((1 + u) ^ (3 + 2 * root.leaves.length) - 1) * (2 * Λ * root.leaves.length)) := by
  have hu := H.hu
  have hΛ : 0 ≤ Λ := H.hw.trans H.hΛ
  obtain ⟨ns, cs, h1, h2, h3, h4, -, h6⟩ := tree_sim (floatArith fl fused) (fun lv => fl (inv lv)) inv m allow false
    root _ _ (condense_near H fused inv m root hg hN hinv) (cutNear_leaf H) (cutNear_split H fused)
  obtain ⟨h6, h7⟩ := h6 rfl
  refine ⟨ns, cs, h1, h2, h3, h4, h6, ?_⟩
  have hroot : (condenseRoot inv m root).samples = root.leaves := by
    rw [CTree.samples, condenseRoot, (condense_root inv m root _).1]
  rcases h7 with ⟨-, v, hv⟩ | ⟨hall, n, l, r, sl, sr, a, b, et, rfl, -, hlen, hca, hcb, ha, hb⟩
  · intro cs' hc' _
    obtain ⟨-, -, h8, h9⟩ := hv
    rw [hroot] at h8 h9
    have := h9 cs' hc'
    have := (abs_le.1 h8.1).2
    linarith
  · rw [et] at hroot ⊢
    intro cs' hc' hal
    cases hc' with
    | here =>
      rcases hal with h | h | h
      · rw [hall] at h; simp at h
      · simp [CTree.isLeaf] at h
      · simp at h
    | children _ ha' hb' =>
      obtain ⟨a1, -, a3, a4⟩ := ha
      obtain ⟨b1, -, b3, b4⟩ := hb
      have g1 := a4 _ ha'
      have g2 := b4 _ hb'
      have g3 := (abs_le.1 a3.1).2
      have g4 := (abs_le.1 b3.1).2
      rw [totalStability_append, totalStability_append]
      have e : n.slink.leaves = root.leaves := hroot
      rw [e] at hlen
      generalize root.leaves.length = k at *
      generalize l.samples.length = k1 at *
      generalize r.samples.length = k2 at *
      have p1 : (1 + u) ^ (3 + 2 * k1) ≤ (1 + u) ^ (3 + 2 * k) := pow_le_pow_right₀ (by linarith) (by omega)
      have p2 : (1 + u) ^ (3 + 2 * k2) ≤ (1 + u) ^ (3 + 2 * k) := pow_le_pow_right₀ (by linarith) (by omega)
      have q1 := mul_le_mul_of_nonneg_right (sub_le_sub_right p1 1) (by positivity : 0 ≤ 2 * Λ * k1)
      have q2 := mul_le_mul_of_nonneg_right (sub_le_sub_right p2 1) (by positivity : 0 ≤ 2 * Λ * k2)
      have hcast : ((k1 + k2 : Nat) : ℝ) ≤ k := by exact_mod_cast hlen
      have q3 := mul_le_mul_of_nonneg_left (mul_le_mul_of_nonneg_left hcast (by linarith : 0 ≤ 2 * Λ))
        (pow_sub_one_nonneg hu (3 + 2 * k))
      push_cast at q3
      nlinarith

end Numeric

end Verif.Dendrogram
