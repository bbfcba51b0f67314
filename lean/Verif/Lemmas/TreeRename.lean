import Verif.Lemmas.SameTree

/-
Renaming the samples of a dendrogram and scaling its levels: the condensed tree selects the renamed
clusters.
-/

namespace Verif.Dendrogram

set_option linter.unusedSectionVars false

variable {D : Type}

section Mul

variable [Mul D]

/-- The dendrogram with the samples renamed by `σ` and the levels multiplied by `s`. -/
def STree.rename (σ : Nat → Nat) (s : D) : STree D → STree D
  | .leaf i => .leaf (σ i)
  | .node c lv sz l r => .node (σ c) (s * lv) sz (l.rename σ s) (r.rename σ s)

/-- The node of the condensed tree after renaming; lambdas and stabilities are multiplied by `k`. -/
def CNode.rename (σ : Nat → Nat) (s k : D) (n : CNode D) : CNode D :=
  ⟨n.slink.rename σ s, k * n.lambdaMin, k * n.stability, n.selected⟩

def CTree.rename (σ : Nat → Nat) (s k : D) : CTree D → CTree D
  | .leaf n => .leaf (n.rename σ s k)
  | .split n l r => .split (n.rename σ s k) (l.rename σ s k) (r.rename σ s k)

variable (σ : Nat → Nat) (s k : D)

theorem STree.size_rename (t : STree D) : (t.rename σ s).size = t.size := by
  cases t <;> rfl

theorem STree.leaves_rename (t : STree D) : (t.rename σ s).leaves = t.leaves.map σ := by
  induction t with
  | leaf i => rfl
  | node c lv sz l r ihl ihr => simp only [STree.rename, STree.leaves, ihl, ihr, List.map_append]

theorem STree.subtrees_rename (t : STree D) :
    (t.rename σ s).subtrees = t.subtrees.map (STree.rename σ s) := by
  induction t with
  | leaf i => rfl
  | node c lv sz l r ihl ihr =>
    simp only [STree.rename, STree.subtrees, ihl, ihr, List.map_append, List.map_cons]

theorem STree.children_rename (t : STree D) :
    (t.rename σ s).children = t.children.map (STree.rename σ s) := by
  cases t <;> rfl

theorem STree.representative_rename (t : STree D) :
    (t.rename σ s).representative = σ t.representative := by
  cases t <;> rfl

theorem CTree.isLeaf_rename (t : CTree D) : (t.rename σ s k).isLeaf = t.isLeaf := by
  cases t <;> rfl

theorem CTree.unselectRoot_rename (t : CTree D) [Ring D] :
    (t.rename σ s k).unselectRoot = t.unselectRoot.rename σ s k := by
  cases t <;> rfl

end Mul

section Ring

variable [Ring D] [LinearOrder D] [IsStrictOrderedRing D]
variable {σ : Nat → Nat} {s k : D}

theorem STree.level_rename (t : STree D) : (t.rename σ s).level = s * t.level := by
  cases t with
  | leaf i => exact (mul_zero s).symm
  | node c lv sz l r => rfl

theorem Good.rename (hσ : Function.Injective σ) (hs : 0 < s) {t : STree D} (h : Good t) :
    Good (t.rename σ s) where
  nodup := by rw [STree.leaves_rename]; exact h.nodup.map hσ
  size := by
    intro u hu
    rw [STree.subtrees_rename] at hu
    obtain ⟨v, hv, rfl⟩ := List.mem_map.1 hu
    rw [STree.size_rename, STree.leaves_rename, List.length_map]
    exact h.size v hv
  height := by
    intro u hu c hc
    rw [STree.subtrees_rename] at hu
    obtain ⟨v, hv, rfl⟩ := List.mem_map.1 hu
    rw [STree.children_rename] at hc
    obtain ⟨w, hw, rfl⟩ := List.mem_map.1 hc
    rw [STree.level_rename, STree.level_rename]
    exact mul_le_mul_of_nonneg_left (h.height v hv w hw) hs.le
  rep := by
    intro u hu
    rw [STree.subtrees_rename] at hu
    obtain ⟨v, hv, rfl⟩ := List.mem_map.1 hu
    rw [STree.representative_rename, STree.leaves_rename]
    exact List.mem_map_of_mem (h.rep v hv)

theorem STree.Strict.rename (hs : 0 < s) {t : STree D} (h : t.Strict) : (t.rename σ s).Strict := by
  intro u hu c hc hne
  rw [STree.subtrees_rename] at hu
  obtain ⟨v, hv, rfl⟩ := List.mem_map.1 hu
  rw [STree.children_rename] at hc
  obtain ⟨w, hw, rfl⟩ := List.mem_map.1 hc
  rw [STree.children_rename, ne_eq, List.map_eq_nil_iff] at hne
  rw [STree.level_rename, STree.level_rename]
  exact mul_lt_mul_of_pos_left (h v hv w hw hne) hs

theorem STree.under_rename (hσ : Function.Injective σ) (hs : 0 < s) (t : STree D) (c : D) (a b : Nat) :
    (t.rename σ s).Under (s * c) (σ a) (σ b) ↔ t.Under c a b := by
  constructor
  · rintro ⟨u, hu, h1, h2, h3⟩
    rw [STree.subtrees_rename] at hu
    obtain ⟨v, hv, rfl⟩ := List.mem_map.1 hu
    rw [STree.level_rename] at h1
    rw [STree.leaves_rename] at h2 h3
    exact ⟨v, hv, le_of_mul_le_mul_left h1 hs, (List.mem_map_of_injective hσ).1 h2,
      (List.mem_map_of_injective hσ).1 h3⟩
  · rintro ⟨v, hv, h1, h2, h3⟩
    refine ⟨v.rename σ s, ?_, ?_, ?_, ?_⟩
    · rw [STree.subtrees_rename]; exact List.mem_map_of_mem hv
    · rw [STree.level_rename]; exact mul_le_mul_of_nonneg_left h1 hs.le
    · rw [STree.leaves_rename]; exact List.mem_map_of_mem h2
    · rw [STree.leaves_rename]; exact List.mem_map_of_mem h3

theorem CNode.addMass_rename (n : CNode D) (sz : Nat) (x : D) :
    (n.rename σ s k).addMass sz (k * x) = (n.addMass sz x).rename σ s k := by
  simp only [CNode.addMass, CNode.rename, CNode.mk.injEq, true_and, and_true]
  rw [← mul_sub, ← mul_assoc, (Nat.cast_commute sz k).eq, mul_assoc, ← mul_add]

theorem condense_rename (inv : D → D) (m : Nat) : ∀ (t : STree D) (n : CNode D),
    (∀ u ∈ t.subtrees, u.children ≠ [] → inv (s * u.level) = k * inv u.level) →
    condense inv m (n.rename σ s k) (t.rename σ s) = (condense inv m n t).rename σ s k := by
  intro t
  induction t with
  | leaf i => intro n _; rfl
  | node c lv sz l r ihl ihr =>
    intro n h
    have h0 : inv (s * lv) = k * inv lv :=
      h _ (STree.self_mem_subtrees _) (by simp [STree.children])
    have hl := fun n => ihl n (fun u hu => h u (by simp [STree.subtrees, hu]))
    have hr := fun n => ihr n (fun u hu => h u (by simp [STree.subtrees, hu]))
    have fresh : ∀ t : STree D, (⟨t.rename σ s, k * inv lv, 0, false⟩ : CNode D) =
        (⟨t, inv lv, 0, false⟩ : CNode D).rename σ s k := by
      intro t; simp [CNode.rename]
    simp only [STree.rename, condense, STree.size_rename, h0, CNode.addMass_rename, hl, hr, fresh]
    split
    · rfl
    · split
      · rfl
      · split <;> rfl

theorem select_rename (hk : 0 < k) (t : CTree D) :
    select (t.rename σ s k) = ((select t).1.rename σ s k, k * (select t).2) := by
  induction t with
  | leaf n => rfl
  | split n l r ihl ihr =>
    simp only [CTree.rename, select, ihl, ihr, ← mul_add]
    have hc : k * ((select l).2 + (select r).2) > (n.rename σ s k).stability ↔
        (select l).2 + (select r).2 > n.stability := by
      show k * n.stability < k * _ ↔ _
      exact mul_lt_mul_iff_right₀ hk
    simp only [hc]
    split <;> rfl

theorem condensedTree_rename (hk : 0 < k) (inv : D → D) (m : Nat) (allow ret : Bool) (t : STree D)
    (h : ∀ u ∈ t.subtrees, u.children ≠ [] → inv (s * u.level) = k * inv u.level) :
    condensedTree inv m allow ret (t.rename σ s) = (condensedTree inv m allow ret t).rename σ s k := by
  have h1 : condenseRoot inv m (t.rename σ s) = (condenseRoot inv m t).rename σ s k := by
    unfold condenseRoot
    rw [← condense_rename inv m t ⟨t, 0, 0, false⟩ h]
    simp [CNode.rename]
  unfold condensedTree
  simp only [h1, select_rename hk, CTree.isLeaf_rename]
  split
  · rfl
  · split
    · exact CTree.unselectRoot_rename _ _ _ _
    · rfl

theorem shallowest_rename (t : CTree D) : shallowest (t.rename σ s k) =
    (shallowest t).map (List.map (CNode.rename σ s k)) := by
  induction t with
  | leaf n =>
    simp only [CTree.rename, shallowest]
    show (if n.selected = true then _ else _) = _
    split <;> rfl
  | split n l r ihl ihr =>
    simp only [CTree.rename, shallowest]
    show (if n.selected = true then _ else _) = _
    split
    · rfl
    · rw [ihl, ihr]
      cases shallowest l <;> cases shallowest r <;> simp

end Ring

/-- Labellings by the same sets of samples, up to `σ`, describe the same clusters. -/
theorem sameClustersVia_of {n : Nat} {σ : Nat → Nat} (hσ : ∀ i, σ i < n ↔ i < n) {f g : List Nat}
    {cs ds : List (CTree D)} (hf : Labels n f cs) (hg : Labels n g ds)
    (h1 : ∀ c ∈ cs, ∃ d ∈ ds, ∀ i, i ∈ c.samples ↔ σ i ∈ d.samples)
    (h2 : ∀ d ∈ ds, ∃ c ∈ cs, ∀ i, i ∈ c.samples ↔ σ i ∈ d.samples) : SameClustersVia σ f g := by
  have hz : ∀ i : Nat, f[i]? = some 0 ↔ g[σ i]? = some 0 := by
    intro i
    rw [hf.noise, hg.noise, hσ]
    refine and_congr_right fun _ => ⟨fun h d hd hi => ?_, fun h c hc hi => ?_⟩
    · obtain ⟨c, hc, hcd⟩ := h2 d hd
      exact h c hc ((hcd i).2 hi)
    · obtain ⟨d, hd, hcd⟩ := h1 c hc
      exact h d hd ((hcd i).1 hi)
  have hnone : ∀ i : Nat, f[i]? = none ↔ g[σ i]? = none := by
    intro i
    rw [List.getElem?_eq_none_iff, List.getElem?_eq_none_iff, hf.length, hg.length, ← not_lt, ← not_lt,
      hσ]
  refine ⟨hf.length.trans hg.length.symm, hz, fun i j => ⟨fun hij => ?_, fun hij => ?_⟩⟩
  · cases hi : f[i]? with
    | none => rw [(hnone i).1 hi, (hnone j).1 (hij ▸ hi)]
    | some v =>
      have hj : f[j]? = some v := hij ▸ hi
      cases v with
      | zero => rw [(hz i).1 hi, (hz j).1 hj]
      | succ v =>
        obtain ⟨c, hc, hic⟩ := (hf.positive i v).1 hi
        obtain ⟨c', hc', hjc⟩ := (hf.positive j v).1 hj
        obtain rfl : c' = c := Option.some.inj (hc'.symm.trans hc)
        obtain ⟨d, hd, hcd⟩ := h1 c' (List.mem_of_getElem? hc)
        obtain ⟨k, hk⟩ := List.mem_iff_getElem?.1 hd
        rw [(hg.positive _ k).2 ⟨d, hk, (hcd i).1 hic⟩, (hg.positive _ k).2 ⟨d, hk, (hcd j).1 hjc⟩]
  · cases hi : g[σ i]? with
    | none => rw [(hnone i).2 hi, (hnone j).2 (hij ▸ hi)]
    | some v =>
      have hj : g[σ j]? = some v := hij ▸ hi
      cases v with
      | zero => rw [(hz i).2 hi, (hz j).2 hj]
      | succ v =>
        obtain ⟨c, hc, hic⟩ := (hg.positive _ v).1 hi
        obtain ⟨c', hc', hjc⟩ := (hg.positive _ v).1 hj
        obtain rfl : c' = c := Option.some.inj (hc'.symm.trans hc)
        obtain ⟨d, hd, hcd⟩ := h2 c' (List.mem_of_getElem? hc)
        obtain ⟨k, hk⟩ := List.mem_iff_getElem?.1 hd
        rw [(hf.positive _ k).2 ⟨d, hk, (hcd i).2 hic⟩, (hf.positive _ k).2 ⟨d, hk, (hcd j).2 hjc⟩]

end Verif.Dendrogram
