import Verif.Lemmas.Condensed
import Mathlib.Tactic.NormNum
import Mathlib.Algebra.Order.Ring.Rat

/-
Properties C32-C38, C69: the single linkage tree (SingleLinkageClusterTree.hpp) and the condensed
tree (CondensedClusterTree.hpp).
-/

namespace Verif.Dendrogram

open Verif.ClosestPair (Edge)
open Verif.Graph

set_option linter.unusedSectionVars false

variable {D : Type}

/-! ### single linkage tree -/

section Single

variable [AddCommGroup D] [LinearOrder D]

/-- **C32.** From the edges of a spanning tree of `n` samples, sorted by weight in any way that
`std::sort` allows, `build` makes a binary tree whose leaves are the samples, each once; the size
stored in a node is its number of leaves and the root has size `n`. -/
theorem C32_structure {n : Nat} {mst es : List (Edge D)} (ht : IsSpanningTree n mst)
    (hw : ∀ e ∈ mst, 0 ≤ e.2.2) (hp : es.Perm mst) (hs : es.Pairwise (fun a b => a.2.2 ≤ b.2.2)) :
    ∃ t, build es = some t ∧ t.leaves.Perm (List.range n) ∧
      (∀ s ∈ t.subtrees, s.size = s.leaves.length) ∧ t.size = n := by
  obtain ⟨t, h1, h2, h3, _⟩ := build_spec ht hp (fun e he => hw e (hp.mem_iff.1 he)) hs
  have hperm : t.leaves.Perm (List.range n) := by
    rw [List.perm_ext_iff_of_nodup h2.nodup List.nodup_range]
    intro x; rw [h3, List.mem_range]
  refine ⟨t, h1, hperm, h2.size, ?_⟩
  rw [h2.size t (STree.self_mem_subtrees _), hperm.length_eq, List.length_range]

/-- **C33.** Levels do not decrease towards the root, and two samples are below a common node of level
at most `c` exactly when the spanning tree links them by edges of weight at most `c`. -/
theorem C33_levels {n : Nat} {mst es : List (Edge D)} (ht : IsSpanningTree n mst)
    (hw : ∀ e ∈ mst, 0 ≤ e.2.2) (hp : es.Perm mst) (hs : es.Pairwise (fun a b => a.2.2 ≤ b.2.2)) :
    ∃ t, build es = some t ∧ (∀ s ∈ t.subtrees, ∀ c ∈ s.children, c.level ≤ s.level) ∧
      ∀ c, 0 ≤ c → ∀ a b, a < n → b < n →
        (t.Under c a b ↔ Linked (mst.filter (fun e => e.2.2 ≤ c)) a b) := by
  obtain ⟨t, h1, h2, h3, h4⟩ := build_spec ht hp (fun e he => hw e (hp.mem_iff.1 he)) hs
  refine ⟨t, h1, h2.height, ?_⟩
  intro c hc a b ha hb
  rw [h4 c hc a b ha hb]
  unfold Linked
  have hfun : (fun a b => ∃ w, (a, b, w) ∈ es.filter (fun e => decide (e.2.2 ≤ c))) =
      (fun a b => ∃ w, (a, b, w) ∈ mst.filter (fun e => decide (e.2.2 ≤ c))) := by
    funext a b
    exact propext ⟨fun ⟨w, h⟩ => ⟨w, (hp.filter _).mem_iff.1 h⟩,
      fun ⟨w, h⟩ => ⟨w, (hp.filter _).mem_iff.2 h⟩⟩
  rw [hfun]

/-- Both of them for one tree: what the later stages use. -/
theorem build_good {n : Nat} {mst es : List (Edge D)} (ht : IsSpanningTree n mst)
    (hw : ∀ e ∈ mst, 0 ≤ e.2.2) (hp : es.Perm mst) (hs : es.Pairwise (fun a b => a.2.2 ≤ b.2.2)) :
    ∃ t, build es = some t ∧ Good t ∧ (∀ x, x ∈ t.leaves ↔ x < n) := by
  obtain ⟨t, h1, h2, h3, _⟩ := build_spec ht hp (fun e he => hw e (hp.mem_iff.1 he)) hs
  exact ⟨t, h1, h2, h3⟩

/-- **C34** (partial).  `extract_flat_clusters` writes one label per sample; samples linked by edges
of weight below the cut level get the same label.

The converse of the property is false (see `C34_merges_clusters`): the label is that of the lowest
node *at or above* the cut level, as `C34_labels` shows. -/
theorem C34_linked_partial {n : Nat} {mst es : List (Edge D)} (ht : IsSpanningTree n mst)
    (hw : ∀ e ∈ mst, 0 ≤ e.2.2) (hp : es.Perm mst) (hs : es.Pairwise (fun a b => a.2.2 ≤ b.2.2))
    (cut : D) (minSize : Nat) :
    ∃ t flat, build es = some t ∧ cutClusters cut minSize t = some flat ∧ flat.length = n ∧
      ∀ a b, a < n → b < n → Linked (mst.filter (fun e => e.2.2 < cut)) a b →
        flat[a]? = flat[b]? := by
  obtain ⟨t, h1, h2, h3, h4⟩ := build_spec ht hp (fun e he => hw e (hp.mem_iff.1 he)) hs
  have hperm : t.leaves.Perm (List.range n) := by
    rw [List.perm_ext_iff_of_nodup h2.nodup List.nodup_range]
    intro x; rw [h3, List.mem_range]
  have hsz : t.size = n := by
    rw [h2.size t (STree.self_mem_subtrees _), hperm.length_eq, List.length_range]
  obtain ⟨flat, e1, l1, s1⟩ := preorderCut_spec cut minSize t t.representative
    (List.replicate t.size 0) h2.nodup (fun i hi => by
      rw [List.length_replicate, hsz]; exact (h3 i).1 hi)
  refine ⟨t, flat, h1, e1, by rw [l1, List.length_replicate, hsz], ?_⟩
  intro a b ha hb hab
  rw [s1, s1, if_pos ((h3 a).2 ha), if_pos ((h3 b).2 hb)]
  by_cases hab' : a = b
  · rw [hab']
  -- the largest weight below the cut
  have hmax : ∀ l : List (Edge D), (∀ e ∈ l, 0 ≤ e.2.2) → (∃ e ∈ l, e.2.2 < cut) →
      ∃ c, 0 ≤ c ∧ c < cut ∧ ∀ e ∈ l, e.2.2 < cut → e.2.2 ≤ c := by
    intro l
    induction l with
    | nil => simp
    | cons e l ih =>
      intro h0 hex
      by_cases hl : ∃ e ∈ l, e.2.2 < cut
      · obtain ⟨c, c0, c1, c2⟩ := ih (fun e he => h0 e (by simp [he])) hl
        by_cases hec : e.2.2 < cut
        · refine ⟨max e.2.2 c, c0.trans (le_max_right _ _), max_lt hec c1, ?_⟩
          intro e' he' hlt
          rcases List.mem_cons.1 he' with rfl | he'
          · exact le_max_left _ _
          · exact (c2 e' he' hlt).trans (le_max_right _ _)
        · refine ⟨c, c0, c1, ?_⟩
          intro e' he' hlt
          rcases List.mem_cons.1 he' with rfl | he'
          · exact absurd hlt hec
          · exact c2 e' he' hlt
      · obtain ⟨e', he', hlt⟩ := hex
        rcases List.mem_cons.1 he' with rfl | he'
        · refine ⟨e'.2.2, h0 _ (by simp), hlt, ?_⟩
          intro e'' he'' hlt'
          rcases List.mem_cons.1 he'' with rfl | he''
          · exact le_refl _
          · exact absurd ⟨e'', he'', hlt'⟩ hl
        · exact absurd ⟨e', he', hlt⟩ hl
  have hex : ∃ e ∈ mst, e.2.2 < cut := by
    by_contra hcon
    push_neg at hcon
    have : mst.filter (fun e => decide (e.2.2 < cut)) = [] := by
      rw [List.filter_eq_nil_iff]
      intro e he
      simpa using hcon e he
    rw [this, linked_iff_conn, conn_nil (by simp [Boruvka.NoRel])] at hab
    exact hab' hab
  obtain ⟨c, c0, c1, c2⟩ := hmax mst hw hex
  have hcut : 0 < cut := lt_of_le_of_lt c0 c1
  have hlink : Linked (es.filter (fun e => decide (e.2.2 ≤ c))) a b := by
    unfold Linked at hab ⊢
    clear ha hb hab'
    induction hab with
    | rel x y h =>
      obtain ⟨w, hw'⟩ := h
      rw [List.mem_filter] at hw'
      refine .rel _ _ ⟨w, List.mem_filter.2 ⟨hp.mem_iff.2 hw'.1, ?_⟩⟩
      simpa using c2 _ hw'.1 (by simpa using hw'.2)
    | refl x => exact .refl x
    | symm x y _ ih => exact ih.symm
    | trans x y z _ _ ih1 ih2 => exact ih1.trans _ _ _ ih2
  obtain ⟨s, hs, hlv, has, hbs⟩ := (h4 c c0 a b ha hb).2 hlink
  rw [labelAt_same hcut minSize t _ a b h2 s hs (lt_of_le_of_lt hlv c1) has hbs]

/-- The exact label of every sample: the representative of the lowest node at or above the cut level
(0 if that node is too small); the representative of the root if there is none. -/
theorem C34_labels (cut : D) (minSize n : Nat) (t : STree D) (hg : Good t)
    (hn : ∀ x, x ∈ t.leaves ↔ x < n) :
    ∃ flat, cutClusters cut minSize t = some flat ∧ flat.length = n ∧
      (∀ i, i < n → 0 < cut → t.level < cut → flat[i]? = some t.representative) ∧
      ∀ i, ∀ s ∈ t.subtrees, i ∈ s.leaves → cut ≤ s.level →
        (∀ c ∈ s.children, i ∈ c.leaves → c.level < cut) →
        flat[i]? = some (if s.size < minSize then 0 else s.representative) := by
  have hperm : t.leaves.Perm (List.range n) := by
    rw [List.perm_ext_iff_of_nodup hg.nodup List.nodup_range]
    intro x; rw [hn, List.mem_range]
  have hsz : t.size = n := by
    rw [hg.size t (STree.self_mem_subtrees _), hperm.length_eq, List.length_range]
  obtain ⟨flat, e1, l1, s1⟩ := preorderCut_spec cut minSize t t.representative
    (List.replicate t.size 0) hg.nodup (fun i hi => by
      rw [List.length_replicate, hsz]; exact (hn i).1 hi)
  refine ⟨flat, e1, by rw [l1, List.length_replicate, hsz], ?_, ?_⟩
  · intro i hi h0 hlt
    rw [s1, if_pos ((hn i).2 hi), labelAt_low h0 minSize t _ i hg hlt]
  · intro i s hs hi hcut hc
    rw [s1, if_pos (STree.leaves_of_subtree s hs i hi),
      labelAt_lowest cut minSize t _ i hg s hs hcut hi hc]

/-- A single linkage tree of the samples 0, 1, 10, 11 (all computed by `build`). -/
example : build [((0 : Nat), (1 : Nat), (1 : ℤ)), (2, 3, 1), (1, 2, 9)] =
    some (.node 0 9 4 (.node 0 1 2 (.leaf 0) (.leaf 1)) (.node 2 1 2 (.leaf 2) (.leaf 3))) := by
  decide +kernel

/-- **C34 is false of the code**: the samples 0, 1, 10, 11 cut at level 5 form two groups that no edge
below 5 links, but all four get the same label. -/
theorem C34_merges_clusters :
    (build [((0 : Nat), (1 : Nat), (1 : ℤ)), (2, 3, 1), (1, 2, 9)]).bind (cutClusters 5 1) =
      some [0, 0, 0, 0] ∧
    ¬ Linked ([((0 : Nat), (1 : Nat), (1 : ℤ)), (2, 3, 1), (1, 2, 9)].filter (fun e => e.2.2 < 5))
      0 2 := by
  refine ⟨by decide +kernel, ?_⟩
  intro h
  have : ∀ a b, Linked ([((0 : Nat), (1 : Nat), (1 : ℤ)), (2, 3, 1), (1, 2, 9)].filter
      (fun e => e.2.2 < 5)) a b → (a < 2 ↔ b < 2) := by
    intro a b h
    unfold Linked at h
    induction h with
    | rel x y h =>
      obtain ⟨w, h⟩ := h
      simp only [List.mem_filter, List.mem_cons, Prod.mk.injEq, List.not_mem_nil, or_false,
        decide_eq_true_eq] at h
      omega
    | refl x => exact Iff.rfl
    | symm x y _ ih => exact ih.symm
    | trans x y z _ _ ih1 ih2 => exact ih1.trans ih2
  have := this 0 2 h
  omega

end Single

/-! ### condensed tree -/

section Condensed

variable [CommRing D] [LinearOrder D] [IsStrictOrderedRing D]

/-- **C35.** The root of the condensed tree is the whole data set; the clusters are nodes of the
dendrogram; the two clusters a cluster splits into have at least `min_cluster_size` samples each, are
disjoint and contained in it.  Conversely every node of the dendrogram with two children of at least
`min_cluster_size` samples is such a split. -/
theorem C35_clusters (inv : D → D) (m : Nat) (root : STree D) (hg : Good root) :
    (condenseRoot inv m root).root.slink = root ∧
    (∀ c ∈ (condenseRoot inv m root).subtrees, c.root.slink ∈ root.subtrees) ∧
    (∀ n l r, CTree.split n l r ∈ (condenseRoot inv m root).subtrees →
      m ≤ l.samples.length ∧ m ≤ r.samples.length ∧ (∀ i ∈ l.samples, i ∉ r.samples) ∧
      (∀ i ∈ l.samples, i ∈ n.slink.leaves) ∧ (∀ i ∈ r.samples, i ∈ n.slink.leaves)) ∧
    (∀ c lv sz l r, STree.node c lv sz l r ∈ root.subtrees →
      m ≤ l.leaves.length → m ≤ r.leaves.length →
      ∃ n' tl tr, CTree.split n' tl tr ∈ (condenseRoot inv m root).subtrees ∧ tl.root.slink = l ∧
        tr.root.slink = r) := by
  have hnest := condense_nested inv m root ⟨root, 0, 0, false⟩ (STree.self_mem_subtrees _) hg
  have hroot := (condense_root inv m root ⟨root, 0, 0, false⟩).1
  have hsub : ∀ c ∈ (condenseRoot inv m root).subtrees, c.root.slink ∈ root.subtrees := by
    intro c hc
    have := (hnest.split_of_mem c hc).2
    rwa [hroot] at this
  refine ⟨hroot, hsub, ?_, ?_⟩
  · intro n l r hmem
    have h1 : n.slink ∈ root.subtrees := hsub _ hmem
    obtain ⟨p1, p2, p3, p4, p5, _, _⟩ := (hnest.split_of_mem _ hmem).1
    have q1 := STree.subtrees_trans _ h1 _ p1
    have q2 := STree.subtrees_trans _ h1 _ p2
    rw [hg.size _ q1] at p3
    rw [hg.size _ q2] at p4
    exact ⟨p3, p4, p5, STree.leaves_of_subtree _ p1, STree.leaves_of_subtree _ p2⟩
  · intro c lv sz l r hmem hl hr
    have q1 := STree.subtrees_trans _ hmem l STree.left_mem
    have q2 := STree.subtrees_trans _ hmem r STree.right_mem
    exact condense_complete inv m root ⟨root, 0, 0, false⟩ hg c lv sz l r hmem
      (by rw [hg.size l q1]; exact hl) (by rw [hg.size r q2]; exact hr)

/-- **C69.** The stability of a cluster of more than one sample is the sum, over its samples, of
`λ - λ_birth`: `λ` is the inverse of the distance at which the sample leaves the cluster and
`λ_birth` the inverse of the distance at which the cluster splits off (0 for the root). -/
theorem C69_stability (inv : D → D) (m : Nat) (root : STree D) (hg : Good root) :
    ∀ c ∈ (condenseRoot inv m root).subtrees, 1 < c.samples.length →
      (∃ f : Nat → STree D, (∀ p ∈ c.samples, IsExit m c.root.slink p (f p)) ∧
        c.root.stability =
          (c.samples.map (fun p => inv (f p).level - c.root.lambdaMin)).sum) ∧
      ((c.root.slink = root ∧ c.root.lambdaMin = 0) ∨
        ∃ w ∈ root.subtrees, c.root.slink ∈ w.children ∧ c.root.lambdaMin = inv w.level) := by
  intro c hc h1
  have key : ∀ (v : STree D) (lam : D), Good v →
      1 < (condense inv m ⟨v, lam, 0, false⟩ v).samples.length →
      ∃ f : Nat → STree D, (∀ p ∈ (condense inv m ⟨v, lam, 0, false⟩ v).samples,
          IsExit m (condense inv m ⟨v, lam, 0, false⟩ v).root.slink p (f p)) ∧
        (condense inv m ⟨v, lam, 0, false⟩ v).root.stability =
          ((condense inv m ⟨v, lam, 0, false⟩ v).samples.map (fun p => inv (f p).level -
            (condense inv m ⟨v, lam, 0, false⟩ v).root.lambdaMin)).sum := by
    intro v lam hv h1
    unfold CTree.samples at h1 ⊢
    rw [(condense_root inv m v _).1] at h1 ⊢
    rw [(condense_root inv m v _).2]
    refine ⟨exitNode m v, fun p hp => exitNode_isExit m v p hv hp, ?_⟩
    rw [condense_stability inv m v _ hv h1]
    simp
  rcases condense_sub inv m root ⟨root, 0, 0, false⟩ c hc with rfl | ⟨v, hv, w, hw, hvw, rfl⟩
  · exact ⟨key root 0 hg h1, Or.inl ⟨(condense_root inv m root _).1, (condense_root inv m root _).2⟩⟩
  · refine ⟨key v _ (hg.sub hv) h1, Or.inr ⟨w, hw, ?_, ?_⟩⟩
    · rw [(condense_root inv m v _).1]; exact hvw
    · rw [(condense_root inv m v _).2]

/-- The clusters that `extract_flat_clusters` labels. -/
theorem shallowest_condensed (inv : D → D) (m : Nat) (allow ret : Bool) (root : STree D)
    (hg : Good root) :
    ∃ ns cs, shallowest (condensedTree inv m allow ret root) = some ns ∧
      (condensedTree inv m allow ret root).root.slink = root ∧
      Cut (condenseRoot inv m root) cs ∧
      ns.map (fun n => n.slink) = cs.map (fun c => c.root.slink) ∧
      (ret = true → ∀ c ∈ cs, c.isLeaf = true) ∧
      (ret = false → Allowed allow (condenseRoot inv m root) cs ∧
        ∀ cs', Cut (condenseRoot inv m root) cs' → Allowed allow (condenseRoot inv m root) cs' →
          totalStability cs' ≤ totalStability cs ∧
          (totalStability cs' = totalStability cs → cs.length ≤ cs'.length)) := by
  have hfresh : Fresh (condenseRoot inv m root) := condense_fresh inv m root _ rfl
  have hnest : Nested m (condenseRoot inv m root) :=
    condense_nested inv m root ⟨root, 0, 0, false⟩ (STree.self_mem_subtrees _) hg
  have hroot : (condenseRoot inv m root).root.slink = root := (condense_root inv m root _).1
  cases ret with
  | true =>
    obtain ⟨ns, cs, h1, h2, h3, h4⟩ := shallowest_fresh hfresh
    exact ⟨ns, cs, by simpa [condensedTree] using h1, by simpa [condensedTree] using hroot, h2, h3,
      fun _ => h4, by simp⟩
  | false =>
    obtain ⟨hn', hr', hl'⟩ := select_nested hnest
    by_cases hcond : (!allow && !(select (condenseRoot inv m root)).1.isLeaf) = true
    · -- the root is unselected
      have hct : condensedTree inv m allow false root =
          (select (condenseRoot inv m root)).1.unselectRoot := by
        simp only [condensedTree]
        rw [if_neg (by simp), if_pos hcond]
      simp only [Bool.and_eq_true, Bool.not_eq_true', hl'] at hcond
      rw [hct]
      cases ht : condenseRoot inv m root with
      | leaf n => simp [ht, CTree.isLeaf] at hcond
      | split n l r =>
        rw [ht] at hfresh hroot
        obtain ⟨_, f1, f2⟩ := hfresh
        obtain ⟨na, ca, e1, c1, m1, s1, o1⟩ := select_spec f1
        obtain ⟨nb, cb, e2, c2, m2, s2, o2⟩ := select_spec f2
        refine ⟨na ++ nb, ca ++ cb, ?_, ?_, .children n c1 c2, by simp [m1, m2], by simp, ?_⟩
        · rw [select]
          dsimp only
          split <;> · simp only [CTree.unselectRoot, shallowest]; rw [e1, e2]; rfl
        · rw [select]
          dsimp only
          split <;> exact hroot
        · intro _
          refine ⟨Or.inr (Or.inr ?_), ?_⟩
          · have := c1.length_pos
            have := c2.length_pos
            rw [List.length_append]; omega
          · intro cs' h' ha
            cases h' with
            | here =>
              rcases ha with ha | ha | ha
              · rw [hcond.1] at ha; exact absurd ha (by simp)
              · simp [CTree.isLeaf] at ha
              · simp at ha
            | children _ hca hcb =>
              rename_i a b
              rw [totalStability_append, totalStability_append, s1, s2]
              obtain ⟨p1, q1⟩ := o1 a hca
              obtain ⟨p2, q2⟩ := o2 b hcb
              refine ⟨add_le_add p1 p2, ?_⟩
              intro heq
              have := q1 (by
                by_contra hne
                exact absurd heq (ne_of_lt (add_lt_add_of_lt_of_le (lt_of_le_of_ne p1 hne) p2)))
              have := q2 (by
                by_contra hne
                exact absurd heq (ne_of_lt (add_lt_add_of_le_of_lt p1 (lt_of_le_of_ne p2 hne))))
              simp only [List.length_append]
              omega
    · have hct : condensedTree inv m allow false root = (select (condenseRoot inv m root)).1 := by
        simp only [condensedTree]
        rw [if_neg (by simp), if_neg hcond]
      obtain ⟨ns, cs, h1, h2, h3, h4, h5⟩ := select_spec hfresh
      refine ⟨ns, cs, by rw [hct]; exact h1, by rw [hct, hr']; exact hroot, h2, h3, by simp, ?_⟩
      intro _
      refine ⟨?_, ?_⟩
      · simp only [Bool.and_eq_true, Bool.not_eq_true', hl', not_and] at hcond
        cases allow with
        | true => exact Or.inl rfl
        | false =>
          have := hcond rfl
          simp only [Bool.not_eq_false] at this
          exact Or.inr (Or.inl this)
      · intro cs' h' _
        rw [h4]
        exact h5 cs' h'

/-- The labels written for selected nodes that are the clusters of a cut. -/
theorem labels_of_cut (inv : D → D) (m : Nat) (root : STree D) (hg : Good root)
    (n : Nat) (hn : ∀ x, x ∈ root.leaves ↔ x < n) {t : CTree D} {ns : List (CNode D)} {cs : List (CTree D)}
    (h1 : shallowest t = some ns) (h2 : t.root.slink = root) (h3 : Cut (condenseRoot inv m root) cs)
    (h4 : ns.map (fun n => n.slink) = cs.map (fun c => c.root.slink)) :
    ∃ flat, extractFlat t = some flat ∧ Labels n flat cs ∧ ∀ c ∈ cs, c ∈ (condenseRoot inv m root).subtrees := by
  have hperm : root.leaves.Perm (List.range n) := by
    rw [List.perm_ext_iff_of_nodup hg.nodup List.nodup_range]
    intro x; rw [hn, List.mem_range]
  have hsz : root.size = n := by
    rw [hg.size root (STree.self_mem_subtrees _), hperm.length_eq, List.length_range]
  have hnest : Nested m (condenseRoot inv m root) :=
    condense_nested inv m root ⟨root, 0, 0, false⟩ (STree.self_mem_subtrees _) hg
  obtain ⟨hsub, hdis⟩ := h3.disjoint hnest
  have hin : ∀ c ∈ cs, ∀ i ∈ c.samples, i < n := by
    intro c hc i hi
    have := (hnest.split_of_mem c (hsub c hc)).2
    have hroot : (condenseRoot inv m root).root.slink = root := (condense_root inv m root _).1
    rw [hroot] at this
    exact (hn i).1 (STree.leaves_of_subtree _ this i hi)
  -- the same facts about the nodes
  have hget : ∀ j : Nat, (ns[j]?).map (fun n => n.slink) = (cs[j]?).map (fun c => c.root.slink) := by
    intro j
    rw [← List.getElem?_map, ← List.getElem?_map, h4]
  have hnsmem : ∀ nd ∈ ns, ∃ c ∈ cs, nd.slink = c.root.slink := by
    intro nd hnd
    have : nd.slink ∈ cs.map (fun c => c.root.slink) := by
      rw [← h4]; exact List.mem_map.2 ⟨nd, hnd, rfl⟩
    obtain ⟨c, hc, e⟩ := List.mem_map.1 this
    exact ⟨c, hc, e.symm⟩
  have hcsmem : ∀ c ∈ cs, ∃ nd ∈ ns, nd.slink = c.root.slink := by
    intro c hc
    have : c.root.slink ∈ ns.map (fun n => n.slink) := by
      rw [h4]; exact List.mem_map.2 ⟨c, hc, rfl⟩
    obtain ⟨nd, hnd, e⟩ := List.mem_map.1 this
    exact ⟨nd, hnd, e⟩
  have hnp : ns.Pairwise (fun a b => ∀ i ∈ a.slink.leaves, i ∉ b.slink.leaves) := by
    have : (ns.map (fun n => n.slink)).Pairwise (fun a b => ∀ i ∈ a.leaves, i ∉ b.leaves) := by
      rw [h4, List.pairwise_map]
      exact hdis
    rwa [List.pairwise_map] at this
  obtain ⟨flat, e1, l1, s1, s2⟩ := writeLabels_spec ns 1 (List.replicate n 0)
    (fun nd hnd i hi => by
      obtain ⟨c, hc, e⟩ := hnsmem nd hnd
      rw [List.length_replicate]
      exact hin c hc i (by unfold CTree.samples; rw [← e]; exact hi)) hnp
  have hlen : flat.length = n := by rw [l1, List.length_replicate]
  have hpos : ∀ (j : Nat) (c : CTree D) (i : Nat), cs[j]? = some c → i ∈ c.samples →
      flat[i]? = some (j + 1) := by
    intro j c i hj hi
    have := hget j
    rw [hj] at this
    cases hnj : ns[j]? with
    | none => rw [hnj] at this; simp at this
    | some nd =>
      rw [hnj] at this
      simp only [Option.map_some, Option.some.injEq] at this
      rw [s2 j nd i hnj (by rw [this]; exact hi), Nat.add_comm]
  have hzero : ∀ i, i < n → (∀ c ∈ cs, i ∉ c.samples) → flat[i]? = some 0 := by
    intro i hi hc
    rw [s1 i (fun nd hnd hmem => by
      obtain ⟨c, hc', e⟩ := hnsmem nd hnd
      exact hc c hc' (by unfold CTree.samples; rw [← e]; exact hmem))]
    rw [List.getElem?_replicate, if_pos hi]
  have hcase : ∀ i, i < n → (∀ c ∈ cs, i ∉ c.samples) ∨
      ∃ (j : Nat) (c : CTree D), cs[j]? = some c ∧ i ∈ c.samples := by
    intro i _
    by_cases h : ∀ c ∈ cs, i ∉ c.samples
    · exact Or.inl h
    · right
      push_neg at h
      obtain ⟨c, hc, hi⟩ := h
      obtain ⟨j, hj⟩ := List.mem_iff_getElem?.1 hc
      exact ⟨j, c, hj, hi⟩
  refine ⟨flat, ?_, ⟨hlen, hdis, ?_, ?_, ?_⟩, hsub⟩
  · simp only [extractFlat, h1, h2, Option.bind_eq_bind, Option.bind_some, hsz, e1]
  · intro i j
    constructor
    · intro h
      have hi : i < n := by
        rw [← hlen]; exact (List.getElem?_eq_some_iff.1 h).1
      rcases hcase i hi with h' | ⟨j', c, hj', hc⟩
      · rw [hzero i hi h'] at h; simp at h
      · rw [hpos j' c i hj' hc] at h
        have : j' = j := by simpa using h
        subst this
        exact ⟨c, hj', hc⟩
    · rintro ⟨c, hj, hi⟩
      exact hpos j c i hj hi
  · intro i
    constructor
    · intro h
      have hi : i < n := by
        rw [← hlen]; exact (List.getElem?_eq_some_iff.1 h).1
      refine ⟨hi, ?_⟩
      rcases hcase i hi with h' | ⟨j', c, hj', hc⟩
      · exact h'
      · rw [hpos j' c i hj' hc] at h; simp at h
    · rintro ⟨hi, h⟩; exact hzero i hi h
  · intro j hj
    obtain ⟨i, hi⟩ := List.exists_mem_of_ne_nil _ (STree.leaves_ne_nil cs[j].root.slink)
    exact ⟨i, hpos j cs[j] i (by simp [hj]) hi⟩

/-- Everything about the flat clusters, for all options. -/
theorem extract_full (inv : D → D) (m : Nat) (allow ret : Bool) (root : STree D) (hg : Good root)
    (n : Nat) (hn : ∀ x, x ∈ root.leaves ↔ x < n) :
    ∃ flat cs, extractFlat (condensedTree inv m allow ret root) = some flat ∧
      Cut (condenseRoot inv m root) cs ∧ Labels n flat cs ∧
      (∀ c ∈ cs, c ∈ (condenseRoot inv m root).subtrees) ∧
      (ret = true → ∀ c ∈ cs, c.isLeaf = true) ∧
      (ret = false → Allowed allow (condenseRoot inv m root) cs ∧
        ∀ cs', Cut (condenseRoot inv m root) cs' → Allowed allow (condenseRoot inv m root) cs' →
          totalStability cs' ≤ totalStability cs ∧
          (totalStability cs' = totalStability cs → cs.length ≤ cs'.length)) ∧
      ∃ ns, shallowest (condensedTree inv m allow ret root) = some ns ∧
        ns.map (fun n => n.slink) = cs.map (fun c => c.root.slink) := by
  obtain ⟨ns, cs, h1, h2, h3, h4, h5, h6⟩ := shallowest_condensed inv m allow ret root hg
  obtain ⟨flat, e, hL, hsub⟩ := labels_of_cut inv m root hg n hn h1 h2 h3 h4
  exact ⟨flat, cs, e, h3, hL, hsub, h5, h6, ns, h1, h4⟩

theorem extract_spec (inv : D → D) (m : Nat) (allow ret : Bool) (root : STree D) (hg : Good root)
    (n : Nat) (hn : ∀ x, x ∈ root.leaves ↔ x < n) :
    ∃ flat cs, extractFlat (condensedTree inv m allow ret root) = some flat ∧
      Cut (condenseRoot inv m root) cs ∧ Labels n flat cs ∧
      (∀ c ∈ cs, c ∈ (condenseRoot inv m root).subtrees) ∧
      (ret = true → ∀ c ∈ cs, c.isLeaf = true) ∧
      (ret = false → Allowed allow (condenseRoot inv m root) cs ∧
        ∀ cs', Cut (condenseRoot inv m root) cs' → Allowed allow (condenseRoot inv m root) cs' →
          totalStability cs' ≤ totalStability cs ∧
          (totalStability cs' = totalStability cs → cs.length ≤ cs'.length)) := by
  obtain ⟨flat, cs, h1, h2, h3, h4, h5, h6, _⟩ := extract_full inv m allow ret root hg n hn
  exact ⟨flat, cs, h1, h2, h3, h4, h5, h6⟩

/-- **C36.** For every option set, `extract_flat_clusters` labels every sample: 0 for noise and
contiguous labels from 1, two samples sharing a positive label exactly when they are in the same
cluster of a cut of the hierarchy; with `return_leaf_nodes` the clusters are the leaf clusters. -/
theorem C36_labels (inv : D → D) (m : Nat) (allow ret : Bool) (root : STree D) (hg : Good root)
    (n : Nat) (hn : ∀ x, x ∈ root.leaves ↔ x < n) :
    ∃ flat cs, extractFlat (condensedTree inv m allow ret root) = some flat ∧
      Cut (condenseRoot inv m root) cs ∧ Labels n flat cs ∧
      (ret = true → ∀ c ∈ cs, c.isLeaf = true) := by
  obtain ⟨flat, cs, h1, h2, h3, _, h4, _⟩ := extract_spec inv m allow ret root hg n hn
  exact ⟨flat, cs, h1, h2, h3, h4⟩

/-- **C37.** The clusters labelled have the largest total stability among all cuts of the hierarchy
(those consisting of the whole data set excluded unless a single cluster is allowed), and are as few
as possible among the best ones. -/
theorem C37_optimal (inv : D → D) (m : Nat) (allow : Bool) (root : STree D) (hg : Good root)
    (n : Nat) (hn : ∀ x, x ∈ root.leaves ↔ x < n) :
    ∃ flat cs, extractFlat (condensedTree inv m allow false root) = some flat ∧
      Labels n flat cs ∧ Cut (condenseRoot inv m root) cs ∧
      Allowed allow (condenseRoot inv m root) cs ∧
      ∀ cs', Cut (condenseRoot inv m root) cs' → Allowed allow (condenseRoot inv m root) cs' →
        totalStability cs' ≤ totalStability cs ∧
        (totalStability cs' = totalStability cs → cs.length ≤ cs'.length) := by
  obtain ⟨flat, cs, h1, h2, h3, _, _, h4⟩ := extract_spec inv m allow false root hg n hn
  exact ⟨flat, cs, h1, h3, h2, h4 rfl⟩

/-- The optimality of `select_subtree` for a tree with any stabilities, in which the leaf clusters
are marked. -/
theorem C37_any_stabilities (t : CTree D) (hf : Fresh t) :
    ∃ ns cs, shallowest (select t).1 = some ns ∧ Cut t cs ∧
      ns.map (fun n => n.slink) = cs.map (fun c => c.root.slink) ∧
      ∀ cs', Cut t cs' → totalStability cs' ≤ totalStability cs := by
  obtain ⟨ns, cs, h1, h2, h3, h4, h5⟩ := select_spec hf
  exact ⟨ns, cs, h1, h2, h3, fun cs' h' => by rw [h4]; exact (h5 cs' h').1⟩

/-- **C38.** When a single cluster is not allowed and some node of the dendrogram splits into two
clusters of at least `min_cluster_size` samples, at least two different clusters are labelled (so
none of them is the whole data set). -/
theorem C38_no_single_cluster (inv : D → D) (m : Nat) (ret : Bool) (root : STree D) (hg : Good root)
    (n : Nat) (hn : ∀ x, x ∈ root.leaves ↔ x < n) (s : STree D) (hs : s ∈ root.subtrees)
    (hsp : s.Splits m) :
    ∃ (flat : List Nat) (i j : Nat), extractFlat (condensedTree inv m false ret root) = some flat ∧
      flat[i]? = some 1 ∧ flat[j]? = some 2 := by
  obtain ⟨flat, cs, h1, h2, h3, _, h4, h5⟩ := extract_spec inv m false ret root hg n hn
  have hnl : (condenseRoot inv m root).isLeaf = false := by
    cases s with
    | leaf i => simp [STree.Splits, STree.children] at hsp
    | node c lv sz l r =>
      obtain ⟨_, hsp⟩ := hsp
      obtain ⟨n', tl, tr, hmem, _⟩ := (C35_clusters inv m root hg).2.2.2 c lv sz l r hs
        (hsp l (by simp [STree.children])) (hsp r (by simp [STree.children]))
      cases ht : condenseRoot inv m root with
      | leaf n => rw [ht] at hmem; simp [CTree.subtrees] at hmem
      | split _ _ _ => rfl
  have hlen : 2 ≤ cs.length := by
    have hpos := h2.length_pos
    have hne : cs.length ≠ 1 := by
      cases ret with
      | false =>
        rcases (h5 rfl).1 with h | h | h
        · exact absurd h (by simp)
        · rw [hnl] at h; exact absurd h (by simp)
        · exact h
      | true =>
        intro hl
        have hall := h4 rfl
        generalize condenseRoot inv m root = t at h2 hnl
        cases h2 with
        | here =>
          rw [hall t (by simp)] at hnl
          exact absurd hnl (by simp)
        | children _ ha hb =>
          have := ha.length_pos
          have := hb.length_pos
          rw [List.length_append] at hl
          omega
    omega
  obtain ⟨i, hi⟩ := h3.used 0 (by omega)
  obtain ⟨j, hj⟩ := h3.used 1 (by omega)
  exact ⟨flat, i, j, h1, hi, hj⟩

end Condensed

/-! ### concrete cases -/

/-- Samples 0,1,2 | 10,11,12 in one dimension. -/
def exTree : STree ℚ :=
  .node 0 8 6 (.node 0 1 3 (.node 0 1 2 (.leaf 0) (.leaf 1)) (.leaf 2))
    (.node 3 1 3 (.node 3 1 2 (.leaf 3) (.leaf 4)) (.leaf 5))

example : build [((0 : Nat), (1 : Nat), (1 : ℚ)), (1, 2, 1), (3, 4, 1), (4, 5, 1), (2, 3, 8)] =
    some exTree := by decide +kernel

/-- `common::division(1, level)`. -/
def invQ (lv : ℚ) : ℚ := if lv = 0 then 0 else 1 / lv

example : extractFlat (condensedTree invQ 2 false false exTree) = some [1, 1, 1, 2, 2, 2] := by
  decide +kernel

example : exTree.Splits 2 := by
  constructor
  · simp [exTree, STree.children]
  · intro c hc
    simp only [exTree, STree.children, List.mem_cons, List.not_mem_nil, or_false] at hc
    rcases hc with rfl | rfl <;> simp [STree.leaves]

/-- Samples 0, 0, 5, 5: two groups of duplicates. -/
def dupTree : STree ℚ :=
  .node 0 5 4 (.node 0 0 2 (.leaf 0) (.leaf 1)) (.node 2 0 2 (.leaf 2) (.leaf 3))

/-- **Finding.** `common::division(1, 0)` returns 0, so a cluster of duplicates, which is as dense as
can be, has a *negative* stability and the two groups of duplicates 0, 0 and 5, 5 are not separated. -/
theorem C69_duplicates :
    build [((0 : Nat), (1 : Nat), (0 : ℚ)), (2, 3, 0), (1, 2, 5)] = some dupTree ∧
    (match condenseRoot invQ 2 dupTree with
      | .split _ l r => l.root.stability < 0 ∧ r.root.stability < 0
      | .leaf _ => False) ∧
    extractFlat (condensedTree invQ 2 true false dupTree) = some [1, 1, 1, 1] := by
  refine ⟨by decide +kernel, ?_, by decide +kernel⟩
  simp only [condenseRoot, condense, dupTree, STree.size, CTree.root, CNode.addMass, invQ]
  norm_num [condense, STree.size, CTree.root, CNode.addMass]

end Verif.Dendrogram
