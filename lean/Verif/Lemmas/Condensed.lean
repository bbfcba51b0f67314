import Verif.Lemmas.Dendrogram

namespace Verif.Dendrogram

set_option linter.unusedSectionVars false

variable {D : Type}

theorem STree.subtrees_trans {t : STree D} : ∀ s ∈ t.subtrees, ∀ v ∈ s.subtrees, v ∈ t.subtrees := by
  induction t with
  | leaf i => intro s hs v hv; simp [STree.subtrees] at hs; subst hs; exact hv
  | node c lv sz l r ihl ihr =>
    intro s hs v hv
    have hs' := hs
    simp only [STree.subtrees, List.mem_cons, List.mem_append] at hs
    rcases hs with rfl | hs | hs
    · exact hv
    · simp only [STree.subtrees, List.mem_cons, List.mem_append]
      exact Or.inr (Or.inl (ihl s hs v hv))
    · simp only [STree.subtrees, List.mem_cons, List.mem_append]
      exact Or.inr (Or.inr (ihr s hs v hv))

theorem STree.left_mem {c : Nat} {lv : D} {sz : Nat} {l r : STree D} :
    l ∈ (STree.node c lv sz l r).subtrees := by
  simp [STree.subtrees, STree.self_mem_subtrees]

theorem STree.right_mem {c : Nat} {lv : D} {sz : Nat} {l r : STree D} :
    r ∈ (STree.node c lv sz l r).subtrees := by
  simp [STree.subtrees, STree.self_mem_subtrees]

theorem STree.nodup_subtree {t : STree D} (h : t.leaves.Nodup) :
    ∀ s ∈ t.subtrees, s.leaves.Nodup := by
  induction t with
  | leaf i => intro s hs; simp [STree.subtrees] at hs; subst hs; exact h
  | node c lv sz l r ihl ihr =>
    intro s hs
    have h' := h
    simp only [STree.leaves, List.nodup_append] at h'
    simp only [STree.subtrees, List.mem_cons, List.mem_append] at hs
    rcases hs with rfl | hs | hs
    · exact h
    · exact ihl h'.1 s hs
    · exact ihr h'.2.1 s hs

theorem Good.sub [LE D] [Zero D] {t s : STree D} (h : Good t) (hs : s ∈ t.subtrees) : Good s :=
  ⟨STree.nodup_subtree h.nodup s hs,
   fun v hv => h.size v (STree.subtrees_trans s hs v hv),
   fun v hv => h.height v (STree.subtrees_trans s hs v hv),
   fun v hv => h.rep v (STree.subtrees_trans s hs v hv)⟩

theorem Good.disjoint [LE D] [Zero D] {c : Nat} {lv : D} {sz : Nat} {l r : STree D}
    (h : Good (.node c lv sz l r)) : ∀ i ∈ l.leaves, i ∉ r.leaves := by
  have := h.nodup
  simp only [STree.leaves, List.nodup_append] at this
  intro i hi hi'
  exact this.2.2 i hi i hi' rfl

/-! ### labels of a cut -/

section Cut

variable [LinearOrder D] [Zero D]

/-- The label `preorderCut` gives a sample below `t`. -/
def labelAt (cut : D) (m : Nat) : Nat → STree D → Nat → Nat
  | label, .leaf j, _ => if cut ≤ 0 then (if 1 < m then 0 else j) else label
  | label, .node c lv sz l r, i =>
    let label := if cut ≤ lv then (if sz < m then 0 else c) else label
    if i ∈ l.leaves then labelAt cut m label l i else labelAt cut m label r i

theorem preorderCut_spec (cut : D) (m : Nat) : ∀ (t : STree D) (label : Nat) (flat : List Nat),
    t.leaves.Nodup → (∀ i ∈ t.leaves, i < flat.length) →
    ∃ flat', preorderCut cut m label t flat = some flat' ∧ flat'.length = flat.length ∧
      ∀ i, flat'[i]? = if i ∈ t.leaves then some (labelAt cut m label t i) else flat[i]? := by
  intro t
  induction t with
  | leaf j =>
    intro label flat _ h
    have hj : j < flat.length := h j (by simp [STree.leaves])
    refine ⟨_, by rw [preorderCut]; simp only [if_pos hj]; rfl, by simp, ?_⟩
    intro i
    simp only [STree.leaves, List.mem_singleton, labelAt, STree.level, STree.size,
      STree.representative]
    rw [List.getElem?_set]
    by_cases hij : j = i
    · subst hij; simp only [hj, if_true]; rfl
    · rw [if_neg hij, if_neg (fun h => hij h.symm)]
  | node c lv sz l r ihl ihr =>
    intro label flat hnd h
    have hnd' := hnd
    simp only [STree.leaves, List.nodup_append] at hnd'
    obtain ⟨f1, e1, l1, s1⟩ := ihl (if cut ≤ lv then (if sz < m then 0 else c) else label) flat
      hnd'.1 (fun i hi => h i (by simp [STree.leaves, hi]))
    obtain ⟨f2, e2, l2, s2⟩ := ihr (if cut ≤ lv then (if sz < m then 0 else c) else label) f1
      hnd'.2.1 (fun i hi => by rw [l1]; exact h i (by simp [STree.leaves, hi]))
    refine ⟨f2, ?_, l2.trans l1, ?_⟩
    · have e : ((preorderCut cut m (if cut ≤ lv then (if sz < m then 0 else c) else label) l flat).bind
          fun flat => preorderCut cut m (if cut ≤ lv then (if sz < m then 0 else c) else label) r flat) =
          some f2 := by rw [e1]; exact e2
      rw [preorderCut]
      exact e
    · intro i
      rw [s2, s1]
      simp only [STree.leaves, List.mem_append, labelAt]
      by_cases hil : i ∈ l.leaves
      · have hir : i ∉ r.leaves := fun hh => hnd'.2.2 i hil i hh rfl
        simp [hil, hir]
      · by_cases hir : i ∈ r.leaves
        · simp [hil, hir]
        · simp [hil, hir]

theorem labelAt_low {cut : D} (hcut : 0 < cut) (m : Nat) : ∀ (t : STree D) (label i : Nat), Good t →
    t.level < cut → labelAt cut m label t i = label := by
  intro t
  induction t with
  | leaf j => intro label i _ _; rw [labelAt, if_neg (not_le.2 hcut)]
  | node c lv sz l r ihl ihr =>
    intro label i hg hlv
    have h1 := hg.height _ (STree.self_mem_subtrees _) l (by simp [STree.children])
    have h2 := hg.height _ (STree.self_mem_subtrees _) r (by simp [STree.children])
    simp only [labelAt]
    rw [if_neg (show ¬ cut ≤ lv from not_le.2 hlv)]
    split
    · exact ihl _ i (hg.sub STree.left_mem) (lt_of_le_of_lt h1 hlv)
    · exact ihr _ i (hg.sub STree.right_mem) (lt_of_le_of_lt h2 hlv)

theorem labelAt_same {cut : D} (hcut : 0 < cut) (m : Nat) : ∀ (t : STree D) (label a b : Nat), Good t →
    ∀ s ∈ t.subtrees, s.level < cut → a ∈ s.leaves → b ∈ s.leaves →
    labelAt cut m label t a = labelAt cut m label t b := by
  intro t
  induction t with
  | leaf j => intro label a b _ s _ _ _ _; rfl
  | node c lv sz l r ihl ihr =>
    intro label a b hg s hs hlv ha hb
    simp only [STree.subtrees, List.mem_cons, List.mem_append] at hs
    rcases hs with rfl | hs | hs
    · rw [labelAt_low hcut m _ _ _ hg hlv, labelAt_low hcut m _ _ _ hg hlv]
    · simp only [labelAt]
      rw [if_pos (STree.leaves_of_subtree s hs a ha), if_pos (STree.leaves_of_subtree s hs b hb)]
      exact ihl _ a b (hg.sub STree.left_mem) s hs hlv ha hb
    · have h1 : a ∉ l.leaves := fun h => hg.disjoint a h (STree.leaves_of_subtree s hs a ha)
      have h2 : b ∉ l.leaves := fun h => hg.disjoint b h (STree.leaves_of_subtree s hs b hb)
      simp only [labelAt]
      rw [if_neg h1, if_neg h2]
      exact ihr _ a b (hg.sub STree.right_mem) s hs hlv ha hb

/-- The lowest node at or above the cut gives the label. -/
theorem labelAt_lowest (cut : D) (m : Nat) : ∀ (t : STree D) (label i : Nat), Good t →
    ∀ s ∈ t.subtrees, cut ≤ s.level → i ∈ s.leaves →
    (∀ c ∈ s.children, i ∈ c.leaves → c.level < cut) →
    labelAt cut m label t i = if s.size < m then 0 else s.representative := by
  intro t
  induction t with
  | leaf j =>
    intro label i _ s hs hlv hi hc
    simp only [STree.subtrees, List.mem_singleton] at hs
    subst hs
    simp only [STree.level] at hlv
    rw [labelAt, if_pos hlv]; rfl
  | node c lv sz l r ihl ihr =>
    intro label i hg s hs hlv hi hc
    simp only [STree.subtrees, List.mem_cons, List.mem_append] at hs
    rcases hs with rfl | hs | hs
    · simp only [STree.level] at hlv
      simp only [labelAt, if_pos hlv, STree.size, STree.representative]
      have hz : ∀ v : STree D, v.level < cut → Good v → i ∈ v.leaves → 0 < cut ∨ False := by
        intro v hv hgv hiv
        left
        have : ∀ v : STree D, Good v → (0 : D) ≤ v.level := by
          intro v
          induction v with
          | leaf j => intro _; exact le_refl _
          | node c lv sz l r ihl _ =>
            intro hg
            exact (ihl (hg.sub STree.left_mem)).trans
              (hg.height _ (STree.self_mem_subtrees _) l (by simp [STree.children]))
        exact lt_of_le_of_lt (this v hgv) hv
      split
      · rename_i hil
        have h1 := hc l (by simp [STree.children]) hil
        have h2 := (hz l h1 (hg.sub STree.left_mem) hil).resolve_right id
        exact labelAt_low h2 m l _ i (hg.sub STree.left_mem) h1
      · rename_i hil
        have hir : i ∈ r.leaves := by
          simp only [STree.leaves, List.mem_append] at hi
          exact hi.resolve_left hil
        have h1 := hc r (by simp [STree.children]) hir
        have h2 := (hz r h1 (hg.sub STree.right_mem) hir).resolve_right id
        exact labelAt_low h2 m r _ i (hg.sub STree.right_mem) h1
    · simp only [labelAt]
      rw [if_pos (STree.leaves_of_subtree s hs i hi)]
      exact ihl _ i (hg.sub STree.left_mem) s hs hlv hi hc
    · have h1 : i ∉ l.leaves := fun h => hg.disjoint i h (STree.leaves_of_subtree s hs i hi)
      simp only [labelAt]
      rw [if_neg h1]
      exact ihr _ i (hg.sub STree.right_mem) s hs hlv hi hc

end Cut

/-! ### condensing -/

section Condense

variable [Ring D]

theorem condense_root (inv : D → D) (m : Nat) : ∀ (s : STree D) (n : CNode D),
    (condense inv m n s).root.slink = n.slink ∧ (condense inv m n s).root.lambdaMin = n.lambdaMin := by
  intro s
  induction s with
  | leaf i => intro n; simp [condense, CTree.root]
  | node c lv sz l r ihl ihr =>
    intro n
    rw [condense]
    split
    · simp [CTree.root, CNode.addMass]
    · split
      · rw [(ihl _).1, (ihl _).2]; simp [CNode.addMass]
      · split
        · rw [(ihr _).1, (ihr _).2]; simp [CNode.addMass]
        · simp [CTree.root, CNode.addMass]

/-- Only the leaf clusters are marked. -/
def Fresh : CTree D → Prop
  | .leaf n => n.selected = true
  | .split n l r => n.selected = false ∧ Fresh l ∧ Fresh r

theorem condense_fresh (inv : D → D) (m : Nat) : ∀ (s : STree D) (n : CNode D), n.selected = false →
    Fresh (condense inv m n s) := by
  intro s
  induction s with
  | leaf i => intro n _; simp [condense, Fresh]
  | node c lv sz l r ihl ihr =>
    intro n hn
    rw [condense]
    split
    · exact ⟨hn, ihl _ rfl, ihr _ rfl⟩
    · split
      · exact ihl _ hn
      · split
        · exact ihr _ hn
        · rfl

/-- Nesting of the clusters of a condensed tree. -/
def Nested (m : Nat) : CTree D → Prop
  | .leaf _ => True
  | .split n l r => l.root.slink ∈ n.slink.subtrees ∧ r.root.slink ∈ n.slink.subtrees ∧
      m ≤ l.root.slink.size ∧ m ≤ r.root.slink.size ∧
      (∀ i ∈ l.root.slink.leaves, i ∉ r.root.slink.leaves) ∧ Nested m l ∧ Nested m r

theorem condense_nested [LE D] (inv : D → D) (m : Nat) : ∀ (s : STree D) (n : CNode D),
    s ∈ n.slink.subtrees → Good n.slink → Nested m (condense inv m n s) := by
  intro s
  induction s with
  | leaf i => intro n _ _; simp [condense, Nested]
  | node c lv sz l r ihl ihr =>
    intro n hs hg
    have hl := STree.subtrees_trans _ hs l STree.left_mem
    have hr := STree.subtrees_trans _ hs r STree.right_mem
    rw [condense]
    split
    · rename_i h
      refine ⟨?_, ?_, ?_, ?_, ?_, ihl _ (STree.self_mem_subtrees _) (hg.sub hl),
        ihr _ (STree.self_mem_subtrees _) (hg.sub hr)⟩
      · rw [(condense_root inv m l _).1]; exact hl
      · rw [(condense_root inv m r _).1]; exact hr
      · rw [(condense_root inv m l _).1]; exact h.1
      · rw [(condense_root inv m r _).1]; exact h.2
      · rw [(condense_root inv m l _).1, (condense_root inv m r _).1]
        exact (hg.sub hs).disjoint
    · split
      · exact ihl _ hl hg
      · split
        · exact ihr _ hr hg
        · trivial

theorem CTree.self_mem_subtrees (t : CTree D) : t ∈ t.subtrees := by
  cases t <;> simp [CTree.subtrees]

theorem Nested.split_of_mem {m : Nat} {t : CTree D} (h : Nested m t) :
    ∀ c ∈ t.subtrees, Nested m c ∧ c.root.slink ∈ t.root.slink.subtrees := by
  induction t with
  | leaf n =>
    intro c hc
    simp only [CTree.subtrees, List.mem_singleton] at hc
    subst hc
    exact ⟨h, STree.self_mem_subtrees _⟩
  | split n l r ihl ihr =>
    intro c hc
    simp only [CTree.subtrees, List.mem_cons, List.mem_append] at hc
    obtain ⟨h1, h2, _, _, _, h3, h4⟩ := id h
    rcases hc with rfl | hc | hc
    · exact ⟨h, STree.self_mem_subtrees _⟩
    · exact ⟨(ihl h3 c hc).1, STree.subtrees_trans _ h1 _ (ihl h3 c hc).2⟩
    · exact ⟨(ihr h4 c hc).1, STree.subtrees_trans _ h2 _ (ihr h4 c hc).2⟩

/-- Every node of the dendrogram with two big children is a split of the condensed tree. -/
theorem condense_complete [LE D] (inv : D → D) (m : Nat) : ∀ (s : STree D) (n : CNode D), Good s →
    ∀ c lv sz l r, STree.node c lv sz l r ∈ s.subtrees → m ≤ l.size → m ≤ r.size →
    ∃ n' tl tr, CTree.split n' tl tr ∈ (condense inv m n s).subtrees ∧ tl.root.slink = l ∧
      tr.root.slink = r := by
  intro s
  induction s with
  | leaf i => intro n _ c lv sz l r h; simp [STree.subtrees] at h
  | node c0 lv0 sz0 l0 r0 ihl ihr =>
    intro n hg c lv sz l r h hl hr
    have hbig : ∀ v : STree D, Good v → STree.node c lv sz l r ∈ v.subtrees → m ≤ v.size := by
      intro v hv hmem
      rw [hv.size v (STree.self_mem_subtrees _)]
      have h1 : l ∈ v.subtrees := STree.subtrees_trans _ hmem l STree.left_mem
      have h2 : l.leaves.length ≤ v.leaves.length := by
        apply List.Subperm.length_le
        exact List.subperm_of_subset (STree.nodup_subtree hv.nodup l h1)
          (STree.leaves_of_subtree l h1)
      rw [hv.size l h1] at hl
      omega
    have hgl : Good l0 := hg.sub STree.left_mem
    have hgr : Good r0 := hg.sub STree.right_mem
    simp only [STree.subtrees, List.mem_cons, List.mem_append] at h
    rcases h with h | h | h
    · injection h with h1 h2 h3 h4 h5
      subst h4 h5
      refine ⟨n.addMass sz0 (inv lv0), condense inv m ⟨l, inv lv0, 0, false⟩ l,
        condense inv m ⟨r, inv lv0, 0, false⟩ r, ?_, (condense_root inv m l _).1,
        (condense_root inv m r _).1⟩
      · rw [condense, if_pos ⟨hl, hr⟩]
        exact CTree.self_mem_subtrees _
    · have hb := hbig l0 hgl h
      by_cases hb' : m ≤ r0.size
      · obtain ⟨n', tl, tr, h1, h2⟩ := ihl ⟨l0, inv lv0, 0, false⟩ hgl c lv sz l r h hl hr
        refine ⟨n', tl, tr, ?_, h2⟩
        rw [condense, if_pos ⟨hb, hb'⟩]
        simp [CTree.subtrees, h1]
      · obtain ⟨n', tl, tr, h1, h2⟩ := ihl (n.addMass r0.size (inv lv0)) hgl c lv sz l r h hl hr
        refine ⟨n', tl, tr, ?_, h2⟩
        rw [condense, if_neg (fun h => hb' h.2), if_pos hb]
        exact h1
    · have hb := hbig r0 hgr h
      by_cases hb' : m ≤ l0.size
      · obtain ⟨n', tl, tr, h1, h2⟩ := ihr ⟨r0, inv lv0, 0, false⟩ hgr c lv sz l r h hl hr
        refine ⟨n', tl, tr, ?_, h2⟩
        rw [condense, if_pos ⟨hb', hb⟩]
        simp [CTree.subtrees, h1]
      · obtain ⟨n', tl, tr, h1, h2⟩ := ihr (n.addMass l0.size (inv lv0)) hgr c lv sz l r h hl hr
        refine ⟨n', tl, tr, ?_, h2⟩
        rw [condense, if_neg (fun h => hb' h.1), if_neg hb', if_pos hb]
        exact h1

/-- Forgetting the marks does not change the nesting. -/
theorem select_nested [LinearOrder D] {m : Nat} : ∀ {t : CTree D}, Nested m t →
    Nested m (select t).1 ∧ (select t).1.root.slink = t.root.slink ∧
      (select t).1.isLeaf = t.isLeaf := by
  intro t
  induction t with
  | leaf n => intro h; exact ⟨h, rfl, rfl⟩
  | split n l r ihl ihr =>
    rintro ⟨h1, h2, h3, h4, h5, h6, h7⟩
    obtain ⟨a1, a2, _⟩ := ihl h6
    obtain ⟨b1, b2, _⟩ := ihr h7
    rw [select]
    dsimp only
    split
    · refine ⟨⟨?_, ?_, ?_, ?_, ?_, a1, b1⟩, rfl, rfl⟩ <;> simp only [a2, b2] <;> assumption
    · refine ⟨⟨?_, ?_, ?_, ?_, ?_, a1, b1⟩, rfl, rfl⟩ <;> simp only [a2, b2] <;> assumption

theorem Cut.length_pos {t : CTree D} {cs : List (CTree D)} (h : Cut t cs) : 0 < cs.length := by
  induction h with
  | here t => simp
  | children n ha hb iha ihb => simp; omega

/-- The clusters of a cut are pairwise disjoint and among the clusters of the tree. -/
theorem Cut.disjoint {m : Nat} {t : CTree D} {cs : List (CTree D)} (h : Cut t cs) (ht : Nested m t) :
    (∀ c ∈ cs, c ∈ t.subtrees) ∧
    cs.Pairwise (fun a b => ∀ i ∈ a.samples, i ∉ b.samples) := by
  induction h with
  | here t => simp [CTree.self_mem_subtrees]
  | @children n l r a b ha hb iha ihb =>
    obtain ⟨h1, h2, _, _, h5, h6, h7⟩ := ht
    obtain ⟨a1, a2⟩ := iha h6
    obtain ⟨b1, b2⟩ := ihb h7
    constructor
    · intro c hc
      simp only [CTree.subtrees, List.mem_cons, List.mem_append]
      rcases List.mem_append.1 hc with hc | hc
      · exact Or.inr (Or.inl (a1 c hc))
      · exact Or.inr (Or.inr (b1 c hc))
    · rw [List.pairwise_append]
      refine ⟨a2, b2, ?_⟩
      intro c hc d hd i hi hi'
      have hc' := (h6.split_of_mem c (a1 c hc)).2
      have hd' := (h7.split_of_mem d (b1 d hd)).2
      exact h5 i (STree.leaves_of_subtree _ hc' i hi) (STree.leaves_of_subtree _ hd' i hi')

theorem shallowest_fresh : ∀ {t : CTree D}, Fresh t → ∃ ns cs, shallowest t = some ns ∧ Cut t cs ∧
    ns.map (fun n => n.slink) = cs.map (fun c => c.root.slink) ∧ ∀ c ∈ cs, c.isLeaf = true := by
  intro t
  induction t with
  | leaf n =>
    intro h
    have h : n.selected = true := h
    refine ⟨[n], [.leaf n], ?_, .here _, rfl, ?_⟩
    · rw [shallowest, if_pos h]
    · simp [CTree.isLeaf]
  | split n l r ihl ihr =>
    rintro ⟨h1, h2, h3⟩
    obtain ⟨na, ca, e1, c1, m1, l1⟩ := ihl h2
    obtain ⟨nb, cb, e2, c2, m2, l2⟩ := ihr h3
    refine ⟨na ++ nb, ca ++ cb, ?_, .children n c1 c2, by simp [m1, m2], ?_⟩
    · rw [shallowest, if_neg (by simp [h1]), e1, e2]; rfl
    · intro c hc
      rcases List.mem_append.1 hc with hc | hc
      · exact l1 c hc
      · exact l2 c hc

theorem totalStability_append (a b : List (CTree D)) :
    totalStability (a ++ b) = totalStability a + totalStability b := by
  simp [totalStability]

/-- `select` finds the best cut, with the fewest clusters among the best ones. -/
theorem select_spec [LinearOrder D] [IsOrderedAddMonoid D] : ∀ {t : CTree D}, Fresh t →
    ∃ ns cs, shallowest (select t).1 = some ns ∧ Cut t cs ∧
      ns.map (fun n => n.slink) = cs.map (fun c => c.root.slink) ∧
      totalStability cs = (select t).2 ∧
      ∀ cs', Cut t cs' → totalStability cs' ≤ (select t).2 ∧
        (totalStability cs' = (select t).2 → cs.length ≤ cs'.length) := by
  intro t
  induction t with
  | leaf n =>
    intro h
    have h : n.selected = true := h
    refine ⟨[n], [.leaf n], ?_, .here _, rfl, ?_, ?_⟩
    · rw [select, shallowest, if_pos h]
    · simp [totalStability, select, CTree.root]
    · intro cs' h'
      cases h'
      simp [totalStability, select, CTree.root]
  | split n l r ihl ihr =>
    rintro ⟨h1, h2, h3⟩
    obtain ⟨na, ca, e1, c1, m1, s1, o1⟩ := ihl h2
    obtain ⟨nb, cb, e2, c2, m2, s2, o2⟩ := ihr h3
    rw [select]
    dsimp only
    by_cases hc : (select l).2 + (select r).2 > n.stability
    · rw [if_pos hc]
      refine ⟨na ++ nb, ca ++ cb, ?_, .children n c1 c2, by simp [m1, m2], ?_, ?_⟩
      · rw [shallowest, if_neg (by simp [h1]), e1, e2]; rfl
      · rw [totalStability_append, s1, s2]
      · intro cs' h'
        cases h' with
        | here =>
          have : totalStability [CTree.split n l r] = n.stability := by
            simp [totalStability, CTree.root]
          rw [this]
          exact ⟨le_of_lt hc, fun h => absurd h (ne_of_lt hc)⟩
        | children _ ha hb =>
          rename_i a b
          rw [totalStability_append]
          obtain ⟨p1, q1⟩ := o1 a ha
          obtain ⟨p2, q2⟩ := o2 b hb
          refine ⟨add_le_add p1 p2, ?_⟩
          intro heq
          have := q1 (by
            by_contra hne
            exact absurd heq (ne_of_lt (add_lt_add_of_lt_of_le (lt_of_le_of_ne p1 hne) p2)))
          have := q2 (by
            by_contra hne
            exact absurd heq (ne_of_lt (add_lt_add_of_le_of_lt p1 (lt_of_le_of_ne p2 hne))))
          simp only [List.length_append]
          omega
    · rw [if_neg hc]
      refine ⟨[{ n with selected := true }], [.split n l r], ?_, .here _, rfl, ?_, ?_⟩
      · rw [shallowest, if_pos rfl]
      · simp [totalStability, CTree.root]
      · intro cs' h'
        refine ⟨?_, fun _ => h'.length_pos⟩
        cases h' with
        | here => simp [totalStability, CTree.root]
        | children _ ha hb =>
          rename_i a b
          rw [totalStability_append]
          exact (add_le_add (o1 a ha).1 (o2 b hb).1).trans (not_lt.1 hc)

/-! ### writing labels -/

theorem writeLabel_spec (label : Nat) : ∀ (s : STree D) (flat : List Nat),
    (∀ i ∈ s.leaves, i < flat.length) →
    ∃ flat', writeLabel label s flat = some flat' ∧ flat'.length = flat.length ∧
      ∀ i, flat'[i]? = if i ∈ s.leaves then some label else flat[i]? := by
  intro s
  induction s with
  | leaf j =>
    intro flat h
    have hj : j < flat.length := h j (by simp [STree.leaves])
    refine ⟨flat.set j label, by rw [writeLabel, if_pos hj], by simp, ?_⟩
    intro i
    simp only [STree.leaves, List.mem_singleton]
    rw [List.getElem?_set]
    by_cases hij : j = i
    · subst hij; simp [hj]
    · rw [if_neg hij, if_neg (fun h => hij h.symm)]
  | node c lv sz l r ihl ihr =>
    intro flat h
    obtain ⟨f1, e1, l1, s1⟩ := ihl flat (fun i hi => h i (by simp [STree.leaves, hi]))
    obtain ⟨f2, e2, l2, s2⟩ := ihr f1 (fun i hi => by rw [l1]; exact h i (by simp [STree.leaves, hi]))
    refine ⟨f2, by rw [writeLabel, e1]; exact e2, l2.trans l1, ?_⟩
    intro i
    rw [s2, s1]
    simp only [STree.leaves, List.mem_append]
    by_cases hir : i ∈ r.leaves
    · simp [hir]
    · simp [hir]

theorem writeLabels_spec : ∀ (ns : List (CNode D)) (label : Nat) (flat : List Nat),
    (∀ n ∈ ns, ∀ i ∈ n.slink.leaves, i < flat.length) →
    ns.Pairwise (fun a b => ∀ i ∈ a.slink.leaves, i ∉ b.slink.leaves) →
    ∃ flat', writeLabels label ns flat = some flat' ∧ flat'.length = flat.length ∧
      (∀ i, (∀ n ∈ ns, i ∉ n.slink.leaves) → flat'[i]? = flat[i]?) ∧
      ∀ (j : Nat) (n : CNode D) (i : Nat), ns[j]? = some n → i ∈ n.slink.leaves →
        flat'[i]? = some (label + j) := by
  intro ns
  induction ns with
  | nil => intro label flat _ _; exact ⟨flat, rfl, rfl, fun _ _ => rfl, by simp⟩
  | cons n ns ih =>
    intro label flat h hp
    rw [List.pairwise_cons] at hp
    obtain ⟨f1, e1, l1, s1⟩ := writeLabel_spec label n.slink flat (h n (by simp))
    obtain ⟨f2, e2, l2, s2, s3⟩ := ih (label + 1) f1
      (fun n' hn' i hi => by rw [l1]; exact h n' (by simp [hn']) i hi) hp.2
    refine ⟨f2, by rw [writeLabels, e1]; exact e2, l2.trans l1, ?_, ?_⟩
    · intro i hi
      rw [s2 i (fun n' hn' => hi n' (by simp [hn'])), s1, if_neg (hi n (by simp))]
    · intro j n' i hj hi
      cases j with
      | zero =>
        simp only [List.getElem?_cons_zero, Option.some.injEq] at hj
        subst hj
        rw [s2 i (fun n' hn' => hp.1 n' hn' i hi), s1, if_pos hi]
        rfl
      | succ j =>
        simp only [List.getElem?_cons_succ] at hj
        rw [s3 j n' i hj hi]
        congr 1
        omega

/-! ### stability -/

/-- The level at which sample `p` leaves the cluster that starts at `s`. -/
def exitNode (m : Nat) : STree D → Nat → STree D
  | .leaf i, _ => .leaf i
  | .node c lv sz l r, p =>
    if m ≤ l.size ∧ m ≤ r.size then .node c lv sz l r
    else if m ≤ l.size then (if p ∈ l.leaves then exitNode m l p else .node c lv sz l r)
    else if m ≤ r.size then (if p ∈ r.leaves then exitNode m r p else .node c lv sz l r)
    else .node c lv sz l r

theorem STree.leaves_length_pos (t : STree D) : 0 < t.leaves.length :=
  List.length_pos_iff.2 t.leaves_ne_nil

theorem STree.leaves_length_le {t : STree D} (h : t.leaves.Nodup) {s : STree D}
    (hs : s ∈ t.subtrees) : s.leaves.length ≤ t.leaves.length :=
  List.Subperm.length_le (List.subperm_of_subset (STree.nodup_subtree h s hs)
    (STree.leaves_of_subtree s hs))

theorem exitNode_isExit [LE D] (m : Nat) : ∀ (s : STree D) (p : Nat), Good s → p ∈ s.leaves →
    IsExit m s p (exitNode m s p) := by
  intro s
  induction s with
  | leaf i =>
    intro p _ hp
    refine ⟨⟨STree.self_mem_subtrees _, Or.inl rfl, ?_⟩, hp, ?_⟩
    · intro w hw hv hne
      simp only [STree.subtrees, List.mem_singleton] at hw
      exact absurd hw hne
    · intro v hv _
      have := hv.1
      simp only [STree.subtrees, List.mem_singleton] at this
      rw [this]; exact STree.self_mem_subtrees _
  | node c lv sz l r ihl ihr =>
    intro p hg hp
    have hgl : Good l := hg.sub STree.left_mem
    have hgr : Good r := hg.sub STree.right_mem
    have hsl := hgl.size l (STree.self_mem_subtrees _)
    have hsr := hgr.size r (STree.self_mem_subtrees _)
    have hself : Carries m (STree.node c lv sz l r) (STree.node c lv sz l r) := by
      refine ⟨STree.self_mem_subtrees _, Or.inl rfl, ?_⟩
      intro w hw hv hne
      exfalso
      -- a node is not strictly below one of its descendants
      have h1 := STree.leaves_length_le hg.nodup hw
      have h2 := STree.leaves_length_le (STree.nodup_subtree hg.nodup w hw) hv
      simp only [STree.subtrees, List.mem_cons, List.mem_append] at hw
      have h3 := l.leaves_length_pos
      have h4 := r.leaves_length_pos
      simp only [STree.leaves, List.length_append] at h1 h2
      rcases hw with hw | hw | hw
      · exact hne hw
      · have := STree.leaves_length_le hgl.nodup hw; omega
      · have := STree.leaves_length_le hgr.nodup hw; omega
    have hcases : ∀ v, Carries m (STree.node c lv sz l r) v → v = STree.node c lv sz l r ∨
        ((v ∈ l.subtrees ∨ v ∈ r.subtrees) ∧ m ≤ v.leaves.length ∧
          ¬ (STree.node c lv sz l r).Splits m) := by
      rintro v ⟨h1, h2, h3⟩
      by_cases hv : v = STree.node c lv sz l r
      · exact Or.inl hv
      · right
        refine ⟨?_, h2.resolve_left hv, h3 _ (STree.self_mem_subtrees _) h1 (fun h => hv h.symm)⟩
        simp only [STree.subtrees, List.mem_cons, List.mem_append] at h1
        exact h1.resolve_left hv
    have hsplit : (STree.node c lv sz l r).Splits m ↔ m ≤ l.size ∧ m ≤ r.size := by
      simp [STree.Splits, STree.children, hsl, hsr]
    -- moving between a child and the node
    have up : ∀ (a b : STree D), ((a = l ∧ b = r) ∨ (a = r ∧ b = l)) → m ≤ a.leaves.length →
        ¬ m ≤ b.leaves.length → p ∈ a.leaves → ∀ v, IsExit m a p v →
        IsExit m (STree.node c lv sz l r) p v := by
      rintro a b hab hma hmb hpa v ⟨⟨h1, h2, h3⟩, h4, h5⟩
      have hmem : ∀ w, w ∈ (STree.node c lv sz l r).subtrees ↔
          w = STree.node c lv sz l r ∨ w ∈ a.subtrees ∨ w ∈ b.subtrees := by
        intro w
        simp only [STree.subtrees, List.mem_cons, List.mem_append]
        rcases hab with ⟨rfl, rfl⟩ | ⟨rfl, rfl⟩ <;> tauto
      have hdis : ∀ i ∈ a.leaves, i ∉ b.leaves := by
        rcases hab with ⟨rfl, rfl⟩ | ⟨rfl, rfl⟩
        · exact hg.disjoint
        · exact fun i hi hi' => hg.disjoint i hi' hi
      have hnb : b.leaves.Nodup := by
        rcases hab with ⟨rfl, rfl⟩ | ⟨rfl, rfl⟩
        · exact hgr.nodup
        · exact hgl.nodup
      have hns : ¬ (STree.node c lv sz l r).Splits m := by
        rw [hsplit, hsl, hsr]
        rcases hab with ⟨rfl, rfl⟩ | ⟨rfl, rfl⟩
        · exact fun h => hmb h.2
        · exact fun h => hmb h.1
      refine ⟨⟨(hmem v).2 (Or.inr (Or.inl h1)), Or.inr ?_, ?_⟩, h4, ?_⟩
      · rcases h2 with rfl | h2
        · exact hma
        · exact h2
      · intro w hw hvw hne
        rcases (hmem w).1 hw with rfl | hw | hw
        · exact hns
        · exact h3 w hw hvw hne
        · exfalso
          have := STree.leaves_of_subtree w hw p (STree.leaves_of_subtree v hvw p h4)
          exact hdis p hpa this
      · intro v' hv' hp'
        rcases hcases v' hv' with rfl | ⟨_, hm', _⟩
        · exact (hmem v).2 (Or.inr (Or.inl h1))
        · rcases (hmem v').1 hv'.1 with rfl | hw | hw
          · exact (hmem v).2 (Or.inr (Or.inl h1))
          · refine h5 v' ⟨hw, Or.inr hm', ?_⟩ hp'
            intro w hw' hvw hne
            exact hv'.2.2 w ((hmem w).2 (Or.inr (Or.inl hw'))) hvw hne
          · have := STree.leaves_length_le hnb hw
            omega
    have hp' : p ∈ l.leaves ∨ p ∈ r.leaves := by simpa [STree.leaves] using hp
    rw [exitNode]
    by_cases hl : m ≤ l.size
    · by_cases hr : m ≤ r.size
      · rw [if_pos ⟨hl, hr⟩]
        refine ⟨hself, hp, ?_⟩
        intro v hv _
        rcases hcases v hv with rfl | ⟨_, _, h⟩
        · exact STree.self_mem_subtrees _
        · exact absurd (hsplit.2 ⟨hl, hr⟩) h
      · rw [if_neg (fun h => hr h.2), if_pos hl]
        by_cases hpl : p ∈ l.leaves
        · rw [if_pos hpl]
          exact up l r (Or.inl ⟨rfl, rfl⟩) (hsl ▸ hl) (hsr ▸ hr) hpl _ (ihl p hgl hpl)
        · rw [if_neg hpl]
          refine ⟨hself, hp, ?_⟩
          intro v hv hpv
          rcases hcases v hv with rfl | ⟨h | h, hm, _⟩
          · exact STree.self_mem_subtrees _
          · exact absurd (STree.leaves_of_subtree v h p hpv) hpl
          · have := STree.leaves_length_le hgr.nodup h
            omega
    · rw [if_neg (fun h => hl h.1), if_neg hl]
      by_cases hr : m ≤ r.size
      · rw [if_pos hr]
        by_cases hpr : p ∈ r.leaves
        · rw [if_pos hpr]
          exact up r l (Or.inr ⟨rfl, rfl⟩) (hsr ▸ hr) (hsl ▸ hl) hpr _ (ihr p hgr hpr)
        · rw [if_neg hpr]
          refine ⟨hself, hp, ?_⟩
          intro v hv hpv
          rcases hcases v hv with rfl | ⟨h | h, hm, _⟩
          · exact STree.self_mem_subtrees _
          · have := STree.leaves_length_le hgl.nodup h
            omega
          · exact absurd (STree.leaves_of_subtree v h p hpv) hpr
      · rw [if_neg hr]
        refine ⟨hself, hp, ?_⟩
        intro v hv hpv
        rcases hcases v hv with rfl | ⟨h | h, hm, _⟩
        · exact STree.self_mem_subtrees _
        · have := STree.leaves_length_le hgl.nodup h
          omega
        · have := STree.leaves_length_le hgr.nodup h
          omega

theorem sum_map_const' (l : List Nat) (f : Nat → D) (a : D) (h : ∀ p ∈ l, f p = a) :
    (l.map f).sum = l.length * a := by
  induction l with
  | nil => simp
  | cons p l ih =>
    rw [List.map_cons, List.sum_cons, h p (by simp), ih (fun q hq => h q (by simp [hq]))]
    simp [add_mul, add_comm]

theorem sum_map_congr' (l : List Nat) (f g : Nat → D) (h : ∀ p ∈ l, f p = g p) :
    (l.map f).sum = (l.map g).sum := by
  rw [List.map_congr_left h]

/-- The stability accumulated along one cluster. -/
theorem condense_stability [LE D] (inv : D → D) (m : Nat) : ∀ (s : STree D) (n : CNode D), Good s →
    1 < s.leaves.length →
    (condense inv m n s).root.stability = n.stability +
      (s.leaves.map (fun p => inv (exitNode m s p).level - n.lambdaMin)).sum := by
  intro s
  induction s with
  | leaf i => intro n _ h; simp [STree.leaves] at h
  | node c lv sz l r ihl ihr =>
    intro n hg _
    have hgl : Good l := hg.sub STree.left_mem
    have hgr : Good r := hg.sub STree.right_mem
    have hsl := hgl.size l (STree.self_mem_subtrees _)
    have hsr := hgr.size r (STree.self_mem_subtrees _)
    have hsz : sz = l.leaves.length + r.leaves.length := by
      have := hg.size _ (STree.self_mem_subtrees _)
      simpa [STree.size, STree.leaves] using this
    have hlp := l.leaves_length_pos
    have hrp := r.leaves_length_pos
    rw [condense]
    by_cases hl : m ≤ l.size
    · by_cases hr : m ≤ r.size
      · rw [if_pos ⟨hl, hr⟩, sum_map_const' _ _ (inv lv - n.lambdaMin)]
        · simp [CTree.root, CNode.addMass, STree.leaves, hsz]
        · intro p _
          rw [exitNode, if_pos ⟨hl, hr⟩]; rfl
      · rw [if_neg (fun h => hr h.2), if_pos hl, ihl _ hgl (by omega)]
        rw [STree.leaves, List.map_append, List.sum_append]
        rw [sum_map_const' r.leaves _ (inv lv - n.lambdaMin)]
        · rw [sum_map_congr' l.leaves (fun p => inv (exitNode m (.node c lv sz l r) p).level -
            n.lambdaMin) (fun p => inv (exitNode m l p).level - n.lambdaMin)]
          · simp only [CNode.addMass, hsr]
            rw [add_assoc, add_comm (_ * _)]
          · intro p hp
            rw [exitNode, if_neg (fun h => hr h.2), if_pos hl, if_pos hp]
        · intro p hp
          have : p ∉ l.leaves := fun h => hg.disjoint p h hp
          rw [exitNode, if_neg (fun h => hr h.2), if_pos hl, if_neg this]; rfl
    · rw [if_neg (fun h => hl h.1), if_neg hl]
      by_cases hr : m ≤ r.size
      · rw [if_pos hr, ihr _ hgr (by omega)]
        rw [STree.leaves, List.map_append, List.sum_append]
        rw [sum_map_const' l.leaves _ (inv lv - n.lambdaMin)]
        · rw [sum_map_congr' r.leaves (fun p => inv (exitNode m (.node c lv sz l r) p).level -
            n.lambdaMin) (fun p => inv (exitNode m r p).level - n.lambdaMin)]
          · simp only [CNode.addMass, hsl]
            rw [add_assoc]
          · intro p hp
            rw [exitNode, if_neg (fun h => hl h.1), if_neg hl, if_pos hr, if_pos hp]
        · intro p hp
          have : p ∉ r.leaves := fun h => hg.disjoint p hp h
          rw [exitNode, if_neg (fun h => hl h.1), if_neg hl, if_pos hr, if_neg this]; rfl
      · rw [if_neg hr, sum_map_const' _ _ (inv lv - n.lambdaMin)]
        · simp [CTree.root, CNode.addMass, STree.leaves, hsz]
        · intro p _
          rw [exitNode, if_neg (fun h => hl h.1), if_neg hl, if_neg hr]; rfl

/-- Each cluster of the condensed tree is the result of condensing from its own node. -/
theorem condense_sub (inv : D → D) (m : Nat) : ∀ (s : STree D) (n : CNode D),
    ∀ c ∈ (condense inv m n s).subtrees, c = condense inv m n s ∨
      ∃ v ∈ s.subtrees, ∃ w ∈ s.subtrees, v ∈ w.children ∧
        c = condense inv m ⟨v, inv w.level, 0, false⟩ v := by
  intro s
  induction s with
  | leaf i =>
    intro n c hc
    simp only [condense, CTree.subtrees, List.mem_singleton] at hc ⊢
    exact Or.inl hc
  | node c0 lv sz l r ihl ihr =>
    intro n c hc
    have liftl : (∃ v ∈ l.subtrees, ∃ w ∈ l.subtrees, v ∈ w.children ∧
        c = condense inv m ⟨v, inv w.level, 0, false⟩ v) →
        ∃ v ∈ (STree.node c0 lv sz l r).subtrees, ∃ w ∈ (STree.node c0 lv sz l r).subtrees,
          v ∈ w.children ∧ c = condense inv m ⟨v, inv w.level, 0, false⟩ v := by
      rintro ⟨v, hv, w, hw, h⟩
      exact ⟨v, STree.subtrees_trans _ STree.left_mem v hv, w,
        STree.subtrees_trans _ STree.left_mem w hw, h⟩
    have liftr : (∃ v ∈ r.subtrees, ∃ w ∈ r.subtrees, v ∈ w.children ∧
        c = condense inv m ⟨v, inv w.level, 0, false⟩ v) →
        ∃ v ∈ (STree.node c0 lv sz l r).subtrees, ∃ w ∈ (STree.node c0 lv sz l r).subtrees,
          v ∈ w.children ∧ c = condense inv m ⟨v, inv w.level, 0, false⟩ v := by
      rintro ⟨v, hv, w, hw, h⟩
      exact ⟨v, STree.subtrees_trans _ STree.right_mem v hv, w,
        STree.subtrees_trans _ STree.right_mem w hw, h⟩
    rw [condense] at hc ⊢
    split at hc
    · rename_i h
      rw [if_pos h]
      simp only [CTree.subtrees, List.mem_cons, List.mem_append] at hc
      rcases hc with hc | hc | hc
      · exact Or.inl hc
      · right
        rcases ihl _ c hc with h | h
        · exact ⟨l, STree.left_mem, _, STree.self_mem_subtrees _, by simp [STree.children], h⟩
        · exact liftl h
      · right
        rcases ihr _ c hc with h | h
        · exact ⟨r, STree.right_mem, _, STree.self_mem_subtrees _, by simp [STree.children], h⟩
        · exact liftr h
    · rename_i h
      rw [if_neg h]
      split at hc
      · rename_i h
        rw [if_pos h]
        exact (ihl _ c hc).imp_right liftl
      · rename_i h
        rw [if_neg h]
        split at hc
        · rename_i h
          rw [if_pos h]
          exact (ihr _ c hc).imp_right liftr
        · rename_i h
          rw [if_neg h]
          simp only [CTree.subtrees, List.mem_singleton] at hc
          exact Or.inl hc

end Condense

end Verif.Dendrogram
