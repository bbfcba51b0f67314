import Verif.Lemmas.Condensed

/-
Two dendrograms with the same samples below common nodes of each level, whose levels increase
strictly, are the same up to the order of the children; the condensed trees made from them then
select the same clusters.
-/

namespace Verif.Dendrogram

set_option linter.unusedSectionVars false

variable {D : Type}

/-- The same tree up to the order of the children and the representatives. -/
inductive Iso : STree D → STree D → Prop
  | leaf (i : Nat) : Iso (.leaf i) (.leaf i)
  | node (c c' : Nat) (lv : D) (s : Nat) {l l' r r' : STree D} (hl : Iso l l') (hr : Iso r r') :
      Iso (.node c lv s l r) (.node c' lv s l' r')
  | swap (c c' : Nat) (lv : D) (s : Nat) {l l' r r' : STree D} (hl : Iso l r') (hr : Iso r l') :
      Iso (.node c lv s l r) (.node c' lv s l' r')

theorem Iso.symm {t t' : STree D} (h : Iso t t') : Iso t' t := by
  induction h with
  | leaf i => exact .leaf i
  | node c c' lv s _ _ ihl ihr => exact .node c' c lv s ihl ihr
  | swap c c' lv s _ _ ihl ihr => exact .swap c' c lv s ihr ihl

theorem Iso.size {t t' : STree D} (h : Iso t t') : t.size = t'.size := by
  cases h <;> rfl

theorem Iso.leaves {t t' : STree D} (h : Iso t t') : ∀ i, i ∈ t.leaves ↔ i ∈ t'.leaves := by
  induction h with
  | leaf i => intro j; exact Iff.rfl
  | node c c' lv s _ _ ihl ihr =>
    intro i; simp only [STree.leaves, List.mem_append, ihl, ihr]
  | swap c c' lv s _ _ ihl ihr =>
    intro i; simp only [STree.leaves, List.mem_append, ihl, ihr]; exact or_comm

section Under

variable [AddCommGroup D] [LinearOrder D]

theorem under_across {c : Nat} {lv : D} {sz : Nat} {l r : STree D} (hg : Good (.node c lv sz l r))
    {a b : Nat} (ha : a ∈ l.leaves) (hb : b ∈ r.leaves) (c0 : D) :
    (STree.node c lv sz l r).Under c0 a b ↔ lv ≤ c0 := by
  constructor
  · rintro ⟨s, hs, hlv, h1, h2⟩
    simp only [STree.subtrees, List.mem_cons, List.mem_append] at hs
    rcases hs with rfl | hs | hs
    · exact hlv
    · exact absurd hb (hg.disjoint b (STree.leaves_of_subtree s hs b h2))
    · exact absurd (STree.leaves_of_subtree s hs a h1) (hg.disjoint a ha)
  · intro h
    exact ⟨_, STree.self_mem_subtrees _, h, by simp [STree.leaves, ha], by simp [STree.leaves, hb]⟩

theorem under_left {c : Nat} {lv : D} {sz : Nat} {l r : STree D} (hg : Good (.node c lv sz l r))
    {a b : Nat} (ha : a ∈ l.leaves) (hb : b ∈ l.leaves) (c0 : D) :
    (STree.node c lv sz l r).Under c0 a b ↔ l.Under c0 a b := by
  constructor
  · rintro ⟨s, hs, hlv, h1, h2⟩
    simp only [STree.subtrees, List.mem_cons, List.mem_append] at hs
    rcases hs with rfl | hs | hs
    · exact ⟨l, STree.self_mem_subtrees _, le_trans (hg.height _ (STree.self_mem_subtrees _) l
        (by simp [STree.children])) hlv, ha, hb⟩
    · exact ⟨s, hs, hlv, h1, h2⟩
    · exact absurd (STree.leaves_of_subtree s hs a h1) (hg.disjoint a ha)
  · rintro ⟨s, hs, hlv, h1, h2⟩
    exact ⟨s, by simp [STree.subtrees, hs], hlv, h1, h2⟩

theorem under_right {c : Nat} {lv : D} {sz : Nat} {l r : STree D} (hg : Good (.node c lv sz l r))
    {a b : Nat} (ha : a ∈ r.leaves) (hb : b ∈ r.leaves) (c0 : D) :
    (STree.node c lv sz l r).Under c0 a b ↔ r.Under c0 a b := by
  constructor
  · rintro ⟨s, hs, hlv, h1, h2⟩
    simp only [STree.subtrees, List.mem_cons, List.mem_append] at hs
    rcases hs with rfl | hs | hs
    · exact ⟨r, STree.self_mem_subtrees _, le_trans (hg.height _ (STree.self_mem_subtrees _) r
        (by simp [STree.children])) hlv, ha, hb⟩
    · exact absurd ha (hg.disjoint a (STree.leaves_of_subtree s hs a h1))
    · exact ⟨s, hs, hlv, h1, h2⟩
  · rintro ⟨s, hs, hlv, h1, h2⟩
    exact ⟨s, by simp [STree.subtrees, hs], hlv, h1, h2⟩

theorem under_comm {t : STree D} {c : D} {a b : Nat} : t.Under c a b ↔ t.Under c b a :=
  ⟨fun ⟨s, h1, h2, h3, h4⟩ => ⟨s, h1, h2, h4, h3⟩, fun ⟨s, h1, h2, h3, h4⟩ => ⟨s, h1, h2, h4, h3⟩⟩

theorem level_nonneg {t : STree D} (hg : Good t) : 0 ≤ t.level := by
  induction t with
  | leaf i => exact le_rfl
  | node c lv sz l r ihl _ =>
    exact (ihl (hg.sub STree.left_mem)).trans
      (hg.height _ (STree.self_mem_subtrees _) l (by simp [STree.children]))

theorem STree.Strict.sub {t s : STree D} (h : t.Strict) (hs : s ∈ t.subtrees) : s.Strict :=
  fun v hv => h v (STree.subtrees_trans s hs v hv)

/-- The samples of a child are not on the two sides of a node of the same level. -/
theorem not_across {t : STree D} (hg : Good t) (hst : t.Strict) {x : STree D} (hx : x ∈ t.children)
    {c : Nat} {lv : D} {sz : Nat} {l r : STree D} (hg' : Good (.node c lv sz l r))
    (hlv : t.level ≤ lv)
    (h : ∀ c0, 0 ≤ c0 → ∀ a b, a ∈ t.leaves → b ∈ t.leaves →
      (t.Under c0 a b → (STree.node c lv sz l r).Under c0 a b))
    {a b : Nat} (ha : a ∈ x.leaves) (hb : b ∈ x.leaves) (hal : a ∈ l.leaves) (hbr : b ∈ r.leaves) :
    False := by
  have hxs : x ∈ t.subtrees := by
    cases t with
    | leaf i => simp [STree.children] at hx
    | node c0 lv0 sz0 l0 r0 =>
      simp only [STree.children, List.mem_cons, List.not_mem_nil, or_false] at hx
      rcases hx with rfl | rfl
      · exact STree.left_mem
      · exact STree.right_mem
  by_cases hch : x.children = []
  · cases x with
    | leaf i =>
      simp only [STree.leaves, List.mem_singleton] at ha hb
      subst ha; subst hb
      exact hg'.disjoint _ hal hbr
    | node c0 lv0 sz0 l0 r0 => simp [STree.children] at hch
  · have h1 := hst t (STree.self_mem_subtrees _) x hx hch
    have h2 := h x.level (level_nonneg (hg.sub hxs)) a b (STree.leaves_of_subtree x hxs a ha)
      (STree.leaves_of_subtree x hxs b hb) ⟨x, hxs, le_rfl, ha, hb⟩
    rw [under_across hg' hal hbr] at h2
    exact absurd (lt_of_lt_of_le h1 hlv) (not_lt.2 h2)

theorem iso_of_under : ∀ (t t' : STree D), Good t → Good t' → t.Strict → t'.Strict →
    (∀ i, i ∈ t.leaves ↔ i ∈ t'.leaves) →
    (∀ c, 0 ≤ c → ∀ a b, a ∈ t.leaves → b ∈ t.leaves → (t.Under c a b ↔ t'.Under c a b)) →
    Iso t t' := by
  intro t
  induction t with
  | leaf i =>
    intro t' _ hg' _ _ hl _
    cases t' with
    | leaf j =>
      have := (hl i).1 (by simp [STree.leaves])
      simp only [STree.leaves, List.mem_singleton] at this
      subst this
      exact .leaf i
    | node c' lv' sz' l' r' =>
      obtain ⟨a, ha⟩ := List.exists_mem_of_ne_nil _ l'.leaves_ne_nil
      obtain ⟨b, hb⟩ := List.exists_mem_of_ne_nil _ r'.leaves_ne_nil
      have h1 := (hl a).2 (by simp [STree.leaves, ha])
      have h2 := (hl b).2 (by simp [STree.leaves, hb])
      simp only [STree.leaves, List.mem_singleton] at h1 h2
      subst h1; subst h2
      exact absurd hb (hg'.disjoint _ ha)
  | node c lv sz l r ihl ihr =>
    intro t' hg hg' hs hs' hl hu
    cases t' with
    | leaf j =>
      obtain ⟨a, ha⟩ := List.exists_mem_of_ne_nil _ l.leaves_ne_nil
      obtain ⟨b, hb⟩ := List.exists_mem_of_ne_nil _ r.leaves_ne_nil
      have h1 := (hl a).1 (by simp [STree.leaves, ha])
      have h2 := (hl b).1 (by simp [STree.leaves, hb])
      simp only [STree.leaves, List.mem_singleton] at h1 h2
      subst h1; subst h2
      exact absurd hb (hg.disjoint _ ha)
    | node c' lv' sz' l' r' =>
      have hu' : ∀ c0, 0 ≤ c0 → ∀ a b, a ∈ (STree.node c' lv' sz' l' r').leaves →
          b ∈ (STree.node c' lv' sz' l' r').leaves →
          ((STree.node c' lv' sz' l' r').Under c0 a b → (STree.node c lv sz l r).Under c0 a b) :=
        fun c0 h0 a b ha hb h => (hu c0 h0 a b ((hl a).2 ha) ((hl b).2 hb)).2 h
      obtain ⟨a0, ha0⟩ := List.exists_mem_of_ne_nil _ l.leaves_ne_nil
      obtain ⟨b0, hb0⟩ := List.exists_mem_of_ne_nil _ r.leaves_ne_nil
      have hmem : ∀ i, (i ∈ l.leaves ∨ i ∈ r.leaves) ↔ (i ∈ l'.leaves ∨ i ∈ r'.leaves) := by
        intro i
        have := hl i
        simpa only [STree.leaves, List.mem_append] using this
      -- the levels agree
      have hlv1 : lv ≤ lv' := by
        have h1 : (STree.node c' lv' sz' l' r').Under lv' a0 b0 :=
          ⟨_, STree.self_mem_subtrees _, le_rfl, (hl a0).1 (by simp [STree.leaves, ha0]),
            (hl b0).1 (by simp [STree.leaves, hb0])⟩
        have h2 := (hu lv' (level_nonneg hg') a0 b0 (by simp [STree.leaves, ha0])
          (by simp [STree.leaves, hb0])).2 h1
        exact (under_across hg ha0 hb0 lv').1 h2
      have hlv2 : lv' ≤ lv := by
        obtain ⟨a, ha⟩ := List.exists_mem_of_ne_nil _ l'.leaves_ne_nil
        obtain ⟨b, hb⟩ := List.exists_mem_of_ne_nil _ r'.leaves_ne_nil
        have ha' := (hl a).2 (by simp [STree.leaves, ha])
        have hb' := (hl b).2 (by simp [STree.leaves, hb])
        have h2 := (hu lv (level_nonneg hg) a b ha' hb').1
          ⟨_, STree.self_mem_subtrees _, le_rfl, ha', hb'⟩
        exact (under_across hg' ha hb lv).1 h2
      have hlv : lv = lv' := le_antisymm hlv1 hlv2
      subst hlv
      -- the sizes agree
      have hsz : sz = sz' := by
        have h1 := hg.size _ (STree.self_mem_subtrees _)
        have h2 := hg'.size _ (STree.self_mem_subtrees _)
        have h3 : (STree.node c lv sz l r).leaves.Perm (STree.node c' lv sz' l' r').leaves := by
          rw [List.perm_ext_iff_of_nodup hg.nodup hg'.nodup]
          exact hl
        have h4 : sz = (STree.node c lv sz l r).leaves.length := h1
        have h5 : sz' = (STree.node c' lv sz' l' r').leaves.length := h2
        rw [h4, h5, h3.length_eq]
      subst hsz
      have hfwd : ∀ x ∈ [l, r], ∀ a b, a ∈ x.leaves → b ∈ x.leaves → a ∈ l'.leaves →
          b ∈ r'.leaves → False := fun x hx a b ha hb h1 h2 =>
        not_across hg hs (x := x) hx hg' le_rfl (fun c0 h0 a b ha hb => (hu c0 h0 a b ha hb).1)
          ha hb h1 h2
      have hbwd : ∀ x ∈ [l', r'], ∀ a b, a ∈ x.leaves → b ∈ x.leaves → a ∈ l.leaves →
          b ∈ r.leaves → False := fun x hx a b ha hb h1 h2 =>
        not_across hg' hs' (x := x) hx hg le_rfl hu' ha hb h1 h2
      have hdis := hg.disjoint
      have hdis' := hg'.disjoint
      rcases (hmem a0).1 (Or.inl ha0) with h0 | h0
      · have hll : ∀ i, i ∈ l.leaves ↔ i ∈ l'.leaves := by
          intro i
          constructor
          · intro hi
            rcases (hmem i).1 (Or.inl hi) with h | h
            · exact h
            · exact (hfwd l (by simp) a0 i ha0 hi h0 h).elim
          · intro hi
            rcases (hmem i).2 (Or.inl hi) with h | h
            · exact h
            · exact (hbwd l' (by simp) a0 i h0 hi ha0 h).elim
        have hrr : ∀ i, i ∈ r.leaves ↔ i ∈ r'.leaves := by
          intro i
          constructor
          · intro hi
            rcases (hmem i).1 (Or.inr hi) with h | h
            · exact absurd hi (hdis i ((hll i).2 h))
            · exact h
          · intro hi
            rcases (hmem i).2 (Or.inr hi) with h | h
            · exact absurd hi (hdis' i ((hll i).1 h))
            · exact h
        refine .node c c' lv sz (ihl l' (hg.sub STree.left_mem) (hg'.sub STree.left_mem)
          (hs.sub STree.left_mem) (hs'.sub STree.left_mem) hll ?_)
          (ihr r' (hg.sub STree.right_mem) (hg'.sub STree.right_mem)
          (hs.sub STree.right_mem) (hs'.sub STree.right_mem) hrr ?_)
        · intro c0 hc0 a b ha hb
          rw [← under_left hg ha hb, ← under_left hg' ((hll a).1 ha) ((hll b).1 hb)]
          exact hu c0 hc0 a b (by simp [STree.leaves, ha]) (by simp [STree.leaves, hb])
        · intro c0 hc0 a b ha hb
          rw [← under_right hg ha hb, ← under_right hg' ((hrr a).1 ha) ((hrr b).1 hb)]
          exact hu c0 hc0 a b (by simp [STree.leaves, ha]) (by simp [STree.leaves, hb])
      · have hll : ∀ i, i ∈ l.leaves ↔ i ∈ r'.leaves := by
          intro i
          constructor
          · intro hi
            rcases (hmem i).1 (Or.inl hi) with h | h
            · exact (hfwd l (by simp) i a0 hi ha0 h h0).elim
            · exact h
          · intro hi
            rcases (hmem i).2 (Or.inr hi) with h | h
            · exact h
            · exact (hbwd r' (by simp) a0 i h0 hi ha0 h).elim
        have hrr : ∀ i, i ∈ r.leaves ↔ i ∈ l'.leaves := by
          intro i
          constructor
          · intro hi
            rcases (hmem i).1 (Or.inr hi) with h | h
            · exact h
            · exact absurd hi (hdis i ((hll i).2 h))
          · intro hi
            rcases (hmem i).2 (Or.inl hi) with h | h
            · exact absurd ((hll i).1 h) (hdis' i hi)
            · exact h
        refine .swap c c' lv sz (ihl r' (hg.sub STree.left_mem) (hg'.sub STree.right_mem)
          (hs.sub STree.left_mem) (hs'.sub STree.right_mem) hll ?_)
          (ihr l' (hg.sub STree.right_mem) (hg'.sub STree.left_mem)
          (hs.sub STree.right_mem) (hs'.sub STree.left_mem) hrr ?_)
        · intro c0 hc0 a b ha hb
          rw [← under_left hg ha hb, ← under_right hg' ((hll a).1 ha) ((hll b).1 hb)]
          exact hu c0 hc0 a b (by simp [STree.leaves, ha]) (by simp [STree.leaves, hb])
        · intro c0 hc0 a b ha hb
          rw [← under_right hg ha hb, ← under_left hg' ((hrr a).1 ha) ((hrr b).1 hb)]
          exact hu c0 hc0 a b (by simp [STree.leaves, ha]) (by simp [STree.leaves, hb])

end Under

/-! ### condensed trees -/

/-- The same cluster, up to the order of the children in its dendrogram. -/
structure NIso (n n' : CNode D) : Prop where
  slink : Iso n.slink n'.slink
  lambdaMin : n.lambdaMin = n'.lambdaMin
  stability : n.stability = n'.stability
  selected : n.selected = n'.selected

/-- The same condensed tree up to the order of the children. -/
inductive CIso : CTree D → CTree D → Prop
  | leaf {n n' : CNode D} (h : NIso n n') : CIso (.leaf n) (.leaf n')
  | split {n n' : CNode D} {l l' r r' : CTree D} (h : NIso n n') (hl : CIso l l') (hr : CIso r r') :
      CIso (.split n l r) (.split n' l' r')
  | swap {n n' : CNode D} {l l' r r' : CTree D} (h : NIso n n') (hl : CIso l r') (hr : CIso r l') :
      CIso (.split n l r) (.split n' l' r')

theorem NIso.symm {n n' : CNode D} (h : NIso n n') : NIso n' n :=
  ⟨h.slink.symm, h.lambdaMin.symm, h.stability.symm, h.selected.symm⟩

theorem CIso.symm {t t' : CTree D} (h : CIso t t') : CIso t' t := by
  induction h with
  | leaf h => exact .leaf h.symm
  | split h _ _ ihl ihr => exact .split h.symm ihl ihr
  | swap h _ _ ihl ihr => exact .swap h.symm ihr ihl

section Ring

variable [Ring D]

theorem NIso.addMass {n n' : CNode D} (h : NIso n n') (s : Nat) (x : D) :
    NIso (n.addMass s x) (n'.addMass s x) :=
  ⟨h.slink, h.lambdaMin, by simp only [CNode.addMass, h.stability, h.lambdaMin], h.selected⟩

theorem NIso.select {n n' : CNode D} (h : NIso n n') (b : Bool) :
    NIso { n with selected := b } { n' with selected := b } :=
  ⟨h.slink, h.lambdaMin, h.stability, rfl⟩

theorem condense_iso (inv : D → D) (m : Nat) {s s' : STree D} (hs : Iso s s') :
    ∀ {n n' : CNode D}, NIso n n' → CIso (condense inv m n s) (condense inv m n' s') := by
  induction hs with
  | leaf i => intro n n' h; exact .leaf (h.select true)
  | @node c c' lv sz l l' r r' hl hr ihl ihr =>
    intro n n' h
    simp only [condense, ← hl.size, ← hr.size]
    by_cases h1 : m ≤ l.size <;> by_cases h2 : m ≤ r.size
    · simp only [h1, h2, and_self, and_true, true_and, and_false, false_and, if_true, if_false]
      exact .split (h.addMass _ _) (ihl ⟨hl, rfl, rfl, rfl⟩) (ihr ⟨hr, rfl, rfl, rfl⟩)
    · simp only [h1, h2, and_self, and_true, true_and, and_false, false_and, if_true, if_false]
      exact ihl (h.addMass _ _)
    · simp only [h1, h2, and_self, and_true, true_and, and_false, false_and, if_true, if_false]
      exact ihr (h.addMass _ _)
    · simp only [h1, h2, and_self, and_true, true_and, and_false, false_and, if_true, if_false]
      exact .leaf ((h.addMass _ _).select true)
  | @swap c c' lv sz l l' r r' hl hr ihl ihr =>
    intro n n' h
    simp only [condense, ← hl.size, ← hr.size]
    by_cases h1 : m ≤ l.size <;> by_cases h2 : m ≤ r.size
    · simp only [h1, h2, and_self, and_true, true_and, and_false, false_and, if_true, if_false]
      exact .swap (h.addMass _ _) (ihl ⟨hl, rfl, rfl, rfl⟩) (ihr ⟨hr, rfl, rfl, rfl⟩)
    · simp only [h1, h2, and_self, and_true, true_and, and_false, false_and, if_true, if_false]
      exact ihl (h.addMass _ _)
    · simp only [h1, h2, and_self, and_true, true_and, and_false, false_and, if_true, if_false]
      exact ihr (h.addMass _ _)
    · simp only [h1, h2, and_self, and_true, true_and, and_false, false_and, if_true, if_false]
      exact .leaf ((h.addMass _ _).select true)

theorem select_iso [LinearOrder D] {t t' : CTree D} (h : CIso t t') :
    CIso (select t).1 (select t').1 ∧ (select t).2 = (select t').2 := by
  induction h with
  | leaf h => exact ⟨.leaf h, h.stability⟩
  | @split n n' l l' r r' h _ _ ihl ihr =>
    obtain ⟨a1, a2⟩ := ihl
    obtain ⟨b1, b2⟩ := ihr
    simp only [select, ← a2, ← b2, ← h.stability]
    split
    · exact ⟨.split h a1 b1, rfl⟩
    · exact ⟨.split ⟨h.slink, h.lambdaMin, rfl, rfl⟩ a1 b1, rfl⟩
  | @swap n n' l l' r r' h _ _ ihl ihr =>
    obtain ⟨a1, a2⟩ := ihl
    obtain ⟨b1, b2⟩ := ihr
    simp only [select, ← a2, ← b2, ← h.stability]
    rw [add_comm (select r).2 (select l).2]
    split
    · exact ⟨.swap h a1 b1, rfl⟩
    · exact ⟨.swap ⟨h.slink, h.lambdaMin, rfl, rfl⟩ a1 b1, rfl⟩

theorem CIso.isLeaf {t t' : CTree D} (h : CIso t t') : t.isLeaf = t'.isLeaf := by
  cases h <;> rfl

theorem CIso.unselectRoot {t t' : CTree D} (h : CIso t t') : CIso t.unselectRoot t'.unselectRoot := by
  cases h with
  | leaf h => exact .leaf (h.select false)
  | split h hl hr => exact .split (h.select false) hl hr
  | swap h hl hr => exact .swap (h.select false) hl hr

theorem condensedTree_iso [LinearOrder D] (inv : D → D) (m : Nat) (allow ret : Bool)
    {t t' : STree D} (h : Iso t t') :
    CIso (condensedTree inv m allow ret t) (condensedTree inv m allow ret t') := by
  have h1 : CIso (condenseRoot inv m t) (condenseRoot inv m t') :=
    condense_iso inv m h ⟨h, rfl, rfl, rfl⟩
  unfold condensedTree
  cases ret with
  | true => exact h1
  | false =>
    have h2 := (select_iso h1).1
    simp only [Bool.false_eq_true, if_false]
    rw [h2.isLeaf]
    split
    · exact h2.unselectRoot
    · exact h2

/-- The shallowest selected clusters are the same. -/
theorem shallowest_iso {t t' : CTree D} (h : CIso t t') : ∀ {ns ns' : List (CNode D)},
    shallowest t = some ns → shallowest t' = some ns' →
    ∀ n ∈ ns, ∃ n' ∈ ns', Iso n.slink n'.slink := by
  induction h with
  | @leaf n n' h =>
    intro ns ns' h1 h2 k hk
    simp only [shallowest, ← h.selected] at h1 h2
    split at h1
    · rename_i hsel
      rw [if_pos hsel] at h2
      rw [← Option.some.inj h1, List.mem_singleton] at hk
      subst hk
      exact ⟨n', by rw [← Option.some.inj h2]; simp, h.slink⟩
    · exact absurd h1 (by simp)
  | @split n n' l l' r r' h _ _ ihl ihr =>
    intro ns ns' h1 h2 k hk
    simp only [shallowest, ← h.selected] at h1 h2
    split at h1
    · rename_i hsel
      rw [if_pos hsel] at h2
      rw [← Option.some.inj h1, List.mem_singleton] at hk
      subst hk
      exact ⟨n', by rw [← Option.some.inj h2]; simp, h.slink⟩
    · rename_i hsel
      rw [if_neg hsel] at h2
      simp only [Option.bind_eq_bind, Option.bind_eq_some_iff] at h1 h2
      obtain ⟨a, ha, b, hb, h1⟩ := h1
      obtain ⟨a', ha', b', hb', h2⟩ := h2
      rw [← Option.some.inj h1, List.mem_append] at hk
      rw [← Option.some.inj h2]
      rcases hk with hk | hk
      · obtain ⟨k', h3, h4⟩ := ihl ha ha' k hk
        exact ⟨k', by simp [h3], h4⟩
      · obtain ⟨k', h3, h4⟩ := ihr hb hb' k hk
        exact ⟨k', by simp [h3], h4⟩
  | @swap n n' l l' r r' h _ _ ihl ihr =>
    intro ns ns' h1 h2 k hk
    simp only [shallowest, ← h.selected] at h1 h2
    split at h1
    · rename_i hsel
      rw [if_pos hsel] at h2
      rw [← Option.some.inj h1, List.mem_singleton] at hk
      subst hk
      exact ⟨n', by rw [← Option.some.inj h2]; simp, h.slink⟩
    · rename_i hsel
      rw [if_neg hsel] at h2
      simp only [Option.bind_eq_bind, Option.bind_eq_some_iff] at h1 h2
      obtain ⟨a, ha, b, hb, h1⟩ := h1
      obtain ⟨a', ha', b', hb', h2⟩ := h2
      rw [← Option.some.inj h1, List.mem_append] at hk
      rw [← Option.some.inj h2]
      rcases hk with hk | hk
      · obtain ⟨k', h3, h4⟩ := ihl ha hb' k hk
        exact ⟨k', by simp [h3], h4⟩
      · obtain ⟨k', h3, h4⟩ := ihr hb ha' k hk
        exact ⟨k', by simp [h3], h4⟩

end Ring

/-- Labellings by the same sets of samples describe the same clusters. -/
theorem sameClusters_of {n : Nat} {f g : List Nat} {cs ds : List (CTree D)} (hf : Labels n f cs)
    (hg : Labels n g ds) (h1 : ∀ c ∈ cs, ∃ d ∈ ds, ∀ i, i ∈ c.samples ↔ i ∈ d.samples)
    (h2 : ∀ d ∈ ds, ∃ c ∈ cs, ∀ i, i ∈ d.samples ↔ i ∈ c.samples) : SameClusters f g := by
  have key : ∀ {f g : List Nat} {cs ds : List (CTree D)}, Labels n f cs → Labels n g ds →
      (∀ c ∈ cs, ∃ d ∈ ds, ∀ i, i ∈ c.samples ↔ i ∈ d.samples) →
      (∀ d ∈ ds, ∃ c ∈ cs, ∀ i, i ∈ d.samples ↔ i ∈ c.samples) →
      (∀ i : Nat, f[i]? = some 0 → g[i]? = some 0) ∧
      ∀ i j : Nat, f[i]? = f[j]? → g[i]? = g[j]? := by
    intro f g cs ds hf hg h1 h2
    have hz : ∀ i : Nat, f[i]? = some 0 → g[i]? = some 0 := by
      intro i hi
      obtain ⟨hin, hno⟩ := (hf.noise i).1 hi
      refine (hg.noise i).2 ⟨hin, fun d hd hid => ?_⟩
      obtain ⟨c, hc, hcd⟩ := h2 d hd
      exact hno c hc ((hcd i).1 hid)
    refine ⟨hz, fun i j hij => ?_⟩
    cases hi : f[i]? with
    | none =>
      have hj : f[j]? = none := by rw [← hij]; exact hi
      rw [List.getElem?_eq_none_iff, hf.length, ← hg.length, ← List.getElem?_eq_none_iff] at hi hj
      rw [hi, hj]
    | some v =>
      have hj : f[j]? = some v := by rw [← hij]; exact hi
      cases v with
      | zero => rw [hz i hi, hz j hj]
      | succ v =>
        obtain ⟨c, hc, hic⟩ := (hf.positive i v).1 hi
        obtain ⟨c', hc', hjc⟩ := (hf.positive j v).1 hj
        have hcc : c' = c := Option.some.inj (hc'.symm.trans hc)
        subst hcc
        obtain ⟨d, hd, hcd⟩ := h1 c' (List.mem_of_getElem? hc)
        obtain ⟨k, hk⟩ := List.mem_iff_getElem?.1 hd
        rw [(hg.positive i k).2 ⟨d, hk, (hcd i).1 hic⟩, (hg.positive j k).2 ⟨d, hk, (hcd j).1 hjc⟩]
  obtain ⟨a1, a2⟩ := key hf hg h1 h2
  obtain ⟨b1, b2⟩ := key hg hf h2 h1
  exact ⟨hf.length.trans hg.length.symm, fun i => ⟨a1 i, b1 i⟩, fun i j => ⟨a2 i j, b2 i j⟩⟩

end Verif.Dendrogram
