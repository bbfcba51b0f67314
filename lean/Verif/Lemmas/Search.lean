import Verif.Model.Search
import Verif.Spec.KDTree
import Verif.Lemmas.Buffer
import Verif.Lemmas.UnionFind

namespace Verif.Search

open Verif.KDTree Verif.Buffer

set_option linter.unusedSectionVars false

variable {K : Type} [LinearOrder K]

/-! ### the traversal as structural recursion -/

/-- The traversal written as recursion on the tree. -/
def walk {K : Type} [LT K] [DecidableLT K] {B : Type} (x : Nat → Nat → K) (q : Nat → K) (ops : BufferOps B) :
    KDTree.Tree K → B → Option B
  | .leaf idx _, b => offerAll ops b idx
  | .node p a _ l r, b => do
    let b ← offerAll ops b [p]
    if q a < x p a then do
      let b ← walk x q ops l b
      if ops.visit b true p a then walk x q ops r b else some b
    else do
      let b ← walk x q ops r b
      if ops.visit b false p a then walk x q ops l b else some b

theorem traverse_eq_walk {K : Type} [LT K] [DecidableLT K] {B : Type} (x : Nat → Nat → K) (q : Nat → K) (ops : BufferOps B) :
    ∀ (fuel : Nat) (t : KDTree.Tree K) (b : B), nodeCount t ≤ fuel →
      traverse x q ops fuel t b = walk x q ops t b := by
  intro fuel
  induction fuel with
  | zero => intro t b h; cases t <;> simp [nodeCount] at h
  | succ fuel ih =>
    intro t
    simp only [traverse]
    induction t with
    | leaf idx box =>
      intro b _
      simp only [descend, walk]
      cases offerAll ops b idx <;> simp
    | node p a box l r ihl ihr =>
      intro b hc
      have hl : nodeCount l ≤ fuel := by simp [nodeCount] at hc; omega
      have hr : nodeCount r ≤ fuel := by simp [nodeCount] at hc; omega
      simp only [descend, walk]
      cases offerAll ops b [p] with
      | none => simp
      | some b1 =>
        simp only [Option.bind_eq_bind, Option.bind_some] at ihl ihr ⊢
        by_cases hq : q a < x p a
        · simp only [hq, if_true]
          rw [← ihl b1 (by omega)]
          cases hd : descend x q ops l b1 with
          | none => simp
          | some res =>
            obtain ⟨b2, fs⟩ := res
            simp only [Option.bind_some, List.foldlM_append, List.foldlM_cons, List.foldlM_nil,
              Option.bind_eq_bind, Option.pure_def, Option.bind_fun_some]
            congr 1
            funext b3
            split
            · exact ih r b3 hr
            · rfl
        · simp only [hq, if_false]
          rw [← ihr b1 (by omega)]
          cases hd : descend x q ops r b1 with
          | none => simp
          | some res =>
            obtain ⟨b2, fs⟩ := res
            simp only [Option.bind_some, List.foldlM_append, List.foldlM_cons, List.foldlM_nil,
              Option.bind_eq_bind, Option.pure_def, Option.bind_fun_some]
            congr 1
            funext b3
            split
            · exact ih l b3 hl
            · rfl

theorem search_eq_walk {K : Type} [LT K] [DecidableLT K] {B : Type} (x : Nat → Nat → K) (q : Nat → K) (ops : BufferOps B)
    (t : KDTree.Tree K) (b : B) : search x q ops t b = walk x q ops t b :=
  traverse_eq_walk x q ops _ t b (Nat.le_refl _)

/-- Whatever the buffer does, the search offers each sample of the tree at most once. -/
theorem walk_offers {K : Type} [LT K] [DecidableLT K] {B : Type} (x : Nat → Nat → K) (q : Nat → K) (ops : BufferOps B) :
    ∀ (t : KDTree.Tree K) (b : B), ∃ L : List Nat, L.Subperm t.indices ∧
      walk x q ops t b = L.foldlM ops.offer b := by
  intro t
  induction t with
  | leaf idx box => intro b; exact ⟨idx, List.Subperm.refl _, rfl⟩
  | node p a box l r ihl ihr =>
    intro b
    have key : ∀ (c s : KDTree.Tree K) (v : B → Bool),
        (∀ b, ∃ L : List Nat, L.Subperm c.indices ∧ walk x q ops c b = L.foldlM ops.offer b) →
        (∀ b, ∃ L : List Nat, L.Subperm s.indices ∧ walk x q ops s b = L.foldlM ops.offer b) →
        ∀ b, ∃ L : List Nat, L.Subperm (p :: (c.indices ++ s.indices)) ∧
          ((offerAll ops b [p]).bind fun b => (walk x q ops c b).bind fun b =>
            if v b then walk x q ops s b else some b) = L.foldlM ops.offer b := by
      intro c s v hc hs b
      simp only [offerAll, List.foldlM_cons, List.foldlM_nil, Option.bind_eq_bind, Option.pure_def,
        Option.bind_fun_some]
      cases h1 : ops.offer b p with
      | none =>
        refine ⟨[p], ?_, by simp [h1]⟩
        exact (List.subperm_cons p).2 (List.nil_subperm)
      | some b1 =>
        obtain ⟨L1, hs1, e1⟩ := hc b1
        simp only [Option.bind_some, e1]
        cases h2 : L1.foldlM ops.offer b1 with
        | none =>
          refine ⟨p :: L1, ?_, by simp [h1, h2]⟩
          exact (List.subperm_cons p).2 (hs1.trans (List.sublist_append_left _ _).subperm)
        | some b2 =>
          simp only [Option.bind_some]
          by_cases hv : v b2 = true
          · obtain ⟨L2, hs2, e2⟩ := hs b2
            refine ⟨p :: (L1 ++ L2), ?_, ?_⟩
            · exact (List.subperm_cons p).2 (hs1.append hs2)
            · simp [h1, List.foldlM_append, h2, hv, e2]
          · refine ⟨p :: L1, ?_, by simp [h1, h2, hv]⟩
            exact (List.subperm_cons p).2 (hs1.trans (List.sublist_append_left _ _).subperm)
    have hp1 : (p :: (l.indices ++ r.indices)).Perm (l.indices ++ p :: r.indices) :=
      List.perm_middle.symm
    have hp2 : (p :: (r.indices ++ l.indices)).Perm (l.indices ++ p :: r.indices) :=
      (List.perm_append_comm.cons p).trans hp1
    simp only [walk, Tree.indices, Option.bind_eq_bind]
    by_cases hq : q a < x p a
    · simp only [hq, if_true]
      obtain ⟨L, h1, h2⟩ := key l r (fun b => ops.visit b true p a) ihl ihr b
      exact ⟨L, h1.trans hp1.subperm, h2⟩
    · simp only [hq, if_false]
      obtain ⟨L, h1, h2⟩ := key r l (fun b => ops.visit b false p a) ihr ihl b
      exact ⟨L, h1.trans hp2.subperm, h2⟩

/-! ### exactness -/

variable {D : Type} [LinearOrder D]

/-- The candidates among a list of samples. -/
def cands (cand : Nat → Option D) (idx : List Nat) : List (Nat × D) :=
  idx.filterMap (fun i => (cand i).map (fun d => (i, d)))

theorem cands_append (cand : Nat → Option D) (a b : List Nat) :
    cands cand (a ++ b) = cands cand a ++ cands cand b := by
  simp [cands]

theorem cands_none {cand : Nat → Option D} {idx : List Nat} (h : ∀ i ∈ idx, cand i = none) :
    cands cand idx = [] := by
  unfold cands
  rw [List.filterMap_eq_nil_iff]
  intro i hi
  rw [h i hi]
  rfl

theorem mem_cands {cand : Nat → Option D} {idx : List Nat} {c : Nat × D} :
    c ∈ cands cand idx ↔ c.1 ∈ idx ∧ cand c.1 = some c.2 := by
  simp only [cands, List.mem_filterMap, Option.map_eq_some_iff]
  constructor
  · rintro ⟨i, hi, d, hd, rfl⟩; exact ⟨hi, hd⟩
  · rintro ⟨hi, hd⟩; exact ⟨c.1, hi, c.2, hd, rfl⟩

/-- The buffer operations simulate a `Buf` with the candidate function `cand`. -/
structure Sim {B : Type} (x : Nat → Nat → K) (q : Nat → K) (gap : K → K → D)
    (cand : Nat → Option D) (ops : BufferOps B) (proj : B → Buf D) (Good : B → Prop)
    (valid : Nat → Prop) : Prop where
  offer : ∀ s i b', Good s → valid i → (proj s).offer cand i = some b' →
    ∃ s', ops.offer s i = some s' ∧ proj s' = b' ∧ Good s'
  visit : ∀ s l p a, ops.visit s l p a = visitSibling x q gap (proj s) l p a

section Exact

variable {B : Type} {x : Nat → Nat → K} {q : Nat → K} {gap : K → K → D} {cand : Nat → Option D}
  {ops : BufferOps B} {proj : B → Buf D} {Good : B → Prop} {valid : Nat → Prop}

/-- Kept candidates are genuine. -/
def Genuine (cand : Nat → Option D) (kept : List (Nat × D)) : Prop :=
  ∀ a ∈ kept, cand a.1 = some a.2

theorem offerAll_spec (hsim : Sim x q gap cand ops proj Good valid) {inf : D} {cap : Nat} :
    ∀ (idx : List Nat) (s : B) (kept all : List (Nat × D)), (∀ i ∈ idx, valid i) → Good s →
      WF inf cap (proj s) kept all → Genuine cand kept →
      ∃ s' kept', offerAll ops s idx = some s' ∧ Good s' ∧
        WF inf cap (proj s') kept' (all ++ cands cand idx) ∧ Genuine cand kept' := by
  intro idx
  induction idx with
  | nil => intro s kept all _ hg h hk; exact ⟨s, kept, rfl, hg, by simpa [cands] using h, hk⟩
  | cons i idx ih =>
    intro s kept all hv hg h hk
    unfold offerAll at *
    simp only [List.foldlM_cons, Option.bind_eq_bind]
    have hvi := hv i (by simp)
    cases hc : cand i with
    | none =>
      obtain ⟨s1, e1, hp1, hg1⟩ := hsim.offer s i (proj s) hg hvi (by simp [Buf.offer, hc])
      rw [← hp1] at h
      obtain ⟨s2, k2, e2, hg2, h2, hk2⟩ := ih s1 kept all (fun j hj => hv j (by simp [hj])) hg1 h hk
      refine ⟨s2, k2, by simp [e1, e2], hg2, ?_, hk2⟩
      have : cands cand (i :: idx) = cands cand idx := by simp [cands, hc]
      rw [this]; exact h2
    | some d =>
      obtain ⟨b1, k1, e1, h1, hk1⟩ := update_spec h i d
      obtain ⟨s1, es1, hp1, hg1⟩ := hsim.offer s i b1 hg hvi (by simp [Buf.offer, hc, e1])
      rw [← hp1] at h1
      have hgen : Genuine cand k1 := by
        intro a ha
        rcases hk1 a ha with ha | rfl
        · exact hk a ha
        · exact hc
      obtain ⟨s2, k2, e2, hg2, h2, hk2⟩ := ih s1 k1 _ (fun j hj => hv j (by simp [hj])) hg1 h1 hgen
      refine ⟨s2, k2, by simp [es1, e2], hg2, ?_, hk2⟩
      have : cands cand (i :: idx) = (i, d) :: cands cand idx := by simp [cands, hc]
      rw [this]; simpa using h2

/-- Pruning loses at most what `near` allows: a candidate at distance `d` that lies behind the
splitting plane may be accounted for as if it were at distance `max d f` for any `f` not larger
than the gap to the plane. -/
def PruneOk (x : Nat → Nat → K) (q : Nat → K) (gap : K → K → D) (cand : Nat → Option D)
    (L R : Nat → Nat → Nat → Prop) (near : D → D → Prop) : Prop :=
  ∀ a p i d f, cand i = some d →
    (q a < x p a ∧ R a p i ∨ x p a ≤ q a ∧ L a i p) → f ≤ gap (x p a) (q a) → near d (max d f)

/-- The same for those `f` only that are the distance of some candidate. -/
def PruneOkAt (x : Nat → Nat → K) (q : Nat → K) (gap : K → K → D) (cand : Nat → Option D)
    (L R : Nat → Nat → Nat → Prop) (near : D → D → Prop) : Prop :=
  ∀ a p i d f, cand i = some d → (∃ j, cand j = some f) →
    (q a < x p a ∧ R a p i ∨ x p a ≤ q a ∧ L a i p) → f ≤ gap (x p a) (q a) → near d (max d f)

theorem PruneOk.at {x : Nat → Nat → K} {q : Nat → K} {gap : K → K → D} {cand : Nat → Option D}
    {L R : Nat → Nat → Nat → Prop} {near : D → D → Prop} (h : PruneOk x q gap cand L R near) :
    PruneOkAt x q gap cand L R near := fun a p i d f hd _ => h a p i d f hd

/-- No gap to a splitting plane is above `inf`, and the gap is below `inf` when the query is on the right
side of the plane, where the sibling test is strict. -/
def GapBelow (x : Nat → Nat → K) (q : Nat → K) (gap : K → K → D) (inf : D) : Prop :=
  ∀ p a, gap (x p a) (q a) ≤ inf ∧ (x p a ≤ q a → gap (x p a) (q a) < inf)

theorem GapBelow.of_lt {x : Nat → Nat → K} {q : Nat → K} {gap : K → K → D} {inf : D}
    (h : ∀ p a, gap (x p a) (q a) < inf) : GapBelow x q gap inf :=
  fun p a => ⟨(h p a).le, fun _ => h p a⟩

/-- The same, except that a gap on the right side of a plane may be `inf` when no sample behind the plane is
a candidate. -/
def GapBelowOr (x : Nat → Nat → K) (q : Nat → K) (gap : K → K → D) (inf : D) (cand : Nat → Option D)
    (L : Nat → Nat → Nat → Prop) : Prop :=
  ∀ p a, gap (x p a) (q a) ≤ inf ∧
    (x p a ≤ q a → gap (x p a) (q a) < inf ∨ ∀ i, L a i p → cand i = none)

theorem GapBelow.or {x : Nat → Nat → K} {q : Nat → K} {gap : K → K → D} {inf : D} {cand : Nat → Option D}
    {L : Nat → Nat → Nat → Prop} (h : GapBelow x q gap inf) : GapBelowOr x q gap inf cand L :=
  fun p a => ⟨(h p a).1, fun hx => Or.inl ((h p a).2 hx)⟩

/-- Two candidate lists with the same samples and distances related by `near`. -/
def NearList (near : D → D → Prop) : List (Nat × D) → List (Nat × D) → Prop :=
  List.Forall₂ (fun c c' => c'.1 = c.1 ∧ near c.2 c'.2)

theorem NearList.refl {near : D → D → Prop} (hr : ∀ d, near d d) (l : List (Nat × D)) :
    NearList near l l := by
  induction l with
  | nil => exact List.Forall₂.nil
  | cons a l ih => exact List.Forall₂.cons ⟨rfl, hr _⟩ ih

theorem NearList.append {near : D → D → Prop} {a b a' b' : List (Nat × D)}
    (h1 : NearList near a a') (h2 : NearList near b b') : NearList near (a ++ b) (a' ++ b') := by
  unfold NearList at *
  induction h1 with
  | nil => exact h2
  | cons h _ ih => exact List.Forall₂.cons h ih

/-- Skipping a pruned subtree. -/
theorem skip_spec (hsim : Sim x q gap cand ops proj Good valid) {near : D → D → Prop}
    {L R : Nat → Nat → Nat → Prop}
    (hprune : PruneOkAt x q gap cand L R near)
    {inf : D} {cap : Nat} {s : B} {kept all : List (Nat × D)}
    (h : WF inf cap (proj s) kept all) (hk : Genuine cand kept) (left : Bool) (p a : Nat) (idx : List Nat)
    (hcap : cap ≠ 0 ∨ (gap (x p a) (q a) ≤ inf ∧
      (left = false → gap (x p a) (q a) < inf ∨ ∀ i ∈ idx, cand i = none)) ∨ all ≠ [])
    (hside : ∀ i ∈ idx, (q a < x p a ∧ R a p i ∨ x p a ≤ q a ∧ L a i p))
    (hv : ¬ ops.visit s left p a = true) :
    ∃ cs', NearList near (cands cand idx) cs' ∧ WF inf cap (proj s) kept (all ++ cs') := by
  by_cases hnone : ∀ i ∈ idx, cand i = none
  · refine ⟨[], ?_, by simpa using h⟩
    rw [cands_none hnone]
    exact List.Forall₂.nil
  rw [hsim.visit] at hv
  simp only [visitSibling, Bool.or_eq_true, decide_eq_true_eq, ne_eq, not_or, not_not] at hv
  obtain ⟨hrem, hv⟩ := hv
  have hgap : (proj s).furthestDistance ≤ gap (x p a) (q a) := by
    cases left
    · simp only [Bool.false_eq_true, if_false, decide_eq_true_eq, not_lt] at hv; exact hv
    · simp only [if_true, decide_eq_true_eq, not_le] at hv; exact hv.le
  have hgap' : left = true → (proj s).furthestDistance < gap (x p a) (q a) := by
    intro hl
    simp only [hl, if_true, decide_eq_true_eq, not_le] at hv; exact hv
  have hne : kept ≠ [] := by
    intro hk
    subst hk
    have hc0 : cap = 0 := h.remaining_empty.1 hrem
    rcases hcap with hc | hc | hc
    · exact hc hc0
    · have := (h.empty rfl).1
      rw [this] at hgap hgap'
      cases left
      · rcases hc.2 rfl with hc | hc
        · exact absurd hc (not_lt.2 hgap)
        · exact hnone hc
      · exact absurd (hgap' rfl) (not_lt.2 hc.1)
    · have h1 := h.best.2
      have h2 := capEff_pos cap
      have h3 : 0 < all.length := List.length_pos_iff.2 hc
      simp only [List.length_nil] at h1
      omega
  refine ⟨(cands cand idx).map (fun c => (c.1, max c.2 (proj s).furthestDistance)), ?_, ?_⟩
  · unfold NearList
    rw [List.forall₂_map_right_iff]
    rw [List.forall₂_same]
    intro c hc
    obtain ⟨h1, h2⟩ := mem_cands.1 hc
    obtain ⟨j, hj⟩ := (h.furthest hne).1
    exact ⟨rfl, hprune a p c.1 c.2 _ h2 ⟨j, hk _ (List.mem_of_getElem? hj)⟩ (hside c.1 h1) hgap⟩
  · refine h.skip hne hrem _ ?_
    intro c hc
    obtain ⟨c0, _, rfl⟩ := List.mem_map.1 hc
    exact le_max_right _ _

theorem walk_spec_at (hsim : Sim x q gap cand ops proj Good valid) {near : D → D → Prop}
    (hr : ∀ d, near d d) {L R : Nat → Nat → Nat → Prop}
    (hprune : PruneOkAt x q gap cand L R near)
    {inf : D} {cap : Nat}
    (hcap : cap ≠ 0 ∨ GapBelowOr x q gap inf cand L ∨ ∀ i, valid i → cand i ≠ none) :
    ∀ (t : KDTree.Tree K) (s : B) (kept all : List (Nat × D)), t.SplitBy L R → (∀ i ∈ t.indices, valid i) →
      Good s → WF inf cap (proj s) kept all → Genuine cand kept →
      ∃ s' kept' cs', walk x q ops t s = some s' ∧ Good s' ∧
        NearList near (cands cand t.indices) cs' ∧
        WF inf cap (proj s') kept' (all ++ cs') ∧ Genuine cand kept' := by
  intro t
  induction t with
  | leaf idx box =>
    intro s kept all _ hv hg h hk
    obtain ⟨s', k', e, hg', h', hk'⟩ := offerAll_spec hsim idx s kept all hv hg h hk
    exact ⟨s', k', _, e, hg', NearList.refl hr _, h', hk'⟩
  | node p a box l r ihl ihr =>
    intro s kept all hsp hv hg h hk
    obtain ⟨hL, hR, hl, hrr⟩ := hsp
    simp only [Tree.indices] at hv
    obtain ⟨s1, k1, e1, hg1, h1, hk1⟩ := offerAll_spec hsim [p] s kept all
      (by intro i hi; simp at hi; subst hi; exact hv i (by simp)) hg h hk
    have hvl : ∀ i ∈ l.indices, valid i := fun i hi => hv i (by simp [hi])
    have hvr : ∀ i ∈ r.indices, valid i := fun i hi => hv i (by simp [hi])
    have hcs : cands cand (l.indices ++ p :: r.indices) =
        cands cand l.indices ++ (cands cand [p] ++ cands cand r.indices) := by
      rw [cands_append, ← cands_append cand [p] r.indices]; rfl
    have hcap' : ∀ (c2 : List (Nat × D)) (left : Bool) (idx : List Nat), (left = false → x p a ≤ q a) →
        (left = false → ∀ i ∈ idx, L a i p) →
        cap ≠ 0 ∨ (gap (x p a) (q a) ≤ inf ∧
          (left = false → gap (x p a) (q a) < inf ∨ ∀ i ∈ idx, cand i = none)) ∨
        all ++ cands cand [p] ++ c2 ≠ [] := by
      intro c2 left idx hleft hLi
      rcases hcap with hc | hc | hc
      · exact Or.inl hc
      · exact Or.inr (Or.inl ⟨(hc p a).1, fun h => ((hc p a).2 (hleft h)).imp id
          (fun h' i hi => h' i (hLi h i hi))⟩)
      · have := hc p (hv p (by simp))
        refine Or.inr (Or.inr ?_)
        cases hcp : cand p with
        | none => exact absurd hcp this
        | some d => simp [cands, hcp]
    simp only [walk, Option.bind_eq_bind, e1, Option.bind_some, Tree.indices, hcs]
    by_cases hq : q a < x p a
    · simp only [hq, if_true]
      obtain ⟨s2, k2, c2, e2, hg2, hn2, h2, hk2⟩ := ihl s1 k1 _ hl hvl hg1 h1 hk1
      simp only [e2, Option.bind_some]
      by_cases hvis : ops.visit s2 true p a = true
      · simp only [hvis, if_true]
        obtain ⟨s3, k3, c3, e3, hg3, hn3, h3, hk3⟩ := ihr s2 k2 _ hrr hvr hg2 h2 hk2
        refine ⟨s3, k3, c2 ++ (cands cand [p] ++ c3), e3, hg3,
          hn2.append ((NearList.refl hr _).append hn3), h3.perm ?_, hk3⟩
        simp only [List.append_assoc]
        refine List.Perm.append_left _ ?_
        rw [← List.append_assoc, ← List.append_assoc]
        exact List.Perm.append_right _ List.perm_append_comm
      · simp only [hvis]
        obtain ⟨c3, hn3, h3⟩ := skip_spec hsim hprune h2 hk2 true p a r.indices (hcap' _ true _ (by simp) (by simp))
          (fun i hi => Or.inl ⟨hq, hR i hi⟩) hvis
        refine ⟨s2, k2, c2 ++ (cands cand [p] ++ c3), rfl, hg2,
          hn2.append ((NearList.refl hr _).append hn3), h3.perm ?_, hk2⟩
        simp only [List.append_assoc]
        refine List.Perm.append_left _ ?_
        rw [← List.append_assoc, ← List.append_assoc]
        exact List.Perm.append_right _ List.perm_append_comm
    · simp only [hq, if_false]
      obtain ⟨s2, k2, c2, e2, hg2, hn2, h2, hk2⟩ := ihr s1 k1 _ hrr hvr hg1 h1 hk1
      simp only [e2, Option.bind_some]
      by_cases hvis : ops.visit s2 false p a = true
      · simp only [hvis, if_true]
        obtain ⟨s3, k3, c3, e3, hg3, hn3, h3, hk3⟩ := ihl s2 k2 _ hl hvl hg2 h2 hk2
        refine ⟨s3, k3, c3 ++ (cands cand [p] ++ c2), e3, hg3,
          hn3.append ((NearList.refl hr _).append hn2), h3.perm ?_, hk3⟩
        simp only [List.append_assoc]
        refine List.Perm.append_left _ ?_
        rw [← List.append_assoc]
        exact List.perm_append_comm
      · simp only [hvis]
        obtain ⟨c3, hn3, h3⟩ := skip_spec hsim hprune h2 hk2 false p a l.indices
          (hcap' _ false _ (fun _ => not_lt.1 hq) (fun _ => hL))
          (fun i hi => Or.inr ⟨not_lt.1 hq, hL i hi⟩) hvis
        refine ⟨s2, k2, c3 ++ (cands cand [p] ++ c2), rfl, hg2,
          hn3.append ((NearList.refl hr _).append hn2), h3.perm ?_, hk2⟩
        simp only [List.append_assoc]
        refine List.Perm.append_left _ ?_
        rw [← List.append_assoc]
        exact List.perm_append_comm

theorem walk_spec (hsim : Sim x q gap cand ops proj Good valid) {near : D → D → Prop}
    (hr : ∀ d, near d d) {L R : Nat → Nat → Nat → Prop}
    (hprune : PruneOk x q gap cand L R near)
    {inf : D} {cap : Nat}
    (hcap : cap ≠ 0 ∨ GapBelow x q gap inf ∨ ∀ i, valid i → cand i ≠ none)
    (t : KDTree.Tree K) (s : B) (kept all : List (Nat × D)) (hsp : t.SplitBy L R)
    (hv : ∀ i ∈ t.indices, valid i) (hg : Good s) (h : WF inf cap (proj s) kept all)
    (hk : Genuine cand kept) :
    ∃ s' kept' cs', walk x q ops t s = some s' ∧ Good s' ∧
      NearList near (cands cand t.indices) cs' ∧
      WF inf cap (proj s') kept' (all ++ cs') ∧ Genuine cand kept' :=
  walk_spec_at hsim hr hprune.at (hcap.imp id (Or.imp GapBelow.or id)) t s kept all hsp hv hg h hk

/-- From the accounted distances back to the genuine ones. -/
theorem kept_of_near {near : D → D → Prop} {kept rest' cs' : List (Nat × D)} {idx : List Nat}
    (hn : NearList near (cands cand idx) cs') (hgen : Genuine cand kept)
    (hp : (kept ++ rest').Perm cs') (hle : ∀ a ∈ kept, ∀ b ∈ rest', a.2 ≤ b.2) :
    ∃ rest, (kept ++ rest).Perm (cands cand idx) ∧
      ∀ a ∈ kept, ∀ b ∈ rest, ∃ d', near b.2 d' ∧ a.2 ≤ d' := by
  have hn' : List.Forall₂ (fun c' c => c'.1 = c.1 ∧ near c.2 c'.2) cs' (cands cand idx) :=
    List.Forall₂.flip hn
  obtain ⟨l, hl1, hl2⟩ := List.perm_comp_forall₂ hp hn'
  have hl1' : List.Forall₂ (fun c' c => c'.1 = c.1 ∧ near c.2 c'.2) (kept ++ rest') l := hl1
  obtain ⟨l1, l2, hh1, hh2, rfl⟩ : ∃ l1 l2,
      List.Forall₂ (fun c' c => c'.1 = c.1 ∧ near c.2 c'.2) kept l1 ∧
      List.Forall₂ (fun c' c => c'.1 = c.1 ∧ near c.2 c'.2) rest' l2 ∧ l = l1 ++ l2 := by
    refine ⟨l.take kept.length, l.drop kept.length, ?_, ?_, (List.take_append_drop _ _).symm⟩
    · have := List.forall₂_take kept.length hl1'
      simpa using this
    · have := List.forall₂_drop kept.length hl1'
      simpa using this
  have hl1k : l1 = kept := by
    have hm : ∀ c ∈ l1, cand c.1 = some c.2 := fun c hc =>
      (mem_cands.1 (hl2.mem_iff.1 (by simp [hc]))).2
    clear hl1 hl1' hp hle hl2
    induction hh1 with
    | nil => rfl
    | @cons a b la lb hab _ ih =>
      have h1 := hgen a (by simp)
      have h2 := hm b (by simp)
      rw [hab.1, h2] at h1
      have : b = a := Prod.ext hab.1.symm (Option.some.inj h1)
      rw [this, ih (fun c hc => hgen c (by simp [hc])) (fun c hc => hm c (by simp [hc]))]
  subst hl1k
  refine ⟨l2, hl2, ?_⟩
  intro a ha b hb
  have : ∃ b' ∈ rest', near b.2 b'.2 := by
    clear hl1 hl1' hp hle hl2
    induction hh2 with
    | nil => simp at hb
    | @cons c d _ _ hcd _ ih =>
      rcases List.mem_cons.1 hb with rfl | hb
      · exact ⟨c, by simp, hcd.2⟩
      · obtain ⟨b', hb', h⟩ := ih hb
        exact ⟨b', by simp [hb'], h⟩
  obtain ⟨b', hb', h⟩ := this
  exact ⟨b'.2, h, hle a ha b' hb'⟩

/-- What the buffer holds after a search that started with an empty buffer, including the furthest
entry. -/
theorem search_result_full_at (hsim : Sim x q gap cand ops proj Good valid) {near : D → D → Prop}
    (hr : ∀ d, near d d) {L R : Nat → Nat → Nat → Prop}
    (hprune : PruneOkAt x q gap cand L R near) {inf : D} {cap : Nat} (hcap2 : cap < sizeMod)
    (hcap : cap ≠ 0 ∨ GapBelowOr x q gap inf cand L ∨ ∀ i, valid i → cand i ≠ none)
    (t : KDTree.Tree K) (hsp : t.SplitBy L R) (hv : ∀ i ∈ t.indices, valid i) (s : B) (hg : Good s)
    (hs : proj s = Buffer.mk inf cap) :
    ∃ s' kept, search x q ops t s = some s' ∧ Good s' ∧
      (proj s').indices = kept.map Prod.fst ∧ (proj s').distances = kept.map Prod.snd ∧
      (∃ rest, (kept ++ rest).Perm (cands cand t.indices) ∧
        ∀ a ∈ kept, ∀ b ∈ rest, ∃ d', near b.2 d' ∧ a.2 ≤ d') ∧
      kept.length = min (capEff cap) (cands cand t.indices).length ∧
      (kept ≠ [] → (((proj s').closestIndex, (proj s').closestDistance) ∈ kept ∧
        ∀ a ∈ kept, (proj s').closestDistance ≤ a.2)) ∧
      (kept ≠ [] → (∃ i, kept[(proj s').furthestPos]? = some (i, (proj s').furthestDistance)) ∧
        ∀ a ∈ kept, a.2 ≤ (proj s').furthestDistance) ∧
      (kept = [] → (proj s').furthestDistance = inf) := by
  have hinit : WF inf cap (proj s) [] [] := by rw [hs]; exact WF.init inf cap hcap2
  obtain ⟨s', kept, cs', e, hg', hn, hw, hgen⟩ :=
    walk_spec_at hsim hr hprune hcap t s [] [] hsp hv hg hinit (by intro a ha; simp at ha)
  refine ⟨s', kept, by rw [search_eq_walk]; exact e, hg', hw.idx, hw.dst, ?_, ?_, hw.closest,
    hw.furthest, fun h => (hw.empty h).1⟩
  · obtain ⟨rest', hp, hle⟩ := hw.best.1
    simp only [List.nil_append] at hp
    exact kept_of_near hn hgen hp hle
  · have := hw.best.2
    simp only [List.nil_append] at this
    rw [this, hn.length_eq]

theorem search_result_full (hsim : Sim x q gap cand ops proj Good valid) {near : D → D → Prop}
    (hr : ∀ d, near d d) {L R : Nat → Nat → Nat → Prop}
    (hprune : PruneOk x q gap cand L R near) {inf : D} {cap : Nat} (hcap2 : cap < sizeMod)
    (hcap : cap ≠ 0 ∨ GapBelow x q gap inf ∨ ∀ i, valid i → cand i ≠ none)
    (t : KDTree.Tree K) (hsp : t.SplitBy L R) (hv : ∀ i ∈ t.indices, valid i) (s : B) (hg : Good s)
    (hs : proj s = Buffer.mk inf cap) :
    ∃ s' kept, search x q ops t s = some s' ∧ Good s' ∧
      (proj s').indices = kept.map Prod.fst ∧ (proj s').distances = kept.map Prod.snd ∧
      (∃ rest, (kept ++ rest).Perm (cands cand t.indices) ∧
        ∀ a ∈ kept, ∀ b ∈ rest, ∃ d', near b.2 d' ∧ a.2 ≤ d') ∧
      kept.length = min (capEff cap) (cands cand t.indices).length ∧
      (kept ≠ [] → (((proj s').closestIndex, (proj s').closestDistance) ∈ kept ∧
        ∀ a ∈ kept, (proj s').closestDistance ≤ a.2)) ∧
      (kept ≠ [] → (∃ i, kept[(proj s').furthestPos]? = some (i, (proj s').furthestDistance)) ∧
        ∀ a ∈ kept, a.2 ≤ (proj s').furthestDistance) ∧
      (kept = [] → (proj s').furthestDistance = inf) :=
  search_result_full_at hsim hr hprune.at hcap2 (hcap.imp id (Or.imp GapBelow.or id)) t hsp hv s hg hs

/-- What the buffer holds after a search that started with an empty buffer. -/
theorem search_result (hsim : Sim x q gap cand ops proj Good valid) {near : D → D → Prop}
    (hr : ∀ d, near d d) {L R : Nat → Nat → Nat → Prop}
    (hprune : PruneOk x q gap cand L R near) {inf : D} {cap : Nat} (hcap2 : cap < sizeMod)
    (hcap : cap ≠ 0 ∨ GapBelow x q gap inf ∨ ∀ i, valid i → cand i ≠ none)
    (t : KDTree.Tree K) (hsp : t.SplitBy L R) (hv : ∀ i ∈ t.indices, valid i) (s : B) (hg : Good s)
    (hs : proj s = Buffer.mk inf cap) :
    ∃ s' kept, search x q ops t s = some s' ∧ Good s' ∧
      (proj s').indices = kept.map Prod.fst ∧ (proj s').distances = kept.map Prod.snd ∧
      (∃ rest, (kept ++ rest).Perm (cands cand t.indices) ∧
        ∀ a ∈ kept, ∀ b ∈ rest, ∃ d', near b.2 d' ∧ a.2 ≤ d') ∧
      kept.length = min (capEff cap) (cands cand t.indices).length ∧
      (kept ≠ [] → (((proj s').closestIndex, (proj s').closestDistance) ∈ kept ∧
        ∀ a ∈ kept, (proj s').closestDistance ≤ a.2)) := by
  obtain ⟨s', kept, h1, h2, h3, h4, h5, h6, h7, _⟩ :=
    search_result_full hsim hr hprune hcap2 hcap t hsp hv s hg hs
  exact ⟨s', kept, h1, h2, h3, h4, h5, h6, h7⟩

end Exact

/-- The stateless buffers simulate themselves. -/
theorem sim_static (x : Nat → Nat → K) (q : Nat → K) (gap : K → K → D) (cand : Nat → Option D) :
    Sim x q gap cand (staticOps x q gap cand) id (fun _ => True) (fun _ => True) where
  offer := fun _ _ b' _ _ h => ⟨b', h, rfl, trivial⟩
  visit := fun _ _ _ _ => rfl

/-- The union-find buffer simulates a buffer that rejects samples of the query's component. -/
theorem sim_uf (x : Nat → Nat → K) (q : Nat → K) (gap : K → K → D) (cand : Nat → Option D)
    (n rep : Nat) (r : Nat → Nat) (hrep : rep < n) :
    Sim x q gap (fun i => if r rep = r i then none else cand i) (ufOps x q gap cand rep) Prod.snd
      (fun s => UF.SInv n s.1 r) (fun i => i < n) where
  offer := by
    rintro ⟨u, b⟩ i b' hg hi h
    simp only [Buf.offer] at h
    simp only [ufOps, ufOffer]
    cases hc : cand i with
    | none =>
      simp only [hc, ite_self, Option.some.injEq] at h
      exact ⟨(u, b), rfl, h, hg⟩
    | some d =>
      obtain ⟨u1, e1, hg1, _⟩ := UF.find_spec hg hrep
      obtain ⟨u2, e2, hg2, _⟩ := UF.find_spec hg1 hi
      simp only [e1, e2, Option.bind_eq_bind, Option.bind_some]
      by_cases hr : r rep = r i
      · simp only [hr, if_true, Option.some.injEq] at h ⊢
        exact ⟨(u2, b), rfl, h, hg2⟩
      · simp only [hr, if_false, hc] at h ⊢
        exact ⟨(u2, b'), by simp [h], rfl, hg2⟩
  visit := fun _ _ _ _ => rfl

end Verif.Search
