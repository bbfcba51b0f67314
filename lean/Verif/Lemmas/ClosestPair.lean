import Verif.Model.ClosestPair
import Verif.Props.Search

namespace Verif.ClosestPair

open Verif.KDTree Verif.Buffer Verif.Search

set_option linter.unusedSectionVars false

variable {K : Type} [LinearOrder K] {D : Type} [LinearOrder D]

/-- A tree on which the union-find search behaves: `near d d'` bounds what pruning may lose. -/
structure GoodTree (x y : Nat → Nat → K) (gap : K → K → D) (dist : Nat → Nat → D) (n : Nat)
    (near : D → D → Prop) (t : KDTree.Tree K) : Prop where
  valid : ∀ i ∈ t.indices, i < n
  refl : ∀ d, near d d
  prune : ∃ L R : Nat → Nat → Nat → Prop, t.SplitBy L R ∧ ∀ (q : Nat) (r : Nat → Nat) (rep : Nat),
    PruneOkAt x (y q) gap (fun i => if r rep = r i then none else candAll (dist q) i) L R near

theorem nearestOther_spec {x y : Nat → Nat → K} {gap : K → K → D} {dist : Nat → Nat → D} {n : Nat}
    {near : D → D → Prop} {t : KDTree.Tree K} (ht : GoodTree x y gap dist n near t) (inf : D)
    {u : UF.State} {r : Nat → Nat} (hu : UF.SInv n u r) {rep : Nat} (hrep : rep < n) (q : Nat)
    (hex : ∃ j ∈ t.indices, r rep ≠ r j) :
    ∃ u' i, nearestOther x y gap dist inf t rep u q = some (u', i, dist q i) ∧ UF.SInv n u' r ∧
      i ∈ t.indices ∧ r rep ≠ r i ∧
      ∀ j ∈ t.indices, r rep ≠ r j → ∃ d', near (dist q j) d' ∧ dist q i ≤ d' := by
  obtain ⟨L, R, hsp, hpr⟩ := ht.prune
  obtain ⟨⟨u', b⟩, kept, es, hg, h1, h2, ⟨rest, hr1, hr2⟩, hl, _, hf, _⟩ :=
    search_result_full_at (sim_uf x (y q) gap (candAll (dist q)) n rep r hrep) ht.refl (hpr q r rep)
      (cap := 1) (inf := inf) (by unfold sizeMod; omega) (Or.inl (by omega)) t hsp ht.valid
      (u, Buffer.mk inf 1) hu rfl
  dsimp only at h1 h2 hf hg
  have hmem : ∀ c : Nat × D, c ∈ kept ++ rest ↔
      c.1 ∈ t.indices ∧ r rep ≠ r c.1 ∧ c.2 = dist q c.1 := by
    intro c
    rw [hr1.mem_iff, mem_cands]
    refine and_congr_right fun _ => ?_
    split
    · rename_i h; simp [h]
    · rename_i h; simp [h, candAll, eq_comm]
  obtain ⟨j0, hj0, hjr⟩ := hex
  have hc0 : (j0, dist q j0) ∈ kept ++ rest := (hmem _).2 ⟨hj0, hjr, rfl⟩
  have hlen : kept.length = 1 := by
    rw [hl]
    have : (j0, dist q j0) ∈ cands (fun i => if r rep = r i then none else candAll (dist q) i)
        t.indices := hr1.mem_iff.1 hc0
    have := List.length_pos_of_mem this
    simp [capEff]; omega
  obtain ⟨⟨i, d⟩, rfl⟩ := List.length_eq_one_iff.1 hlen
  obtain ⟨⟨i', hi'⟩, _⟩ := hf (by simp)
  have hpos : b.furthestPos = 0 := by
    by_contra hne
    rw [List.getElem?_eq_none (by simp; omega)] at hi'
    simp at hi'
  rw [hpos] at hi'
  simp only [List.getElem?_cons_zero, Option.some.injEq, Prod.mk.injEq] at hi'
  obtain ⟨rfl, hfd⟩ := hi'
  obtain ⟨hm1, hm2, hm3⟩ := (hmem (i, d)).1 (by simp)
  dsimp only at hm1 hm2 hm3
  refine ⟨u', i, ?_, hg, hm1, hm2, ?_⟩
  · simp only [nearestOther, es, Option.bind_eq_bind, Option.bind_some]
    rw [hpos, h1]
    simp [← hfd, hm3]
  · intro j hj hjr
    rcases List.mem_append.1 ((hmem (j, dist q j)).2 ⟨hj, hjr, rfl⟩) with h | h
    · simp only [List.mem_singleton, Prod.mk.injEq] at h
      rw [h.1]
      exact ⟨_, ht.refl _, le_refl _⟩
    · obtain ⟨d', hd1, hd2⟩ := hr2 (i, d) (by simp) _ h
      exact ⟨d', hd1, by rw [← hm3]; exact hd2⟩

/-- With a component that covers all reference samples the query reads out of range. -/
theorem nearestOther_none {x y : Nat → Nat → K} {gap : K → K → D} {dist : Nat → Nat → D} {n : Nat}
    {near : D → D → Prop} {t : KDTree.Tree K} (ht : GoodTree x y gap dist n near t) (inf : D)
    {u : UF.State} {r : Nat → Nat} (hu : UF.SInv n u r) {rep : Nat} (hrep : rep < n) (q : Nat)
    (hex : ∀ j ∈ t.indices, r rep = r j) :
    nearestOther x y gap dist inf t rep u q = none := by
  obtain ⟨L, R, hsp, hpr⟩ := ht.prune
  obtain ⟨⟨u', b⟩, kept, es, hg, h1, h2, ⟨rest, hr1, hr2⟩, hl, _, hf, _⟩ :=
    search_result_full_at (sim_uf x (y q) gap (candAll (dist q)) n rep r hrep) ht.refl (hpr q r rep)
      (cap := 1) (inf := inf) (by unfold sizeMod; omega) (Or.inl (by omega)) t hsp ht.valid
      (u, Buffer.mk inf 1) hu rfl
  dsimp only at h1
  have : cands (fun i => if r rep = r i then none else candAll (dist q) i) t.indices = [] := by
    rw [List.eq_nil_iff_forall_not_mem]
    intro c hc
    obtain ⟨h1, h2⟩ := mem_cands.1 hc
    simp [hex _ h1] at h2
  rw [this] at hl
  simp only [List.length_nil, Nat.min_zero, List.length_eq_zero_iff] at hl
  subst hl
  simp only [nearestOther, es, Option.bind_eq_bind, Option.bind_some, h1]
  simp

/-- The loop over the queries: every query contributes an edge to one of its nearest samples of
another component, the cheapest one below the initial edge is kept. -/
theorem shortestFrom_spec {x y : Nat → Nat → K} {gap : K → K → D} {dist : Nat → Nat → D} {n : Nat}
    {near : D → D → Prop} {t : KDTree.Tree K} (ht : GoodTree x y gap dist n near t) (inf : D)
    (weight : Nat → Nat → D → Option D) (wt : Nat → Nat → D)
    {r : Nat → Nat} {rep : Nat} (hrep : rep < n)
    (hex : ∃ j ∈ t.indices, r rep ≠ r j) :
    ∀ (qs : List Nat) (u : UF.State) (e0 : Edge D), UF.SInv n u r →
      (∀ q ∈ qs, ∀ i ∈ t.indices, weight q i (dist q i) = some (wt q i)) →
      ∃ u' e, shortestFrom x y gap dist weight inf t rep qs u e0 = some (u', e) ∧ UF.SInv n u' r ∧
        (e = e0 ∨ ∃ q ∈ qs, ∃ i ∈ t.indices, e = (q, i, wt q i) ∧ r rep ≠ r i ∧
          wt q i < e0.2.2 ∧
          ∀ j ∈ t.indices, r rep ≠ r j → ∃ d', near (dist q j) d' ∧ dist q i ≤ d') ∧
        e.2.2 ≤ e0.2.2 ∧
        ∀ q ∈ qs, ∃ i ∈ t.indices, r rep ≠ r i ∧ e.2.2 ≤ wt q i ∧
          ∀ j ∈ t.indices, r rep ≠ r j → ∃ d', near (dist q j) d' ∧ dist q i ≤ d' := by
  intro qs
  induction qs with
  | nil => intro u e0 hu _; exact ⟨u, e0, rfl, hu, Or.inl rfl, le_refl _, by simp⟩
  | cons q qs ih =>
    intro u e0 hu hw
    obtain ⟨u1, i, e1, hu1, hi, hri, hnear⟩ := nearestOther_spec ht inf hu hrep q hex
    obtain ⟨u2, e, e2, hu2, hcase, hle, hall⟩ :=
      ih u1 (if wt q i < e0.2.2 then (q, i, wt q i) else e0) hu1
        (fun q' hq' => hw q' (by simp [hq']))
    refine ⟨u2, e, ?_, hu2, ?_, ?_, ?_⟩
    · simp only [shortestFrom, e1, Option.bind_eq_bind, Option.bind_some,
        hw q (by simp) i hi, e2]
    · rcases hcase with h | ⟨q', hq', i', hi', h1, h2, h3, h4⟩
      · by_cases hlt : wt q i < e0.2.2
        · rw [if_pos hlt] at h
          exact Or.inr ⟨q, by simp, i, hi, h, hri, hlt, hnear⟩
        · rw [if_neg hlt] at h; exact Or.inl h
      · refine Or.inr ⟨q', by simp [hq'], i', hi', h1, h2, ?_, h4⟩
        split at h3
        · rename_i hlt; exact h3.trans hlt
        · exact h3
    · refine hle.trans ?_
      split
      · rename_i hlt; exact hlt.le
      · exact le_refl _
    · intro q' hq'
      rcases List.mem_cons.1 hq' with rfl | hq'
      · refine ⟨i, hi, hri, hle.trans ?_, hnear⟩
        split
        · exact le_refl _
        · rename_i hlt; exact not_lt.1 hlt
      · exact hall q' hq'

end Verif.ClosestPair
