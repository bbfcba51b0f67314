import Verif.Model.Buffer
import Verif.Spec.Buffer
import Mathlib.Tactic.Common
import Mathlib.Order.Basic

namespace Verif.Buffer

variable {D : Type} [LinearOrder D]

/-- Capacity `0` behaves as `2^64`. -/
def capEff (cap : Nat) : Nat := if cap = 0 then sizeMod else cap

theorem capEff_pos (cap : Nat) : 0 < capEff cap := by
  unfold capEff sizeMod; split <;> omega

/-- Representation invariant, with the kept candidates `kept` and all candidates `all`. -/
structure WF (inf : D) (cap : Nat) (b : Buf D) (kept all : List (Nat × D)) : Prop where
  cap_eq : b.maxCapacity = cap
  cap_lt : cap < sizeMod
  idx : b.indices = kept.map Prod.fst
  dst : b.distances = kept.map Prod.snd
  best : IsKNearest (capEff cap) kept all
  closest : kept ≠ [] → (b.closestIndex, b.closestDistance) ∈ kept ∧
    ∀ a ∈ kept, b.closestDistance ≤ a.2
  furthest : kept ≠ [] → (∃ i, kept[b.furthestPos]? = some (i, b.furthestDistance)) ∧
    ∀ a ∈ kept, a.2 ≤ b.furthestDistance
  empty : kept = [] → b.furthestDistance = inf ∧ b.furthestPos = 0 ∧ b.closestDistance = inf

theorem WF.length_le {inf : D} {cap : Nat} {b : Buf D} {kept all : List (Nat × D)}
    (h : WF inf cap b kept all) : kept.length ≤ capEff cap := by
  rw [h.best.2]; exact Nat.min_le_left _ _

theorem WF.perm {inf : D} {cap : Nat} {b : Buf D} {kept all all' : List (Nat × D)}
    (h : WF inf cap b kept all) (hp : all.Perm all') : WF inf cap b kept all' := by
  refine { h with best := ?_ }
  obtain ⟨⟨rest, h1, h2⟩, h3⟩ := h.best
  exact ⟨⟨rest, h1.trans hp, h2⟩, by rw [h3, hp.length_eq]⟩

theorem WF.init (inf : D) (cap : Nat) (hc : cap < sizeMod) :
    WF inf cap (Buffer.mk inf cap) [] [] :=
  { cap_eq := rfl, cap_lt := hc, idx := rfl, dst := rfl, best := ⟨⟨[], by simp, by simp⟩, by simp⟩,
    closest := by simp, furthest := by simp, empty := fun _ => ⟨rfl, rfl, rfl⟩ }

theorem WF.remaining {inf : D} {cap : Nat} {b : Buf D} {kept all : List (Nat × D)}
    (h : WF inf cap b kept all) (hne : kept ≠ []) :
    b.remaining = 0 ↔ kept.length = capEff cap := by
  have h1 := h.length_le
  have h2 := h.cap_lt
  have h3 : 0 < kept.length := List.length_pos_iff.2 hne
  have h4 : b.indices.length = kept.length := by rw [h.idx]; simp
  unfold Buf.remaining
  rw [h.cap_eq, h4]
  unfold capEff at *
  simp only [sizeMod] at *
  split at h1 <;> split <;> omega

theorem WF.remaining_empty {inf : D} {cap : Nat} {b : Buf D} {all : List (Nat × D)}
    (h : WF inf cap b [] all) : b.remaining = 0 ↔ cap = 0 := by
  have h2 := h.cap_lt
  have h4 : b.indices.length = 0 := by rw [h.idx]; simp
  unfold Buf.remaining
  rw [h.cap_eq, h4]
  simp only [sizeMod] at *
  omega

theorem maxElementLoop_spec : ∀ (xs pre : List D) (bp : Nat) (best : D),
    pre[bp]? = some best → (∀ x ∈ pre, x ≤ best) →
    (pre ++ xs)[(maxElementLoop xs pre.length bp best).1]? =
        some (maxElementLoop xs pre.length bp best).2 ∧
      ∀ x ∈ pre ++ xs, x ≤ (maxElementLoop xs pre.length bp best).2 := by
  intro xs
  induction xs with
  | nil => intro pre bp best h1 h2; simpa [maxElementLoop] using ⟨h1, h2⟩
  | cons x xs ih =>
    intro pre bp best h1 h2
    have hl : pre.length + 1 = (pre ++ [x]).length := by simp
    have ha : pre ++ x :: xs = (pre ++ [x]) ++ xs := by simp
    simp only [maxElementLoop]
    rw [hl, ha]
    have hbp : bp < pre.length := by
      by_contra hc; rw [List.getElem?_eq_none (by omega)] at h1; simp at h1
    split
    · rename_i hlt
      refine ih (pre ++ [x]) pre.length x (by simp) ?_
      intro y hy
      rcases List.mem_append.1 hy with hy | hy
      · exact (h2 y hy).trans hlt.le
      · simp at hy; exact hy.le
    · rename_i hlt
      refine ih (pre ++ [x]) bp best (by rw [List.getElem?_append_left hbp]; exact h1) ?_
      intro y hy
      rcases List.mem_append.1 hy with hy | hy
      · exact h2 y hy
      · simp at hy; rw [hy]; exact not_lt.1 hlt

theorem getMax_spec (l : List D) (h : l ≠ []) :
    ∃ p v, getMaxIndexValuePair l = some (p, v) ∧ l[p]? = some v ∧ ∀ x ∈ l, x ≤ v := by
  rcases l with _ | ⟨x, xs⟩
  · exact absurd rfl h
  · have := maxElementLoop_spec xs [x] 0 x (by simp) (by simp)
    exact ⟨_, _, rfl, this⟩

theorem set_perm {α : Type} (l : List α) (p : Nat) (x y : α) (h : l[p]? = some x) :
    (x :: l.set p y).Perm (y :: l) := by
  induction l generalizing p with
  | nil => simp at h
  | cons a l ih =>
    rcases p with _ | p
    · simp at h; subst h; exact List.Perm.swap _ _ _
    · simp only [List.getElem?_cons_succ] at h
      exact (List.Perm.swap _ _ _).trans (((ih p h).cons a).trans (List.Perm.swap _ _ _))

/-- One update accounts for one more candidate. -/
theorem update_spec {inf : D} {cap : Nat} {b : Buf D} {kept all : List (Nat × D)}
    (h : WF inf cap b kept all) (i : Nat) (d : D) :
    ∃ b' kept', b.update i d = some b' ∧ WF inf cap b' kept' (all ++ [(i, d)]) ∧
      ∀ a ∈ kept', a ∈ kept ∨ a = (i, d) := by
  have hlen : b.indices.length = kept.length := by rw [h.idx]; simp
  obtain ⟨⟨rest, hperm, hle⟩, hsize⟩ := h.best
  have hall : kept.length + rest.length = all.length := by
    have := hperm.length_eq; simpa using this
  have hcp := capEff_pos cap
  unfold Buf.update
  by_cases h0 : kept = []
  · -- first candidate
    subst h0
    have hall0 : all = [] := by
      have : min (capEff cap) all.length = 0 := by simpa using hsize.symm
      apply List.length_eq_zero_iff.1
      omega
    subst hall0
    simp only [List.length_nil] at hlen
    simp only [hlen, if_true]
    refine ⟨_, [(i, d)], rfl, ?_, by simp⟩
    refine { cap_eq := h.cap_eq, cap_lt := h.cap_lt, idx := ?_, dst := ?_, best := ?_,
             closest := ?_, furthest := ?_, empty := by simp }
    · simp [h.idx]
    · simp [h.dst]
    · exact ⟨⟨[], by simp, by simp⟩, by simp; omega⟩
    · simp
    · intro _
      obtain ⟨_, hp0, _⟩ := h.empty rfl
      refine ⟨⟨i, ?_⟩, by simp⟩
      show [(i, d)][b.furthestPos]? = _
      rw [hp0]; rfl
  · have hpos : 0 < kept.length := List.length_pos_iff.2 h0
    have hne0 : ¬ b.indices.length = 0 := by omega
    simp only [hne0, if_false]
    obtain ⟨hc1, hc2⟩ := h.closest h0
    obtain ⟨⟨fi, hf1⟩, hf2⟩ := h.furthest h0
    have hrem := h.remaining h0
    have hflt : b.furthestPos < kept.length := by
      by_contra hc; rw [List.getElem?_eq_none (by omega)] at hf1; simp at hf1
    by_cases hfull : b.remaining = 0
    · have hk : kept.length = capEff cap := hrem.1 hfull
      simp only [hfull, ne_eq, not_true_eq_false, if_false]
      by_cases hd : d < b.furthestDistance
      · simp only [hd, if_true]
        -- replace the furthest candidate
        have hsetp := set_perm kept b.furthestPos (fi, b.furthestDistance) (i, d) hf1
        have hdl : b.distances.length = kept.length := by rw [h.dst]; simp
        have hset1 : b.indices.set b.furthestPos i = (kept.set b.furthestPos (i, d)).map Prod.fst := by
          rw [h.idx, List.map_set]
        have hset2 : b.distances.set b.furthestPos d =
            (kept.set b.furthestPos (i, d)).map Prod.snd := by
          rw [h.dst, List.map_set]
        have hdne : b.distances.set b.furthestPos d ≠ [] := by
          intro hc
          have := congrArg List.length hc
          rw [List.length_set, hdl, List.length_nil] at this; omega
        obtain ⟨p, v, eg, hp, hv⟩ := getMax_spec _ hdne
        have hmem : ∀ a ∈ kept.set b.furthestPos (i, d), a = (i, d) ∨ a ∈ kept := by
          intro a ha
          rcases List.mem_or_eq_of_mem_set ha with h | h
          · exact Or.inr h
          · exact Or.inl h
        have hb1 : ∀ c : Prop, [Decidable c] → ∀ ci cd,
            (if c then { b with closestIndex := ci, closestDistance := cd } else b).indices
              = b.indices ∧
            (if c then { b with closestIndex := ci, closestDistance := cd } else b).distances
              = b.distances ∧
            (if c then { b with closestIndex := ci, closestDistance := cd } else b).furthestPos
              = b.furthestPos ∧
            (if c then { b with closestIndex := ci, closestDistance := cd } else b).maxCapacity
              = b.maxCapacity := by
          intro c _ ci cd; split <;> simp
        obtain ⟨e1, e2, e3, e4⟩ := hb1 (d < b.closestDistance) i d
        simp only [e1, e2, e3, assign, hlen, hdl, hflt, if_true, Option.bind_eq_bind,
          Option.bind_some, eg]
        refine ⟨_, kept.set b.furthestPos (i, d), rfl, ?_, fun a ha => (hmem a ha).symm⟩
        refine { cap_eq := by simp only [e4]; exact h.cap_eq, cap_lt := h.cap_lt, idx := hset1,
                 dst := hset2, best := ?_, closest := ?_, furthest := ?_, empty := ?_ }
        · refine ⟨⟨(fi, b.furthestDistance) :: rest, ?_, ?_⟩, ?_⟩
          · have h1 : (kept.set b.furthestPos (i, d) ++ (fi, b.furthestDistance) :: rest).Perm
                ((fi, b.furthestDistance) :: kept.set b.furthestPos (i, d) ++ rest) := by
              simpa using (List.perm_middle (l₁ := kept.set b.furthestPos (i, d))
                (a := (fi, b.furthestDistance)) (l₂ := rest))
            refine h1.trans ((hsetp.append_right rest).trans ?_)
            have h2 : ((i, d) :: kept ++ rest).Perm ((i, d) :: all) := hperm.cons _
            exact h2.trans (by simpa using (List.perm_append_comm (l₁ := [(i, d)]) (l₂ := all)))
          · intro a ha c hc
            have hxm : (fi, b.furthestDistance) ∈ kept := List.mem_of_getElem? hf1
            have ha2 : a.2 ≤ b.furthestDistance := by
              rcases hmem a ha with rfl | ha
              · exact hd.le
              · exact hf2 a ha
            rcases List.mem_cons.1 hc with rfl | hc
            · exact ha2
            · exact ha2.trans (hle _ hxm c hc)
          · rw [List.length_set]; simp; omega
        · intro _
          by_cases hcl : d < b.closestDistance
          · simp only [hcl, if_true]
            refine ⟨?_, ?_⟩
            · exact List.mem_set hflt _
            · intro a ha
              rcases hmem a ha with rfl | ha
              · exact le_refl _
              · exact hcl.le.trans (hc2 a ha)
          · simp only [hcl, if_false]
            have hcl' := not_lt.1 hcl
            refine ⟨?_, ?_⟩
            · obtain ⟨j, hj⟩ := List.mem_iff_getElem?.1 hc1
              have hjne : b.furthestPos ≠ j := by
                rintro rfl
                rw [hf1] at hj
                simp only [Option.some.injEq, Prod.mk.injEq] at hj
                rw [hj.2] at hd
                exact absurd (lt_of_le_of_lt hcl' hd) (lt_irrefl _)
              refine List.mem_iff_getElem?.2 ⟨j, ?_⟩
              rw [List.getElem?_set_ne hjne]; exact hj
            · intro a ha
              rcases hmem a ha with rfl | ha
              · exact hcl'
              · exact hc2 a ha
        · intro _
          rw [hset2, List.getElem?_map] at hp
          rw [hset2] at hv
          refine ⟨?_, ?_⟩
          · show ∃ i', (kept.set b.furthestPos (i, d))[p]? = some (i', v)
            cases hq : (kept.set b.furthestPos (i, d))[p]? with
            | none => rw [hq] at hp; simp at hp
            | some a =>
              rw [hq] at hp
              simp only [Option.map_some, Option.some.injEq] at hp
              exact ⟨a.1, by rw [← hp]⟩
          · intro a ha
            exact hv a.2 (List.mem_map_of_mem ha)
        · intro hc
          have := congrArg List.length hc
          simp at this; exact absurd this h0
      · simp only [hd, if_false]
        have hd' := not_lt.1 hd
        refine ⟨b, kept, rfl, { h with best := ?_ }, fun a ha => Or.inl ha⟩
        refine ⟨⟨rest ++ [(i, d)], ?_, ?_⟩, ?_⟩
        · rw [← List.append_assoc]; exact hperm.append_right _
        · intro a ha c hc
          rcases List.mem_append.1 hc with hc | hc
          · exact hle a ha c hc
          · simp only [List.mem_singleton] at hc; subst hc
            exact (hf2 a ha).trans hd'
        · simp; omega
    · -- room left
      have hrest : rest = [] := by
        apply List.length_eq_zero_iff.1
        have : ¬ kept.length = capEff cap := fun hc => hfull (hrem.2 hc)
        omega
      subst hrest
      have hnk : kept.length ≠ capEff cap := fun hc => hfull (hrem.2 hc)
      simp only [hfull, ne_eq, not_false_eq_true, if_true]
      refine ⟨_, kept ++ [(i, d)], rfl, ?_, by simp⟩
      simp only [List.append_nil] at hperm hall
      refine { cap_eq := ?_, cap_lt := h.cap_lt, idx := ?_, dst := ?_, best := ?_,
               closest := ?_, furthest := ?_, empty := by simp }
      · dsimp only; split <;> split <;> simp [h.cap_eq]
      · dsimp only; split <;> split <;> simp [h.idx]
      · dsimp only; split <;> split <;> simp [h.dst]
      · refine ⟨⟨[], by simpa using hperm.append_right _, by simp⟩, ?_⟩
        simp; omega
      · intro _
        have hsplit : ∀ c : Prop, [Decidable c] → ∀ (b0 : Buf D) p f,
            (if c then { b0 with furthestPos := p, furthestDistance := f } else b0).closestIndex
              = b0.closestIndex ∧
            (if c then { b0 with furthestPos := p, furthestDistance := f } else b0).closestDistance
              = b0.closestDistance := by
          intro c _ b0 p f; split <;> simp
        dsimp only
        simp only [(hsplit _ _ _ _).1, (hsplit _ _ _ _).2]
        by_cases hcl : d < b.closestDistance
        · simp only [hcl, if_true]
          refine ⟨by simp, ?_⟩
          intro a ha
          rcases List.mem_append.1 ha with ha | ha
          · exact hcl.le.trans (hc2 a ha)
          · simp only [List.mem_singleton] at ha; subst ha; exact le_refl _
        · simp only [hcl, if_false]
          refine ⟨List.mem_append_left _ hc1, ?_⟩
          intro a ha
          rcases List.mem_append.1 ha with ha | ha
          · exact hc2 a ha
          · simp only [List.mem_singleton] at ha; subst ha; exact not_lt.1 hcl
      · intro _
        have hb1 : ∀ c : Prop, [Decidable c] → ∀ ci cd,
            (if c then { b with closestIndex := ci, closestDistance := cd } else b).indices
              = b.indices ∧
            (if c then { b with closestIndex := ci, closestDistance := cd } else b).furthestPos
              = b.furthestPos ∧
            (if c then { b with closestIndex := ci, closestDistance := cd } else b).furthestDistance
              = b.furthestDistance := by
          intro c _ ci cd; split <;> simp
        obtain ⟨e1, e2, e3⟩ := hb1 (d < b.closestDistance) i d
        dsimp only
        simp only [e1, e3]
        by_cases hd : d > b.furthestDistance
        · simp only [hd, if_true]
          refine ⟨⟨i, by rw [hlen]; simp⟩, ?_⟩
          intro a ha
          rcases List.mem_append.1 ha with ha | ha
          · exact (hf2 a ha).trans (le_of_lt hd)
          · simp only [List.mem_singleton] at ha; subst ha; exact le_refl _
        · simp only [hd, if_false, e2, e3]
          refine ⟨⟨fi, by rw [List.getElem?_append_left hflt]; exact hf1⟩, ?_⟩
          intro a ha
          rcases List.mem_append.1 ha with ha | ha
          · exact hf2 a ha
          · simp only [List.mem_singleton] at ha; subst ha; exact not_lt.1 hd

theorem updates_spec {inf : D} {cap : Nat} : ∀ (cs : List (Nat × D)) {b : Buf D}
    {kept all : List (Nat × D)}, WF inf cap b kept all →
    ∃ b' kept', b.updates cs = some b' ∧ WF inf cap b' kept' (all ++ cs) := by
  intro cs
  induction cs with
  | nil => intro b kept all h; exact ⟨b, kept, rfl, by simpa using h⟩
  | cons c cs ih =>
    intro b kept all h
    obtain ⟨b1, k1, e1, h1, _⟩ := update_spec h c.1 c.2
    obtain ⟨b2, k2, e2, h2⟩ := ih h1
    refine ⟨b2, k2, ?_, by simpa using h2⟩
    unfold Buf.updates at *
    simp only [List.foldlM_cons, e1, Option.bind_eq_bind, Option.bind_some]
    exact e2

/-- Candidates skipped without being offered: sound when the buffer is full and none is closer
than the furthest kept one. -/
theorem WF.skip {inf : D} {cap : Nat} {b : Buf D} {kept all : List (Nat × D)}
    (h : WF inf cap b kept all) (hne : kept ≠ []) (hfull : b.remaining = 0)
    (cs : List (Nat × D)) (hcs : ∀ c ∈ cs, b.furthestDistance ≤ c.2) :
    WF inf cap b kept (all ++ cs) := by
  have hk := (h.remaining hne).1 hfull
  obtain ⟨⟨rest, hperm, hle⟩, hsize⟩ := h.best
  have hall : kept.length + rest.length = all.length := by
    have := hperm.length_eq; simpa using this
  refine { h with best := ⟨⟨rest ++ cs, ?_, ?_⟩, ?_⟩ }
  · rw [← List.append_assoc]; exact hperm.append_right _
  · intro a ha c hc
    rcases List.mem_append.1 hc with hc | hc
    · exact hle a ha c hc
    · exact ((h.furthest hne).2 a ha).trans (hcs c hc)
  · simp; omega

end Verif.Buffer
