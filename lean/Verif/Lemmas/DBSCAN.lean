import Verif.Model.DBSCAN
import Verif.Spec.DBSCAN
import Mathlib.Data.List.Perm.Basic
import Mathlib.Tactic.Common

namespace Verif.DBSCAN

variable (n : Nat) (N : Nat → Nat → Bool) (minSamples : Nat)

/-- Invariant of the outer loop before entry point `e`, with labels `1..c` in use; `rest` is the
unprocessed part of the neighbour vector (empty between clusters). -/
structure Inv (e c : Nat) (rest : List Nat) (vis : Nat → Bool) (prd : Nat → Nat) : Prop where
  predLe : ∀ i : Nat, prd i ≤ c
  predLt : ∀ i : Nat, prd i ≠ 0 → i < n
  predVis : ∀ i : Nat, prd i ≠ 0 → vis i = true
  visCore : ∀ i : Nat, vis i = true → Core n N minSamples i → prd i ≠ 0
  closed : ∀ i j : Nat, vis i = true → Core n N minSamples i → j < n → N i j = true →
    (vis j = true ∧ (prd j ≠ 0 ∨ ∀ m : Nat, Core n N minSamples m → prd m = prd i → j < m)) ∨
      (prd i = c ∧ j ∈ rest)
  same : ∀ i j : Nat, vis i = true → vis j = true → Core n N minSamples i → Core n N minSamples j →
    N i j = true → prd i = prd j
  border : ∀ i : Nat, prd i ≠ 0 → Core n N minSamples i ∨
    ∃ k : Nat, Core n N minSamples k ∧ N k i = true ∧ prd k = prd i
  attained : ∀ l : Nat, 1 ≤ l → l ≤ c → ∃ i : Nat, Core n N minSamples i ∧ prd i = l
  conn : ∀ i j : Nat, Core n N minSamples i → Core n N minSamples j → prd i ≠ 0 →
    prd i = prd j → DensityConnected n N minSamples i j
  before : ∀ i : Nat, i < e → i < n → vis i = true
  zeroVis : ∀ i : Nat, vis i = true → prd i = 0 → i < e

/-- Additional facts while the cluster that started at `e` is being expanded. -/
structure InnerInv (e c : Nat) (rest : List Nat) (vis : Nat → Bool) (prd : Nat → Nat) : Prop
    extends Inv n N minSamples e c rest vis prd where
  cpos : 1 ≤ c
  lower : ∀ m : Nat, Core n N minSamples m → prd m = c → e ≤ m
  queue : ∀ y : Nat, y ∈ rest → y < n ∧ ∃ k : Nat, Core n N minSamples k ∧ prd k = c ∧ N k y = true

variable {n N minSamples}

theorem DensityConnected.trans {i j k : Nat} (h1 : DensityConnected n N minSamples i j)
    (h2 : DensityConnected n N minSamples j k) : DensityConnected n N minSamples i k :=
  ⟨h1.1, h2.2.1, h1.2.2.trans h2.2.2⟩

theorem DensityConnected.symm (hN : ∀ i j, N i j = N j i) {i j : Nat}
    (h : DensityConnected n N minSamples i j) : DensityConnected n N minSamples j i := by
  refine ⟨h.2.1, h.1, ?_⟩
  have := h.2.2
  induction this with
  | refl => exact .refl
  | tail h1 h2 ih =>
    exact Relation.ReflTransGen.head ⟨h2.2.1, h2.1, by rw [hN]; exact h2.2.2⟩
      (ih ⟨h.1, h2.1, h1⟩)

theorem DensityConnected.edge {i j : Nat} (hi : Core n N minSamples i) (hj : Core n N minSamples j)
    (h : N i j = true) : DensityConnected n N minSamples i j :=
  ⟨hi, hj, .single ⟨hi, hj, h⟩⟩

/-- One step of the inner loop, on the abstract state. -/
theorem inner_step (hN : ∀ i j, N i j = N j i) {e c x : Nat} {rest rest' : List Nat}
    {vis vis' : Nat → Bool} {prd prd' : Nat → Nat}
    (h : InnerInv n N minSamples e c (x :: rest) vis prd)
    (hvis : ∀ i, vis' i = (vis i || decide (i = x)))
    (hprd : ∀ i, prd' i = if i = x ∧ prd x = 0 then c else prd i)
    (hrest : ∀ y, y ∈ rest → y ∈ rest')
    (hsub : ∀ y, y ∈ rest' → y ∈ rest ∨ (vis x = false ∧ Core n N minSamples x ∧ y < n ∧ N x y = true))
    (hnew : vis x = false → Core n N minSamples x → ∀ j, j < n → N x j = true →
      vis' j = true ∨ j ∈ rest') :
    InnerInv n N minSamples e c rest' vis' prd' := by
  obtain ⟨hxn, kx, hkx1, hkx2, hkx3⟩ := h.queue x (by simp)
  have hcpos := h.cpos
  have hprd0 : ∀ i, prd i ≠ 0 → prd' i = prd i := by
    intro i hi; rw [hprd]; split
    · rename_i hh; obtain ⟨rfl, h0⟩ := hh; exact absurd h0 hi
    · rfl
  have hx' : prd' x ≠ 0 := by
    rw [hprd]; split
    · omega
    · rename_i hh; intro h0; exact hh ⟨rfl, h0⟩
  have hmono : ∀ i, vis i = true → vis' i = true := by intro i hi; rw [hvis, hi]; rfl
  have hvx : vis' x = true := by rw [hvis]; simp
  have hvis_inv : ∀ i, vis' i = true → vis i = true ∨ i = x := by
    intro i hi; rw [hvis] at hi; simpa using hi
  have hxcore : prd x = 0 → vis x = true → ¬ Core n N minSamples x := by
    intro h0 hv hc; exact h.visCore x hv hc h0
  have hxun : vis x = false → prd x = 0 := by
    intro hv
    by_contra h0
    have := h.predVis x h0
    rw [hv] at this; exact absurd this (by simp)
  -- predecessor values of cores
  have hne : ∀ i, i ≠ x → prd' i = prd i := by
    intro i hi; rw [hprd]; simp [hi]
  have hxc : prd x = 0 → prd' x = c := by intro h0; rw [hprd]; simp [h0]
  -- a fresh core only neighbours cores of the current cluster
  have hfresh : vis x = false → ∀ j, vis j = true → Core n N minSamples j → N x j = true →
      prd j = c := by
    intro hv j hvj hcj hxj
    rcases h.closed j x hvj hcj hxn (by rw [hN]; exact hxj) with ⟨h1, _⟩ | ⟨h1, _⟩
    · rw [hv] at h1; exact absurd h1 (by simp)
    · exact h1
  refine { predLe := ?_, predLt := ?_, predVis := ?_, visCore := ?_, closed := ?_, same := ?_,
           border := ?_, attained := ?_, conn := ?_, before := ?_, zeroVis := ?_, cpos := hcpos,
           lower := ?_, queue := ?_ }
  · intro i; rw [hprd]; split
    · omega
    · exact h.predLe i
  · intro i hi
    by_cases hix : i = x
    · subst hix; exact hxn
    · rw [hne i hix] at hi; exact h.predLt i hi
  · intro i hi
    by_cases hix : i = x
    · subst hix; exact hvx
    · rw [hne i hix] at hi; exact hmono i (h.predVis i hi)
  · intro i hi hc
    by_cases hix : i = x
    · subst hix; exact hx'
    · rw [hne i hix]
      rcases hvis_inv i hi with h1 | h1
      · exact h.visCore i h1 hc
      · exact absurd h1 hix
  · -- closed
    intro i j hi hc hj hij
    by_cases hjx : j = x
    · subst hjx; exact Or.inl ⟨hvx, Or.inl hx'⟩
    by_cases hold : vis i = true
    · have hpi : prd' i = prd i := hprd0 i (h.visCore i hold hc)
      rcases h.closed i j hold hc hj hij with ⟨h1, h2⟩ | ⟨h1, h2⟩
      · refine Or.inl ⟨hmono j h1, ?_⟩
        rw [hne j hjx, hpi]
        rcases h2 with h2 | h2
        · exact Or.inl h2
        · by_cases hj0 : prd j = 0
          · right
            intro m hm hmi
            by_cases hmx : m = x
            · subst hmx
              by_cases h0 : prd m = 0
              · have : vis m = false := by
                  cases hv : vis m
                  · rfl
                  · exact absurd hm (hxcore h0 hv)
                have h3 := h.zeroVis j h1 hj0
                by_contra hlt
                have h4 := h.before m (by omega) hm.1
                rw [this] at h4; exact absurd h4 (by simp)
              · rw [hprd0 m h0] at hmi
                exact h2 m hm hmi
            · rw [hne m hmx] at hmi
              exact h2 m hm hmi
          · exact Or.inl hj0
      · right
        refine ⟨by rw [hpi]; exact h1, hrest j ?_⟩
        rcases List.mem_cons.1 h2 with h2 | h2
        · exact absurd h2 hjx
        · exact h2
    · -- i = x is freshly visited
      have hix : i = x := (hvis_inv i hi).resolve_left hold
      subst hix
      have hv : vis i = false := by simpa using hold
      have h0 := hxun hv
      rcases hnew hv hc j hj hij with h1 | h1
      · left
        refine ⟨h1, ?_⟩
        have h1' : vis j = true := (hvis_inv j h1).resolve_right hjx
        rw [hne j hjx]
        by_cases hj0 : prd j = 0
        · right
          intro m hm hmi
          rw [hxc h0] at hmi
          have h3 := h.zeroVis j h1' hj0
          by_cases hmx : m = i
          · subst hmx
            by_contra hlt
            have h4 := h.before m (by omega) hm.1
            rw [hv] at h4; exact absurd h4 (by simp)
          · rw [hne m hmx] at hmi
            have := h.lower m hm hmi
            omega
        · exact Or.inl hj0
      · exact Or.inr ⟨hxc h0, h1⟩
  · -- same
    intro i j hi hj hci hcj hij
    have hji : N j i = true := by rw [hN]; exact hij
    by_cases hoi : vis i = true
    · by_cases hoj : vis j = true
      · rw [hprd0 i (h.visCore i hoi hci), hprd0 j (h.visCore j hoj hcj)]
        exact h.same i j hoi hoj hci hcj hij
      · have hjx : j = x := (hvis_inv j hj).resolve_left hoj
        subst hjx
        have hv : vis j = false := by simpa using hoj
        rw [hxc (hxun hv), hprd0 i (h.visCore i hoi hci)]
        exact hfresh hv i hoi hci hji
    · have hix : i = x := (hvis_inv i hi).resolve_left hoi
      subst hix
      have hv : vis i = false := by simpa using hoi
      rw [hxc (hxun hv)]
      by_cases hjx : j = i
      · subst hjx; rw [hxc (hxun hv)]
      · have hoj : vis j = true := (hvis_inv j hj).resolve_right hjx
        rw [hprd0 j (h.visCore j hoj hcj)]
        exact (hfresh hv j hoj hcj hij).symm
  · -- border
    intro i hi
    by_cases hix : i = x ∧ prd x = 0
    · obtain ⟨rfl, h0⟩ := hix
      right
      refine ⟨kx, hkx1, hkx3, ?_⟩
      rw [hxc h0, hprd0 kx (by omega)]
      exact hkx2
    · have hpi : prd' i = prd i := by rw [hprd]; simp [hix]
      rw [hpi] at hi ⊢
      rcases h.border i hi with h1 | ⟨k, h1, h2, h3⟩
      · exact Or.inl h1
      · refine Or.inr ⟨k, h1, h2, ?_⟩
        rw [hprd0 k (by omega)]; exact h3
  · intro l hl hlc
    obtain ⟨i, h1, h2⟩ := h.attained l hl hlc
    exact ⟨i, h1, by rw [hprd0 i (by omega)]; exact h2⟩
  · -- conn
    intro i j hi hj h0 hij
    have key : ∀ k, Core n N minSamples k → prd' k = c → prd k ≠ c →
        k = x ∧ DensityConnected n N minSamples kx x := by
      intro k hk h1 h2
      have hkx : k = x := by
        by_contra hne'
        rw [hne k hne'] at h1
        exact h2 h1
      subst hkx
      exact ⟨rfl, DensityConnected.edge hkx1 hk hkx3⟩
    by_cases h1 : i = x ∧ prd x = 0
    · obtain ⟨rfl, hz⟩ := h1
      have hcx : DensityConnected n N minSamples kx i := DensityConnected.edge hkx1 hi hkx3
      rw [hxc hz] at hij
      by_cases h2 : j = i
      · subst h2; exact ⟨hj, hj, .refl⟩
      · rw [hne j h2] at hij
        exact (hcx.symm hN).trans (h.conn kx j hkx1 hj (by omega) (by omega))
    · have hpi : prd' i = prd i := by rw [hprd]; simp [h1]
      rw [hpi] at h0 hij
      by_cases h2 : j = x ∧ prd x = 0
      · obtain ⟨rfl, hz⟩ := h2
        have hcx : DensityConnected n N minSamples kx j := DensityConnected.edge hkx1 hj hkx3
        rw [hxc hz] at hij
        exact (h.conn i kx hi hkx1 h0 (by omega)).trans hcx
      · have hpj : prd' j = prd j := by rw [hprd]; simp [h2]
        rw [hpj] at hij
        exact h.conn i j hi hj h0 hij
  · intro i h1 h2; exact hmono i (h.before i h1 h2)
  · intro i hi h0
    have hix : i ≠ x := by rintro rfl; exact hx' h0
    rw [hne i hix] at h0
    exact h.zeroVis i ((hvis_inv i hi).resolve_right hix) h0
  · intro m hm hmc
    by_cases h1 : m = x ∧ prd x = 0
    · obtain ⟨rfl, hz⟩ := h1
      have hv : vis m = false := by
        cases hv : vis m
        · rfl
        · exact absurd hm (hxcore hz hv)
      by_contra hlt
      have := h.before m (by omega) hm.1
      rw [hv] at this; exact absurd this (by simp)
    · have : prd' m = prd m := by rw [hprd]; simp [h1]
      rw [this] at hmc
      exact h.lower m hm hmc
  · intro y hy
    rcases hsub y hy with h1 | ⟨h1, h2, h3, h4⟩
    · obtain ⟨h5, k, h6, h7, h8⟩ := h.queue y (by simp [h1])
      exact ⟨h5, k, h6, by rw [hprd0 k (by omega)]; exact h7, h8⟩
    · exact ⟨h3, x, h2, hxc (hxun h1), h4⟩

/-- Start of a new cluster at an unvisited core sample. -/
theorem start_cluster (hN : ∀ i j, N i j = N j i) {e c : Nat} {nb : List Nat} {vis vis' : Nat → Bool}
    {prd prd' : Nat → Nat}
    (h : Inv n N minSamples e c [] vis prd) (hc : Core n N minSamples e) (hv : vis e = false)
    (hvis : ∀ i, vis' i = (vis i || decide (i = e)))
    (hprd : ∀ i, prd' i = if i = e then c + 1 else prd i)
    (hnb : ∀ j, j ∈ nb ↔ j < n ∧ N e j = true) :
    InnerInv n N minSamples e (c + 1) nb vis' prd' := by
  have h0 : prd e = 0 := by
    by_contra h0
    have := h.predVis e h0
    rw [hv] at this; exact absurd this (by simp)
  have hne : ∀ i, i ≠ e → prd' i = prd i := by intro i hi; rw [hprd]; simp [hi]
  have he : prd' e = c + 1 := by rw [hprd]; simp
  have hmono : ∀ i, vis i = true → vis' i = true := by intro i hi; rw [hvis, hi]; rfl
  have hinv : ∀ i, vis' i = true → vis i = true ∨ i = e := by
    intro i hi; rw [hvis] at hi; simpa using hi
  have hne' : ∀ i, vis i = true → i ≠ e := by
    rintro i hi rfl; rw [hv] at hi; exact absurd hi (by simp)
  -- cores that are already visited do not neighbour `e`
  have hsep : ∀ j, vis j = true → Core n N minSamples j → N e j = true → False := by
    intro j hj hcj hej
    rcases h.closed j e hj hcj hc.1 (by rw [hN]; exact hej) with ⟨h1, _⟩ | ⟨_, h1⟩
    · rw [hv] at h1; exact absurd h1 (by simp)
    · simp at h1
  have hpos : ∀ i, prd' i = c + 1 → i = e := by
    intro i hi
    by_contra hie
    rw [hne i hie] at hi
    have := h.predLe i
    omega
  refine { predLe := ?_, predLt := ?_, predVis := ?_, visCore := ?_, closed := ?_, same := ?_,
           border := ?_, attained := ?_, conn := ?_, before := ?_, zeroVis := ?_, cpos := by omega,
           lower := ?_, queue := ?_ }
  · intro i; rw [hprd]; split
    · omega
    · have := h.predLe i; omega
  · intro i hi
    by_cases hie : i = e
    · subst hie; exact hc.1
    · rw [hne i hie] at hi; exact h.predLt i hi
  · intro i hi
    by_cases hie : i = e
    · subst hie; rw [hvis]; simp
    · rw [hne i hie] at hi; exact hmono i (h.predVis i hi)
  · intro i hi hci
    by_cases hie : i = e
    · subst hie; omega
    · rw [hne i hie]; exact h.visCore i ((hinv i hi).resolve_right hie) hci
  · intro i j hi hci hj hij
    by_cases hie : i = e
    · subst hie; exact Or.inr ⟨he, (hnb j).2 ⟨hj, hij⟩⟩
    · have hvi := (hinv i hi).resolve_right hie
      rcases h.closed i j hvi hci hj hij with ⟨h1, h2⟩ | ⟨_, h2⟩
      · left
        refine ⟨hmono j h1, ?_⟩
        rw [hne j (hne' j h1)]
        rcases h2 with h2 | h2
        · exact Or.inl h2
        · right
          intro m hm hmi
          rw [hne i hie] at hmi
          by_cases hme : m = e
          · subst hme
            have := h.predLe i
            omega
          · rw [hne m hme] at hmi
            exact h2 m hm hmi
      · simp at h2
  · intro i j hi hj hci hcj hij
    by_cases hie : i = e
    · subst hie
      by_cases hje : j = i
      · rw [hje]
      · exact (hsep j ((hinv j hj).resolve_right hje) hcj hij).elim
    · have hvi := (hinv i hi).resolve_right hie
      by_cases hje : j = e
      · subst hje
        exact (hsep i hvi hci (by rw [hN]; exact hij)).elim
      · rw [hne i hie, hne j hje]
        exact h.same i j hvi ((hinv j hj).resolve_right hje) hci hcj hij
  · intro i hi
    by_cases hie : i = e
    · subst hie; exact Or.inl hc
    · rw [hne i hie] at hi ⊢
      rcases h.border i hi with h1 | ⟨k, h1, h2, h3⟩
      · exact Or.inl h1
      · refine Or.inr ⟨k, h1, h2, ?_⟩
        rw [hne k (by rintro rfl; omega)]; exact h3
  · intro l hl hlc
    by_cases hlc' : l = c + 1
    · exact ⟨e, hc, by rw [he, hlc']⟩
    · obtain ⟨i, h1, h2⟩ := h.attained l hl (by omega)
      exact ⟨i, h1, by rw [hne i (by rintro rfl; omega)]; exact h2⟩
  · intro i j hi hj hi0 hij
    by_cases hie : i = e
    · subst hie
      rw [he] at hij
      have := hpos j hij.symm
      subst this
      exact ⟨hi, hi, .refl⟩
    · by_cases hje : j = e
      · subst hje
        rw [he] at hij
        exact absurd (hpos i hij) hie
      · rw [hne i hie] at hi0 hij
        rw [hne j hje] at hij
        exact h.conn i j hi hj hi0 hij
  · intro i h1 h2; exact hmono i (h.before i h1 h2)
  · intro i hi hi0
    have hie : i ≠ e := by rintro rfl; omega
    rw [hne i hie] at hi0
    exact h.zeroVis i ((hinv i hi).resolve_right hie) hi0
  · intro m _ hmc
    exact Nat.le_of_eq (hpos m hmc).symm
  · intro y hy
    obtain ⟨h1, h2⟩ := (hnb y).1 hy
    exact ⟨h1, e, hc, he, h2⟩

/-- An unvisited sample that is not core is marked as noise. -/
theorem mark_noise {e c : Nat} {vis vis' : Nat → Bool} {prd prd' : Nat → Nat}
    (h : Inv n N minSamples e c [] vis prd) (hc : ¬ Core n N minSamples e) (hv : vis e = false)
    (hvis : ∀ i, vis' i = (vis i || decide (i = e)))
    (hprd : ∀ i, prd' i = prd i) :
    Inv n N minSamples (e + 1) c [] vis' prd' := by
  have : prd' = prd := funext hprd
  subst this
  have h0 : prd' e = 0 := by
    by_contra h0
    have := h.predVis e h0
    rw [hv] at this; exact absurd this (by simp)
  have hmono : ∀ i, vis i = true → vis' i = true := by intro i hi; rw [hvis, hi]; rfl
  have hinv : ∀ i, vis' i = true → vis i = true ∨ i = e := by
    intro i hi; rw [hvis] at hi; simpa using hi
  have hcore : ∀ i, vis' i = true → Core n N minSamples i → vis i = true := by
    intro i hi hci
    refine (hinv i hi).resolve_right ?_
    rintro rfl; exact hc hci
  refine { predLe := h.predLe, predLt := h.predLt, predVis := fun i hi => hmono i (h.predVis i hi),
           visCore := fun i hi hci => h.visCore i (hcore i hi hci) hci, closed := ?_,
           same := fun i j hi hj hci hcj hij =>
             h.same i j (hcore i hi hci) (hcore j hj hcj) hci hcj hij,
           border := h.border, attained := h.attained, conn := h.conn, before := ?_, zeroVis := ?_ }
  · intro i j hi hci hj hij
    rcases h.closed i j (hcore i hi hci) hci hj hij with ⟨h1, h2⟩ | ⟨_, h2⟩
    · exact Or.inl ⟨hmono j h1, h2⟩
    · simp at h2
  · intro i h1 h2
    by_cases hie : i = e
    · subst hie; rw [hvis]; simp
    · exact hmono i (h.before i (by omega) h2)
  · intro i hi hi0
    rcases hinv i hi with h1 | h1
    · have := h.zeroVis i h1 hi0; omega
    · omega

/-- Moving on to the next entry point. -/
theorem Inv.next {e c : Nat} {vis : Nat → Bool} {prd : Nat → Nat}
    (h : Inv n N minSamples e c [] vis prd) (hv : vis e = true) :
    Inv n N minSamples (e + 1) c [] vis prd :=
  { h with
    before := fun i h1 h2 => by
      by_cases hie : i = e
      · subst hie; exact hv
      · exact h.before i (by omega) h2
    zeroVis := fun i h1 h2 => by have := h.zeroVis i h1 h2; omega }

/-! ### the arrays -/

/-- Arrays as total functions. -/
def St.vis (s : St) (i : Nat) : Bool := s.visited.getD i false
/-- Arrays as total functions. -/
def St.prd (s : St) (i : Nat) : Nat := s.pred.getD i 0

/-- Both arrays have one entry per sample. -/
def St.Len (s : St) (n : Nat) : Prop := s.visited.length = n ∧ s.pred.length = n

/-- Number of unvisited samples. -/
def unvisited (l : List Bool) : Nat := l.countP (fun b => !b)

theorem getElem?_getD {α : Type} {l : List α} {i : Nat} (h : i < l.length) (d : α) :
    l[i]? = some (l.getD i d) := by
  simp [List.getD, h]

theorem getD_set {α : Type} (l : List α) (x i : Nat) (v d : α) (hx : x < l.length) :
    (l.set x v).getD i d = if i = x then v else l.getD i d := by
  by_cases h : i = x
  · subst h; simp [List.getD, hx]
  · simp [List.getD, List.getElem?_set, h, Ne.symm h]

theorem filterUnvisited_spec {visited : List Bool} : ∀ (l : List Nat),
    (∀ y ∈ l, y < visited.length) →
    filterUnvisited visited l = some (l.filter (fun y => !(visited.getD y false))) := by
  intro l
  induction l with
  | nil => intro _; rfl
  | cons y l ih =>
    intro h
    have hy := getElem?_getD (h y (by simp)) false
    simp only [filterUnvisited, hy, ih (fun z hz => h z (by simp [hz])), Option.bind_eq_bind,
      Option.bind_some, List.filter_cons]
    cases hv : visited.getD y false <;> rfl

theorem unvisited_set {l : List Bool} {x : Nat} (hx : x < l.length) (h : l.getD x false = false) :
    unvisited (l.set x true) + 1 = unvisited l := by
  unfold unvisited
  induction l generalizing x with
  | nil => simp at hx
  | cons b l ih =>
    cases x with
    | zero =>
      have hb : b = false := by simpa using h
      subst hb
      simp [List.countP_cons]
    | succ x =>
      have := ih (x := x) (by simpa using hx) (by simpa using h)
      simp only [List.set_cons_succ, List.countP_cons]
      omega

/-- What the radius query must deliver: exactly the samples within the radius, each once. -/
def QueryOk (n : Nat) (N : Nat → Nat → Bool) (query : Nat → Option (List Nat)) : Prop :=
  ∀ i, i < n → ∃ nb, query i = some nb ∧ nb.Perm ((List.range n).filter (N i))

theorem QueryOk.spec {query : Nat → Option (List Nat)} (hq : QueryOk n N query) {i : Nat}
    (hi : i < n) : ∃ nb, query i = some nb ∧ (∀ j, j ∈ nb ↔ j < n ∧ N i j = true) ∧
      nb.length ≤ n ∧ (nb.length > minSamples ↔ Core n N minSamples i) := by
  obtain ⟨nb, e, hp⟩ := hq i hi
  refine ⟨nb, e, ?_, ?_, ?_⟩
  · intro j; rw [hp.mem_iff]; simp
  · rw [hp.length_eq]
    exact Nat.le_trans (List.length_filter_le _ _) (by simp)
  · rw [hp.length_eq]; exact ⟨fun h => ⟨hi, h⟩, fun h => h.2⟩

theorem inner_spec (hN : ∀ i j, N i j = N j i) {query : Nat → Option (List Nat)}
    (hq : QueryOk n N query) {e c : Nat} :
    ∀ (fuel : Nat) (rest : List Nat) (s : St), s.Len n →
      rest.length + n * unvisited s.visited < fuel →
      InnerInv n N minSamples e c rest s.vis s.prd → s.vis e = true →
      ∃ s', inner query minSamples c fuel rest s = some s' ∧ s'.Len n ∧
        InnerInv n N minSamples e c [] s'.vis s'.prd ∧ s'.vis e = true := by
  intro fuel
  induction fuel with
  | zero => intro rest s _ h; omega
  | succ fuel ih =>
    intro rest s hl hf h he
    cases rest with
    | nil => exact ⟨s, rfl, hl, h, he⟩
    | cons x rest =>
      have hxn : x < n := (h.queue x (by simp)).1
      have hv := getElem?_getD (l := s.visited) (i := x) (by rw [hl.1]; exact hxn) false
      have hp := getElem?_getD (l := s.pred) (i := x) (by rw [hl.2]; exact hxn) 0
      have hprd' : ∀ (v : List Bool) (i : Nat),
          (St.mk v (if s.pred.getD x 0 = 0 then s.pred.set x c else s.pred)).prd i =
            if i = x ∧ s.prd x = 0 then c else s.prd i := by
        intro v i
        unfold St.prd
        by_cases h0 : s.pred.getD x 0 = 0
        · simp only [h0, if_true, and_true]
          rw [getD_set _ _ _ _ _ (by rw [hl.2]; exact hxn)]
        · simp only [h0, if_false, and_false]
      have hlen' : (if s.pred.getD x 0 = 0 then s.pred.set x c else s.pred).length = n := by
        split
        · rw [List.length_set]; exact hl.2
        · exact hl.2
      cases hvx : s.visited.getD x false with
      | true =>
        simp only [inner, hv, hp, hvx, Option.bind_eq_bind, Option.bind_some, if_true]
        apply ih
        · exact ⟨hl.1, hlen'⟩
        · simp only [List.length_cons] at hf; dsimp only; omega
        · refine inner_step hN h ?_ (hprd' _) (fun y hy => hy) (fun y hy => Or.inl hy) ?_
          · intro i
            by_cases hix : i = x
            · subst hix; simp [St.vis] at hvx ⊢; exact hvx
            · simp [St.vis, hix]
          · intro hh
            unfold St.vis at hh
            rw [hvx] at hh
            exact absurd hh (by simp)
        · exact he
      | false =>
        obtain ⟨nb, enb, hnb, hnbl, hcore⟩ := hq.spec (minSamples := minSamples) hxn
        have hvis' : ∀ (p : List Nat) (i : Nat), (St.mk (s.visited.set x true) p).vis i =
            (s.vis i || decide (i = x)) := by
          intro p i
          unfold St.vis
          dsimp only
          rw [getD_set _ _ _ _ _ (by rw [hl.1]; exact hxn)]
          by_cases hix : i = x <;> simp [hix]
        have hun := unvisited_set (by rw [hl.1]; exact hxn) hvx
        have hmeas : n * unvisited (s.visited.set x true) + n = n * unvisited s.visited := by
          rw [← hun, Nat.mul_add, Nat.mul_one]
        simp only [inner, hv, hp, hvx, enb, Option.bind_eq_bind, Option.bind_some,
          Bool.false_eq_true, if_false]
        simp only [List.length_cons] at hf
        by_cases hgt : nb.length > minSamples
        · have hcx := hcore.1 hgt
          have hfil := filterUnvisited_spec (visited := s.visited.set x true) nb
            (fun y hy => by rw [List.length_set, hl.1]; exact ((hnb y).1 hy).1)
          simp only [hgt, if_true, hfil, Option.bind_some]
          apply ih
          · exact ⟨by rw [List.length_set]; exact hl.1, hlen'⟩
          · have : (nb.filter (fun y => !((s.visited.set x true).getD y false))).length ≤ nb.length :=
              List.length_filter_le _ _
            simp only [List.length_append]
            omega
          · refine inner_step hN h (hvis' _) (hprd' _) (fun y hy => by simp [hy]) ?_ ?_
            · intro y hy
              rcases List.mem_append.1 hy with hy | hy
              · exact Or.inl hy
              · obtain ⟨h1, h2⟩ := (hnb y).1 (List.mem_filter.1 hy).1
                exact Or.inr ⟨hvx, hcx, h1, h2⟩
            · intro _ _ j hj hxj
              cases hvj : (s.visited.set x true).getD j false with
              | true => left; unfold St.vis; exact hvj
              | false =>
                right
                refine List.mem_append.2 (Or.inr (List.mem_filter.2 ⟨(hnb j).2 ⟨hj, hxj⟩, ?_⟩))
                rw [hvj]; rfl
          · rw [hvis', he]; rfl
        · have hcx : ¬ Core n N minSamples x := fun hc => hgt (hcore.2 hc)
          simp only [hgt, if_false, Option.bind_some]
          apply ih
          · exact ⟨by rw [List.length_set]; exact hl.1, hlen'⟩
          · dsimp only; omega
          · exact inner_step hN h (hvis' _) (hprd' _) (fun y hy => hy) (fun y hy => Or.inl hy)
              (fun _ hc => absurd hc hcx)
          · rw [hvis', he]; rfl

theorem outer_spec (hN : ∀ i j, N i j = N j i) {query : Nat → Option (List Nat)}
    (hq : QueryOk n N query) {e c : Nat} (he : e < n) (s : St) (hl : s.Len n)
    (h : Inv n N minSamples e c [] s.vis s.prd) :
    ∃ s' c', outerStep query minSamples n (s, c) e = some (s', c') ∧ s'.Len n ∧
      Inv n N minSamples (e + 1) c' [] s'.vis s'.prd := by
  have hv := getElem?_getD (l := s.visited) (i := e) (by rw [hl.1]; exact he) false
  cases hve : s.visited.getD e false with
  | true =>
    refine ⟨s, c, ?_, hl, h.next hve⟩
    simp only [outerStep, hv, hve, Option.bind_eq_bind, Option.bind_some, if_true]
  | false =>
    obtain ⟨nb, enb, hnb, hnbl, hcore⟩ := hq.spec (minSamples := minSamples) he
    have hvis' : ∀ (p : List Nat) (i : Nat), (St.mk (s.visited.set e true) p).vis i =
        (s.vis i || decide (i = e)) := by
      intro p i
      unfold St.vis
      dsimp only
      rw [getD_set _ _ _ _ _ (by rw [hl.1]; exact he)]
      by_cases hix : i = e <;> simp [hix]
    have hlp : e < s.pred.length := by rw [hl.2]; exact he
    by_cases hgt : nb.length > minSamples
    · have hst : InnerInv n N minSamples e (c + 1) nb
          (St.mk (s.visited.set e true) (s.pred.set e (c + 1))).vis
          (St.mk (s.visited.set e true) (s.pred.set e (c + 1))).prd := by
        refine start_cluster hN h (hcore.1 hgt) hve (hvis' _) ?_ hnb
        intro i
        unfold St.prd
        exact getD_set _ _ _ _ _ hlp
      have hun : unvisited (s.visited.set e true) ≤ n := by
        unfold unvisited
        refine Nat.le_trans List.countP_le_length ?_
        exact Nat.le_of_eq (by rw [List.length_set, hl.1])
      obtain ⟨s', e1, hl', h', hve'⟩ := inner_spec hN hq (n * n + n + 1) nb _
        ⟨by rw [List.length_set]; exact hl.1, by rw [List.length_set]; exact hl.2⟩
        (by
          have := Nat.mul_le_mul_left n hun
          dsimp only
          omega) hst (by rw [hvis']; simp)
      refine ⟨s', c + 1, ?_, hl', h'.toInv.next hve'⟩
      simp only [outerStep, hv, hve, enb, hgt, hlp, e1, Option.bind_eq_bind, Option.bind_some,
        if_true, if_false, Bool.false_eq_true]
    · refine ⟨⟨s.visited.set e true, s.pred.set e 0⟩, c, ?_, ⟨?_, ?_⟩,
        mark_noise h (fun hc => hgt (hcore.2 hc)) hve (hvis' _) ?_⟩
      · simp only [outerStep, hv, hve, enb, hgt, hlp, Option.bind_eq_bind, Option.bind_some, if_true,
          if_false, Bool.false_eq_true]
      · rw [List.length_set]; exact hl.1
      · rw [List.length_set]; exact hl.2
      · intro i
        unfold St.prd
        dsimp only
        rw [getD_set _ _ _ _ _ hlp]
        by_cases hie : i = e
        · subst hie
          simp only [if_true]
          by_contra h0
          have := h.predVis i (fun hh => h0 hh.symm)
          unfold St.vis at this
          rw [hve] at this; exact absurd this (by simp)
        · simp [hie]

theorem predict_spec (hN : ∀ i j, N i j = N j i) {query : Nat → Option (List Nat)}
    (hq : QueryOk n N query) :
    ∃ (s : St) (c : Nat), predict query minSamples n = some s.pred ∧ s.Len n ∧
      Inv n N minSamples n c [] s.vis s.prd := by
  have key : ∀ k, k ≤ n → ∃ s c, (List.range k).foldlM (outerStep query minSamples n)
      ({ visited := List.replicate n false, pred := List.replicate n 0 }, 0) = some (s, c) ∧
      s.Len n ∧ Inv n N minSamples k c [] s.vis s.prd := by
    intro k
    induction k with
    | zero =>
      intro _
      refine ⟨_, 0, rfl, ⟨by simp, by simp⟩, ?_⟩
      have hp : ∀ i, (St.mk (List.replicate n false) (List.replicate n 0)).prd i = 0 := by
        intro i; simp [St.prd, List.getElem?_replicate]; split <;> rfl
      have hv : ∀ i, (St.mk (List.replicate n false) (List.replicate n 0)).vis i = false := by
        intro i; simp [St.vis, List.getElem?_replicate]; split <;> rfl
      refine { predLe := ?_, predLt := ?_, predVis := ?_, visCore := ?_, closed := ?_, same := ?_,
               border := ?_, attained := ?_, conn := ?_, before := ?_, zeroVis := ?_ } <;>
        intros <;> simp_all
    | succ k ih =>
      intro hk
      obtain ⟨s, c, e, hl, h⟩ := ih (by omega)
      obtain ⟨s', c', e', hl', h'⟩ := outer_spec hN hq (by omega) s hl h
      refine ⟨s', c', ?_, hl', h'⟩
      rw [List.range_succ, List.foldlM_append, e]
      simp [e']
  obtain ⟨s, c, e, hl, h⟩ := key n (Nat.le_refl _)
  exact ⟨s, c, by simp [predict, e], hl, h⟩

end Verif.DBSCAN
