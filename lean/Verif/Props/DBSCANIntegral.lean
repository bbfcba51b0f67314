import Verif.Lemmas.DBSCANSubset
import Verif.Props.DBSCANOrder
import Verif.Props.DefaultTree

/-
Property C108: DBSCAN on data of any type, in particular integral data, where `infinity` is 0 and the
radius queries can miss samples (C15).
-/

namespace Verif.DBSCAN

open Verif.KDTree Verif.Search Verif.Buffer Verif.Distances Verif.Sorting

/-! ### queries that miss samples -/

section Sound

variable {n : Nat} {N M : Nat → Nat → Bool} {minSamples : Nat}

theorem core_of_sub (hMN : ∀ i j, M i j = true → N i j = true) {i : Nat}
    (h : Core n M minSamples i) : Core n N minSamples i := by
  refine ⟨h.1, Nat.lt_of_lt_of_le h.2 ?_⟩
  unfold degree
  rw [← List.countP_eq_length_filter, ← List.countP_eq_length_filter]
  exact List.countP_mono_left fun j _ => hMN i j

/-- `i` can be reached from the core sample `e`: it is `e`, or within the radius of a core sample
connected with `e`. -/
def ReachedFrom (n : Nat) (N : Nat → Nat → Bool) (minSamples e i : Nat) : Prop :=
  i = e ∨ ∃ k, DensityConnected n N minSamples e k ∧ N k i = true

/-- Invariant: `root l` is the sample that started cluster `l`. -/
structure SoundInv (n : Nat) (N : Nat → Nat → Bool) (minSamples : Nat) (root : Nat → Nat) (c : Nat)
    (prd : Nat → Nat) : Prop where
  bound : ∀ i, prd i ≤ c
  start : ∀ l, 1 ≤ l → l ≤ c → Core n N minSamples (root l) ∧ prd (root l) = l
  reached : ∀ i, prd i ≠ 0 → ReachedFrom n N minSamples (root (prd i)) i

theorem ReachedFrom.core {e i : Nat} (h : ReachedFrom n N minSamples e i)
    (he : Core n N minSamples e) (hi : Core n N minSamples i) : DensityConnected n N minSamples e i := by
  rcases h with rfl | ⟨k, h1, h2⟩
  · exact ⟨he, he, .refl⟩
  · exact ⟨h1.1, hi, h1.2.2.tail ⟨h1.2.1, hi, h2⟩⟩

theorem reach_sound (hMN : ∀ i j, M i j = true → N i j = true) {e : Nat}
    (he : Core n N minSamples e) {W : List Nat} {V : Nat → Bool}
    (hW : ∀ y ∈ W, N e y = true) {y : Nat} (h : Reach n M minSamples W V y) :
    ReachedFrom n N minSamples e y := by
  induction h with
  | base h1 _ => exact Or.inr ⟨e, ⟨he, he, .refl⟩, hW _ h1⟩
  | step _ h2 _ h4 _ ih => exact Or.inr ⟨_, ih.core he (core_of_sub hMN h2), hMN _ _ h4⟩

theorem outer_sound (hMN : ∀ i j, M i j = true → N i j = true)
    {query : Nat → Option (List Nat)} (hq : QueryOk n M query) {e c : Nat} (he : e < n) (s : St)
    (hl : s.Len n) (hvis : ∀ i, s.vis i = false → s.prd i = 0) {root : Nat → Nat}
    (h : SoundInv n N minSamples root c s.prd) :
    ∃ s' c' root', outerStep query minSamples n (s, c) e = some (s', c') ∧ s'.Len n ∧
      (∀ i, s'.vis i = false → s'.prd i = 0) ∧ SoundInv n N minSamples root' c' s'.prd := by
  have hv := getElem?_getD (l := s.visited) (i := e) (by rw [hl.1]; exact he) false
  cases hve : s.visited.getD e false with
  | true =>
    exact ⟨s, c, root, by simp only [outerStep, hv, hve, Option.bind_eq_bind, Option.bind_some,
      if_true], hl, hvis, h⟩
  | false =>
    obtain ⟨nb, enb, hnb, hnbl, hcore⟩ := hq.spec (minSamples := minSamples) he
    have hpl : e < s.pred.length := by rw [hl.2]; exact he
    have hpe : s.prd e = 0 := hvis e hve
    have hvis' : ∀ (p : List Nat) (i : Nat), (St.mk (s.visited.set e true) p).vis i =
        (if i = e then true else s.vis i) := by
      intro p i
      unfold St.vis
      dsimp only
      rw [getD_set _ _ _ _ _ (by rw [hl.1]; exact he)]
    have hprd' : ∀ (v : List Bool) (l i : Nat), (St.mk v (s.pred.set e l)).prd i =
        (if i = e then l else s.prd i) := by
      intro v l i
      unfold St.prd
      dsimp only
      rw [getD_set _ _ _ _ _ hpl]
    by_cases hgt : nb.length > minSamples
    · have hce : Core n N minSamples e := core_of_sub hMN (hcore.1 hgt)
      have hl1 : (St.mk (s.visited.set e true) (s.pred.set e (c + 1))).Len n :=
        ⟨by rw [List.length_set]; exact hl.1, by rw [List.length_set]; exact hl.2⟩
      have hnbn : ∀ y ∈ nb, y < n := fun y hy => ((hnb y).1 hy).1
      have hfuel : nb.length + n * unvisited (s.visited.set e true) < n * n + n + 1 := by
        have : unvisited (s.visited.set e true) ≤ n := by
          unfold unvisited
          refine Nat.le_trans List.countP_le_length ?_
          rw [List.length_set, hl.1]
        have := Nat.mul_le_mul_left n this
        omega
      obtain ⟨s', hs'⟩ := inner_some (minSamples := minSamples) hq (c := c + 1) (n * n + n + 1) nb
        ⟨s.visited.set e true, s.pred.set e (c + 1)⟩ hl1 hfuel hnbn
      obtain ⟨hl', g1, g2, g3⟩ := inner_char hq (Nat.succ_ne_zero c) _ nb _ s' hl1 hnbn hs'
      have hreach : ∀ y, (y ∈ nb ∨ Reach n M minSamples nb
          (St.mk (s.visited.set e true) (s.pred.set e (c + 1))).vis y) →
          ReachedFrom n N minSamples e y := by
        have hW : ∀ y ∈ nb, N e y = true := fun y hy => hMN _ _ ((hnb y).1 hy).2
        rintro y (hy | hy)
        · exact Or.inr ⟨e, ⟨hce, hce, .refl⟩, hW y hy⟩
        · exact reach_sound hMN hce hW hy
      have hcases : ∀ i, (s'.prd i = c + 1 ∧ ReachedFrom n N minSamples e i) ∨
          (i ≠ e ∧ s'.prd i = s.prd i) := by
        intro i
        by_cases hh : (St.mk (s.visited.set e true) (s.pred.set e (c + 1))).prd i = 0 ∧
            (i ∈ nb ∨ Reach n M minSamples nb
              (St.mk (s.visited.set e true) (s.pred.set e (c + 1))).vis i)
        · exact Or.inl ⟨g2 i hh.1 hh.2, hreach i hh.2⟩
        · have h1 := g3 i hh
          rw [hprd'] at h1
          by_cases hie : i = e
          · rw [if_pos hie] at h1
            exact Or.inl ⟨h1, Or.inl hie⟩
          · rw [if_neg hie] at h1
            exact Or.inr ⟨hie, h1⟩
      have hkeep : ∀ i, i ≠ e → s.prd i ≠ 0 → s'.prd i = s.prd i := by
        intro i hie h0
        have h1 := g3 i (fun hh => h0 (by have := hh.1; rwa [hprd', if_neg hie] at this))
        rwa [hprd', if_neg hie] at h1
      have hse : s'.prd e = c + 1 := by
        rcases hcases e with h1 | h1
        · exact h1.1
        · exact absurd rfl h1.1
      refine ⟨s', c + 1, fun l => if l = c + 1 then e else root l, ?_, hl', fun i hi => ?_,
        fun i => ?_, fun l h1 h2 => ?_, fun i hi => ?_⟩
      · simp only [outerStep, hv, hve, enb, Option.bind_eq_bind, Option.bind_some, hpl, if_true, hgt]
        simp [hs']
      · have hni : ¬ ((St.mk (s.visited.set e true) (s.pred.set e (c + 1))).vis i = true ∨
            Reach n M minSamples nb (St.mk (s.visited.set e true) (s.pred.set e (c + 1))).vis i) :=
          fun hh => by rw [(g1 i).2 hh] at hi; cases hi
        have hie : i ≠ e := fun hh => hni (Or.inl (by rw [hvis', if_pos hh]))
        have hsv : s.vis i = false := by
          cases hx : s.vis i with
          | false => rfl
          | true => exact absurd (Or.inl (by rw [hvis', if_neg hie, hx])) hni
        have hnn : ¬ i ∈ nb := fun hh => hni (Or.inr (.base hh (by rw [hvis', if_neg hie, hsv])))
        have h1 := g3 i (fun hh => by
          rcases hh.2 with h2 | h2
          · exact hnn h2
          · exact hni (Or.inr h2))
        rw [h1, hprd', if_neg hie]
        exact hvis i hsv
      · have := h.bound i
        rcases hcases i with h1 | h1
        · omega
        · omega
      · by_cases hlc : l = c + 1
        · subst hlc
          simp only [if_true]
          exact ⟨hce, hse⟩
        · simp only [hlc, if_false]
          obtain ⟨h3, h4⟩ := h.start l h1 (by omega)
          refine ⟨h3, ?_⟩
          have hne : root l ≠ e := fun hh => by rw [hh, hpe] at h4; omega
          rw [hkeep _ hne (by omega)]
          exact h4
      · rcases hcases i with h1 | h1
        · rw [h1.1]
          simp only [if_true]
          exact h1.2
        · rw [h1.2] at hi ⊢
          have hb := h.bound i
          simp only [show ¬ s.prd i = c + 1 by omega, if_false]
          exact h.reached i hi
    · refine ⟨⟨s.visited.set e true, s.pred.set e 0⟩, c, root, ?_,
        ⟨by rw [List.length_set]; exact hl.1, by rw [List.length_set]; exact hl.2⟩, ?_, ?_⟩
      · simp only [outerStep, hv, hve, enb, Option.bind_eq_bind, Option.bind_some, hpl, if_true, hgt]
        simp
      · intro i hi
        rw [hvis'] at hi
        rw [hprd']
        by_cases hie : i = e
        · rw [if_pos hie]
        · rw [if_neg hie] at hi ⊢
          exact hvis i hi
      · have hp : ∀ i, (St.mk (s.visited.set e true) (s.pred.set e 0)).prd i = s.prd i := by
          intro i
          rw [hprd']
          by_cases hie : i = e
          · rw [if_pos hie, hie, hpe]
          · rw [if_neg hie]
        exact ⟨fun i => by rw [hp]; exact h.bound i,
          fun l h1 h2 => by rw [hp]; exact h.start l h1 h2,
          fun i hi => by rw [hp] at hi ⊢; exact h.reached i hi⟩

/-- What remains true of the labels when the queries miss samples. -/
theorem predict_sound (hMN : ∀ i j, M i j = true → N i j = true) (hN : ∀ i j, N i j = N j i)
    {query : Nat → Option (List Nat)} (hq : QueryOk n M query) :
    ∃ label, predict query minSamples n = some label ∧ label.length = n ∧
      (∀ i : Nat, i < n → label.getD i 0 ≠ 0 → Core n N minSamples i ∨
        ∃ k : Nat, Core n N minSamples k ∧ N k i = true) ∧
      ∀ i j : Nat, Core n N minSamples i → Core n N minSamples j → label.getD i 0 ≠ 0 →
        label.getD i 0 = label.getD j 0 → DensityConnected n N minSamples i j := by
  have key : ∀ k, k ≤ n → ∃ s c root, (List.range k).foldlM (outerStep query minSamples n)
      ({ visited := List.replicate n false, pred := List.replicate n 0 }, 0) = some (s, c) ∧
      s.Len n ∧ (∀ i, s.vis i = false → s.prd i = 0) ∧ SoundInv n N minSamples root c s.prd := by
    intro k
    induction k with
    | zero =>
      intro _
      have hp : ∀ i, (St.mk (List.replicate n false) (List.replicate n 0)).prd i = 0 := by
        intro i; simp [St.prd, List.getElem?_replicate]; split <;> rfl
      exact ⟨_, _, id, rfl, ⟨by simp, by simp⟩, fun i _ => hp i, fun i => by rw [hp],
        fun l h1 h2 => by omega, fun i hi => absurd (hp i) hi⟩
    | succ k ih =>
      intro hk
      obtain ⟨s, c, root, h1, hl, hv, h⟩ := ih (by omega)
      obtain ⟨s', c', root', h2, hl', hv', h'⟩ := outer_sound hMN hq (show k < n by omega) s hl hv h
      refine ⟨s', c', root', ?_, hl', hv', h'⟩
      rw [List.range_succ, List.foldlM_append, h1]
      simp [h2]
  obtain ⟨s, c, root, h1, hl, _, h⟩ := key n (Nat.le_refl _)
  have hroot : ∀ i, s.prd i ≠ 0 → Core n N minSamples (root (s.prd i)) := fun i hi =>
    (h.start _ (by omega) (h.bound i)).1
  refine ⟨s.pred, by simp [predict, h1], hl.2, fun i _ hi => ?_, fun i j hi hj h0 hij => ?_⟩
  · rcases h.reached i hi with h2 | ⟨k, h2, h3⟩
    · exact Or.inl (h2 ▸ hroot i hi)
    · exact Or.inr ⟨k, h2.2.1, h3⟩
  · have hi' := (h.reached i h0).core (hroot i h0) hi
    have hj0 : s.prd j ≠ 0 := by rw [← show s.prd i = s.prd j from hij]; exact h0
    have hj' := (h.reached j hj0).core (hroot j hj0) hj
    rw [← show s.prd i = s.prd j from hij] at hj'
    exact (hi'.symm hN).trans hj'

end Sound

/-! ### trees -/

section Trees

variable {K D : Type} [LinearOrder K] [LinearOrder D]

/-- `j` is within the radius of `i`. -/
def near (dist : Nat → Nat → D) (radius : D) (i j : Nat) : Bool := decide (dist i j < radius)

/-- A radius query on any tree returns samples within the radius, each at most once. -/
theorem radius_sound (x : Nat → Nat → K) (q : Nat → K) (gap : K → K → D) (dist : Nat → D)
    (radius inf : D) (t : KDTree.Tree K) (hn : t.indices.length < 2 ^ 64) :
    ∃ b, search x q (staticOps x q gap (candBall dist radius)) t (Buffer.mk inf 0) = some b ∧
      b.indices.Subperm (t.indices.filter (fun i => dist i < radius)) := by
  obtain ⟨L, hL, e⟩ := walk_offers x q (staticOps x q gap (candBall dist radius)) t (Buffer.mk inf 0)
  have e2 := foldlM_offer (candBall dist radius) L (Buffer.mk inf 0)
  have hlen : (cands (candBall dist radius) L).length < 2 ^ 64 := by
    have h1 := hL.length_le
    have h2 : (cands (candBall dist radius) L).length ≤ L.length := List.length_filterMap_le _ _
    omega
  obtain ⟨b, hb, hl, hp⟩ := C12_default_capacity_keeps_all inf _ hlen
  refine ⟨b, by rw [search_eq_walk, e, ← hb, ← e2]; rfl, ?_⟩
  have h1 : (b.indices.zip b.distances).map Prod.fst = b.indices := List.map_fst_zip (by omega)
  rw [← h1]
  refine (hp.map Prod.fst).subperm.trans ?_
  rw [cands_ball, List.map_map]
  simp only [Function.comp_def, List.map_id']
  obtain ⟨L', hL', hs⟩ := hL
  exact ⟨L'.filter _, hL'.filter _, hs.filter _⟩

/-! An unlimited buffer never prunes once it holds a sample, and the search for a sample of the tree
meets that sample on its way down. -/

/-- An unlimited buffer that holds `m` samples. -/
def Unlimited (b : Buf D) (m : Nat) : Prop := b.maxCapacity = 0 ∧ b.indices.length = m

theorem Unlimited.remaining {b : Buf D} {m : Nat} (h : Unlimited b m) (h0 : 0 < m) (hm : m < 2 ^ 64) :
    b.remaining ≠ 0 := by
  unfold Buf.remaining sizeMod
  rw [h.1, h.2]
  omega

theorem Unlimited.update {b : Buf D} {m : Nat} (h : Unlimited b m) (hm : m < 2 ^ 64) (i : Nat) (d : D) :
    ∃ b', b.update i d = some b' ∧ Unlimited b' (m + 1) := by
  unfold Buf.update
  by_cases h0 : b.indices.length = 0
  · rw [if_pos h0]
    exact ⟨_, rfl, h.1, by simp [h.2]⟩
  · rw [if_neg h0, if_pos (h.remaining (by have := h.2; omega) hm)]
    refine ⟨_, rfl, ?_, ?_⟩ <;> dsimp only <;> split <;> split <;> simp [h.1, h.2]

theorem Unlimited.offers {cand : Nat → Option D} : ∀ (L : List Nat) {b : Buf D} {m : Nat},
    Unlimited b m → m + L.length < 2 ^ 64 →
    ∃ b', L.foldlM (Buf.offer cand) b = some b' ∧ Unlimited b' (m + (cands cand L).length) := by
  intro L
  induction L with
  | nil => intro b m h _; exact ⟨b, rfl, by simpa [cands] using h⟩
  | cons i L ih =>
    intro b m h hm
    simp only [List.length_cons] at hm
    simp only [List.foldlM_cons]
    cases hc : cand i with
    | none =>
      obtain ⟨b', e, h'⟩ := ih h (by omega)
      refine ⟨b', by simp [Buf.offer, hc, e], ?_⟩
      simpa [cands, hc] using h'
    | some d =>
      obtain ⟨b1, e1, h1⟩ := h.update (by omega) i d
      obtain ⟨b', e, h'⟩ := ih h1 (by omega)
      refine ⟨b', by simp [Buf.offer, hc, e1, e], ?_⟩
      have : m + (cands cand (i :: L)).length = m + 1 + (cands cand L).length := by
        simp [cands, hc]; omega
      rw [this]; exact h'

theorem walk_unpruned (x : Nat → Nat → K) (q : Nat → K) (gap : K → K → D) (cand : Nat → Option D) :
    ∀ (t : KDTree.Tree K) (b : Buf D) (m : Nat), Unlimited b m → m + t.indices.length < 2 ^ 64 →
      (0 < m ∨ t.Ordered x ∧ ∃ i ∈ t.indices, (∀ a, q a = x i a) ∧ cand i ≠ none) →
      ∃ L : List Nat, L.Perm t.indices ∧
        walk x q (staticOps x q gap cand) t b = L.foldlM (Buf.offer cand) b := by
  intro t
  induction t with
  | leaf idx box => intro b m _ _ _; exact ⟨idx, List.Perm.refl _, rfl⟩
  | node p a box l r ihl ihr =>
    intro b m hb hm hc
    simp only [KDTree.Tree.indices, List.length_append, List.length_cons] at hm
    have hpos : ∀ {L : List Nat} {i : Nat}, i ∈ L → cand i ≠ none → 0 < (cands cand L).length := by
      intro L i hi hci
      obtain ⟨d, hd⟩ := Option.ne_none_iff_exists'.1 hci
      exact List.length_pos_of_mem (a := (i, d)) (by
        unfold cands
        exact List.mem_filterMap.2 ⟨i, hi, by simp [hd]⟩)
    obtain ⟨b1, e1, hb1⟩ := hb.offers (cand := cand) [p] (by simp; omega)
    have ho : offerAll (staticOps x q gap cand) b [p] = some b1 := e1
    have hcp : (cands cand [p]).length ≤ 1 := List.length_filterMap_le _ _
    -- the child on the side of the query, then the other one
    have key : ∀ (c s : KDTree.Tree K) (isLeft : Bool), c.indices.length + s.indices.length =
          l.indices.length + r.indices.length →
        (∀ (b : Buf D) (m : Nat), Unlimited b m → m + c.indices.length < 2 ^ 64 →
          (0 < m ∨ c.Ordered x ∧ ∃ i ∈ c.indices, (∀ a, q a = x i a) ∧ cand i ≠ none) →
          ∃ L : List Nat, L.Perm c.indices ∧
            walk x q (staticOps x q gap cand) c b = L.foldlM (Buf.offer cand) b) →
        (∀ (b : Buf D) (m : Nat), Unlimited b m → m + s.indices.length < 2 ^ 64 →
          (0 < m ∨ s.Ordered x ∧ ∃ i ∈ s.indices, (∀ a, q a = x i a) ∧ cand i ≠ none) →
          ∃ L : List Nat, L.Perm s.indices ∧
            walk x q (staticOps x q gap cand) s b = L.foldlM (Buf.offer cand) b) →
        (0 < m + (cands cand [p]).length ∨
          c.Ordered x ∧ ∃ i ∈ c.indices, (∀ a, q a = x i a) ∧ cand i ≠ none) →
        ∃ L : List Nat, L.Perm (p :: (c.indices ++ s.indices)) ∧
          ((walk x q (staticOps x q gap cand) c b1).bind fun b =>
            if visitSibling x q gap b isLeft p a then walk x q (staticOps x q gap cand) s b
            else some b) = L.foldlM (Buf.offer cand) b := by
      intro c s isLeft hlen hcw hsw hcond
      obtain ⟨L1, hp1, ew1⟩ := hcw b1 _ hb1 (by omega) hcond
      obtain ⟨b2, e2, hb2⟩ := hb1.offers (cand := cand) L1 (by rw [hp1.length_eq]; omega)
      have hcl : (cands cand L1).length ≤ L1.length := List.length_filterMap_le _ _
      rw [hp1.length_eq] at hcl
      have hm2 : 0 < m + (cands cand [p]).length + (cands cand L1).length := by
        rcases hcond with h | ⟨_, i, hi, _, hci⟩
        · omega
        · have := hpos (hp1.mem_iff.2 hi) hci
          omega
      have hvisit : visitSibling x q gap b2 isLeft p a = true := by
        simp [visitSibling, hb2.remaining hm2 (by omega)]
      obtain ⟨L2, hp2, ew2⟩ := hsw b2 _ hb2 (by omega) (Or.inl hm2)
      refine ⟨p :: (L1 ++ L2), (hp1.append hp2).cons p, ?_⟩
      rw [ew1, e2, Option.bind_some, if_pos hvisit, ew2, List.foldlM_cons]
      have e1' : Buf.offer cand b p = some b1 := by simpa using e1
      rw [e1']
      simp [List.foldlM_append, e2]
    have hsplit : 0 < m + (cands cand [p]).length ∨ (q a < x p a ∧ l.Ordered x ∧
        ∃ i ∈ l.indices, (∀ a, q a = x i a) ∧ cand i ≠ none) ∨ (¬ q a < x p a ∧ r.Ordered x ∧
        ∃ i ∈ r.indices, (∀ a, q a = x i a) ∧ cand i ≠ none) := by
      rcases hc with hc | ⟨⟨hL, hR, hol, hor⟩, i, hi, hqi, hci⟩
      · left; omega
      · simp only [KDTree.Tree.indices, List.mem_append, List.mem_cons] at hi
        rcases hi with hi | rfl | hi
        · exact Or.inr (Or.inl ⟨by rw [hqi]; exact hL i hi, hol, i, hi, hqi, hci⟩)
        · left
          have := hpos (L := [i]) (List.mem_singleton_self i) hci
          omega
        · exact Or.inr (Or.inr ⟨by rw [hqi]; exact not_lt.2 (hR i hi), hor, i, hi, hqi, hci⟩)
    simp only [walk, ho, Option.bind_eq_bind, Option.bind_some]
    by_cases hlt : q a < x p a
    · rw [if_pos hlt]
      obtain ⟨L, hp, e⟩ := key l r true rfl ihl ihr (by
        rcases hsplit with h | h | h
        · exact Or.inl h
        · exact Or.inr h.2
        · exact absurd hlt h.1)
      exact ⟨L, hp.trans (List.perm_middle.symm), e⟩
    · rw [if_neg hlt]
      obtain ⟨L, hp, e⟩ := key r l false (Nat.add_comm _ _) ihr ihl (by
        rcases hsplit with h | h | h
        · exact Or.inl h
        · exact absurd h.1 hlt
        · exact Or.inr h.2)
      exact ⟨L, hp.trans (((List.perm_append_comm).cons p).trans List.perm_middle.symm), e⟩

/-- A radius query around a sample of the tree is complete, whatever `infinity` and the pruning
distance are. -/
theorem radius_own (x : Nat → Nat → K) (gap : K → K → D) (dist : Nat → D) (radius inf : D)
    (t : KDTree.Tree K) (ht : t.Ordered x) (hn : t.indices.length < 2 ^ 64) (i : Nat)
    (hi : i ∈ t.indices) (hself : ∀ j, dist i ≤ dist j) :
    ∃ b, search x (x i) (staticOps x (x i) gap (candBall dist radius)) t (Buffer.mk inf 0) = some b ∧
      b.indices.Perm (t.indices.filter (fun j => dist j < radius)) := by
  by_cases hr : dist i < radius
  · obtain ⟨L, hp, e⟩ := walk_unpruned x (x i) gap (candBall dist radius) t (Buffer.mk inf 0) 0
      ⟨rfl, rfl⟩ (by omega) (Or.inr ⟨ht, i, hi, fun _ => rfl, by simp [candBall, hr]⟩)
    have e2 := foldlM_offer (candBall dist radius) L (Buffer.mk inf 0)
    have hlen : (cands (candBall dist radius) L).length < 2 ^ 64 := by
      have h1 := hp.length_eq
      have h2 : (cands (candBall dist radius) L).length ≤ L.length := List.length_filterMap_le _ _
      omega
    obtain ⟨b, hb, hl, hpb⟩ := C12_default_capacity_keeps_all inf _ hlen
    refine ⟨b, by rw [search_eq_walk, e, e2, hb], ?_⟩
    have h1 : (b.indices.zip b.distances).map Prod.fst = b.indices := List.map_fst_zip (by omega)
    rw [← h1]
    refine (hpb.map Prod.fst).trans ?_
    rw [cands_ball, List.map_map]
    simp only [Function.comp_def, List.map_id']
    exact hp.filter _
  · obtain ⟨b, e, h⟩ := radius_sound x (x i) gap dist radius inf t hn
    have hnil : t.indices.filter (fun j => dist j < radius) = [] := by
      rw [List.filter_eq_nil_iff]
      intro j _
      have := hself j
      simp only [decide_eq_true_eq, not_lt]
      exact (not_lt.1 hr).trans this
    rw [hnil] at h ⊢
    exact ⟨b, e, by rw [List.subperm_nil.1 h]⟩

/-- **C108.** Data of any type whose coordinates are compared exactly, in particular all integral
types: on a tree with any options, for any symmetric distance that is smallest from a sample to
itself, any value of `infinity` and any pruning distance (also one that wraps around), the labels are
exactly the specified ones (C76) and two core samples share a label exactly when they are
connected. -/
theorem C108_any_options (x : Nat → Nat → K) (gap : K → K → D) (n : Nat)
    (hn : n < 2 ^ 64) (dist : Nat → Nat → D) (hsym : ∀ i j, dist i j = dist j i)
    (hself : ∀ i j, dist i i ≤ dist i j) (radius inf : D)
    (policy : List Nat → Nat → Box K → Nat) (bucketSize maxDepth nf : Nat)
    (hpol : ∀ idx d box, policy idx d box < nf) (vmax vlowest : K)
    (idx : List Nat) (hidx : idx.Perm (List.range n)) (minSamples : Nat) :
    ∃ idx' t label,
      make eqExact x policy bucketSize maxDepth nf vmax vlowest idx = some (idx', t) ∧
      predictTree x gap dist radius inf t minSamples n = some label ∧ label.length = n ∧
      (∀ i < n, IsLabel n (near dist radius) minSamples i (label.getD i 0)) ∧
      ∀ i j, Core n (near dist radius) minSamples i → Core n (near dist radius) minSamples j →
        (label.getD i 0 = label.getD j 0 ↔ DensityConnected n (near dist radius) minSamples i j) := by
  have hN : ∀ i j, near dist radius i j = near dist radius j i := fun i j => by
    unfold near; rw [hsym]
  obtain ⟨idx', t, e, hp, hi, _, ho, _⟩ :=
    make_exact x policy bucketSize maxDepth nf hpol vmax vlowest idx
  have hpi : t.indices.Perm (List.range n) := (hi ▸ hp : t.indices.Perm idx).trans hidx
  have hq : QueryOk n (near dist radius) (radiusQuery x gap dist radius inf t) := by
    intro i hin
    obtain ⟨b, h1, h2⟩ := radius_own x gap (dist i) radius inf t ho
      (by rw [hpi.length_eq, List.length_range]; exact hn) i
      (hpi.mem_iff.2 (List.mem_range.2 hin)) (hself i)
    exact ⟨b.indices, by simp [radiusQuery, h1], h2.trans (hpi.filter _)⟩
  obtain ⟨label, h1, h2, h3⟩ := predict_label (minSamples := minSamples) hN hq
  obtain ⟨label', h1', g⟩ := predict_guarantees (minSamples := minSamples) hN hq
  rw [h1, Option.some.injEq] at h1'
  subst h1'
  exact ⟨idx', t, label, e, h1, h2, h3, g.clusters⟩

/-- **C108**, default options: on a tree of default depth (a single leaf) the labels are exactly the
specified ones (C76), for data of any type and any symmetric distance. -/
theorem C108_default_options (eqv : K → K → Bool) (x : Nat → Nat → K) (gap : K → K → D) (n : Nat)
    (hn : n < 2 ^ 64) (dist : Nat → Nat → D) (hsym : ∀ i j, dist i j = dist j i) (radius inf : D)
    (policy : List Nat → Nat → Box K → Nat) (bucketSize nf : Nat) (vmax vlowest : K)
    (idx : List Nat) (hidx : idx.Perm (List.range n)) (minSamples : Nat) :
    ∃ t label, make eqv x policy bucketSize 0 nf vmax vlowest idx = some (idx, t) ∧
      predictTree x gap dist radius inf t minSamples n = some label ∧ label.length = n ∧
      (∀ i < n, IsLabel n (near dist radius) minSamples i (label.getD i 0)) ∧
      ∀ i j, Core n (near dist radius) minSamples i → Core n (near dist radius) minSamples j →
        (label.getD i 0 = label.getD j 0 ↔ DensityConnected n (near dist radius) minSamples i j) := by
  have hN : ∀ i j, near dist radius i j = near dist radius j i := fun i j => by
    unfold near; rw [hsym]
  have e := C11_default_depth_single_leaf eqv x policy bucketSize nf vmax vlowest idx
  have hq : QueryOk n (near dist radius)
      (radiusQuery x gap dist radius inf (.leaf idx (tightBound x nf vmax vlowest idx))) := by
    intro i _
    obtain ⟨t, b, e', h1, hl, h2⟩ := C15_default_options eqv x (x i) gap (dist i) policy bucketSize nf
      vmax vlowest idx radius inf (by rw [hidx.length_eq, List.length_range]; exact hn)
    rw [e, Option.some.injEq, Prod.mk.injEq] at e'
    rw [← e'.2] at h1
    refine ⟨b.indices, by simp [radiusQuery, h1], ?_⟩
    have h3 := h2.map Prod.fst
    rw [List.map_fst_zip (by omega), List.map_map] at h3
    simp only [Function.comp_def, List.map_id'] at h3
    exact h3.trans (hidx.filter _)
  obtain ⟨label, h1, h2, h3⟩ := predict_label (minSamples := minSamples) hN hq
  obtain ⟨label', h1', g⟩ := predict_guarantees (minSamples := minSamples) hN hq
  rw [h1, Option.some.injEq] at h1'
  subst h1'
  exact ⟨_, label, e, h1, h2, h3, g.clusters⟩

/-- **C108**, on any tree whatsoever over the samples, also one whose splits are wrong: `predict` is
defined, a labelled sample is a core sample or within the radius of one, and two core samples with the
same label are connected. -/
theorem C108_sound (x : Nat → Nat → K) (gap : K → K → D) (n : Nat)
    (hn : n < 2 ^ 64) (dist : Nat → Nat → D) (hsym : ∀ i j, dist i j = dist j i) (radius inf : D)
    (t : KDTree.Tree K) (ht : t.indices.Perm (List.range n)) (minSamples : Nat) :
    ∃ label, predictTree x gap dist radius inf t minSamples n = some label ∧ label.length = n ∧
      (∀ i : Nat, i < n → label.getD i 0 ≠ 0 → Core n (near dist radius) minSamples i ∨
        ∃ k : Nat, Core n (near dist radius) minSamples k ∧ dist k i < radius) ∧
      ∀ i j : Nat, Core n (near dist radius) minSamples i → Core n (near dist radius) minSamples j →
        label.getD i 0 ≠ 0 → label.getD i 0 = label.getD j 0 →
        DensityConnected n (near dist radius) minSamples i j := by
  have hN : ∀ i j, near dist radius i j = near dist radius j i := fun i j => by
    unfold near; rw [hsym]
  have hs : ∀ i, ∃ nb, radiusQuery x gap dist radius inf t i = some nb ∧
      nb.Subperm ((List.range n).filter (near dist radius i)) := by
    intro i
    obtain ⟨b, h1, h2⟩ := radius_sound x (x i) gap (dist i) radius inf t
      (by rw [ht.length_eq, List.length_range]; exact hn)
    exact ⟨b.indices, by simp [radiusQuery, h1], h2.trans (ht.filter _).subperm⟩
  choose nb hnb hsub using hs
  have hq : QueryOk n (fun i j => decide (j ∈ nb i)) (radiusQuery x gap dist radius inf t) := by
    intro i _
    refine ⟨nb i, hnb i, ?_⟩
    have hnd : (nb i).Nodup := by
      obtain ⟨l, h1, h2⟩ := hsub i
      exact h1.nodup_iff.1 ((List.nodup_range.filter _).sublist h2)
    refine (List.perm_ext_iff_of_nodup hnd (List.nodup_range.filter _)).2 fun j => ?_
    simp only [List.mem_filter, List.mem_range, decide_eq_true_eq]
    refine ⟨fun h => ⟨?_, h⟩, fun h => h.2⟩
    have := (hsub i).subset h
    exact List.mem_range.1 (List.mem_filter.1 this).1
  have hMN : ∀ i j, decide (j ∈ nb i) = true → near dist radius i j = true := by
    intro i j h
    exact (List.mem_filter.1 ((hsub i).subset (of_decide_eq_true h))).2
  obtain ⟨label, h1, h2, h3, h4⟩ := predict_sound (minSamples := minSamples) hMN hN hq
  refine ⟨label, h1, h2, fun i hi h0 => ?_, h4⟩
  rcases h3 i hi h0 with h | ⟨k, h5, h6⟩
  · exact Or.inl h
  · exact Or.inr ⟨k, h5, of_decide_eq_true h6⟩

end Trees

/-! ### integral data -/

/-- **C108**, signed integral data with the Manhattan distance, `infinity` being 0. -/
theorem C108_signed (nf n : Nat) (hn : n < 2 ^ 64) (x : Nat → Nat → ℤ) (dist : Nat → Nat → ℤ)
    (hd : ∀ i j, manhattan (row nf (x j)) (row nf (x i)) = some (dist i j)) (radius : ℤ)
    (policy : List Nat → Nat → Box ℤ → Nat) (bucketSize maxDepth : Nat)
    (hpol : ∀ idx d box, policy idx d box < nf) (vmax vlowest : ℤ)
    (idx : List Nat) (hidx : idx.Perm (List.range n)) (minSamples : Nat) :
    ∃ idx' t label,
      make eqExact x policy bucketSize maxDepth nf vmax vlowest idx = some (idx', t) ∧
      predictTree x (fun v w => |v - w|) dist radius 0 t minSamples n = some label ∧
      label.length = n ∧
      (∀ i < n, IsLabel n (near dist radius) minSamples i (label.getD i 0)) ∧
      ∀ i j, Core n (near dist radius) minSamples i → Core n (near dist radius) minSamples j →
        (label.getD i 0 = label.getD j 0 ↔ DensityConnected n (near dist radius) minSamples i j) := by
  have hd' : ∀ i j, dist i j =
      (List.zipWith (fun a b : ℤ => |a - b|) (row nf (x j)) (row nf (x i))).sum := by
    intro i j
    have := hd i j
    rw [manhattan_eq (by simp [row])] at this
    exact (Option.some.inj this).symm
  refine C108_any_options x _ n hn dist (fun i j => ?_) (fun i j => ?_) radius 0 policy bucketSize
    maxDepth nf hpol vmax vlowest idx hidx minSamples
  · rw [hd', hd', sum_zipWith_comm (f := fun a b : ℤ => |a - b|) (fun a b => abs_sub_comm a b)]
  · have h0 : dist i i = 0 := by
      rw [hd']
      generalize row nf (x i) = l
      induction l with
      | nil => rfl
      | cons a l ih => simp [ih]
    have h1 : 0 ≤ dist i j := by
      rw [hd']
      refine List.sum_nonneg fun v hv => ?_
      obtain ⟨a, b, _, _, rfl⟩ : ∃ a b, a ∈ row nf (x j) ∧ b ∈ row nf (x i) ∧ |a - b| = v := by
        obtain ⟨k, hk, rfl⟩ := List.getElem_of_mem hv
        exact ⟨_, _, List.getElem_mem _, List.getElem_mem _, by simp [List.getElem_zipWith]; rfl⟩
      exact abs_nonneg _
    omega

/-- Labels of integral samples of the plane: `infinity` is 0, as for `int`. -/
def intLabels (pos : List (List ℤ)) (maxDepth : Nat) (radius : ℤ) (minSamples : Nat) :
    Option (List Nat) := do
  let x : Nat → Nat → ℤ := fun i f => (pos.getD i []).getD f 0
  let (_, t) ← make eqExact x (fun _ d _ => d % 2) 1 maxDepth 2 1000 (-1000) (List.range pos.length)
  predictTree x (fun v w => |v - w|) (fun i j => |x j 0 - x i 0| + |x j 1 - x i 1|) radius 0 t
    minSamples pos.length

/-! Concrete case: the samples on which a radius search around another point fails
(`C15_signed_counterexample`) and two more. -/

example : intLabels [[-100, 0], [1, 100], [2, 0], [3, 1], [2, 2]] 10 5 1 = some [0, 0, 1, 1, 1] := by
  decide +kernel

example : intLabels [[-100, 0], [1, 100], [2, 0], [3, 1], [2, 2]] 0 5 1 = some [0, 0, 1, 1, 1] := by
  decide +kernel

end Verif.DBSCAN
