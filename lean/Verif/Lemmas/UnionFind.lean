import Verif.Spec.UnionFind
import Mathlib.Tactic.Linarith
import Mathlib.Tactic.Ring
import Mathlib.Data.Finset.Basic
import Mathlib.Data.Finset.Filter
import Mathlib.Data.Finset.Range
import Mathlib.Data.Nat.Log

namespace Verif.UF

/-- Invariant tying the arrays to a ghost representative function `rep`. -/
structure Inv (n : Nat) (ps rs : List Nat) (rep : Nat → Nat) : Prop where
  lenP : ps.length = n
  lenR : rs.length = n
  par : ∀ i p : Nat, ps[i]? = some p → p < n ∧ rep p = rep i
  rank : ∀ i p a b : Nat, ps[i]? = some p → p ≠ i → rs[i]? = some a → rs[p]? = some b → a < b
  root : ∀ i : Nat, i < n → rep i < n ∧ ps[rep i]? = some (rep i)
  uniq : ∀ r : Nat, ps[r]? = some r → rep r = r
  card : ∀ r k : Nat, ps[r]? = some r → rs[r]? = some k →
    2 ^ k ≤ ((Finset.range n).filter (fun j => rep j = r)).card

theorem Inv.init (n : Nat) : Inv n (init n).parents (init n).ranks id := by
  refine ⟨by simp [UF.init], by simp [UF.init], ?_, ?_, ?_, ?_, ?_⟩
  · intro i p h
    simp [UF.init, List.getElem?_range] at h
    grind
  · intro i p a b h hne
    simp [UF.init] at h
    grind
  · intro i hi; simp [UF.init, hi]
  · intro r _; rfl
  · intro r k h1 h2
    simp [UF.init, List.getElem?_replicate] at h1 h2
    obtain ⟨hr, rfl⟩ := h2
    simp
    exact ⟨r, by simp [hr]⟩

variable {n : Nat} {ps rs : List Nat} {rep : Nat → Nat}

theorem Inv.lt_of_get (h : Inv n ps rs rep) {i p : Nat} (hp : ps[i]? = some p) : i < n := by
  have := List.getElem?_eq_some_iff.1 hp
  rw [← h.lenP]; exact this.1

theorem Inv.exists_par (h : Inv n ps rs rep) {i : Nat} (hi : i < n) : ∃ p, ps[i]? = some p :=
  ⟨ps[i]'(by rw [h.lenP]; exact hi), List.getElem?_eq_getElem _⟩

theorem Inv.exists_rank (h : Inv n ps rs rep) {i : Nat} (hi : i < n) : ∃ p, rs[i]? = some p :=
  ⟨rs[i]'(by rw [h.lenR]; exact hi), List.getElem?_eq_getElem _⟩

theorem Inv.rank_le (h : Inv n ps rs rep) {i p a b : Nat} (hp : ps[i]? = some p)
    (ha : rs[i]? = some a) (hb : rs[p]? = some b) : a ≤ b := by
  by_cases hpi : p = i
  · subst hpi; rw [ha] at hb; simp at hb; omega
  · exact Nat.le_of_lt (h.rank i p a b hp hpi ha hb)

/-- One path splitting write keeps the invariant with the same representatives. -/
theorem Inv.split (h : Inv n ps rs rep) {i p g : Nat} (hp : ps[i]? = some p) (hne : i ≠ p)
    (hg : ps[p]? = some g) : Inv n (ps.set i g) rs rep := by
  have hi : i < n := h.lt_of_get hp
  have hpn : p < n := h.lt_of_get hg
  have hgn : g < n := (h.par p g hg).1
  obtain ⟨ra, hra⟩ := h.exists_rank hi
  obtain ⟨rb, hrb⟩ := h.exists_rank hpn
  obtain ⟨rc, hrc⟩ := h.exists_rank hgn
  have h1 := h.rank i p ra rb hp (Ne.symm hne) hra hrb
  have h2 := h.rank_le hg hrb hrc
  have hgi : g ≠ i := by
    rintro rfl; rw [hra] at hrc; simp at hrc; omega
  refine ⟨by simp [h.lenP], h.lenR, ?_, ?_, ?_, ?_, ?_⟩
  · intro j q hq
    rw [List.getElem?_set] at hq
    split at hq
    · rename_i hij; subst hij
      simp [h.lenP, hi] at hq; subst hq
      exact ⟨hgn, by rw [(h.par p g hg).2, (h.par i p hp).2]⟩
    · exact h.par j q hq
  · intro j q a b hq hqj ha hb
    rw [List.getElem?_set] at hq
    split at hq
    · rename_i hij; subst hij
      simp [h.lenP, hi] at hq; subst hq
      rw [hra] at ha; rw [hrc] at hb; simp at ha hb; omega
    · exact h.rank j q a b hq hqj ha hb
  · intro j hj
    refine ⟨(h.root j hj).1, ?_⟩
    rw [List.getElem?_set]
    split
    · rename_i hij
      have := (h.root j hj).2
      rw [← hij, hp] at this
      simp at this; omega
    · exact (h.root j hj).2
  · intro r hr
    rw [List.getElem?_set] at hr
    split at hr
    · rename_i hij; subst hij
      simp [h.lenP, hi] at hr; omega
    · exact h.uniq r hr
  · intro r k hr hk
    rw [List.getElem?_set] at hr
    split at hr
    · rename_i hij; subst hij
      simp [h.lenP, hi] at hr; omega
    · exact h.card r k hr hk

theorem Inv.rep_lt (h : Inv n ps rs rep) {i : Nat} (hi : i < n) : rep i < n := (h.root i hi).1

/-- The loop of `find` succeeds with any fuel larger than the rank gap to the root. -/
theorem findLoop_spec : ∀ (fuel : Nat) (ps : List Nat) (i a k : Nat), Inv n ps rs rep → i < n →
    rs[i]? = some a → rs[rep i]? = some k → k - a < fuel →
    ∃ ps', findLoop fuel ps i = some (ps', rep i) ∧ Inv n ps' rs rep := by
  intro fuel
  induction fuel with
  | zero => intro ps i a k _ _ _ _ hlt; omega
  | succ fuel ih =>
    intro ps i a k h hi ha hk hlt
    obtain ⟨p, hp⟩ := h.exists_par hi
    simp only [findLoop, hp, Option.bind_eq_bind, Option.bind_some]
    by_cases hip : i = p
    · subst hip
      rw [h.uniq i hp]
      exact ⟨ps, by simp, h⟩
    · have hpn := (h.par i p hp).1
      have hrep := (h.par i p hp).2
      obtain ⟨g, hg⟩ := h.exists_par hpn
      obtain ⟨b, hb⟩ := h.exists_rank hpn
      have hab := h.rank i p a b hp (Ne.symm hip) ha hb
      have hpk : rs[rep p]? = some k := by rw [hrep]; exact hk
      -- ranks never exceed the rank of the root: needed to consume fuel
      have hbk : b ≤ k := by
        -- by strong induction on the parent chain; use `rank_le_root`
        exact rank_le_root ps p b k h hpn hb hpk
      simp only [hip, if_false, hg, Option.bind_some]
      obtain ⟨ps', h1, h2⟩ := ih (ps.set i g) p b k (h.split hp hip hg) hpn hb hpk (by omega)
      exact ⟨ps', by rw [h1, hrep], h2⟩
where
  rank_le_root (ps : List Nat) (p b k : Nat) (h : Inv n ps rs rep) (hpn : p < n)
      (hb : rs[p]? = some b) (hk : rs[rep p]? = some k) : b ≤ k := by
    -- walk up: measure = (max rank bound) - rank
    have key : ∀ (m : Nat) (p b : Nat), p < n → rs[p]? = some b → rs[rep p]? = some k →
        (∀ x ∈ rs, x ≤ b + m) → b ≤ k := by
      intro m
      induction m with
      | zero =>
        intro p b hpn hb hk hall
        by_cases hroot : rep p = p
        · rw [hroot, hb] at hk; simp at hk; omega
        · obtain ⟨q, hq⟩ := h.exists_par hpn
          have hqn := (h.par p q hq).1
          obtain ⟨c, hc⟩ := h.exists_rank hqn
          have hqp : q ≠ p := by rintro rfl; exact hroot (h.uniq _ hq)
          have := h.rank p q b c hq hqp hb hc
          have := hall c (List.mem_of_getElem? hc)
          omega
      | succ m ih =>
        intro p b hpn hb hk hall
        by_cases hroot : rep p = p
        · rw [hroot, hb] at hk; simp at hk; omega
        · obtain ⟨q, hq⟩ := h.exists_par hpn
          have hqn := (h.par p q hq).1
          obtain ⟨c, hc⟩ := h.exists_rank hqn
          have hqp : q ≠ p := by rintro rfl; exact hroot (h.uniq _ hq)
          have h1 := h.rank p q b c hq hqp hb hc
          have h2 := ih q c hqn hc (by rw [(h.par p q hq).2]; exact hk)
            (fun x hx => by have := hall x hx; omega)
          omega
    refine key (rs.foldr max 0) p b hpn hb hk ?_
    intro x hx
    have : x ≤ rs.foldr max 0 := by
      clear * - hx
      induction rs with
      | nil => simp at hx
      | cons y ys ih =>
        simp only [List.mem_cons] at hx
        simp only [List.foldr_cons]
        rcases hx with rfl | hx
        · exact le_max_left _ _
        · exact le_trans (ih hx) (le_max_right _ _)
    omega

/-- A root rank is at most log2 of the class size, hence smaller than the sample count. -/
theorem Inv.rank_root_le_log (h : Inv n ps rs rep) {i k : Nat} (hi : i < n)
    (hk : rs[rep i]? = some k) :
    k ≤ Nat.log 2 ((Finset.range n).filter (fun j => rep j = rep i)).card := by
  have := h.card (rep i) k (h.root i hi).2 hk
  exact Nat.le_log_of_pow_le (by norm_num) this

theorem Inv.rank_root_lt (h : Inv n ps rs rep) {i k : Nat} (hi : i < n)
    (hk : rs[rep i]? = some k) : k < n := by
  have h1 := h.card (rep i) k (h.root i hi).2 hk
  have h2 : ((Finset.range n).filter (fun j => rep j = rep i)).card ≤ n := by
    calc _ ≤ (Finset.range n).card := Finset.card_filter_le _ _
      _ = n := Finset.card_range n
  have h3 : k < 2 ^ k := Nat.lt_two_pow_self
  omega

/-- State version of the invariant. -/
def SInv (n : Nat) (s : State) (rep : Nat → Nat) : Prop := Inv n s.parents s.ranks rep

theorem find_spec {s : State} (h : SInv n s rep) {i : Nat} (hi : i < n) :
    ∃ s', find s i = some (s', rep i) ∧ SInv n s' rep ∧ s'.ranks = s.ranks := by
  obtain ⟨a, ha⟩ := Inv.exists_rank h hi
  obtain ⟨k, hk⟩ := Inv.exists_rank h (Inv.rep_lt h hi)
  have hkn := Inv.rank_root_lt h hi hk
  obtain ⟨ps', h1, h2⟩ := findLoop_spec (2 * s.parents.length + 1) s.parents i a k h hi ha hk
    (by rw [h.lenP]; omega)
  exact ⟨{ s with parents := ps' }, by simp [find, h1], h2, rfl⟩

/-- Linking root `r2` below root `r1`; `rs'` is the rank array after the link. -/
theorem Inv.link (h : Inv n ps rs rep) {r1 r2 a b : Nat} {rs' : List Nat} (hne : r1 ≠ r2)
    (h1 : ps[r1]? = some r1) (h2 : ps[r2]? = some r2)
    (ha : rs[r1]? = some a) (hb : rs[r2]? = some b)
    (hrs : rs' = rs ∧ b < a ∨ rs' = rs.set r1 (a + 1) ∧ a = b) :
    Inv n (ps.set r2 r1) rs' (fun j => if rep j = r2 then r1 else rep j) := by
  have hr1 : r1 < n := h.lt_of_get h1
  have hr2 : r2 < n := h.lt_of_get h2
  have e1 : rep r1 = r1 := h.uniq r1 h1
  have e2 : rep r2 = r2 := h.uniq r2 h2
  have hlen : rs'.length = n := by
    rcases hrs with ⟨rfl, _⟩ | ⟨rfl, _⟩ <;> simp [h.lenR]
  -- ranks only change at `r1`, upwards
  have hrank : ∀ j x, rs'[j]? = some x →
      (j ≠ r1 ∧ rs[j]? = some x) ∨ (j = r1 ∧ b < x ∧ a ≤ x) := by
    intro j x hx
    rcases hrs with ⟨rfl, hlt⟩ | ⟨rfl, rfl⟩
    · by_cases hj : j = r1
      · subst hj; rw [ha] at hx; simp at hx; right; omega
      · left; exact ⟨hj, hx⟩
    · rw [List.getElem?_set] at hx
      split at hx
      · rename_i hj; subst hj
        simp [h.lenR, hr1] at hx; right; omega
      · left; exact ⟨fun hj => by omega, hx⟩
  have hrank_r1 : ∀ x, rs'[r1]? = some x → (x = a ∧ b < a) ∨ (x = a + 1 ∧ a = b) := by
    intro x hx
    rcases hrs with ⟨rfl, hlt⟩ | ⟨rfl, rfl⟩
    · rw [ha] at hx; simp at hx; left; omega
    · simp [List.getElem?_set, h.lenR, hr1] at hx; right; omega
  refine ⟨by simp [h.lenP], hlen, ?_, ?_, ?_, ?_, ?_⟩
  · intro i p hp
    rw [List.getElem?_set] at hp
    split at hp
    · rename_i hi; subst hi
      simp [h.lenP, hr2] at hp; subst hp
      refine ⟨hr1, ?_⟩
      simp [e1, e2]
    · have := h.par i p hp
      exact ⟨this.1, by simp [this.2]⟩
  · intro i p x y hp hpi hx hy
    rw [List.getElem?_set] at hp
    split at hp
    · rename_i hi; subst hi
      simp [h.lenP, hr2] at hp; subst hp
      rcases hrank _ _ hx with ⟨_, hx⟩ | ⟨h', _⟩
      · rw [hb] at hx; simp at hx
        rcases hrank_r1 _ hy with h' | h' <;> omega
      · omega
    · have hir1 : i ≠ r1 := by
        rintro rfl; rw [h1] at hp; simp at hp; omega
      rcases hrank _ _ hx with ⟨_, hx⟩ | ⟨h', _⟩
      · rcases hrank _ _ hy with ⟨_, hy⟩ | ⟨h', hy1, hy2⟩
        · exact h.rank i p x y hp hpi hx hy
        · subst h'
          have := h.rank i p x a hp hpi hx ha
          omega
      · exact absurd h' hir1
  · intro i hi
    by_cases hi2 : rep i = r2
    · simp only [hi2, if_true]
      refine ⟨hr1, ?_⟩
      rw [List.getElem?_set]
      simp [Ne.symm hne, h1]
    · simp only [hi2, if_false]
      refine ⟨(h.root i hi).1, ?_⟩
      rw [List.getElem?_set]
      simp [Ne.symm hi2, (h.root i hi).2]
  · intro r hr
    rw [List.getElem?_set] at hr
    split at hr
    · rename_i hi; subst hi
      simp [h.lenP, hr2] at hr; omega
    · have := h.uniq r hr
      simp only [this]
      split
      · omega
      · rfl
  · intro r k hr hk
    rw [List.getElem?_set] at hr
    split at hr
    · rename_i hi; subst hi
      simp [h.lenP, hr2] at hr; omega
    · rename_i hrne
      have hrr := h.uniq r hr
      by_cases hr1' : r = r1
      · subst hr1'
        have hset : (Finset.range n).filter (fun j => (if rep j = r2 then r else rep j) = r) =
            (Finset.range n).filter (fun j => rep j = r) ∪
            (Finset.range n).filter (fun j => rep j = r2) := by
          ext j; simp only [Finset.mem_filter, Finset.mem_union, Finset.mem_range]
          by_cases hj : rep j = r2 <;> simp [hj]
          omega
        have hdisj : Disjoint ((Finset.range n).filter (fun j => rep j = r))
            ((Finset.range n).filter (fun j => rep j = r2)) := by
          rw [Finset.disjoint_left]; intro j; simp only [Finset.mem_filter]; omega
        rw [hset, Finset.card_union_of_disjoint hdisj]
        have c1 := h.card r a h1 ha
        have c2 := h.card r2 b h2 hb
        rcases hrank_r1 _ hk with ⟨rfl, hlt⟩ | ⟨rfl, rfl⟩
        · omega
        · rw [pow_succ]; omega
      · have hset : (Finset.range n).filter (fun j => (if rep j = r2 then r1 else rep j) = r) =
            (Finset.range n).filter (fun j => rep j = r) := by
          ext j; simp only [Finset.mem_filter, Finset.mem_range]
          by_cases hj : rep j = r2
          · simp only [hj, if_true]; omega
          · simp [hj]
        rw [hset]
        rcases hrank _ _ hk with ⟨_, hk⟩ | ⟨h', _⟩
        · exact h.card r k hr hk
        · exact absurd h' hr1'

/-- Effect of `merge`: the two classes get one of the two old representatives. -/
theorem merge_spec {s : State} (h : SInv n s rep) {i j : Nat} (hi : i < n) (hj : j < n) :
    ∃ s' c d, merge s i j = some (s', c) ∧
      ((c = rep i ∧ d = rep j) ∨ (c = rep j ∧ d = rep i)) ∧
      SInv n s' (fun x => if rep x = d then c else rep x) := by
  obtain ⟨s1, e1, inv1, _⟩ := find_spec h hi
  obtain ⟨s2, e2, inv2, _⟩ := find_spec inv1 hj
  by_cases heq : rep i = rep j
  · refine ⟨s2, rep i, rep j, by simp [merge, e1, e2, heq], Or.inl ⟨rfl, rfl⟩, ?_⟩
    have : (fun x => if rep x = rep j then rep i else rep x) = rep := by
      funext x; split <;> simp_all
    rw [this]; exact inv2
  · have p1 := (inv2.root i hi).2
    have p2 := (inv2.root j hj).2
    have l1 := inv2.rep_lt hi
    have l2 := inv2.rep_lt hj
    obtain ⟨a, ha⟩ := inv2.exists_rank l1
    obtain ⟨b, hb⟩ := inv2.exists_rank l2
    by_cases hab : a = b
    · refine ⟨{ parents := s2.parents.set (rep j) (rep i), ranks := s2.ranks.set (rep i) (a + 1) },
        rep i, rep j, ?_, Or.inl ⟨rfl, rfl⟩, inv2.link heq p1 p2 ha hb (Or.inr ⟨rfl, hab⟩)⟩
      subst hab
      simp only [merge, e1, e2, heq, ha, hb, p1, Option.bind_eq_bind, Option.bind_some, if_false,
        if_true]
      rw [List.getElem?_set]
      simp [Ne.symm heq, p1]
    · by_cases hgt : a > b
      · refine ⟨{ s2 with parents := s2.parents.set (rep j) (rep i) },
          rep i, rep j, ?_, Or.inl ⟨rfl, rfl⟩, inv2.link heq p1 p2 ha hb (Or.inl ⟨rfl, hgt⟩)⟩
        simp [merge, e1, e2, heq, ha, hb, hab, hgt]
      · refine ⟨{ s2 with parents := s2.parents.set (rep i) (rep j) },
          rep j, rep i, ?_, Or.inr ⟨rfl, rfl⟩,
          inv2.link (Ne.symm heq) p2 p1 hb ha (Or.inl ⟨rfl, by omega⟩)⟩
        simp [merge, e1, e2, heq, ha, hb, hab, hgt]

/-- Representatives after a history: closure of the old classes and the merged pairs. -/
theorem run_spec (ops : List Op) : ∀ (s : State) (rep : Nat → Nat), SInv n s rep →
    (∀ op ∈ ops, op.Valid n) →
    ∃ s' rep', run s ops = some s' ∧ SInv n s' rep' ∧
      ∀ x y, rep' x = rep' y ↔
        Relation.EqvGen (fun x y => rep x = rep y ∨ Merged ops x y) x y := by
  induction ops with
  | nil =>
    intro s rep h _
    refine ⟨s, rep, rfl, h, fun x y => ⟨fun e => .rel _ _ (Or.inl e), fun e => ?_⟩⟩
    induction e with
    | rel _ _ h => rcases h with h | h
                   · exact h
                   · simp [Merged] at h
    | refl => rfl
    | symm _ _ _ ih => exact ih.symm
    | trans _ _ _ _ _ ih1 ih2 => exact ih1.trans ih2
  | cons op ops ih =>
    intro s rep h hv
    have hv0 := hv op (by simp)
    have hvs : ∀ op ∈ ops, op.Valid n := fun o ho => hv o (by simp [ho])
    cases op with
    | find a =>
      obtain ⟨s1, e1, inv1, _⟩ := find_spec h (i := a) hv0
      obtain ⟨s', rep', hrun, hinv, hrep⟩ := ih s1 rep inv1 hvs
      refine ⟨s', rep', by simp [run, step, e1, hrun], hinv, fun x y => ?_⟩
      rw [hrep]
      have : (fun x y => rep x = rep y ∨ Merged (Op.find a :: ops) x y) =
          fun x y => rep x = rep y ∨ Merged ops x y := by
        funext x y; simp [Merged]
      rw [this]
    | merge a b =>
      obtain ⟨s1, c, d, e1, hcd, inv1⟩ := merge_spec h (i := a) (j := b) hv0.1 hv0.2
      obtain ⟨s', rep', hrun, hinv, hrep⟩ := ih s1 _ inv1 hvs
      refine ⟨s', rep', by simp [run, step, e1, hrun], hinv, fun x y => ?_⟩
      rw [hrep]
      -- `c` and `d` are linked in the target relation
      have hab : Relation.EqvGen
          (fun x y => rep x = rep y ∨ Merged (Op.merge a b :: ops) x y) a b :=
        .rel _ _ (Or.inr (by simp [Merged]))
      constructor
      · intro e
        induction e with
        | rel x y hxy =>
          rcases hxy with hxy | hxy
          · have hx : ∀ x, rep x = rep a ∨ rep x = rep b → Relation.EqvGen
                (fun x y => rep x = rep y ∨ Merged (Op.merge a b :: ops) x y) x a := by
              intro x hx
              rcases hx with hx | hx
              · exact .rel _ _ (Or.inl hx)
              · exact .trans _ _ _ (.rel _ _ (Or.inl hx)) (.symm _ _ hab)
            by_cases hx1 : rep x = d
            · have hxa : rep x = rep a ∨ rep x = rep b := by
                rcases hcd with ⟨_, rfl⟩ | ⟨_, rfl⟩ <;> simp [hx1]
              have hya : rep y = rep a ∨ rep y = rep b := by
                simp only [hx1, if_true] at hxy
                split at hxy
                · rename_i hy; rcases hcd with ⟨_, rfl⟩ | ⟨_, rfl⟩ <;> simp [hy]
                · rcases hcd with ⟨rfl, _⟩ | ⟨rfl, _⟩ <;> simp [← hxy]
              exact .trans _ _ _ (hx x hxa) (.symm _ _ (hx y hya))
            · simp only [hx1, if_false] at hxy
              by_cases hy1 : rep y = d
              · simp only [hy1, if_true] at hxy
                have hxa : rep x = rep a ∨ rep x = rep b := by
                  rcases hcd with ⟨rfl, _⟩ | ⟨rfl, _⟩ <;> simp [hxy]
                have hya : rep y = rep a ∨ rep y = rep b := by
                  rcases hcd with ⟨_, rfl⟩ | ⟨_, rfl⟩ <;> simp [hy1]
                exact .trans _ _ _ (hx x hxa) (.symm _ _ (hx y hya))
              · simp only [hy1, if_false] at hxy
                exact .rel _ _ (Or.inl hxy)
          · exact .rel _ _ (Or.inr (by simp only [Merged] at hxy ⊢; simp [hxy]))
        | refl => exact .refl _
        | symm _ _ _ ih => exact .symm _ _ ih
        | trans _ _ _ _ _ ih1 ih2 => exact .trans _ _ _ ih1 ih2
      · intro e
        induction e with
        | rel x y hxy =>
          rcases hxy with hxy | hxy
          · exact .rel _ _ (Or.inl (by simp [hxy]))
          · simp only [Merged, List.mem_cons, Op.merge.injEq] at hxy
            rcases hxy with ⟨rfl, rfl⟩ | hxy
            · refine .rel _ _ (Or.inl ?_)
              rcases hcd with ⟨rfl, rfl⟩ | ⟨rfl, rfl⟩
              · by_cases h' : rep x = rep y <;> simp [h']
              · by_cases h' : rep y = rep x <;> simp [h']
            · exact .rel _ _ (Or.inr hxy)
        | refl => exact .refl _
        | symm _ _ _ ih => exact .symm _ _ ih
        | trans _ _ _ _ _ ih1 ih2 => exact .trans _ _ _ ih1 ih2

/-- Every valid history runs, and its classes are the `Together` classes. -/
theorem run_init_spec (n : Nat) (ops : List Op) (hv : ∀ op ∈ ops, op.Valid n) :
    ∃ s rep, run (init n) ops = some s ∧ SInv n s rep ∧
      ∀ x y, rep x = rep y ↔ Together ops x y := by
  obtain ⟨s, rep, h1, h2, h3⟩ := run_spec ops (init n) id (Inv.init n) hv
  refine ⟨s, rep, h1, h2, fun x y => (h3 x y).trans ?_⟩
  constructor
  · intro e
    induction e with
    | rel x y hxy =>
      rcases hxy with hxy | hxy
      · simp only [id] at hxy; subst hxy; exact .refl _
      · exact .rel _ _ hxy
    | refl => exact .refl _
    | symm _ _ _ ih => exact .symm _ _ ih
    | trans _ _ _ _ _ ih1 ih2 => exact .trans _ _ _ ih1 ih2
  · intro e
    exact Relation.EqvGen.mono (fun _ _ h => Or.inr h) _ _ e

end Verif.UF
