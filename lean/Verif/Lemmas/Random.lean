import Verif.Model.Random
import Verif.Spec.Random
import Verif.Lemmas.Sorting
import Mathlib.Algebra.BigOperators.Group.Finset.Piecewise
import Mathlib.Algebra.Order.BigOperators.Group.List
import Mathlib.Tactic.Linarith
import Mathlib.Tactic.Ring
import Mathlib.Tactic.Abel

/-
Lemmas about the alias method and about selection without replacement.
-/

namespace Verif.Random

open Verif.Sorting (swap swap_some)

set_option linter.unusedSectionVars false

/-! ### alias method -/

section Alias

variable {K : Type} [Field K] [LinearOrder K] [IsStrictOrderedRing K]

theorem getD_set {α : Type} (l : List α) (i j : Nat) (v d : α) (hi : i < l.length) :
    (l.set i v).getD j d = if j = i then v else l.getD j d := by
  simp only [List.getD_eq_getElem?_getD, List.getElem?_set]
  by_cases h : j = i
  · subst h; simp [hi]
  · simp [h, Ne.symm h]

theorem getElem?_eq_getD {α : Type} (l : List α) (i : Nat) (d : α) (hi : i < l.length) :
    l[i]? = some (l.getD i d) := by
  simp [List.getD_eq_getElem?_getD, hi]

/-- Two functions that agree off `s` have sums that differ by the difference at `s`. -/
theorem sum_change {n s : Nat} (hs : s < n) (g g' : Nat → K) (h : ∀ j, j ≠ s → g' j = g j) :
    ∑ j ∈ Finset.range n, g' j = ∑ j ∈ Finset.range n, g j + (g' s - g s) := by
  have hm : s ∈ Finset.range n := Finset.mem_range.2 hs
  rw [← Finset.add_sum_erase _ g' hm, ← Finset.add_sum_erase _ g hm,
    Finset.sum_congr rfl (fun j hj => h j (Finset.ne_of_mem_erase hj))]
  ring

/-- Probability of a cell once the open cells are completed with 1. -/
def pDone (st : AliasState K) (j : Nat) : K :=
  if j ∈ st.small ++ st.large then 1 else st.prob.getD j 0

structure AInv (n : Nat) (f0 : Nat → K) (st : AliasState K) : Prop where
  lfake : st.fake.length = n
  lprob : st.prob.length = n
  lals : st.aliases.length = n
  nodup : (st.small ++ st.large).Nodup
  lt : ∀ i ∈ st.small ++ st.large, i < n
  small_lt : ∀ i ∈ st.small, 0 ≤ st.fake.getD i 0 ∧ st.fake.getD i 0 < 1
  large_ge : ∀ i ∈ st.large, 1 ≤ st.fake.getD i 0
  sum : ((st.small ++ st.large).map (fun i => st.fake.getD i 0)).sum =
    ((st.small ++ st.large).length : K)
  mass_eq : ∀ i, i < n → mass n (pDone st) (fun j => st.aliases.getD j 0) i +
    (if i ∈ st.small ++ st.large then st.fake.getD i 0 - 1 else 0) = f0 i
  prob01 : ∀ j, j < n → 0 ≤ st.prob.getD j 0 ∧ st.prob.getD j 0 ≤ 1
  als_lt : ∀ j, j < n → st.aliases.getD j 0 < n

theorem AInv.step {n : Nat} {f0 : Nat → K} {st : AliasState K} (h : AInv n f0 st) {s l : Nat}
    {small large : List Nat} (hs : st.small = s :: small) (hl : st.large = l :: large) :
    AInv n f0
      { fake := st.fake.set l (st.fake.getD l 0 + (st.fake.getD s 0 - 1))
        small := if st.fake.getD l 0 + (st.fake.getD s 0 - 1) < 1 then l :: small else small
        large := if st.fake.getD l 0 + (st.fake.getD s 0 - 1) < 1 then large else l :: large
        prob := st.prob.set s (st.fake.getD s 0)
        aliases := st.aliases.set s l } := by
  obtain ⟨lfake, lprob, lals, nodup, lt, small_lt, large_ge, sum, mass_eq, prob01, als_lt⟩ := h
  rw [hs, hl] at nodup lt sum mass_eq
  rw [hs] at small_lt
  rw [hl] at large_ge
  set fs := st.fake.getD s 0 with hfs
  set fl := st.fake.getD l 0 with hfl
  have hsn : s < n := lt s (by simp)
  have hln : l < n := lt l (by simp)
  have nd : s ≠ l ∧ s ∉ small ∧ s ∉ large ∧ l ∉ small ∧ l ∉ large ∧ (small ++ large).Nodup := by
    simp only [List.cons_append, List.nodup_cons, List.nodup_append, List.mem_append,
      List.mem_cons] at nodup ⊢
    obtain ⟨a, b, ⟨c, d⟩, e⟩ := nodup
    refine ⟨fun h => a (Or.inr (Or.inl h)), fun h => a (Or.inl h), fun h => a (Or.inr (Or.inr h)),
      fun h => e _ h l (Or.inl rfl) rfl, c, b, d, fun x hx y hy => e x hx y (Or.inr hy)⟩
  obtain ⟨n1, n2, n3, n4, n5, n6⟩ := nd
  -- membership in the new stacks
  have hR : ∀ i, i ∈ (if fl + (fs - 1) < 1 then l :: small else small) ++
      (if fl + (fs - 1) < 1 then large else l :: large) ↔ i = l ∨ i ∈ small ∨ i ∈ large := by
    intro i; split <;> simp [or_left_comm]
  have hRold : ∀ i, i ∈ (s :: small) ++ (l :: large) ↔ i = s ∨ i = l ∨ i ∈ small ∨ i ∈ large := by
    intro i; simp [or_left_comm]
  have hfs0 := small_lt s (by simp)
  have hfl0 := large_ge l (by simp)
  rw [← hfs] at hfs0
  rw [← hfl] at hfl0
  have gset : ∀ i, (st.fake.set l (fl + (fs - 1))).getD i 0 =
      if i = l then fl + (fs - 1) else st.fake.getD i 0 := fun i =>
    getD_set _ _ _ _ _ (by rw [lfake]; exact hln)
  have pset : ∀ i, (st.prob.set s fs).getD i 0 = if i = s then fs else st.prob.getD i 0 := fun i =>
    getD_set _ _ _ _ _ (by rw [lprob]; exact hsn)
  have aset : ∀ i, (st.aliases.set s l).getD i 0 = if i = s then l else st.aliases.getD i 0 :=
    fun i => getD_set _ _ _ _ _ (by rw [lals]; exact hsn)
  have hperm : ((if fl + (fs - 1) < 1 then l :: small else small) ++
      (if fl + (fs - 1) < 1 then large else l :: large)).Perm (l :: (small ++ large)) := by
    split
    · simp
    · exact List.perm_middle
  refine ⟨by simp [lfake], by simp [lprob], by simp [lals], ?_, ?_, ?_, ?_, ?_, ?_, ?_, ?_⟩
  · dsimp only
    rw [hperm.nodup_iff, List.nodup_cons]
    exact ⟨by simp [n4, n5], n6⟩
  · intro i hi
    rw [hR] at hi
    rcases hi with rfl | h | h
    · exact hln
    · exact lt i (by simp [h])
    · exact lt i (by simp [h])
  · intro i hi
    dsimp only at hi ⊢
    rw [gset]
    by_cases e : i = l
    · subst e
      rw [if_pos rfl]
      split at hi
      · rename_i hv
        exact ⟨by linarith [hfs0.1], hv⟩
      · exact absurd hi n4
    · rw [if_neg e]
      apply small_lt
      split at hi
      · rcases List.mem_cons.1 hi with h | h
        · exact absurd h e
        · simp [h]
      · simp [hi]
  · intro i hi
    dsimp only at hi ⊢
    rw [gset]
    by_cases e : i = l
    · subst e
      rw [if_pos rfl]
      split at hi
      · exact absurd hi n5
      · rename_i hv; exact not_lt.1 hv
    · rw [if_neg e]
      apply large_ge
      split at hi
      · simp [hi]
      · rcases List.mem_cons.1 hi with h | h
        · exact absurd h e
        · simp [h]
  · dsimp only
    rw [(hperm.map _).sum_eq, hperm.length_eq, List.map_cons, List.sum_cons]
    have e1 : (small ++ large).map (fun i => (st.fake.set l (fl + (fs - 1))).getD i 0) =
        (small ++ large).map (fun i => st.fake.getD i 0) := by
      apply List.map_congr_left
      intro i hi
      rw [gset, if_neg]
      rintro rfl
      rcases List.mem_append.1 hi with h | h
      · exact n4 h
      · exact n5 h
    rw [e1, gset, if_pos rfl]
    have e2 : ((s :: small) ++ (l :: large)).Perm (s :: l :: (small ++ large)) := by
      rw [List.cons_append, List.perm_cons]
      exact List.perm_middle
    rw [(e2.map _).sum_eq, e2.length_eq] at sum
    simp only [List.map_cons, List.sum_cons, List.length_cons] at sum
    rw [← hfs, ← hfl] at sum
    rw [List.length_cons]
    push_cast at sum ⊢
    linarith
  · intro i hi
    have hold := mass_eq i hi
    have hpd : ∀ j, pDone (K := K) { fake := st.fake.set l (fl + (fs - 1))
                                     small := if fl + (fs - 1) < 1 then l :: small else small
                                     large := if fl + (fs - 1) < 1 then large else l :: large
                                     prob := st.prob.set s fs
                                     aliases := st.aliases.set s l } j =
        if j = s then fs else pDone st j := by
      intro j
      simp only [pDone]
      rw [pset, hs, hl]
      simp only [hR, hRold]
      by_cases e : j = s
      · subst e
        simp [n1, n2, n3]
      · simp [e]
    have hpds : pDone st s = 1 := by simp [pDone, hs]
    unfold mass at hold ⊢
    simp only [hpd, aset]
    rw [sum_change hsn (fun j => (if j = i then pDone st j else 0) +
      if st.aliases.getD j 0 = i then 1 - pDone st j else 0) _ ?_]
    · simp only [if_true, hpds]
      simp only [hR]
      simp only [hRold] at hold
      rw [gset]
      by_cases c1 : s = i
      · subst c1
        simp only [true_or, if_true, n1, n2, n3, or_self, if_false] at hold ⊢
        rw [if_neg (Ne.symm n1)]
        rw [← hfs] at hold
        split <;> linarith
      · by_cases c2 : l = i
        · subst c2
          simp only [true_or, or_true, if_true, c1, if_false] at hold ⊢
          rw [← hfl] at hold
          split <;> linarith
        · simp only [c1, c2, Ne.symm c1, Ne.symm c2, false_or, if_false] at hold ⊢
          split at hold <;> simp_all
    · intro j hj
      simp [hj]
  · intro j hj
    dsimp only
    rw [pset]
    split
    · exact ⟨hfs0.1, hfs0.2.le⟩
    · exact prob01 j hj
  · intro j hj
    dsimp only
    rw [aset]
    split
    · exact hln
    · exact als_lt j hj

theorem pairUp_spec {n : Nat} {f0 : Nat → K} : ∀ (fuel : Nat) (st : AliasState K), AInv n f0 st →
    st.small.length + st.large.length < fuel →
    ∃ st', pairUp fuel st = some st' ∧ AInv n f0 st' ∧ (st'.small = [] ∨ st'.large = []) := by
  intro fuel
  induction fuel with
  | zero => intro st _ h; omega
  | succ fuel ih =>
    intro st h hf
    cases hs : st.small with
    | nil => exact ⟨st, by simp [pairUp, hs], h, Or.inl hs⟩
    | cons s small =>
      cases hl : st.large with
      | nil => exact ⟨st, by simp [pairUp, hs, hl], h, Or.inr hl⟩
      | cons l large =>
        have hsn : s < n := h.lt s (by simp [hs])
        have hln : l < n := h.lt l (by simp [hl])
        have e1 := getElem?_eq_getD st.fake s 0 (by rw [h.lfake]; exact hsn)
        have e2 := getElem?_eq_getD st.fake l 0 (by rw [h.lfake]; exact hln)
        have := ih _ (h.step hs hl) (by
          rw [hs, hl] at hf
          simp only [List.length_cons] at hf
          dsimp only
          split <;> simp only [List.length_cons] <;> omega)
        obtain ⟨st', g1, g2, g3⟩ := this
        refine ⟨st', ?_, g2, g3⟩
        rw [pairUp]
        simp only [hs, hl, e1, e2, Option.bind_eq_bind, Option.bind_some]
        exact g1

theorem sum_lt_length : ∀ (l : List Nat) (f : Nat → K), l ≠ [] → (∀ i ∈ l, f i < 1) →
    (l.map f).sum < (l.length : K) := by
  intro l f
  induction l with
  | nil => intro h; exact absurd rfl h
  | cons a l ih =>
    intro _ h
    simp only [List.map_cons, List.sum_cons, List.length_cons]
    push_cast
    have ha := h a (by simp)
    by_cases e : l = []
    · subst e; simpa using ha
    · have := ih e (fun i hi => h i (by simp [hi]))
      linarith

theorem le_length_sum : ∀ (l : List Nat) (f : Nat → K), (∀ i ∈ l, 1 ≤ f i) →
    (l.length : K) ≤ (l.map f).sum ∧ ((l.map f).sum = (l.length : K) → ∀ i ∈ l, f i = 1) := by
  intro l f
  induction l with
  | nil => intro _; simp
  | cons a l ih =>
    intro h
    obtain ⟨h1, h2⟩ := ih (fun i hi => h i (by simp [hi]))
    have ha := h a (by simp)
    simp only [List.map_cons, List.sum_cons, List.length_cons]
    push_cast
    refine ⟨by linarith, ?_⟩
    intro e i hi
    rcases List.mem_cons.1 hi with rfl | hi
    · linarith
    · exact h2 (by linarith) i hi

theorem AInv.final {n : Nat} {f0 : Nat → K} {st : AliasState K} (h : AInv n f0 st)
    (hd : st.small = [] ∨ st.large = []) :
    st.small = [] ∧ ∀ i ∈ st.large, st.fake.getD i 0 = 1 := by
  have hs : st.small = [] := by
    rcases hd with hd | hd
    · exact hd
    · by_contra hne
      have := h.sum
      rw [hd, List.append_nil] at this
      exact absurd this (sum_lt_length _ _ hne (fun i hi => (h.small_lt i hi).2)).ne
  refine ⟨hs, ?_⟩
  have := h.sum
  rw [hs, List.nil_append] at this
  exact (le_length_sum _ _ h.large_ge).2 this

theorem foldl_set_one (l : List Nat) : ∀ (p : List K) (j : Nat), (∀ i ∈ l, i < p.length) →
    (l.foldl (fun p i => p.set i 1) p).getD j 0 = if j ∈ l then 1 else p.getD j 0 := by
  induction l with
  | nil => intro p j _; simp
  | cons a l ih =>
    intro p j h
    rw [List.foldl_cons, ih _ _ (fun i hi => by
      rw [List.length_set]; exact h i (by simp [hi])), getD_set _ _ _ _ _ (h a (by simp))]
    by_cases e : j ∈ l
    · simp [e]
    · by_cases e2 : j = a <;> simp [e, e2]

theorem foldl_set_length (l : List Nat) : ∀ (p : List K),
    (l.foldl (fun p i => p.set i 1) p).length = p.length := by
  induction l with
  | nil => intro p; rfl
  | cons a l ih => intro p; rw [List.foldl_cons, ih, List.length_set]

theorem classify_spec (fake : List K) : ∀ (i : Nat) (small large : List Nat), i ≤ fake.length →
    (∀ j ∈ small, i ≤ j ∧ fake.getD j 0 < 1) → (∀ j ∈ large, i ≤ j ∧ 1 ≤ fake.getD j 0) →
    ∃ s l, classify fake i small large = some (s, l) ∧
      (∀ j ∈ s, fake.getD j 0 < 1) ∧ (∀ j ∈ l, 1 ≤ fake.getD j 0) ∧
      (s ++ l).Perm (List.range i ++ (small ++ large)) := by
  intro i
  induction i with
  | zero =>
    intro small large _ h1 h2
    exact ⟨small, large, rfl, fun j hj => (h1 j hj).2, fun j hj => (h2 j hj).2, by simp⟩
  | succ i ih =>
    intro small large hi h1 h2
    have e := getElem?_eq_getD fake i 0 (by omega)
    by_cases hv : fake.getD i 0 < 1
    · obtain ⟨s, l, g1, g2, g3, g4⟩ := ih (i :: small) large (by omega)
        (by
          intro j hj
          rcases List.mem_cons.1 hj with rfl | hj
          · exact ⟨le_refl _, hv⟩
          · exact ⟨by have := (h1 j hj).1; omega, (h1 j hj).2⟩)
        (fun j hj => ⟨by have := (h2 j hj).1; omega, (h2 j hj).2⟩)
      refine ⟨s, l, ?_, g2, g3, g4.trans ?_⟩
      · rw [classify]
        simp only [e, Option.bind_eq_bind, Option.bind_some, if_pos hv]
        exact g1
      · rw [List.range_succ (n := i), List.append_assoc]
        simp
    · obtain ⟨s, l, g1, g2, g3, g4⟩ := ih small (i :: large) (by omega)
        (fun j hj => ⟨by have := (h1 j hj).1; omega, (h1 j hj).2⟩)
        (by
          intro j hj
          rcases List.mem_cons.1 hj with rfl | hj
          · exact ⟨le_refl _, not_lt.1 hv⟩
          · exact ⟨by have := (h2 j hj).1; omega, (h2 j hj).2⟩)
      refine ⟨s, l, ?_, g2, g3, g4.trans ?_⟩
      · rw [classify]
        simp only [e, Option.bind_eq_bind, Option.bind_some, if_neg hv]
        exact g1
      · rw [List.range_succ (n := i), List.append_assoc]
        refine List.Perm.append_left _ ?_
        exact List.perm_middle

theorem sum_map_getD_range (l : List K) : ((List.range l.length).map (fun i => l.getD i 0)).sum =
    l.sum := by
  congr 1
  apply List.ext_getElem
  · simp
  · intro i h1 h2
    simp [List.getD_eq_getElem?_getD, h2]

theorem sum_map_mul (l : List K) (c : K) : (l.map (· * c)).sum = l.sum * c := by
  induction l with
  | nil => simp
  | cons a l ih => simp [ih, add_mul]

theorem mass_one (n : Nat) (a : Nat → Nat) (p : Nat → K) (hp : ∀ j, j < n → p j = 1) (i : Nat)
    (hi : i < n) : mass n p a i = 1 := by
  unfold mass
  have : ∀ j ∈ Finset.range n, ((if j = i then p j else 0) + (if a j = i then 1 - p j else 0)) =
      if j = i then (1 : K) else 0 := by
    intro j hj
    rw [hp j (Finset.mem_range.1 hj)]
    simp
  rw [Finset.sum_congr rfl this]
  simp [hi]

/-- The table built for non-negative weights with positive sum. -/
theorem aliasInit_spec (w : List K) (h0 : ∀ x ∈ w, 0 ≤ x) (hs : 0 < w.sum) :
    ∃ p a, aliasInit w = some (p, a) ∧ p.length = w.length ∧ a.length = w.length ∧
      (∀ j, j < w.length → 0 ≤ p.getD j 0 ∧ p.getD j 0 ≤ 1) ∧
      (∀ j, j < w.length → a.getD j 0 < w.length) ∧
      ∀ i, i < w.length →
        mass w.length (fun j => p.getD j 0) (fun j => a.getD j 0) i =
          w.length * (w.getD i 0 / w.sum) := by
  have hne : w ≠ [] := by rintro rfl; simp at hs
  set n := w.length with hn
  have hnpos : 0 < n := by rw [hn]; exact List.length_pos_of_ne_nil hne
  set c : K := (n : K) / w.sum with hc
  have hc0 : 0 ≤ c := div_nonneg (Nat.cast_nonneg _) hs.le
  set fake := w.map (· * c) with hfake
  have hfl : fake.length = n := by simp [hfake, hn]
  obtain ⟨s, l, e1, g1, g2, g3⟩ := classify_spec fake n [] [] hfl.ge (by simp) (by simp)
  simp only [List.append_nil] at g3
  have hfg : ∀ i, i < n → fake.getD i 0 = w.getD i 0 * c := by
    intro i hi
    simp [hfake, List.getD_eq_getElem?_getD, hn ▸ hi]
  have hmem : ∀ i, i ∈ s ++ l ↔ i < n := fun i => by rw [g3.mem_iff]; simp
  let st0 : AliasState K := { fake, small := s, large := l, prob := List.replicate n 0,
                              aliases := List.replicate n 0 }
  have hrep : ∀ j : Nat, (List.replicate n (0 : K)).getD j 0 = 0 := by
    intro j; simp [List.getD_eq_getElem?_getD, List.getElem?_replicate]; split <;> rfl
  have hrep2 : ∀ j : Nat, (List.replicate n (0 : Nat)).getD j 0 = 0 := by
    intro j; simp [List.getD_eq_getElem?_getD, List.getElem?_replicate]; split <;> rfl
  have hw0 : ∀ i, i < n → 0 ≤ w.getD i 0 := by
    intro i hi
    rw [List.getD_eq_getElem?_getD, List.getElem?_eq_getElem (hn ▸ hi), Option.getD_some]
    exact h0 _ (List.getElem_mem _)
  have inv : AInv n (fun i => (n : K) * (w.getD i 0 / w.sum)) st0 := by
    refine ⟨hfl, by simp [st0], by simp [st0], g3.nodup_iff.2 List.nodup_range, ?_, ?_, ?_, ?_, ?_, ?_, ?_⟩
    · intro i hi; exact (hmem i).1 hi
    · intro i hi
      refine ⟨?_, g1 i hi⟩
      have hin : i < n := (hmem i).1 (by simp [show i ∈ s from hi])
      show 0 ≤ fake.getD i 0
      rw [hfg i hin]
      exact mul_nonneg (hw0 i hin) hc0
    · exact g2
    · show ((s ++ l).map _).sum = ((s ++ l).length : K)
      rw [(g3.map _).sum_eq, g3.length_eq, List.length_range]
      show ((List.range n).map (fun i => fake.getD i 0)).sum = _
      rw [← hfl, sum_map_getD_range, hfl, hfake, sum_map_mul, hc]
      exact mul_div_cancel₀ _ hs.ne'
    · intro i hi
      rw [mass_one n _ _ ?_ i hi]
      · rw [if_pos ((hmem i).2 hi)]
        show 1 + (fake.getD i 0 - 1) = _
        rw [hfg i hi, hc]
        ring
      · intro j hj
        show (if j ∈ s ++ l then (1 : K) else _) = 1
        rw [if_pos ((hmem j).2 hj)]
    · intro j _
      show 0 ≤ (List.replicate n (0 : K)).getD j 0 ∧ (List.replicate n (0 : K)).getD j 0 ≤ 1
      rw [hrep]; exact ⟨le_refl _, zero_le_one⟩
    · intro j _
      show (List.replicate n (0 : Nat)).getD j 0 < n
      rw [hrep2]; exact hnpos
  obtain ⟨st, e2, inv', hd⟩ := pairUp_spec (n + 1) st0 inv (by
    have := g3.length_eq
    simp only [List.length_append, List.length_range] at this
    show s.length + l.length < n + 1
    omega)
  obtain ⟨hse, hl1⟩ := inv'.final hd
  have hll : ∀ i ∈ st.large ++ st.small, i < st.prob.length := by
    intro i hi
    rw [inv'.lprob]
    apply inv'.lt
    rw [List.mem_append] at hi ⊢
    exact hi.symm
  have hp : ∀ j, ((st.large ++ st.small).foldl (fun p i => p.set i 1) st.prob).getD j 0 =
      pDone st j := by
    intro j
    rw [foldl_set_one _ _ _ hll]
    unfold pDone
    simp only [List.mem_append, or_comm]
  refine ⟨(st.large ++ st.small).foldl (fun p i => p.set i 1) st.prob, st.aliases, ?_, ?_, inv'.lals,
    ?_, inv'.als_lt, ?_⟩
  · unfold aliasInit
    have : w.isEmpty = false := by simpa using hne
    simp only [this]
    show (Option.bind (classify fake n [] []) _) = _
    rw [e1]
    show (Option.bind (pairUp (n + 1) st0) _) = _
    rw [e2]
    rfl
  · rw [foldl_set_length, inv'.lprob]
  · intro j hj
    rw [hp]
    unfold pDone
    split
    · exact ⟨zero_le_one, le_refl _⟩
    · exact inv'.prob01 j hj
  · intro i hi
    simp only [hp]
    have := inv'.mass_eq i hi
    rw [← this]
    split
    · rename_i hm
      rw [hse, List.nil_append] at hm
      rw [hl1 i hm]; simp
    · simp

end Alias

/-! ### selection -/

section Select

variable {α : Type}

theorem selectLoop_spec (n : Nat) (outcome : Nat → Nat) (hv : ValidOutcome n outcome) :
    ∀ (k i : Nat) (l : List α), i + k = n → n ≤ l.length →
      ∃ l', selectLoop outcome i k l = some l' ∧ l'.Perm l ∧ l'.length = l.length ∧
        (l'.take n).Perm (l.take n) ∧ (∀ j, j < i ∨ n ≤ j → l'[j]? = l[j]?) := by
  intro k
  induction k with
  | zero => intro i l _ _; exact ⟨l, rfl, .refl _, rfl, .refl _, fun _ _ => rfl⟩
  | succ k ih =>
    intro i l hik hl
    obtain ⟨v1, v2⟩ := hv i (by omega)
    obtain ⟨l1, e1, p1, q1, q2, q3⟩ := swap_some (l := l) (i := i) (j := outcome i) (by omega) (by omega)
    have hlen : l1.length = l.length := p1.length_eq
    obtain ⟨l', e2, p2, hlen2, p3, q4⟩ := ih (i + 1) l1 (by omega) (by omega)
    -- the part after n is untouched by the swap
    have hdrop : l1.drop n = l.drop n := by
      apply List.ext_getElem?
      intro j
      rw [List.getElem?_drop, List.getElem?_drop, q3 _ (by omega) (by omega)]
    have p4 : (l1.take n).Perm (l.take n) := by
      have := p1
      rw [← List.take_append_drop n l1, ← List.take_append_drop n l, hdrop] at this
      exact (List.perm_append_right_iff _).1 this
    refine ⟨l', ?_, p2.trans p1, hlen2.trans hlen, p3.trans p4, ?_⟩
    · rw [selectLoop]; simp only [e1, Option.bind_eq_bind, Option.bind_some]; exact e2
    · intro j hj
      rw [q4 j (by omega)]
      exact q3 j (by omega) (by omega)

/-- Any arrangement of the part still open can be reached. -/
theorem selectLoop_reach (n : Nat) : ∀ (k i : Nat) (l t : List α), i + k = n → n ≤ l.length →
    t.Perm ((l.take n).drop i) →
    ∃ outcome, ValidOutcome n outcome ∧ ∃ l', selectLoop outcome i k l = some l' ∧
      (l'.take n).drop i = t := by
  intro k
  induction k with
  | zero =>
    intro i l t hik hl ht
    refine ⟨id, fun j hj => ⟨le_refl _, hj⟩, l, rfl, ?_⟩
    have : (l.take n).drop i = [] := by apply List.drop_eq_nil_of_le; simp; omega
    rw [this] at ht ⊢
    exact (List.perm_nil.1 ht).symm
  | succ k ih =>
    intro i l t hik hl ht
    have hlen : ((l.take n).drop i).length = k + 1 := by simp; omega
    cases t with
    | nil => have := ht.length_eq; rw [hlen] at this; simp at this
    | cons a t =>
      have ha : a ∈ (l.take n).drop i := ht.subset (by simp)
      obtain ⟨m, hm, hma⟩ := List.getElem_of_mem ha
      rw [hlen] at hm
      have hma' : l[i + m]? = some a := by
        rw [← hma, ← List.getElem?_eq_getElem, List.getElem?_drop, List.getElem?_take]
        rw [if_pos (by omega)]
      obtain ⟨l1, e1, p1, q1, q2, q3⟩ := swap_some (l := l) (i := i) (j := i + m) (by omega) (by omega)
      have hlen1 : l1.length = l.length := p1.length_eq
      -- the open part of l1 is a permutation of the open part of l, starting with a
      have htk : l1.take i = l.take i := by
        apply List.ext_getElem?
        intro j
        rw [List.getElem?_take, List.getElem?_take]
        split
        · exact q3 j (by omega) (by omega)
        · rfl
      have hdr : l1.drop n = l.drop n := by
        apply List.ext_getElem?
        intro j
        rw [List.getElem?_drop, List.getElem?_drop, q3 _ (by omega) (by omega)]
      have hsplit : ∀ x : List α, x = x.take i ++ ((x.take n).drop i ++ x.drop n) := by
        intro x
        have h1 : x.take n = x.take i ++ (x.take n).drop i := by
          conv_lhs => rw [← List.take_append_drop i (x.take n)]
          rw [List.take_take, min_eq_left (by omega)]
        conv_lhs => rw [← List.take_append_drop n x, h1]
        rw [List.append_assoc]
      have pmid : ((l1.take n).drop i).Perm ((l.take n).drop i) := by
        have := p1
        rw [hsplit l1, hsplit l, htk, hdr] at this
        exact (List.perm_append_right_iff _).1 ((List.perm_append_left_iff _).1 this)
      have hcons : (l1.take n).drop i = a :: (l1.take n).drop (i + 1) := by
        have hi : i < (l1.take n).length := by simp; omega
        rw [List.drop_eq_getElem_cons hi]
        congr 1
        have : (l1.take n)[i]? = some a := by
          rw [List.getElem?_take, if_pos (by omega), q1, hma']
        rw [List.getElem?_eq_getElem hi] at this
        exact Option.some.inj this
      have ht' : t.Perm ((l1.take n).drop (i + 1)) := by
        have := ht.trans pmid.symm
        rw [hcons] at this
        exact this.cons_inv
      obtain ⟨o, ho, l', e2, g⟩ := ih (i + 1) l1 t (by omega) (by omega) ht'
      refine ⟨fun j => if j = i then i + m else o j, ?_, l', ?_, ?_⟩
      · intro j hj
        dsimp only
        split
        · omega
        · exact ho j hj
      · rw [selectLoop]
        simp only [if_true, e1, Option.bind_eq_bind, Option.bind_some]
        rw [← e2]
        have hcongr : ∀ (k' i' : Nat) (x : List α), i < i' →
            selectLoop (fun j => if j = i then i + m else o j) i' k' x = selectLoop o i' k' x := by
          intro k'
          induction k' with
          | zero => intro i' x _; rfl
          | succ k' ihk =>
            intro i' x hi'
            rw [selectLoop, selectLoop]
            rw [if_neg (by omega)]
            cases swap x i' (o i') with
            | none => rfl
            | some y => exact ihk _ _ (by omega)
        exact hcongr _ _ _ (by omega)
      · obtain ⟨l'', e3, _, hl3, _, q4⟩ := selectLoop_spec n o ho k (i + 1) l1 (by omega) (by omega)
        rw [e2] at e3
        have := Option.some.inj e3
        subst this
        have hi : i < (l'.take n).length := by simp; omega
        rw [List.drop_eq_getElem_cons hi, g]
        congr 1
        have : (l'.take n)[i]? = some a := by
          rw [List.getElem?_take, if_pos (by omega), q4 i (by omega), q1, hma']
        rw [List.getElem?_eq_getElem hi] at this
        exact Option.some.inj this

end Select

end Verif.Random
