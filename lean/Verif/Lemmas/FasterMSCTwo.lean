import Verif.Lemmas.FasterMSCSafe
import Mathlib.Data.Set.Finite.Lattice

/-
Lemmas on kmedoids/FasterMSC.hpp with two medoids, whatever the buffers hold: an exchange lowers the
reported loss to the predicted value, and only finitely many exchanges are made.
-/

namespace Verif.KMedoids

open Spec

set_option linter.unusedSectionVars false

variable {K : Type} [LinearOrder K] [Field K]

/-- The record of sample `o`. -/
def recOf (buf : List (Rec3 K)) (o : Nat) : Rec3 K := (buf[o]?).getD ⟨0, 0, 0, 0, 0, 0⟩

/-- The term that `find_best_swap_k2` adds for sample `o` at position `b`. -/
def term2 (dv : K → K → K) (d : Nat → Nat → K) (buf : List (Rec3 K)) (c b o : Nat) : K :=
  let x := if b = 0 then (recOf buf o).d2 else (recOf buf o).d1
  if d c o < x then dv (d c o) x else dv x (d c o)

theorem swapGainLoop2_terms (dv : K → K → K) (d : Nat → Nat → K) (buf : List (Rec3 K)) (c : Nat)
    (os : List Nat) : ∀ a0 a1 : K, (∀ o ∈ os, o < buf.length) →
    swapGainLoop2 dv d buf c os (a0, a1) =
      some (a0 + (os.map (term2 dv d buf c 0)).sum, a1 + (os.map (term2 dv d buf c 1)).sum) := by
  induction os with
  | nil => intro a0 a1 _; simp [swapGainLoop2]
  | cons o os ih =>
    intro a0 a1 ho
    have ho1 := List.getElem?_eq_getElem (ho o (by simp))
    simp only [swapGainLoop2, ho1, Option.bind_eq_bind, Option.bind_some]
    rw [ih _ _ (fun q hq => ho q (by simp [hq]))]
    simp only [List.map_cons, List.sum_cons, ← add_assoc, term2, recOf, ho1, Option.getD_some, if_true,
      if_neg (show ¬(1 : Nat) = 0 by omega)]

theorem findBestSwap2_terms (dv : K → K → K) (d : Nat → Nat → K) {n : Nat} {s : MState K}
    (h : s.buf.length = n) (c : Nat) : ∃ b, b < 2 ∧
      findBestSwap2 dv d n s c = some (((List.range n).map (term2 dv d s.buf c b)).sum, b) := by
  have e := swapGainLoop2_terms dv d s.buf c (List.range n) 0 0
    (fun o ho => by rw [h]; exact List.mem_range.1 ho)
  rw [zero_add, zero_add] at e
  obtain ⟨i, v, e2, hi, -⟩ := Stats.minPair_spec [((List.range n).map (term2 dv d s.buf c 0)).sum,
    ((List.range n).map (term2 dv d s.buf c 1)).sum] (by simp)
  have hi2 : i < 2 := by have := lt_of_some hi; simpa using this
  refine ⟨i, hi2, ?_⟩
  simp only [findBestSwap2, e, Option.bind_eq_bind, Option.bind_some, e2, zero_add, Option.some.injEq,
    Prod.mk.injEq, and_true]
  rcases (by omega : i = 0 ∨ i = 1) with rfl | rfl
  · simpa using hi.symm
  · simpa using hi.symm

theorem division_zero' (eq : K → K → Bool) (x : K) : division eq 0 x = 0 := by
  unfold division; split <;> simp

/-- The loss that `swap_buffers_k2` adds for a sample is the term predicted. -/
theorem swapSample2_loss (eq : K → K → Bool) (heq : ∀ a b, eq a b = true → a = b) (d : Nat → Nat → K)
    {n c b o : Nat} (hd : IsTable d n) (hc : c < n) (ho : o < n) (hb : b < 2) (buf : List (Rec3 K))
    (h1 : 0 ≤ (recOf buf o).d1) (h2 : 0 ≤ (recOf buf o).d2) :
    (swapSample2 eq (division eq) (decide (o = c)) (d c o) b (recOf buf o)).2 =
      term2 (division eq) d buf c b o := by
  unfold swapSample2 term2
  generalize recOf buf o = r at h1 h2
  by_cases hoc : o = c
  · subst hoc
    simp only [decide_true, if_true, hd.2 o hc]
    have key : ∀ x : K, 0 ≤ x → (0 : K) = if 0 < x then division eq 0 x else division eq x 0 := by
      intro x hx
      split
      · exact (division_zero' eq x).symm
      · rename_i hn
        rw [le_antisymm (not_lt.1 hn) hx]
        exact (division_zero' eq 0).symm
    split
    · exact key _ h2
    · exact key _ h1
  · simp only [hoc, decide_false, Bool.false_eq_true, if_false]
    have key : ∀ (x y : K) (p : Prop) [Decidable p] (r1 r2 : Rec3 K),
        (if x < y ∨ (eq x y = true ∧ p) then (r1, division eq x y) else (r2, division eq y x)).2 =
          if x < y then division eq x y else division eq y x := by
      intro x y p _ r1 r2
      by_cases hlt : x < y
      · rw [if_pos (Or.inl hlt), if_pos hlt]
      · rw [if_neg hlt]
        split
        · rename_i h
          rcases h with h | h
          · exact absurd h hlt
          · rw [heq _ _ h.1]
        · rfl
    split
    · exact key _ _ _ _ _
    · exact key _ _ _ _ _

/-- The distances cached are among the values `V`. -/
def Cached (V : Set K) (buf : List (Rec3 K)) : Prop := ∀ r ∈ buf, r.d1 ∈ V ∧ r.d2 ∈ V

/-- The values that the loss can take with `n` samples and distances among `V`. -/
def losses (dv : K → K → K) (V : Set K) (n : Nat) : Set K :=
  List.sum '' {l : List K | l.length = n ∧ ∀ x ∈ l, x ∈ Set.image2 dv V V}

theorem finite_lists {A : Type} {S : Set A} (hS : S.Finite) (n : Nat) :
    {l : List A | l.length = n ∧ ∀ x ∈ l, x ∈ S}.Finite := by
  induction n with
  | zero =>
    refine (Set.finite_singleton []).subset ?_
    rintro l ⟨hl, -⟩
    exact List.length_eq_zero_iff.1 hl
  | succ n ih =>
    refine (Set.Finite.image2 List.cons hS ih).subset ?_
    rintro l ⟨hl, hx⟩
    cases l with
    | nil => simp at hl
    | cons a l =>
      exact ⟨a, hx a (by simp), l, ⟨by simpa using hl, fun x h => hx x (by simp [h])⟩, rfl⟩

theorem losses_finite (dv : K → K → K) {V : Set K} (hV : V.Finite) (n : Nat) : (losses dv V n).Finite :=
  (finite_lists (Set.Finite.image2 dv hV hV) n).image _

theorem recOf_mem {buf : List (Rec3 K)} {o : Nat} (h : o < buf.length) : recOf buf o ∈ buf := by
  simp [recOf, List.getElem?_eq_getElem h]

/-- One candidate, two medoids: nothing changes, or the loss strictly decreases. -/
theorem tryCandidate3_two (eq : K → K → Bool) (heq : ∀ a b, eq a b = true → a = b) (d : Nat → Nat → K)
    {n : Nat} {s : MState K} (hd : IsTable d n) (V : Set K) (hV0 : 0 ∈ V) (hVp : ∀ x ∈ V, 0 ≤ x)
    (hVd : ∀ i o, i < n → o < n → d i o ∈ V) (h : MOK n 2 s) (hb : Cached V s.buf) (c : Nat) (hc : c < n) :
    ∃ s', tryCandidate3 eq d n s c = some s' ∧ MOK n 2 s' ∧ Cached V s'.buf ∧
      (s' = s ∨ (s'.loss < s.loss ∧ s'.loss ∈ losses (division eq) V n)) := by
  obtain ⟨s', e, h'⟩ := tryCandidate3_within eq d h c hc
  refine ⟨s', e, h', ?_⟩
  have hc' : c < s.buf.length := by rw [h.len]; exact hc
  simp only [tryCandidate3, List.getElem?_eq_getElem hc', Option.bind_eq_bind, Option.bind_some, h.num,
    if_true] at e
  split at e
  · obtain rfl := Option.some.inj e
    exact ⟨hb, Or.inl rfl⟩
  · obtain ⟨b, hb2, e1⟩ := findBestSwap2_terms (division eq) d h.len c
    simp only [e1, Option.bind_some] at e
    split at e
    · rename_i hlt
      obtain ⟨g, hg, e2⟩ := swapBuffers2_eq eq (division eq) d s.buf c b h.len
      simp only [e2, Option.bind_some, Option.some.injEq] at e
      subst e
      have hgo : ∀ o, o < n → g o = swapSample2 eq (division eq) (decide (o = c)) (d c o) b (recOf s.buf o) := by
        intro o ho
        have ho' : o < s.buf.length := by rw [h.len]; exact ho
        rw [hg o _ (List.getElem?_eq_getElem ho'), recOf, List.getElem?_eq_getElem ho']
        rfl
      have hrec : ∀ o, o < n → (recOf s.buf o).d1 ∈ V ∧ (recOf s.buf o).d2 ∈ V :=
        fun o ho => hb _ (recOf_mem (by rw [h.len]; exact ho))
      have hl : ((List.range n).map g).map (·.2) = (List.range n).map (term2 (division eq) d s.buf c b) := by
        rw [List.map_map]
        refine List.map_congr_left fun o ho => ?_
        have ho := List.mem_range.1 ho
        rw [Function.comp, hgo o ho]
        exact swapSample2_loss eq heq d hd hc ho hb2 s.buf (hVp _ (hrec o ho).1) (hVp _ (hrec o ho).2)
      refine ⟨?_, Or.inr ⟨by dsimp only; rw [hl]; exact hlt, ?_⟩⟩
      · intro r hr
        simp only [List.map_map, List.mem_map, List.mem_range, Function.comp] at hr
        obtain ⟨o, ho, rfl⟩ := hr
        rw [hgo o ho]
        obtain ⟨r1, r2⟩ := hrec o ho
        have r3 := hVd c o hc ho
        unfold swapSample2
        repeat' split
        all_goals first
          | exact ⟨hV0, hV0⟩ | exact ⟨r3, r2⟩ | exact ⟨r1, r3⟩
      · refine ⟨_, ⟨?_, ?_⟩, rfl⟩
        · simp
        · intro x hx
          rw [hl] at hx
          obtain ⟨o, ho, rfl⟩ := List.mem_map.1 hx
          have ho := List.mem_range.1 ho
          obtain ⟨r1, r2⟩ := hrec o ho
          have r3 := hVd c o hc ho
          unfold term2
          dsimp only
          have hx : (if b = 0 then (recOf s.buf o).d2 else (recOf s.buf o).d1) ∈ V := by
            split <;> assumption
          generalize (if b = 0 then (recOf s.buf o).d2 else (recOf s.buf o).d1) = x at hx
          split
          · exact ⟨_, r3, _, hx, rfl⟩
          · exact ⟨_, hx, _, r3, rfl⟩
    · obtain rfl := Option.some.inj e
      exact ⟨hb, Or.inl rfl⟩

theorem stepLoop3_two (eq : K → K → Bool) (heq : ∀ a b, eq a b = true → a = b) (d : Nat → Nat → K)
    {n : Nat} (hd : IsTable d n) (V : Set K) (hV0 : 0 ∈ V) (hVp : ∀ x ∈ V, 0 ≤ x)
    (hVd : ∀ i o, i < n → o < n → d i o ∈ V) (cs : List Nat) : ∀ s : MState K, (∀ c ∈ cs, c < n) →
    MOK n 2 s → Cached V s.buf →
    ∃ s', stepLoop3 eq d n cs s = some s' ∧ MOK n 2 s' ∧ Cached V s'.buf ∧
      (s' = s ∨ (s'.loss < s.loss ∧ s'.loss ∈ losses (division eq) V n)) := by
  induction cs with
  | nil => intro s _ h hb; exact ⟨s, rfl, h, hb, Or.inl rfl⟩
  | cons c cs ih =>
    intro s hc h hb
    obtain ⟨s1, e1, h1, b1, o1⟩ := tryCandidate3_two eq heq d hd V hV0 hVp hVd h hb c (hc c (by simp))
    obtain ⟨s2, e2, h2, b2, o2⟩ := ih s1 (fun q hq => hc q (by simp [hq])) h1 b1
    refine ⟨s2, by simp only [stepLoop3, e1, Option.bind_eq_bind, Option.bind_some, e2], h2, b2, ?_⟩
    rcases o2 with rfl | o2
    · exact o1
    · rcases o1 with rfl | o1
      · exact Or.inr o2
      · exact Or.inr ⟨o2.1.trans o1.1, o2.2⟩

theorem firstLoop_value (l : List K) (P : K → Prop) : ∀ (j : Nat) (a : Nat × K), P a.2 → (∀ v ∈ l, P v) →
    P (firstLoop j l a).2 := by
  induction l with
  | nil => intro j a h _; exact h
  | cons v vs ih =>
    intro j a h hl
    rw [firstLoop]
    split
    · exact ih _ _ (hl v (by simp)) fun w hw => hl w (by simp [hw])
    · exact ih _ _ h fun w hw => hl w (by simp [hw])

theorem secondLoop_value (eq : K → K → Bool) (l : List K) (P : K → Prop) : ∀ (j : Nat) (r : Rec K), P r.d1 →
    P r.d2 → (∀ v ∈ l, P v) → P (secondLoop eq j l r).d2 := by
  induction l with
  | nil => intro j r _ h _; exact h
  | cons v vs ih =>
    rintro j ⟨i1, d1, i2, d2⟩ h1 h2 hl
    have hv := hl v (by simp)
    have hvs : ∀ w ∈ vs, P w := fun w hw => hl w (by simp [hw])
    rw [secondLoop]
    split
    · exact ih _ _ hv h1 hvs
    split
    · exact ih _ _ h1 hv hvs
    · exact ih _ _ h1 h2 hvs

theorem mscInit_cached (vmax : K) (eq : K → K → Bool) (d : Nat → Nat → K) (n : Nat) (ms : List Nat)
    (hk : ms.length = 2) (hms : ∀ m ∈ ms, m < n) (V : Set K) (hm : vmax ∈ V)
    (hVd : ∀ i o, i < n → o < n → d i o ∈ V) (s : MState K) (e : mscInit vmax eq d n ms = some s) :
    Cached V s.buf := by
  have hne : ms ≠ [] := by rintro rfl; simp at hk
  simp only [mscInit, nthIndices, nthDistances, if_neg (show ¬((1 : Nat) = 0 ∨ ms.length < 1) by omega),
    if_neg hne, if_true, if_neg (show ¬((2 : Nat) = 0 ∨ ms.length < 2) by omega),
    if_neg (show ¬(2 : Nat) = 1 by omega), nearestIndices, nearestDistances, Option.bind_eq_bind,
    Option.bind_some, if_neg (show ¬2 < ms.length by omega)] at e
  let g : Nat → Rec3 K := fun o => ⟨(first vmax (row d ms o)).1, (first vmax (row d ms o)).2, 0,
    (second vmax eq (row d ms o)).d2, 0, 0⟩
  rw [KMeans.mapM_some _ g _ (fun o ho => by
    simp [List.getElem?_range (List.mem_range.1 ho), g])] at e
  simp only [Option.bind_some, Option.some.injEq] at e
  subst e
  intro r hr
  obtain ⟨o, ho, rfl⟩ := List.mem_map.1 hr
  have ho := List.mem_range.1 ho
  have hrow : ∀ v ∈ row d ms o, v ∈ V := by
    intro v hv
    obtain ⟨m, hm, rfl⟩ := List.mem_map.1 hv
    exact hVd m o (hms m hm) ho
  exact ⟨firstLoop_value _ (· ∈ V) 0 _ hm hrow, secondLoop_value eq _ (· ∈ V) 0 _ hm hm hrow⟩

end Verif.KMedoids
