import Verif.Lemmas.FasterMSC
import Mathlib.Data.Set.Finite.Lattice
import Mathlib.Data.Set.Finite.List

/-
Lemmas on kmedoids/FasterMSC.hpp without any assumption on ties or on the content of the buffers: no
access out of a vector, and with two medoids every exchange lowers the reported loss.
-/

namespace Verif.KMedoids

open Spec

set_option linter.unusedSectionVars false

variable {K : Type} [LinearOrder K] [Field K]

/-- The three positions are positions of medoids. -/
def Rec3.Within (k : Nat) (r : Rec3 K) : Prop := r.i1 < k ∧ r.i2 < k ∧ r.i3 < k

/-- The shape of the members of `FasterMSC`. -/
structure MOK (n k : Nat) (s : MState K) : Prop where
  two : 2 ≤ k
  num : s.medoids.length = k
  range : ∀ m ∈ s.medoids, m < n
  len : s.buf.length = n
  recs : ∀ r ∈ s.buf, r.Within k
  rem : k ≠ 2 → s.removal.length = k

theorem addAt_within (l : List K) (i : Nat) (v : K) (hi : i < l.length) :
    ∃ l', addAt l i v = some l' ∧ l'.length = l.length := by
  simp only [addAt, List.getElem?_eq_getElem hi, Option.bind_eq_bind, Option.bind_some]
  exact ⟨_, rfl, by simp⟩

theorem firstLoop_within (k : Nat) (l : List K) : ∀ (j : Nat) (a : Nat × K), j + l.length ≤ k → a.1 < k →
    (firstLoop j l a).1 < k := by
  induction l with
  | nil => intro j a _ h; exact h
  | cons v vs ih =>
    intro j a hj h
    rw [List.length_cons] at hj
    rw [firstLoop]
    split
    · exact ih _ _ (by omega) (by dsimp only; omega)
    · exact ih _ _ (by omega) h

theorem thirdLoop_within (eq : K → K → Bool) (k : Nat) (l : List K) : ∀ (j : Nat) (r : Rec3 K),
    j + l.length ≤ k → r.Within k → (thirdLoop eq j l r).Within k := by
  induction l with
  | nil => intro j a _ h; exact h
  | cons v vs ih =>
    rintro j ⟨i1, d1, i2, d2, i3, d3⟩ hj ⟨h1, h2, h3⟩
    rw [List.length_cons] at hj
    dsimp only at h1 h2 h3
    rw [thirdLoop]
    split
    · exact ih _ _ (by omega) ⟨by dsimp only; omega, h1, h2⟩
    split
    · exact ih _ _ (by omega) ⟨h1, by dsimp only; omega, h2⟩
    split
    · exact ih _ _ (by omega) ⟨h1, h2, by dsimp only; omega⟩
    · exact ih _ _ (by omega) ⟨h1, h2, h3⟩

theorem row_length (d : Nat → Nat → K) (ms : List Nat) (o : Nat) : (row d ms o).length = ms.length := by
  simp [row]

theorem first_within (vmax : K) (l : List K) (hl : l ≠ []) : (first vmax l).1 < l.length :=
  firstLoop_within _ l 0 _ (by omega) (List.length_pos_iff.2 hl)

theorem third_within (vmax : K) (eq : K → K → Bool) (l : List K) (hl : l ≠ []) :
    (third vmax eq l).Within l.length := by
  have := List.length_pos_iff.2 hl
  exact thirdLoop_within eq _ l 0 _ (by omega) ⟨this, this, this⟩

theorem second_within (vmax : K) (eq : K → K → Bool) (l : List K) (hl : l ≠ []) :
    (second vmax eq l).i2 < l.length := by
  have h := third_within vmax eq l hl
  have e : (⟨(third vmax eq l).i1, (third vmax eq l).d1, (third vmax eq l).i2,
      (third vmax eq l).d2⟩ : Rec K) = second vmax eq l := thirdLoop_two eq l 0 _
  rw [← e]
  exact h.2.1

theorem removalLoop3_within (dv : K → K → K) (k : Nat) (rs : List (Rec3 K)) : ∀ acc : List K,
    acc.length = k → (∀ r ∈ rs, r.Within k) →
    ∃ acc', removalLoop3 dv rs acc = some acc' ∧ acc'.length = k := by
  induction rs with
  | nil => intro acc h _; exact ⟨acc, rfl, h⟩
  | cons r rs ih =>
    intro acc h hr
    obtain ⟨h1, h2, _⟩ := hr r (by simp)
    obtain ⟨a1, e1, l1⟩ := addAt_within acc r.i1 (dv r.d1 r.d2 - dv r.d2 r.d3) (by omega)
    obtain ⟨a2, e2, l2⟩ := addAt_within a1 r.i2 (dv r.d1 r.d2 - dv r.d1 r.d3) (by omega)
    simp only [removalLoop3, e1, e2, Option.bind_eq_bind, Option.bind_some]
    exact ih a2 (by omega) (fun q hq => hr q (by simp [hq]))

theorem removal3_within (dv : K → K → K) (k : Nat) (rs : List (Rec3 K)) (h : ∀ r ∈ rs, r.Within k) :
    ∃ acc', removal3 dv k rs = some acc' ∧ acc'.length = k :=
  removalLoop3_within dv k rs _ (by simp) h

/-- The constructor. -/
theorem mscInit_within (vmax : K) (eq : K → K → Bool) (d : Nat → Nat → K) (n : Nat) (ms : List Nat)
    (hk : 2 ≤ ms.length) (hms : ∀ m ∈ ms, m < n) :
    ∃ s, mscInit vmax eq d n ms = some s ∧ s.medoids = ms ∧ MOK n ms.length s := by
  have hne : ms ≠ [] := by rintro rfl; simp at hk
  have hrow : ∀ o, row d ms o ≠ [] := fun o => by simp [row, hne]
  unfold mscInit nthIndices nthDistances
  simp only [if_neg (show ¬((1 : Nat) = 0 ∨ ms.length < 1) by omega), if_neg hne, if_true,
    if_neg (show ¬((2 : Nat) = 0 ∨ ms.length < 2) by omega), if_neg (show ¬(2 : Nat) = 1 by omega),
    nearestIndices, nearestDistances, Option.bind_eq_bind, Option.bind_some]
  by_cases h3 : 2 < ms.length
  · simp only [if_pos h3, if_neg (show ¬((3 : Nat) = 0 ∨ ms.length < 3) by omega),
      if_neg (show ¬(3 : Nat) = 1 by omega), if_neg (show ¬(3 : Nat) = 2 by omega), Option.bind_some]
    let g : Nat → Rec3 K := fun o => ⟨(first vmax (row d ms o)).1, (first vmax (row d ms o)).2,
      (second vmax eq (row d ms o)).i2, (second vmax eq (row d ms o)).d2,
      (third vmax eq (row d ms o)).i3, (third vmax eq (row d ms o)).d3⟩
    rw [KMeans.mapM_some _ g _ (fun o ho => by
      simp [List.getElem?_range (List.mem_range.1 ho), g])]
    have hw : ∀ r ∈ (List.range n).map g, r.Within ms.length := by
      intro r hr
      obtain ⟨o, -, rfl⟩ := List.mem_map.1 hr
      have e := row_length d ms o
      exact ⟨by rw [← e]; exact first_within vmax _ (hrow o), by rw [← e]; exact second_within vmax eq _ (hrow o),
        by rw [← e]; exact (third_within vmax eq _ (hrow o)).2.2⟩
    obtain ⟨rem, e, hl⟩ := removal3_within (division eq) _ _ hw
    simp only [Option.bind_some, e]
    exact ⟨_, rfl, rfl, hk, rfl, hms, by simp, hw, fun _ => hl⟩
  · simp only [if_neg h3]
    let g : Nat → Rec3 K := fun o => ⟨(first vmax (row d ms o)).1, (first vmax (row d ms o)).2, 0,
      (second vmax eq (row d ms o)).d2, 0, 0⟩
    rw [KMeans.mapM_some _ g _ (fun o ho => by
      simp [List.getElem?_range (List.mem_range.1 ho), g])]
    refine ⟨_, rfl, rfl, hk, rfl, hms, by simp, ?_, fun h => absurd h (by omega)⟩
    intro r hr
    obtain ⟨o, -, rfl⟩ := List.mem_map.1 hr
    have e := row_length d ms o
    exact ⟨by rw [← e]; exact first_within vmax _ (hrow o), by dsimp only [g]; omega, by dsimp only [g]; omega⟩

theorem swapGainLoop3_within (dv : K → K → K) (d : Nat → Nat → K) (buf : List (Rec3 K)) (c k : Nat)
    (hb : ∀ r ∈ buf, r.Within k) (os : List Nat) : ∀ (mi : List K) (xc : K), mi.length = k →
    (∀ o ∈ os, o < buf.length) →
    ∃ p, swapGainLoop3 dv d buf c os mi xc = some p ∧ p.1.length = k := by
  induction os with
  | nil => intro mi xc h _; exact ⟨(mi, xc), rfl, h⟩
  | cons o os ih =>
    intro mi xc h ho
    have ho1 := ho o (by simp)
    have hos : ∀ q ∈ os, q < buf.length := fun q hq => ho q (by simp [hq])
    obtain ⟨h1, h2, _⟩ := hb _ (List.getElem_mem ho1)
    rw [swapGainLoop3, List.getElem?_eq_getElem ho1]
    generalize buf[o] = r at h1 h2
    have two : ∀ x y z, ∃ p, (do
        let mi' ← addAt mi r.i1 x
        let mi'' ← addAt mi' r.i2 y
        swapGainLoop3 dv d buf c os mi'' z) = some p ∧ p.1.length = k := by
      intro x y z
      obtain ⟨a1, e1, l1⟩ := addAt_within mi r.i1 x (by omega)
      obtain ⟨a2, e2, l2⟩ := addAt_within a1 r.i2 y (by omega)
      simp only [e1, e2, Option.bind_eq_bind, Option.bind_some]
      exact ih a2 z (by omega) hos
    simp only [Option.bind_eq_bind, Option.bind_some] at two ⊢
    split
    · exact two _ _ _
    split
    · exact two _ _ _
    split
    · exact two _ _ _
    · exact ih _ _ h hos

theorem findBestSwap3_within (dv : K → K → K) (d : Nat → Nat → K) {n k : Nat} {s : MState K}
    (h : MOK n k s) (hk : k ≠ 2) (c : Nat) : ∃ v i, findBestSwap3 dv d n s c = some (v, i) ∧ i < k := by
  obtain ⟨⟨mi, xc⟩, e, hl⟩ := swapGainLoop3_within dv d s.buf c k h.recs (List.range n) s.removal 0
    (h.rem hk) (fun o ho => by rw [h.len]; exact List.mem_range.1 ho)
  obtain ⟨i, v, e2, hi, -⟩ := Stats.maxPair_spec mi (by
    rintro rfl
    have := h.two
    simp at hl
    omega)
  dsimp only at hl
  refine ⟨xc + v, i, ?_, by have := lt_of_some hi; omega⟩
  simp only [findBestSwap3, e, Option.bind_eq_bind, Option.bind_some, e2]

theorem swapGainLoop2_within (dv : K → K → K) (d : Nat → Nat → K) (buf : List (Rec3 K)) (c : Nat)
    (os : List Nat) : ∀ acc : K × K, (∀ o ∈ os, o < buf.length) →
    ∃ p, swapGainLoop2 dv d buf c os acc = some p := by
  induction os with
  | nil => intro acc _; exact ⟨acc, rfl⟩
  | cons o os ih =>
    rintro ⟨a0, a1⟩ ho
    simp only [swapGainLoop2, List.getElem?_eq_getElem (ho o (by simp)), Option.bind_eq_bind,
      Option.bind_some]
    exact ih _ (fun q hq => ho q (by simp [hq]))

theorem findBestSwap2_within (dv : K → K → K) (d : Nat → Nat → K) {n : Nat} {s : MState K}
    (h : s.buf.length = n) (c : Nat) : ∃ v i, findBestSwap2 dv d n s c = some (v, i) ∧ i < 2 := by
  obtain ⟨⟨a0, a1⟩, e⟩ := swapGainLoop2_within dv d s.buf c (List.range n) (0, 0)
    (fun o ho => by rw [h]; exact List.mem_range.1 ho)
  obtain ⟨i, v, e2, hi, -⟩ := Stats.minPair_spec [a0, a1] (by simp)
  refine ⟨0 + v, i, ?_, by have := lt_of_some hi; simpa using this⟩
  simp only [findBestSwap2, e, Option.bind_eq_bind, Option.bind_some, e2]

theorem refillLoop3_within (i1 i2 b k : Nat) (l : List K) : ∀ (j : Nat) (a : Nat × K), j + l.length ≤ k →
    a.1 < k → (refillLoop3 i1 i2 b j l a).1 < k := by
  induction l with
  | nil => intro j a _ h; exact h
  | cons v vs ih =>
    rintro j ⟨it, dt⟩ hj h
    rw [List.length_cons] at hj
    rw [refillLoop3]
    split
    · split
      · exact ih _ _ (by omega) (by dsimp only; omega)
      · exact ih _ _ (by omega) h
    · exact ih _ _ (by omega) h

theorem swapSample3_within (l : List K) (own : Bool) (doc : K) (b k : Nat) (r : Rec3 K) (hl : l.length = k)
    (hb : b < k) (h : r.Within k) : (swapSample3 l own doc b r).Within k := by
  obtain ⟨h1, h2, h3⟩ := h
  have hr : ∀ i j, (refillLoop3 i j b 0 l (b, doc)).1 < k := fun i j =>
    refillLoop3_within i j b k l 0 _ (by omega) hb
  unfold swapSample3
  dsimp only
  repeat' split
  all_goals first
    | exact ⟨hb, h1, h2⟩ | exact ⟨hb, h1, h3⟩ | exact ⟨hb, h2, h3⟩ | exact ⟨h2, hb, h3⟩
    | exact ⟨h2, h3, hr _ _⟩ | exact ⟨h1, hb, h3⟩ | exact ⟨h1, h3, hr _ _⟩ | exact ⟨h1, hb, h2⟩
    | exact ⟨h1, h2, hb⟩ | exact ⟨h1, h2, hr _ _⟩ | exact ⟨h1, h2, h3⟩

theorem lossLoop3_within (dv : K → K → K) (buf : List (Rec3 K)) (c : Nat) (os : List Nat) : ∀ acc : K,
    (∀ o ∈ os, o < buf.length) → ∃ v, lossLoop3 dv buf c os acc = some v := by
  induction os with
  | nil => intro acc _; exact ⟨acc, rfl⟩
  | cons o os ih =>
    intro acc ho
    have hos : ∀ q ∈ os, q < buf.length := fun q hq => ho q (by simp [hq])
    rw [lossLoop3]
    split
    · exact ih _ hos
    · simp only [List.getElem?_eq_getElem (ho o (by simp)), Option.bind_eq_bind, Option.bind_some]
      exact ih _ hos

theorem swapBuffers3_within (dv : K → K → K) (d : Nat → Nat → K) {n k : Nat} (ms : List Nat)
    (buf : List (Rec3 K)) (c b : Nat) (hm : ms.length = k) (hl : buf.length = n) (hb : b < k)
    (h : ∀ r ∈ buf, r.Within k) :
    ∃ buf' v, swapBuffers3 dv d n ms buf c b = some (buf', v) ∧ buf'.length = n ∧ ∀ r ∈ buf', r.Within k := by
  let g : Nat → Rec3 K := fun o =>
    swapSample3 (row d ms o) (decide (o = c)) (d c o) b ((buf[o]?).getD ⟨0, 0, 0, 0, 0, 0⟩)
  have e : (List.range n).mapM (fun o => (buf[o]?).bind fun r =>
      pure (swapSample3 (row d ms o) (decide (o = c)) (d c o) b r)) = some ((List.range n).map g) := by
    apply KMeans.mapM_some
    intro o ho
    have ho' : o < buf.length := by rw [hl]; exact List.mem_range.1 ho
    simp only [List.getElem?_eq_getElem ho', Option.bind_some, g, Option.getD_some]
    rfl
  obtain ⟨v, ev⟩ := lossLoop3_within dv ((List.range n).map g) c (List.range n) 0
    (fun o ho => by simpa using ho)
  refine ⟨(List.range n).map g, v, ?_, by simp, ?_⟩
  · simp only [swapBuffers3, Option.bind_eq_bind]
    exact (congrArg (fun x => Option.bind x fun buf' =>
      Option.bind (lossLoop3 dv buf' c (List.range n) 0) fun loss => some (buf', loss)) e).trans (by
        simp only [Option.bind_some, ev])
  · intro r hr
    obtain ⟨o, ho, rfl⟩ := List.mem_map.1 hr
    have ho' : o < buf.length := by rw [hl]; exact List.mem_range.1 ho
    simp only [g, List.getElem?_eq_getElem ho', Option.getD_some]
    exact swapSample3_within _ _ _ _ _ _ (by rw [row_length, hm]) hb (h _ (List.getElem_mem ho'))

/-- What `swap_buffers_k2` writes, and the loss it returns. -/
theorem swapBuffers2_eq (eq : K → K → Bool) (dv : K → K → K) (d : Nat → Nat → K) {n : Nat}
    (buf : List (Rec3 K)) (c b : Nat) (hl : buf.length = n) :
    ∃ g : Nat → Rec3 K × K,
      (∀ o r, buf[o]? = some r → g o = swapSample2 eq dv (decide (o = c)) (d c o) b r) ∧
      swapBuffers2 eq dv d n buf c b =
        some (((List.range n).map g).map (·.1), (((List.range n).map g).map (·.2)).sum) := by
  let g : Nat → Rec3 K × K := fun o =>
    swapSample2 eq dv (decide (o = c)) (d c o) b ((buf[o]?).getD ⟨0, 0, 0, 0, 0, 0⟩)
  have e : (List.range n).mapM (fun o => (buf[o]?).bind fun r =>
      pure (swapSample2 eq dv (decide (o = c)) (d c o) b r)) = some ((List.range n).map g) := by
    apply KMeans.mapM_some
    intro o ho
    have ho' : o < buf.length := by rw [hl]; exact List.mem_range.1 ho
    simp only [List.getElem?_eq_getElem ho', Option.bind_some, g, Option.getD_some]
    rfl
  refine ⟨g, fun o r h => by simp only [g, h, Option.getD_some], ?_⟩
  simp only [swapBuffers2, Option.bind_eq_bind]
  exact congrArg (fun x => Option.bind x fun ps : List (Rec3 K × K) =>
      some (ps.map (·.1), (ps.map (·.2)).sum)) e

theorem swapSample2_within (eq : K → K → Bool) (dv : K → K → K) (own : Bool) (doc : K) (b : Nat) (r : Rec3 K)
    (hb : b < 2) (h : r.Within 2) : (swapSample2 eq dv own doc b r).1.Within 2 := by
  obtain ⟨h1, h2, h3⟩ := h
  unfold swapSample2
  repeat' split
  all_goals exact ⟨by dsimp only; omega, h2, h3⟩

/-- Trying a candidate. -/
theorem tryCandidate3_within (eq : K → K → Bool) (d : Nat → Nat → K) {n k : Nat} {s : MState K}
    (h : MOK n k s) (c : Nat) (hc : c < n) : ∃ s', tryCandidate3 eq d n s c = some s' ∧ MOK n k s' := by
  have hc' : c < s.buf.length := by rw [h.len]; exact hc
  have hset : ∀ b, ∀ m ∈ s.medoids.set b c, m < n := by
    intro b m hm
    rcases List.mem_or_eq_of_mem_set hm with h1 | rfl
    · exact h.range m h1
    · exact hc
  simp only [tryCandidate3, List.getElem?_eq_getElem hc', Option.bind_eq_bind, Option.bind_some]
  split
  · exact ⟨s, rfl, h⟩
  split
  · rename_i h2
    have hk2 : k = 2 := by rw [← h.num]; exact h2
    obtain ⟨v, i, e, hi⟩ := findBestSwap2_within (division eq) d h.len c
    simp only [e, Option.bind_some]
    split
    · obtain ⟨g, hg, e2⟩ := swapBuffers2_eq eq (division eq) d s.buf c i h.len
      simp only [e2, Option.bind_some]
      refine ⟨_, rfl, h.two, by simpa using h.num, hset i, by simp, ?_, fun hk => absurd hk2 hk⟩
      intro r hr
      simp only [List.map_map, List.mem_map, List.mem_range, Function.comp] at hr
      obtain ⟨o, ho, rfl⟩ := hr
      have ho' : o < s.buf.length := by rw [h.len]; exact ho
      rw [hg o _ (List.getElem?_eq_getElem ho'), hk2]
      exact swapSample2_within _ _ _ _ _ _ hi (hk2 ▸ h.recs _ (List.getElem_mem ho'))
    · exact ⟨s, rfl, h⟩
  · rename_i h2
    have hk2 : k ≠ 2 := by rw [← h.num]; exact h2
    obtain ⟨v, i, e, hi⟩ := findBestSwap3_within (division eq) d h hk2 c
    simp only [e, Option.bind_some]
    split
    · obtain ⟨buf', w, e2, hl, hw⟩ := swapBuffers3_within (division eq) d (s.medoids.set i c) s.buf c i
        (by simpa using h.num) h.len hi h.recs
      have hm : (s.medoids.set i c).length = k := by simpa using h.num
      obtain ⟨rem, e3, hr⟩ := removal3_within (division eq) k buf' hw
      simp only [e2, Option.bind_some, hm, e3]
      exact ⟨_, rfl, h.two, hm, hset i, hl, hw, fun _ => hr⟩
    · exact ⟨s, rfl, h⟩

theorem stepLoop3_within (eq : K → K → Bool) (d : Nat → Nat → K) {n k : Nat} (cs : List Nat) :
    ∀ s : MState K, (∀ c ∈ cs, c < n) → MOK n k s → ∃ s', stepLoop3 eq d n cs s = some s' ∧ MOK n k s' := by
  induction cs with
  | nil => intro s _ h; exact ⟨s, rfl, h⟩
  | cons c cs ih =>
    intro s hc h
    obtain ⟨s', e, h'⟩ := tryCandidate3_within eq d h c (hc c (by simp))
    simp only [stepLoop3, e, Option.bind_eq_bind, Option.bind_some]
    exact ih s' (fun q hq => hc q (by simp [hq])) h'

theorem mscStep_within (eq : K → K → Bool) (d : Nat → Nat → K) {n k : Nat} {s : MState K} (h : MOK n k s) :
    ∃ s', mscStep eq d n s = some s' ∧ MOK n k s' :=
  stepLoop3_within eq d _ s (fun _ hc => List.mem_range.1 hc) h

theorem runMSC_within (eq : K → K → Bool) (d : Nat → Nat → K) {n k : Nat} {s : MState K} (h : MOK n k s)
    (t : Nat) : ∃ s', KMeans.runN (mscStep eq d n) t s = some s' ∧ MOK n k s' := by
  induction t with
  | zero => exact ⟨s, rfl, h⟩
  | succ t ih =>
    obtain ⟨s', e, h'⟩ := ih
    obtain ⟨s'', e2, h2⟩ := mscStep_within eq d h'
    exact ⟨s'', by simp only [KMeans.runN, e, Option.bind_some, e2], h2⟩

end Verif.KMedoids
