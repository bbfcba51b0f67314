import Verif.Lemmas.FasterPAM
import Verif.Lemmas.Smallest
import Mathlib.Algebra.Order.Field.Basic
import Mathlib.Tactic.FieldSimp

/-
Lemmas on kmedoids/FasterMSC.hpp: the three nearest medoids and the gain of an exchange.
-/

namespace Verif.KMedoids

open Spec

set_option linter.unusedSectionVars false

section

variable {K : Type} [LinearOrder K]

/-- The record holds the three nearest of the distances `l`. -/
def FirstThree (l : List K) (r : Rec3 K) : Prop :=
  Smallest l [] r.i1 r.d1 ∧ Smallest l [r.i1] r.i2 r.d2 ∧ Smallest l [r.i1, r.i2] r.i3 r.d3

/-- The same, unfolded. -/
structure Three (l : List K) (r : Rec3 K) : Prop where
  n12 : r.i2 ≠ r.i1
  n13 : r.i3 ≠ r.i1
  n23 : r.i3 ≠ r.i2
  a1 : l[r.i1]? = some r.d1
  a2 : l[r.i2]? = some r.d2
  a3 : l[r.i3]? = some r.d3
  le1 : ∀ (j : Nat) (y : K), l[j]? = some y → r.d1 ≤ y
  le2 : ∀ (j : Nat) (y : K), j ≠ r.i1 → l[j]? = some y → r.d2 ≤ y
  le3 : ∀ (j : Nat) (y : K), j ≠ r.i1 → j ≠ r.i2 → l[j]? = some y → r.d3 ≤ y

theorem firstThree_iff (l : List K) (r : Rec3 K) : FirstThree l r ↔ Three l r := by
  constructor
  · rintro ⟨⟨-, a1, b1⟩, ⟨h2, a2, b2⟩, ⟨h3, a3, b3⟩⟩
    simp only [List.mem_cons, List.not_mem_nil, or_false, not_or] at h2 h3 b2 b3
    exact ⟨h2, h3.1, h3.2, a1, a2, a3, fun j y => b1 j y (by simp), b2, fun j y p q => b3 j y ⟨p, q⟩⟩
  · rintro ⟨n12, n13, n23, a1, a2, a3, l1, l2, l3⟩
    refine ⟨⟨by simp, a1, fun j y _ => l1 j y⟩, ⟨by simpa using n12, a2, ?_⟩,
      ⟨by simp [n13, n23], a3, ?_⟩⟩
    · intro j y hj
      exact l2 j y (by simpa using hj)
    · intro j y hj
      simp only [List.mem_cons, List.not_mem_nil, or_false, not_or] at hj
      exact l3 j y hj.1 hj.2

theorem Three.le12 {l : List K} {r : Rec3 K} (h : Three l r) : r.d1 ≤ r.d2 := h.le1 _ _ h.a2
theorem Three.le23 {l : List K} {r : Rec3 K} (h : Three l r) : r.d2 ≤ r.d3 := h.le2 _ _ h.n13 h.a3

end

section

variable {K : Type} [LinearOrder K] [CommRing K]

/-- Ratio of the two smallest of `x ≤ y` and `doc`. -/
def two (dv : K → K → K) (x y doc : K) : K :=
  if doc < x then dv doc x else if doc < y then dv x doc else dv x y

theorem ratio_two (dv : K → K → K) {l : List K} {p q : Nat} {x y : K} (h1 : Smallest l [] p x)
    (h2 : Smallest l [p] q y) : ratio dv l = dv x y := by
  obtain ⟨rest, e⟩ := sort_two h1 h2
  unfold ratio
  rw [e]

theorem ratio_set_aux (dv : K → K → K) {l : List K} {j p q : Nat} {x y doc : K} (hj : j < l.length)
    (hpj : p ≠ j) (hqj : q ≠ j) (hpq : q ≠ p) (hp : l[p]? = some x) (hq : l[q]? = some y) (hxy : x ≤ y)
    (ho : ∀ (i : Nat) (z : K), i ≠ j → i ≠ p → l[i]? = some z → y ≤ z) :
    ratio dv (l.set j doc) = two dv x y doc := by
  have hs := set_iff l j doc hj
  have sj : (l.set j doc)[j]? = some doc := (hs _ _).2 (Or.inl ⟨rfl, rfl⟩)
  have sp : (l.set j doc)[p]? = some x := (hs _ _).2 (Or.inr ⟨hpj, hp⟩)
  have sq : (l.set j doc)[q]? = some y := (hs _ _).2 (Or.inr ⟨hqj, hq⟩)
  have hox : ∀ (i : Nat) (z : K), i ≠ j → l[i]? = some z → x ≤ z := by
    intro i z hi hz
    by_cases hip : i = p
    · subst hip
      rw [hp, Option.some.injEq] at hz
      exact le_of_eq hz
    · exact le_trans hxy (ho i z hi hip hz)
  unfold two
  split
  · rename_i hlt
    refine ratio_two dv ⟨by simp, sj, ?_⟩ ⟨by simpa using hpj, sp, ?_⟩
    · intro i z _ hz
      rcases (hs _ _).1 hz with ⟨-, rfl⟩ | ⟨hi, hz⟩
      · exact le_refl _
      · exact le_trans hlt.le (hox i z hi hz)
    · intro i z hi hz
      simp only [List.mem_singleton] at hi
      rcases (hs _ _).1 hz with ⟨hi', -⟩ | ⟨-, hz⟩
      · exact absurd hi' hi
      · exact hox i z hi hz
  · rename_i hlt
    have hfirst : Smallest (l.set j doc) [] p x := by
      refine ⟨by simp, sp, ?_⟩
      intro i z _ hz
      rcases (hs _ _).1 hz with ⟨-, rfl⟩ | ⟨hi, hz⟩
      · exact not_lt.1 hlt
      · exact hox i z hi hz
    split
    · rename_i hlt2
      refine ratio_two dv hfirst ⟨by simpa using hpj.symm, sj, ?_⟩
      intro i z hi hz
      simp only [List.mem_singleton] at hi
      rcases (hs _ _).1 hz with ⟨-, rfl⟩ | ⟨hi', hz⟩
      · exact le_refl _
      · exact le_trans hlt2.le (ho i z hi' hi hz)
    · rename_i hlt2
      refine ratio_two dv hfirst ⟨by simpa using hpq, sq, ?_⟩
      intro i z hi hz
      simp only [List.mem_singleton] at hi
      rcases (hs _ _).1 hz with ⟨-, rfl⟩ | ⟨hi', hz⟩
      · exact not_lt.1 hlt2
      · exact ho i z hi' hi hz

/-- The ratio after the exchange of position `j`. -/
def newRatio (dv : K → K → K) (r : Rec3 K) (j : Nat) (doc : K) : K :=
  if j = r.i1 then two dv r.d2 r.d3 doc
  else if j = r.i2 then two dv r.d1 r.d3 doc
  else two dv r.d1 r.d2 doc

theorem ratio_set (dv : K → K → K) {l : List K} {r : Rec3 K} (h : Three l r) (j : Nat)
    (hj : j < l.length) (doc : K) : ratio dv (l.set j doc) = newRatio dv r j doc := by
  have h12 := h.n12
  have h13 := h.n13
  have h23 := h.n23
  unfold newRatio
  split
  · rename_i e
    exact ratio_set_aux dv hj (by omega) (by omega) h.n23 h.a2 h.a3 h.le23
      (fun i z hi hi2 hz => h.le3 i z (by omega) hi2 hz)
  · split
    · rename_i e1 e
      exact ratio_set_aux dv hj (by omega) (by omega) h.n13 h.a1 h.a3 (le_trans h.le12 h.le23)
        (fun i z hi hi2 hz => h.le3 i z hi2 (by omega) hz)
    · rename_i e1 e2
      refine ratio_set_aux dv hj (fun e => e1 e.symm) (fun e => e2 e.symm) h.n12 h.a1 h.a2 h.le12
        (fun i z hi hi2 hz => h.le2 i z hi2 hz)

theorem ratio_eq (dv : K → K → K) {l : List K} {r : Rec3 K} (h : FirstThree l r) :
    ratio dv l = dv r.d1 r.d2 := ratio_two dv h.1 h.2.1

end

variable {K : Type} [LinearOrder K] [Field K] [IsStrictOrderedRing K]

/-- `common::division` is additive in the numerator. -/
theorem division_add (eq : K → K → Bool) (a b x : K) :
    division eq (a + b) x = division eq a x + division eq b x := by
  unfold division
  split
  · rw [add_zero]
  · rw [add_div]

/-! ### Gain of an exchange -/

/-- The contribution of a sample to the removal loss of position `j`. -/
def remAt (dv : K → K → K) (r : Rec3 K) (j : Nat) : K :=
  (if j = r.i1 then dv r.d1 r.d2 - dv r.d2 r.d3 else 0) +
    (if j = r.i2 then dv r.d1 r.d2 - dv r.d1 r.d3 else 0)

theorem removalLoop3_spec (dv : K → K → K) (rs : List (Rec3 K)) : ∀ acc : List K,
    (∀ r ∈ rs, r.i1 < acc.length ∧ r.i2 < acc.length) →
    ∃ acc', removalLoop3 dv rs acc = some acc' ∧ acc'.length = acc.length ∧
      ∀ j, acc'.getD j 0 = acc.getD j 0 + (rs.map fun r => remAt dv r j).sum := by
  induction rs with
  | nil => intro acc _; exact ⟨acc, rfl, rfl, by simp⟩
  | cons r rs ih =>
    intro acc h
    have hr := h r (by simp)
    obtain ⟨a1, e1, l1, g1⟩ := addAt_spec acc r.i1 (dv r.d1 r.d2 - dv r.d2 r.d3) hr.1
    obtain ⟨a2, e2, l2, g2⟩ := addAt_spec a1 r.i2 (dv r.d1 r.d2 - dv r.d1 r.d3) (by omega)
    obtain ⟨a3, e3, l3, g3⟩ := ih a2 (fun q hq => by rw [l2, l1]; exact h q (by simp [hq]))
    refine ⟨a3, by simp only [removalLoop3, e1, Option.bind_eq_bind, Option.bind_some, e2, e3],
      by omega, fun j => ?_⟩
    rw [g3, g2, g1, List.map_cons, List.sum_cons, remAt]
    ring

/-- The change of the ratio of a sample, without its contribution to the removal loss. -/
def gain3 (dv : K → K → K) (d : Nat → Nat → K) (buf : List (Rec3 K)) (c j o : Nat) : K :=
  let r := (buf[o]?).getD ⟨0, 0, 0, 0, 0, 0⟩
  dv r.d1 r.d2 - newRatio dv r j (d c o) - remAt dv r j

theorem swapGainLoop3_spec (dv : K → K → K) (hdv : ∀ a b x, dv (a + b) x = dv a x + dv b x)
    (d : Nat → Nat → K) (buf : List (Rec3 K)) (c k : Nat) (os : List Nat) :
    ∀ (mi : List K) (xc : K), mi.length = k →
      (∀ o ∈ os, ∃ r, buf[o]? = some r ∧ r.i1 < k ∧ r.i2 < k ∧ r.i2 ≠ r.i1 ∧ r.d1 ≤ r.d2 ∧
        r.d2 ≤ r.d3) →
      ∃ mi' xc', swapGainLoop3 dv d buf c os mi xc = some (mi', xc') ∧ mi'.length = k ∧
        ∀ j, mi'.getD j 0 + xc' = mi.getD j 0 + xc + (os.map (gain3 dv d buf c j)).sum := by
  induction os with
  | nil => intro mi xc hk _; exact ⟨mi, xc, rfl, hk, by simp⟩
  | cons o os ih =>
    intro mi xc hk h
    obtain ⟨r, er, hr1, hr2, hne, hle, hle'⟩ := h o (by simp)
    have ho : ∀ q ∈ os, _ := fun q hq => h q (List.mem_cons_of_mem _ hq)
    have eg : ∀ j, gain3 dv d buf c j o =
        dv r.d1 r.d2 - newRatio dv r j (d c o) - remAt dv r j := by
      intro j; simp only [gain3, er, Option.getD_some]
    simp only [swapGainLoop3, er, Option.bind_eq_bind, Option.bind_some]
    split
    · rename_i hlt
      obtain ⟨a1, e1, l1, g1⟩ := addAt_spec mi r.i1
        (dv (d c o) r.d1 + dv r.d2 r.d3 - dv (r.d1 + d c o) r.d2) (by omega)
      obtain ⟨a2, e2, l2, g2⟩ := addAt_spec a1 r.i2 (dv r.d1 r.d3 - dv r.d1 r.d2) (by omega)
      obtain ⟨a3, x3, e3, l3, g3⟩ := ih a2 (xc + (dv r.d1 r.d2 - dv (d c o) r.d1)) (by omega) ho
      refine ⟨a3, x3, by simp only [e1, Option.bind_some, e2, e3], l3, fun j => ?_⟩
      rw [g3, g2, g1, List.map_cons, List.sum_cons, eg, hdv]
      have hlt2 : d c o < r.d2 := lt_of_lt_of_le hlt hle
      unfold newRatio remAt two
      simp only [if_pos hlt2, if_pos hlt]
      by_cases hj1 : j = r.i1
      · rw [if_pos hj1, if_pos hj1, if_pos hj1, if_neg (by omega), if_neg (by omega)]; ring
      · rw [if_neg hj1, if_neg hj1, if_neg hj1]
        by_cases hj2 : j = r.i2
        · rw [if_pos hj2, if_pos hj2, if_pos hj2]; ring
        · rw [if_neg hj2, if_neg hj2, if_neg hj2]; ring
    · rename_i hlt
      split
      · rename_i hlt2
        obtain ⟨a1, e1, l1, g1⟩ := addAt_spec mi r.i1
          (dv r.d1 (d c o) + dv r.d2 r.d3 - dv (r.d1 + d c o) r.d2) (by omega)
        obtain ⟨a2, e2, l2, g2⟩ := addAt_spec a1 r.i2 (dv r.d1 r.d3 - dv r.d1 r.d2) (by omega)
        obtain ⟨a3, x3, e3, l3, g3⟩ := ih a2 (xc + (dv r.d1 r.d2 - dv r.d1 (d c o))) (by omega) ho
        refine ⟨a3, x3, by simp only [e1, Option.bind_some, e2, e3], l3, fun j => ?_⟩
        rw [g3, g2, g1, List.map_cons, List.sum_cons, eg, hdv]
        have hlt3 : d c o < r.d3 := lt_of_lt_of_le hlt2 hle'
        unfold newRatio remAt two
        simp only [if_pos hlt2, if_neg hlt, if_pos hlt3]
        by_cases hj1 : j = r.i1
        · rw [if_pos hj1, if_pos hj1, if_pos hj1, if_neg (by omega), if_neg (by omega)]; ring
        · rw [if_neg hj1, if_neg hj1, if_neg hj1]
          by_cases hj2 : j = r.i2
          · rw [if_pos hj2, if_pos hj2, if_pos hj2]; ring
          · rw [if_neg hj2, if_neg hj2, if_neg hj2]; ring
      · rename_i hlt2
        split
        · rename_i hlt3
          obtain ⟨a1, e1, l1, g1⟩ := addAt_spec mi r.i1 (dv r.d2 r.d3 - dv r.d2 (d c o)) (by omega)
          obtain ⟨a2, e2, l2, g2⟩ := addAt_spec a1 r.i2 (dv r.d1 r.d3 - dv r.d1 (d c o)) (by omega)
          obtain ⟨a3, x3, e3, l3, g3⟩ := ih a2 xc (by omega) ho
          refine ⟨a3, x3, by simp only [e1, Option.bind_some, e2, e3], l3, fun j => ?_⟩
          rw [g3, g2, g1, List.map_cons, List.sum_cons, eg]
          unfold newRatio remAt two
          simp only [if_neg hlt2, if_neg hlt, if_pos hlt3]
          by_cases hj1 : j = r.i1
          · rw [if_pos hj1, if_pos hj1, if_pos hj1, if_neg (by omega), if_neg (by omega)]; ring
          · rw [if_neg hj1, if_neg hj1, if_neg hj1]
            by_cases hj2 : j = r.i2
            · rw [if_pos hj2, if_pos hj2, if_pos hj2]; ring
            · rw [if_neg hj2, if_neg hj2, if_neg hj2]; ring
        · rename_i hlt3
          obtain ⟨a3, x3, e3, l3, g3⟩ := ih mi xc hk ho
          refine ⟨a3, x3, e3, l3, fun j => ?_⟩
          rw [g3, List.map_cons, List.sum_cons, eg]
          unfold newRatio remAt two
          simp only [if_neg hlt2, if_neg hlt, if_neg hlt3]
          by_cases hj1 : j = r.i1
          · rw [if_pos hj1, if_pos hj1, if_neg (by omega)]; ring
          · rw [if_neg hj1, if_neg hj1]
            by_cases hj2 : j = r.i2
            · rw [if_pos hj2, if_pos hj2]; ring
            · rw [if_neg hj2, if_neg hj2]; ring

/-- The buffers of FasterMSC with three or more medoids are right. -/
structure BufOK3 (dv : K → K → K) (d : Nat → Nat → K) (n : Nat) (s : MState K) : Prop where
  three : 3 ≤ s.medoids.length
  len : s.buf.length = n
  recs : ∀ (o : Nat) (r : Rec3 K), s.buf[o]? = some r → FirstThree (dists d s.medoids o) r
  rem : removal3 dv s.medoids.length s.buf = some s.removal

theorem recAt3 {d : Nat → Nat → K} {n : Nat} {ms : List Nat} {buf : List (Rec3 K)}
    (hl : buf.length = n)
    (h : ∀ (o : Nat) (r : Rec3 K), buf[o]? = some r → FirstThree (dists d ms o) r) (o : Nat)
    (ho : o < n) :
    ∃ r, buf[o]? = some r ∧ FirstThree (dists d ms o) r ∧ r.i1 < ms.length ∧ r.i2 < ms.length := by
  have ho' : o < buf.length := by omega
  have hr := h _ _ (List.getElem?_eq_getElem ho')
  refine ⟨buf[o], List.getElem?_eq_getElem ho', hr, ?_, ?_⟩
  · have := lt_of_some hr.1.2.1
    simpa [dists] using this
  · have := lt_of_some hr.2.1.2.1
    simpa [dists] using this

theorem buf_eq3 (buf : List (Rec3 K)) (n : Nat) (h : buf.length = n) :
    buf = (List.range n).map fun o => (buf[o]?).getD ⟨0, 0, 0, 0, 0, 0⟩ := by
  apply List.ext_getElem
  · simp [h]
  · intro i h1 h2
    simp [List.getElem?_eq_getElem h1]

/-- `find_best_swap` computes the exact change of the objective. -/
theorem findBestSwap3_spec (dv : K → K → K) (hdv : ∀ a b x, dv (a + b) x = dv a x + dv b x)
    {d : Nat → Nat → K} {n : Nat} {s : MState K} (h : BufOK3 dv d n s) (c : Nat) :
    ∃ delta i, findBestSwap3 dv d n s c = some (delta, i) ∧ i < s.medoids.length ∧
      Spec.ms dv d n (s.medoids.set i c) = Spec.ms dv d n s.medoids - delta ∧
      ∀ j, j < s.medoids.length →
        Spec.ms dv d n s.medoids - delta ≤ Spec.ms dv d n (s.medoids.set j c) := by
  have hrem := h.rem
  obtain ⟨rem, e0, l0, g0⟩ := removalLoop3_spec dv s.buf (List.replicate s.medoids.length (0 : K)) (by
    intro r hr
    obtain ⟨o, ho, rfl⟩ := List.mem_iff_getElem.1 hr
    have h1 := lt_of_some (h.recs _ _ (List.getElem?_eq_getElem ho)).1.2.1
    have h2 := lt_of_some (h.recs _ _ (List.getElem?_eq_getElem ho)).2.1.2.1
    simp only [dists, List.length_map] at h1 h2
    simp [h1, h2])
  rw [removal3, e0, Option.some.injEq] at hrem
  rw [List.length_replicate] at l0
  obtain ⟨mi, xc, e1, l1, g1⟩ := swapGainLoop3_spec dv hdv d s.buf c s.medoids.length (List.range n)
    s.removal 0 (by rw [← hrem]; exact l0) (fun o ho => by
      obtain ⟨r, e, hr, hi, hi2⟩ := recAt3 h.len h.recs o (List.mem_range.1 ho)
      have hr' := (firstThree_iff _ _).1 hr
      exact ⟨r, e, hi, hi2, hr'.n12, hr'.le12, hr'.le23⟩)
  have key : ∀ j, j < s.medoids.length →
      Spec.ms dv d n (s.medoids.set j c) = Spec.ms dv d n s.medoids - (mi.getD j 0 + xc) := by
    intro j hj
    have e3 : (List.replicate s.medoids.length (0 : K)).getD j 0 = 0 := by
      rw [List.getD_eq_getElem?_getD, List.getElem?_replicate, if_pos hj]; rfl
    rw [g1, ← hrem, g0, e3, zero_add, add_zero]
    conv_rhs => rw [buf_eq3 s.buf n h.len, List.map_map]
    rw [← buf_eq3 s.buf n h.len, ← sum_add_map]
    unfold Spec.ms
    rw [← sum_sub_map]
    congr 1
    apply List.map_congr_left
    intro o ho
    obtain ⟨r, er, hr, -, -⟩ := recAt3 h.len h.recs o (List.mem_range.1 ho)
    have hjl : j < (dists d s.medoids o).length := by simpa [dists] using hj
    rw [dists_set, ratio_set dv ((firstThree_iff _ _).1 hr) j hjl, ratio_eq dv hr]
    simp only [Function.comp, gain3, er, Option.getD_some]
    ring
  have hne : mi ≠ [] := by
    rintro rfl
    have := h.three
    simp at l1
    omega
  obtain ⟨i, v, e2, hi, hmax, -⟩ := Stats.maxPair_spec mi hne
  have hil := lt_of_some hi
  have hget : ∀ (j : Nat) (y : K), mi[j]? = some y → mi.getD j 0 = y := by
    intro j y hy
    rw [List.getD_eq_getElem?_getD, hy, Option.getD_some]
  refine ⟨xc + v, i, ?_, by omega, ?_, ?_⟩
  · simp only [findBestSwap3, e1, Option.bind_eq_bind, Option.bind_some, e2]
  · rw [key i (by omega), hget i v hi, add_comm xc v]
  · intro j hj
    have hjl : j < mi.length := by omega
    rw [key j hj, hget j _ (List.getElem?_eq_getElem hjl)]
    have := hmax _ (List.getElem_mem hjl)
    linarith

/-! ### Refreshing a record -/

theorem refillLoop3_spec (i1 i2 b : Nat) (vs : List K) : ∀ (p : List K) (it : Nat) (dt : K),
    b < (p ++ vs).length →
    (it ≠ i1 ∧ it ≠ i2 ∧ (p ++ vs)[it]? = some dt) →
    (∀ y, (p ++ vs)[b]? = some y → dt ≤ y) →
    (∀ (j : Nat) (y : K), j ≠ i1 → j ≠ i2 → p[j]? = some y → dt ≤ y) →
    let t := refillLoop3 i1 i2 b p.length vs (it, dt)
    t.1 ≠ i1 ∧ t.1 ≠ i2 ∧ (p ++ vs)[t.1]? = some t.2 ∧
      ∀ (j : Nat) (y : K), j ≠ i1 → j ≠ i2 → (p ++ vs)[j]? = some y → t.2 ≤ y := by
  induction vs with
  | nil =>
    intro p it dt _ hat _ hle
    simp only [List.append_nil, refillLoop3] at hat ⊢
    exact ⟨hat.1, hat.2.1, hat.2.2, hle⟩
  | cons v vs ih =>
    intro p it dt hb hat hbb hle
    have e : p ++ v :: vs = (p ++ [v]) ++ vs := by simp
    have el : p.length + 1 = (p ++ [v]).length := by simp
    have hpv : (p ++ v :: vs)[p.length]? = some v := by simp
    have hsn := snoc_getElem? p v
    rw [refillLoop3, el]
    rw [e] at hat hbb hb hpv ⊢
    split
    · rename_i hj
      split
      · rename_i hlt
        refine ih _ _ _ hb ⟨hj.1, hj.2.2, hpv⟩ (fun y hy => le_trans hlt.le (hbb y hy)) ?_
        intro j y hji hji2 hy
        rcases (hsn _ _).1 hy with h' | ⟨-, rfl⟩
        · exact le_trans hlt.le (hle j y hji hji2 h')
        · exact le_refl _
      · rename_i hlt
        refine ih _ _ _ hb hat hbb ?_
        intro j y hji hji2 hy
        rcases (hsn _ _).1 hy with h' | ⟨-, rfl⟩
        · exact hle j y hji hji2 h'
        · exact not_lt.1 hlt
    · rename_i hj
      refine ih _ _ _ hb hat hbb ?_
      intro j y hji hji2 hy
      rcases (hsn _ _).1 hy with h' | ⟨hjp, rfl⟩
      · exact hle j y hji hji2 h'
      · have : j = b := by
          by_contra hn
          exact hj ⟨by omega, by omega, by omega⟩
        exact hbb _ (by rw [← this, hjp]; exact hpv)

/-- A record is right after `swap_buffers` if it was right before, unless the third nearest medoid is at
position 0 and the candidate is not nearer than it. -/
theorem swapSample3_spec {l : List K} {r : Rec3 K} (h' : FirstThree l r) (b : Nat) (hb : b < l.length)
    (own : Bool) (doc : K) (hown : own = true → doc = 0 ∧ ∀ y ∈ l, 0 ≤ y)
    (hz : own = false → r.i3 ≠ 0 ∨ doc < r.d3) :
    FirstThree (l.set b doc) (swapSample3 (l.set b doc) own doc b r) := by
  have hs := set_iff l b doc hb
  have h := (firstThree_iff _ _).1 h'
  rw [firstThree_iff]
  have h12 := h.n12
  have h13 := h.n13
  have h23 := h.n23
  have hbd : (l.set b doc)[b]? = some doc := (hs _ _).2 (Or.inl ⟨rfl, rfl⟩)
  have hor : own = false → ((doc < r.d3 ∨ r.i3 = 0) ↔ doc < r.d3) := by
    intro ho
    constructor
    · rintro (h | h)
      · exact h
      · exact (hz ho).resolve_left (fun hn => hn h)
    · exact Or.inl
  have s1 : r.i1 ≠ b → (l.set b doc)[r.i1]? = some r.d1 := fun e => (hs _ _).2 (Or.inr ⟨e, h.a1⟩)
  have s2 : r.i2 ≠ b → (l.set b doc)[r.i2]? = some r.d2 := fun e => (hs _ _).2 (Or.inr ⟨e, h.a2⟩)
  have s3 : r.i3 ≠ b → (l.set b doc)[r.i3]? = some r.d3 := fun e => (hs _ _).2 (Or.inr ⟨e, h.a3⟩)
  -- bounds for the new list
  have bnd : ∀ (P : Nat → Prop) (x : K), (P b → x ≤ doc) →
      (∀ (j : Nat) (y : K), j ≠ b → P j → l[j]? = some y → x ≤ y) →
      ∀ (j : Nat) (y : K), P j → (l.set b doc)[j]? = some y → x ≤ y := by
    intro P x h1 h2 j y hj hy
    rcases (hs _ _).1 hy with ⟨rfl, rfl⟩ | ⟨hjb, hy⟩
    · exact h1 hj
    · exact h2 j y hjb hj hy
  have hrefill : ∀ p q, p ≠ b → q ≠ b →
      let t := refillLoop3 p q b 0 (l.set b doc) (b, doc)
      t.1 ≠ p ∧ t.1 ≠ q ∧ (l.set b doc)[t.1]? = some t.2 ∧
        ∀ (j : Nat) (y : K), j ≠ p → j ≠ q → (l.set b doc)[j]? = some y → t.2 ≤ y := by
    intro p q hp hq
    have := refillLoop3_spec p q b (l.set b doc) [] b doc (by simpa using hb)
      ⟨hp.symm, hq.symm, by simpa using hbd⟩
      (by intro y hy; simp only [List.nil_append, hbd, Option.some.injEq] at hy; exact le_of_eq hy)
      (by simp)
    simpa using this
  have hle12 := h.le12
  have hle23 := h.le23
  unfold swapSample3
  split
  · rename_i ho
    obtain ⟨rfl, h0⟩ := hown ho
    have hmin : ∀ (j : Nat) (y : K), (l.set b 0)[j]? = some y → 0 ≤ y := by
      intro j y hy
      rcases (hs _ _).1 hy with ⟨-, rfl⟩ | ⟨-, hy⟩
      · exact le_refl _
      · exact h0 y (List.mem_of_getElem? hy)
    split
    · rename_i hib
      have hib : r.i1 ≠ b := hib
      have le2 : ∀ (j : Nat) (y : K), j ≠ b → (l.set b 0)[j]? = some y → r.d1 ≤ y :=
        bnd (fun j => j ≠ b) r.d1 (fun hn => absurd rfl hn) (fun j y _ _ hy => h.le1 j y hy)
      split
      · rename_i hi2b
        have hi2b : r.i2 ≠ b := hi2b
        refine ⟨hib, hi2b, h12, hbd, s1 hib, s2 hi2b, hmin, le2, ?_⟩
        intro j y hj hj1 hy
        exact bnd (fun j => j ≠ b ∧ j ≠ r.i1) r.d2 (fun hn => absurd rfl hn.1)
          (fun j y _ hp hy => h.le2 j y hp.2 hy) j y ⟨hj, hj1⟩ hy
      · rename_i hi2b
        have hi2b : r.i2 = b := not_not.1 hi2b
        refine ⟨hib, by dsimp only; omega, h13, hbd, s1 hib, s3 (by omega), hmin, le2, ?_⟩
        intro j y hj hj1 hy
        exact bnd (fun j => j ≠ b ∧ j ≠ r.i1) r.d3 (fun hn => absurd rfl hn.1)
          (fun j y _ hp hy => h.le3 j y hp.2 (by omega) hy) j y ⟨hj, hj1⟩ hy
    · rename_i hib
      have hib : r.i1 = b := not_not.1 hib
      refine ⟨by dsimp only; omega, by dsimp only; omega, h23, hbd, s2 (by omega), s3 (by omega), hmin,
        ?_, ?_⟩
      · exact bnd (fun j => j ≠ b) r.d2 (fun hn => absurd rfl hn)
          (fun j y hj _ hy => h.le2 j y (by omega) hy)
      · intro j y hj hj1 hy
        exact bnd (fun j => j ≠ b ∧ j ≠ r.i2) r.d3 (fun hn => absurd rfl hn.1)
          (fun j y hj hp hy => h.le3 j y (by omega) hp.2 hy) j y ⟨hj, hj1⟩ hy
  · rename_i ho
    simp only [hor (by simpa using ho)]
    split
    · rename_i hib
      have i2b : r.i2 ≠ b := by omega
      have i3b : r.i3 ≠ b := by omega
      split
      · rename_i hlt
        refine ⟨i2b, i3b, h23, hbd, s2 i2b, s3 i3b, ?_, ?_, ?_⟩
        · intro j y hy
          exact bnd (fun _ => True) doc (fun _ => le_refl _)
            (fun j y hj _ hy => le_trans hlt.le (h.le2 j y (by omega) hy)) j y trivial hy
        · exact bnd (fun j => j ≠ b) r.d2 (fun hn => absurd rfl hn)
            (fun j y hj _ hy => h.le2 j y (by omega) hy)
        · intro j y hj hj1 hy
          exact bnd (fun j => j ≠ b ∧ j ≠ r.i2) r.d3 (fun hn => absurd rfl hn.1)
            (fun j y hj hp hy => h.le3 j y (by omega) hp.2 hy) j y ⟨hj, hj1⟩ hy
      · rename_i hlt
        have hle := not_lt.1 hlt
        have f1 : ∀ (j : Nat) (y : K), (l.set b doc)[j]? = some y → r.d2 ≤ y := fun j y hy =>
          bnd (fun _ => True) r.d2 (fun _ => hle) (fun j y hj _ hy => h.le2 j y (by omega) hy) j y
            trivial hy
        split
        · rename_i hlt3
          refine ⟨i2b.symm, h23, i3b, s2 i2b, hbd, s3 i3b, f1, ?_, ?_⟩
          · exact bnd (fun j => j ≠ r.i2) doc (fun _ => le_refl _)
              (fun j y hj hp hy => le_trans hlt3.le (h.le3 j y (by omega) hp hy))
          · intro j y hj hj1 hy
            exact bnd (fun j => j ≠ b ∧ j ≠ r.i2) r.d3 (fun hn => absurd rfl hn.1)
              (fun j y hj hp hy => h.le3 j y (by omega) hp.2 hy) j y ⟨hj1, hj⟩ hy
        · rename_i hlt3
          obtain ⟨t1, t2, t3, t4⟩ := hrefill r.i2 r.i3 i2b i3b
          refine ⟨h23, t1, t2, s2 i2b, s3 i3b, t3, f1, ?_, t4⟩
          exact bnd (fun j => j ≠ r.i2) r.d3 (fun _ => not_lt.1 hlt3)
            (fun j y hj hp hy => h.le3 j y (by omega) hp hy)
    · rename_i hib
      have hib : r.i1 ≠ b := hib
      split
      · rename_i hi2
        have i3b : r.i3 ≠ b := by omega
        split
        · rename_i hlt
          refine ⟨hib, i3b, h13, hbd, s1 hib, s3 i3b, ?_, ?_, ?_⟩
          · intro j y hy
            exact bnd (fun _ => True) doc (fun _ => le_refl _)
              (fun j y hj _ hy => le_trans hlt.le (h.le1 j y hy)) j y trivial hy
          · exact bnd (fun j => j ≠ b) r.d1 (fun hn => absurd rfl hn)
              (fun j y hj _ hy => h.le1 j y hy)
          · intro j y hj hj1 hy
            exact bnd (fun j => j ≠ b ∧ j ≠ r.i1) r.d3 (fun hn => absurd rfl hn.1)
              (fun j y hj hp hy => h.le3 j y hp.2 (by omega) hy) j y ⟨hj, hj1⟩ hy
        · rename_i hlt
          have hle := not_lt.1 hlt
          have f1 : ∀ (j : Nat) (y : K), (l.set b doc)[j]? = some y → r.d1 ≤ y := fun j y hy =>
            bnd (fun _ => True) r.d1 (fun _ => hle) (fun j y hj _ hy => h.le1 j y hy) j y trivial hy
          split
          · rename_i hlt3
            refine ⟨hib.symm, h13, i3b, s1 hib, hbd, s3 i3b, f1, ?_, ?_⟩
            · exact bnd (fun j => j ≠ r.i1) doc (fun _ => le_refl _)
                (fun j y hj hp hy => le_trans hlt3.le (h.le3 j y hp (by omega) hy))
            · intro j y hj hj1 hy
              exact bnd (fun j => j ≠ b ∧ j ≠ r.i1) r.d3 (fun hn => absurd rfl hn.1)
                (fun j y hj hp hy => h.le3 j y hp.2 (by omega) hy) j y ⟨hj1, hj⟩ hy
          · rename_i hlt3
            obtain ⟨t1, t2, t3, t4⟩ := hrefill r.i1 r.i3 hib i3b
            refine ⟨h13, t1, t2, s1 hib, s3 i3b, t3, f1, ?_, t4⟩
            exact bnd (fun j => j ≠ r.i1) r.d3 (fun _ => not_lt.1 hlt3)
              (fun j y hj hp hy => h.le3 j y hp (by omega) hy)
      · rename_i hi2
        have hi2 : r.i2 ≠ b := hi2
        split
        · rename_i hlt
          refine ⟨hib, hi2, h12, hbd, s1 hib, s2 hi2, ?_, ?_, ?_⟩
          · intro j y hy
            exact bnd (fun _ => True) doc (fun _ => le_refl _)
              (fun j y hj _ hy => le_trans hlt.le (h.le1 j y hy)) j y trivial hy
          · exact bnd (fun j => j ≠ b) r.d1 (fun hn => absurd rfl hn)
              (fun j y hj _ hy => h.le1 j y hy)
          · intro j y hj hj1 hy
            exact bnd (fun j => j ≠ b ∧ j ≠ r.i1) r.d2 (fun hn => absurd rfl hn.1)
              (fun j y hj hp hy => h.le2 j y hp.2 hy) j y ⟨hj, hj1⟩ hy
        · rename_i hlt
          have hle := not_lt.1 hlt
          have f1 : ∀ (j : Nat) (y : K), (l.set b doc)[j]? = some y → r.d1 ≤ y := fun j y hy =>
            bnd (fun _ => True) r.d1 (fun _ => hle) (fun j y hj _ hy => h.le1 j y hy) j y trivial hy
          split
          · rename_i hlt2
            refine ⟨hib.symm, h12, hi2, s1 hib, hbd, s2 hi2, f1, ?_, ?_⟩
            · exact bnd (fun j => j ≠ r.i1) doc (fun _ => le_refl _)
                (fun j y hj hp hy => le_trans hlt2.le (h.le2 j y hp hy))
            · intro j y hj hj1 hy
              exact bnd (fun j => j ≠ b ∧ j ≠ r.i1) r.d2 (fun hn => absurd rfl hn.1)
                (fun j y hj hp hy => h.le2 j y hp.2 hy) j y ⟨hj1, hj⟩ hy
          · rename_i hlt2
            have f2 : ∀ (j : Nat) (y : K), j ≠ r.i1 → (l.set b doc)[j]? = some y → r.d2 ≤ y :=
              bnd (fun j => j ≠ r.i1) r.d2 (fun _ => not_lt.1 hlt2)
                (fun j y hj hp hy => h.le2 j y hp hy)
            split
            · rename_i hlt3
              refine ⟨h12, hib.symm, hi2.symm, s1 hib, s2 hi2, hbd, f1, f2, ?_⟩
              intro j y hj hj1 hy
              exact bnd (fun j => j ≠ r.i1 ∧ j ≠ r.i2) doc (fun _ => le_refl _)
                (fun j y _ hp hy => le_trans hlt3.le (h.le3 j y hp.1 hp.2 hy)) j y ⟨hj, hj1⟩ hy
            · rename_i hlt3
              split
              · rename_i hi3
                obtain ⟨t1, t2, t3, t4⟩ := hrefill r.i1 r.i2 hib hi2
                exact ⟨h12, t1, t2, s1 hib, s2 hi2, t3, f1, f2, t4⟩
              · rename_i hi3
                have hi3 : r.i3 ≠ b := hi3
                refine ⟨h12, h13, h23, s1 hib, s2 hi2, s3 hi3, f1, f2, ?_⟩
                intro j y hj hj1 hy
                exact bnd (fun j => j ≠ r.i1 ∧ j ≠ r.i2) r.d3 (fun _ => not_lt.1 hlt3)
                  (fun j y _ hp hy => h.le3 j y hp.1 hp.2 hy) j y ⟨hj, hj1⟩ hy

/-! ### The whole buffers -/

theorem lossLoop3_spec (dv : K → K → K) (buf : List (Rec3 K)) (c : Nat) (os : List Nat) : ∀ acc : K,
    (∀ o ∈ os, o < buf.length) →
    lossLoop3 dv buf c os acc = some (acc + (os.map fun o =>
      if o = c then 0 else
        dv ((buf[o]?).getD ⟨0, 0, 0, 0, 0, 0⟩).d1 ((buf[o]?).getD ⟨0, 0, 0, 0, 0, 0⟩).d2).sum) := by
  induction os with
  | nil => intro acc _; simp [lossLoop3]
  | cons o os ih =>
    intro acc h
    have h' : ∀ q ∈ os, q < buf.length := fun q hq => h q (by simp [hq])
    rw [lossLoop3, List.map_cons, List.sum_cons]
    split
    · rw [ih _ h', zero_add]
    · rw [List.getElem?_eq_getElem (h o (by simp))]
      simp only [Option.bind_eq_bind, Option.bind_some, Option.getD_some]
      rw [ih _ h', add_assoc]

theorem lt_of_some' {A : Type} {l : List A} {i : Nat} {x : A} (h : l[i]? = some x) : i < l.length := by
  by_contra hn
  rw [List.getElem?_eq_none (by omega)] at h
  cases h

theorem swapBuffers3_spec (dv : K → K → K) (hdv0 : ∀ x, dv 0 x = 0) {d : Nat → Nat → K} {n : Nat}
    {ms : List Nat} {buf : List (Rec3 K)} (hd : IsTable d n) (hms : ∀ m ∈ ms, m < n)
    (hl : buf.length = n)
    (h : ∀ (o : Nat) (r : Rec3 K), buf[o]? = some r → FirstThree (dists d ms o) r)
    (c b : Nat) (hc : c < n) (hb : b < ms.length)
    (hz : ∀ (o : Nat) (r : Rec3 K), o ≠ c → buf[o]? = some r → r.i3 ≠ 0 ∨ d c o < r.d3) :
    ∃ buf', swapBuffers3 dv d n (ms.set b c) buf c b = some (buf', Spec.ms dv d n (ms.set b c)) ∧
      buf'.length = n ∧
      ∀ (o : Nat) (r : Rec3 K), buf'[o]? = some r → FirstThree (dists d (ms.set b c) o) r := by
  let g : Nat → Rec3 K := fun o => swapSample3 (row d (ms.set b c) o) (decide (o = c)) (d c o) b
    ((buf[o]?).getD ⟨0, 0, 0, 0, 0, 0⟩)
  have e1 : (List.range n).mapM (fun o => do
      let r ← buf[o]?
      pure (swapSample3 (row d (ms.set b c) o) (decide (o = c)) (d c o) b r)) =
      some ((List.range n).map g) := by
    apply KMeans.mapM_some
    intro o ho
    have ho' : o < buf.length := by rw [hl]; exact List.mem_range.1 ho
    simp only [g, List.getElem?_eq_getElem ho', Option.getD_some, Option.bind_eq_bind,
      Option.bind_some]
    rfl
  have hlen : ((List.range n).map g).length = n := by simp
  have hown : ∀ (l : List K) (doc : K) (r : Rec3 K), (swapSample3 l true doc b r).d1 = 0 := by
    intro l doc r
    unfold swapSample3
    rw [if_pos rfl]
    split
    · split <;> rfl
    · rfl
  have hrec : ∀ (o : Nat) (r : Rec3 K), ((List.range n).map g)[o]? = some r →
      FirstThree (dists d (ms.set b c) o) r := by
    intro o r hr
    have ho : o < n := by have := lt_of_some' hr; simpa using this
    rw [List.getElem?_map, List.getElem?_range ho, Option.map_some, Option.some.injEq] at hr
    subst hr
    have ho' : o < buf.length := by omega
    simp only [g, List.getElem?_eq_getElem ho', Option.getD_some]
    have hr := h _ _ (List.getElem?_eq_getElem ho')
    have hrow : row d (ms.set b c) o = (dists d ms o).set b (d c o) := by
      rw [← dists_set]; rfl
    rw [dists_set, hrow]
    by_cases hoc : o = c
    · subst hoc
      have hnn : ∀ y ∈ dists d ms o, 0 ≤ y := by
        intro y hy
        simp only [dists, List.mem_map] at hy
        obtain ⟨m, hm, rfl⟩ := hy
        exact hd.1 m o (hms m hm) ho
      have e0 : d o o = 0 := hd.2 o ho
      exact swapSample3_spec hr b (by simpa [dists] using hb) _ _ (fun _ => ⟨e0, hnn⟩)
        (fun ht => by simp at ht)
    · exact swapSample3_spec hr b (by simpa [dists] using hb) _ _ (fun ht => by
        simp only [decide_eq_true_eq] at ht; exact absurd ht hoc)
        (fun _ => hz o _ hoc (List.getElem?_eq_getElem ho'))
  refine ⟨(List.range n).map g, ?_, hlen, hrec⟩
  have e2 := lossLoop3_spec dv ((List.range n).map g) c (List.range n) 0 (fun o ho => by
    rw [hlen]; exact List.mem_range.1 ho)
  have e3 : ((List.range n).map fun o => if o = c then 0 else
      dv ((((List.range n).map g)[o]?).getD ⟨0, 0, 0, 0, 0, 0⟩).d1
        ((((List.range n).map g)[o]?).getD ⟨0, 0, 0, 0, 0, 0⟩).d2).sum = Spec.ms dv d n (ms.set b c) := by
    unfold Spec.ms
    congr 1
    apply List.map_congr_left
    intro o ho
    have ho' := List.mem_range.1 ho
    have er : ((List.range n).map g)[o]? = some (g o) := by
      rw [List.getElem?_map, List.getElem?_range ho', Option.map_some]
    rw [ratio_eq dv (hrec o _ er), er, Option.getD_some]
    split
    · rename_i hoc
      have : (g o).d1 = 0 := by
        simp only [g, hoc, decide_true]
        exact hown _ _ _
      rw [this, hdv0]
    · rfl
  simp only [Option.bind_eq_bind] at e1
  simp only [swapBuffers3, Option.bind_eq_bind, e1, Option.bind_some, e2, zero_add, e3]

theorem removal3_some (dv : K → K → K) {ms : List Nat} {d : Nat → Nat → K} {buf : List (Rec3 K)}
    (h : ∀ (o : Nat) (r : Rec3 K), buf[o]? = some r → FirstThree (dists d ms o) r) :
    ∃ rem, removal3 dv ms.length buf = some rem := by
  obtain ⟨rem, e0, -⟩ := removalLoop3_spec dv buf (List.replicate ms.length (0 : K)) (by
    intro r hr
    obtain ⟨o, ho, rfl⟩ := List.mem_iff_getElem.1 hr
    have h1 := lt_of_some (h _ _ (List.getElem?_eq_getElem ho)).1.2.1
    have h2 := lt_of_some (h _ _ (List.getElem?_eq_getElem ho)).2.1.2.1
    simp only [dists, List.length_map] at h1 h2
    simp [h1, h2])
  exact ⟨rem, e0⟩

/-! ### The constructor -/

theorem mscInit_spec (vmax : K) (eq : K → K → Bool) {d : Nat → Nat → K} {n : Nat} {ms : List Nat}
    (hk : 3 ≤ ms.length) (hv : ∀ o, o < n → ∀ m ∈ ms, d m o < vmax)
    (ht : ∀ o, o < n → NoTies eq (dists d ms o)) :
    ∃ s, mscInit vmax eq d n ms = some s ∧ s.medoids = ms ∧ BufOK3 (division eq) d n s ∧
      s.loss = td d n ms := by
  have hne : ms ≠ [] := by rintro rfl; simp at hk
  have e1 : nthIndices vmax eq d n ms 1 =
      some ((List.range n).map fun o => (first vmax (row d ms o)).1) := by
    rw [nthIndices, if_neg (by omega), if_neg hne, if_pos rfl, nearestIndices, if_neg hne]
  have e2 : nthIndices vmax eq d n ms 2 =
      some ((List.range n).map fun o => (second vmax eq (row d ms o)).i2) := by
    rw [nthIndices, if_neg (by omega), if_neg hne, if_neg (by omega), if_pos rfl]
  have e2' : nthIndices vmax eq d n ms 3 =
      some ((List.range n).map fun o => (third vmax eq (row d ms o)).i3) := by
    rw [nthIndices, if_neg (by omega), if_neg hne, if_neg (by omega), if_neg (by omega), if_pos rfl]
  have e3 : nthDistances vmax eq d n ms 1 =
      some ((List.range n).map fun o => (first vmax (row d ms o)).2) := by
    rw [nthDistances, if_neg (by omega), if_neg hne, if_pos rfl, nearestDistances, if_neg hne]
  have e4 : nthDistances vmax eq d n ms 2 =
      some ((List.range n).map fun o => (second vmax eq (row d ms o)).d2) := by
    rw [nthDistances, if_neg (by omega), if_neg hne, if_neg (by omega), if_pos rfl]
  have e4' : nthDistances vmax eq d n ms 3 =
      some ((List.range n).map fun o => (third vmax eq (row d ms o)).d3) := by
    rw [nthDistances, if_neg (by omega), if_neg hne, if_neg (by omega), if_neg (by omega), if_pos rfl]
  have hs := second_first vmax eq
  have htw := thirdLoop_two eq
  have e5 : (List.range n).mapM (fun o => do
      let i1 ← ((List.range n).map fun o => (first vmax (row d ms o)).1)[o]?
      let d1 ← ((List.range n).map fun o => (first vmax (row d ms o)).2)[o]?
      let i2 ← ((List.range n).map fun o => (second vmax eq (row d ms o)).i2)[o]?
      let d2 ← ((List.range n).map fun o => (second vmax eq (row d ms o)).d2)[o]?
      let i3 ← ((List.range n).map fun o => (third vmax eq (row d ms o)).i3)[o]?
      let d3 ← ((List.range n).map fun o => (third vmax eq (row d ms o)).d3)[o]?
      pure (Rec3.mk i1 d1 i2 d2 i3 d3)) =
      some ((List.range n).map fun o => third vmax eq (dists d ms o)) := by
    apply KMeans.mapM_some
    intro o ho
    have ho' := List.mem_range.1 ho
    simp only [List.getElem?_map, List.getElem?_range ho', Option.map_some, Option.bind_eq_bind,
      Option.bind_some]
    have a := hs (row d ms o) 0 ⟨0, vmax, 0, vmax⟩
    have b := htw (row d ms o) 0 ⟨0, vmax, 0, vmax, 0, vmax⟩
    dsimp only at b
    simp only [first, second, third, ← a.1, ← a.2, ← b]
    rfl
  have hlen : ((List.range n).map fun o => third vmax eq (dists d ms o)).length = n := by simp
  have hrec : ∀ (o : Nat) (r : Rec3 K),
      ((List.range n).map fun o => third vmax eq (dists d ms o))[o]? = some r →
      FirstThree (dists d ms o) r := by
    intro o r hr
    have ho : o < n := by have := lt_of_some' hr; simpa using this
    rw [List.getElem?_map, List.getElem?_range ho, Option.map_some, Option.some.injEq] at hr
    subst hr
    refine third_spec vmax eq _ (by simpa [dists] using hk) ?_ (ht o ho)
    intro v hv'
    simp only [dists, List.mem_map] at hv'
    obtain ⟨m, hm, rfl⟩ := hv'
    exact hv o ho m hm
  obtain ⟨rem, e6⟩ := removal3_some (division eq) hrec
  obtain ⟨p, ep, emed, hp, -⟩ := pamInit_spec vmax eq (d := d) (n := n) (ms := ms) (by omega) hv ht
  have hloss : p.loss = ((List.range n).map fun o => (first vmax (row d ms o)).2).sum := by
    simp only [pamInit, e1, e2, e3, e4, Option.bind_eq_bind, Option.bind_some] at ep
    rw [Option.bind_eq_some_iff] at ep
    obtain ⟨_, -, ep⟩ := ep
    rw [Option.bind_eq_some_iff] at ep
    obtain ⟨_, -, ep⟩ := ep
    rw [Option.some.injEq] at ep
    rw [← ep]
  refine ⟨⟨ms, (List.range n).map fun o => third vmax eq (dists d ms o), rem,
    ((List.range n).map fun o => (first vmax (row d ms o)).2).sum⟩, ?_, rfl,
    ⟨hk, hlen, hrec, e6⟩, ?_⟩
  · simp only [mscInit, e1, e2, e2', e3, e4, e4', Option.bind_eq_bind, Option.bind_some]
    rw [if_pos (by omega)]
    simp only [Option.bind_eq_bind] at e5
    simp only [e5, Option.bind_some, e6]
  · dsimp only
    rw [← hloss, hp.loss, emed]

end Verif.KMedoids
