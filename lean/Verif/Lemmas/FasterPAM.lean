import Verif.Lemmas.KMedoids
import Verif.Props.Statistics
import Verif.Lemmas.Hamerly
import Mathlib.Algebra.Order.BigOperators.Group.List
import Mathlib.Tactic.Linarith
import Mathlib.Tactic.Ring
import Mathlib.Algebra.Order.Ring.Defs
import Mathlib.Algebra.BigOperators.Group.List.Basic

/-
Lemmas on kmedoids/FasterPAM.hpp: the cached nearest medoids, the removal losses and the gain of an
exchange.
-/

namespace Verif.KMedoids

open Spec

set_option linter.unusedSectionVars false

section

variable {K : Type} [LinearOrder K]

/-- The record holds the nearest and second nearest of the distances `l`. -/
def FirstTwo (l : List K) (r : Rec K) : Prop :=
  Smallest l [] r.i1 r.d1 ∧ Smallest l [r.i1] r.i2 r.d2

theorem set_iff (l : List K) (b : Nat) (v : K) (hb : b < l.length) (j : Nat) (y : K) :
    (l.set b v)[j]? = some y ↔ (j = b ∧ y = v) ∨ (j ≠ b ∧ l[j]? = some y) := by
  by_cases h : j = b
  · subst h
    rw [List.getElem?_set_self hb]
    simp [eq_comm]
  · rw [List.getElem?_set_ne (Ne.symm h)]
    simp [h]

theorem min_smallest {l : List K} {i : Nat} {x : K} (h : Smallest l [] i x) : l.min? = some x := by
  rw [List.min?_eq_some_iff]
  refine ⟨List.mem_of_getElem? h.2.1, fun b hb => ?_⟩
  obtain ⟨j, hj, rfl⟩ := List.mem_iff_getElem.1 hb
  exact h.2.2 j _ (by simp) (List.getElem?_eq_getElem hj)

theorem FirstTwo.le {l : List K} {r : Rec K} (h : FirstTwo l r) : r.d1 ≤ r.d2 :=
  h.1.2.2 _ _ (by simp) h.2.2.1

/-- The distance to the nearest medoid after the exchange of position `j`. -/
theorem min_set {l : List K} {r : Rec K} (h : FirstTwo l r) (j : Nat) (hj : j < l.length) (doc : K) :
    (l.set j doc).min? = some (if j = r.i1 then min r.d2 doc else min r.d1 doc) := by
  have hs := set_iff l j doc hj
  obtain ⟨⟨-, h1, h1'⟩, ⟨hne, h2, h2'⟩⟩ := h
  simp only [List.mem_singleton] at hne h2'
  rw [List.min?_eq_some_iff]
  constructor
  · split
    · rename_i e
      rcases min_choice r.d2 doc with e' | e' <;> rw [e']
      · exact List.mem_of_getElem? ((hs r.i2 r.d2).2 (Or.inr ⟨by omega, h2⟩))
      · exact List.mem_of_getElem? ((hs j doc).2 (Or.inl ⟨rfl, rfl⟩))
    · rename_i e
      rcases min_choice r.d1 doc with e' | e' <;> rw [e']
      · exact List.mem_of_getElem? ((hs r.i1 r.d1).2 (Or.inr ⟨fun h => e h.symm, h1⟩))
      · exact List.mem_of_getElem? ((hs j doc).2 (Or.inl ⟨rfl, rfl⟩))
  · intro y hy
    obtain ⟨q, hq, rfl⟩ := List.mem_iff_getElem.1 hy
    rcases (hs q _).1 (List.getElem?_eq_getElem hq) with ⟨-, e⟩ | ⟨hqj, e⟩
    · rw [e]
      split
      · exact min_le_right _ _
      · exact min_le_right _ _
    · split
      · rename_i ej
        exact le_trans (min_le_left _ _) (h2' q _ (by omega) e)
      · exact le_trans (min_le_left _ _) (h1' q _ (by simp) e)

end

variable {K : Type} [LinearOrder K] [CommRing K] [IsStrictOrderedRing K]

/-! ### Refreshing a record -/

theorem refillLoop_spec (i1 b : Nat) (vs : List K) : ∀ (p : List K) (it : Nat) (dt : K),
    b < (p ++ vs).length →
    (it ≠ i1 ∧ (p ++ vs)[it]? = some dt) →
    (∀ y, (p ++ vs)[b]? = some y → dt ≤ y) →
    (∀ (j : Nat) (y : K), j ≠ i1 → p[j]? = some y → dt ≤ y) →
    Smallest (p ++ vs) [i1] (refillLoop i1 b p.length vs (it, dt)).1
      (refillLoop i1 b p.length vs (it, dt)).2 := by
  induction vs with
  | nil =>
    intro p it dt _ hat _ hle
    simp only [List.append_nil, refillLoop] at hat ⊢
    exact ⟨by simpa using hat.1, hat.2, fun j y hj => hle j y (by simpa using hj)⟩
  | cons v vs ih =>
    intro p it dt hb hat hbb hle
    have e : p ++ v :: vs = (p ++ [v]) ++ vs := by simp
    have el : p.length + 1 = (p ++ [v]).length := by simp
    have hpv : (p ++ v :: vs)[p.length]? = some v := by simp
    have hsn := snoc_getElem? p v
    rw [refillLoop, el]
    rw [e] at hat hbb hb hpv ⊢
    split
    · rename_i hj
      split
      · rename_i hlt
        refine ih _ _ _ hb ⟨hj.1, hpv⟩ (fun y hy => le_trans hlt.le (hbb y hy)) ?_
        intro j y hji hy
        rcases (hsn _ _).1 hy with h' | ⟨-, rfl⟩
        · exact le_trans hlt.le (hle j y hji h')
        · exact le_refl _
      · rename_i hlt
        refine ih _ _ _ hb hat hbb ?_
        intro j y hji hy
        rcases (hsn _ _).1 hy with h' | ⟨-, rfl⟩
        · exact hle j y hji h'
        · exact not_lt.1 hlt
    · rename_i hj
      refine ih _ _ _ hb hat hbb ?_
      intro j y hji hy
      rcases (hsn _ _).1 hy with h' | ⟨hjp, rfl⟩
      · exact hle j y hji h'
      · have : j = b := by
          by_contra hn
          exact hj ⟨by omega, by omega⟩
        exact hbb _ (by rw [← this, hjp]; exact hpv)

/-- A record is right after `swap_buffers` if it was right before. -/
theorem swapSample_spec {l : List K} {r : Rec K} (h : FirstTwo l r) (b : Nat) (hb : b < l.length)
    (own : Bool) (doc : K) (hown : own = true → doc = 0 ∧ ∀ y ∈ l, 0 ≤ y) :
    FirstTwo (l.set b doc) (swapSample (l.set b doc) own doc b r) := by
  have hs := set_iff l b doc hb
  have hle := h.le
  obtain ⟨⟨-, h1, h1'⟩, ⟨hne, h2, h2'⟩⟩ := h
  simp only [List.mem_singleton] at hne h2'
  have h1'' : ∀ (j : Nat) (y : K), l[j]? = some y → r.d1 ≤ y := fun j y => h1' j y (by simp)
  have hbd : (l.set b doc)[b]? = some doc := (hs _ _).2 (Or.inl ⟨rfl, rfl⟩)
  have hrefill : ∀ q, q ≠ b → Smallest (l.set b doc) [q]
      (refillLoop q b 0 (l.set b doc) (b, doc)).1 (refillLoop q b 0 (l.set b doc) (b, doc)).2 := by
    intro q hq
    have := refillLoop_spec q b (l.set b doc) [] b doc (by simpa using hb)
      ⟨fun e => hq e.symm, by simpa using hbd⟩
      (by intro y hy; simp only [List.nil_append, hbd, Option.some.injEq] at hy; exact le_of_eq hy)
      (by simp)
    simpa using this
  unfold swapSample
  split
  · rename_i ho
    obtain ⟨rfl, h0⟩ := hown ho
    have hmin : ∀ (j : Nat) (y : K), (l.set b 0)[j]? = some y → 0 ≤ y := by
      intro j y hy
      rcases (hs _ _).1 hy with ⟨-, rfl⟩ | ⟨-, hy⟩
      · exact le_refl _
      · exact h0 y (List.mem_of_getElem? hy)
    split
    · rename_i hib
      refine ⟨⟨by simp, hbd, fun j y _ => hmin j y⟩,
        ⟨by simpa using hib, (hs _ _).2 (Or.inr ⟨hib, h1⟩), ?_⟩⟩
      intro j y hj hy
      rcases (hs _ _).1 hy with ⟨hjb, -⟩ | ⟨-, hy⟩
      · simp [hjb] at hj
      · exact h1'' j y hy
    · rename_i hib
      have hib : r.i1 = b := not_not.1 hib
      refine ⟨⟨by simp, hbd, fun j y _ => hmin j y⟩,
        ⟨by simp only [List.mem_singleton]; omega, (hs r.i2 r.d2).2 (Or.inr ⟨by omega, h2⟩), ?_⟩⟩
      intro j y hj hy
      rcases (hs _ _).1 hy with ⟨hjb, -⟩ | ⟨hjb, hy⟩
      · simp [hjb] at hj
      · exact h2' j y (by omega) hy
  · split
    · rename_i hib
      split
      · rename_i hlt
        refine ⟨⟨by simp, hbd, ?_⟩,
          ⟨by simp only [List.mem_singleton]; omega, (hs r.i2 r.d2).2 (Or.inr ⟨by omega, h2⟩), ?_⟩⟩
        · intro j y _ hy
          rcases (hs _ _).1 hy with ⟨-, rfl⟩ | ⟨hjb, hy⟩
          · exact le_refl _
          · exact le_trans hlt.le (h2' j y (by omega) hy)
        · intro j y hj hy
          rcases (hs _ _).1 hy with ⟨hjb, -⟩ | ⟨hjb, hy⟩
          · simp [hjb] at hj
          · exact h2' j y (by omega) hy
      · rename_i hlt
        refine ⟨⟨by simp, (hs r.i2 r.d2).2 (Or.inr ⟨by omega, h2⟩), ?_⟩, hrefill r.i2 (by omega)⟩
        intro j y _ hy
        rcases (hs _ _).1 hy with ⟨-, rfl⟩ | ⟨hjb, hy⟩
        · exact not_lt.1 hlt
        · exact h2' j y (by omega) hy
    · rename_i hib
      split
      · rename_i hlt
        refine ⟨⟨by simp, hbd, ?_⟩,
          ⟨by simpa using hib, (hs _ _).2 (Or.inr ⟨hib, h1⟩), ?_⟩⟩
        · intro j y _ hy
          rcases (hs _ _).1 hy with ⟨-, rfl⟩ | ⟨-, hy⟩
          · exact le_refl _
          · exact le_trans hlt.le (h1'' j y hy)
        · intro j y hj hy
          rcases (hs _ _).1 hy with ⟨hjb, -⟩ | ⟨-, hy⟩
          · simp [hjb] at hj
          · exact h1'' j y hy
      · rename_i hlt
        have hfirst : Smallest (l.set b doc) [] r.i1 r.d1 := by
          refine ⟨by simp, (hs _ _).2 (Or.inr ⟨hib, h1⟩), ?_⟩
          intro j y _ hy
          rcases (hs _ _).1 hy with ⟨-, rfl⟩ | ⟨-, hy⟩
          · exact not_lt.1 hlt
          · exact h1'' j y hy
        split
        · rename_i hlt2
          refine ⟨hfirst, ⟨by simp only [List.mem_singleton]; omega, hbd, ?_⟩⟩
          intro j y hj hy
          rcases (hs _ _).1 hy with ⟨-, rfl⟩ | ⟨-, hy⟩
          · exact le_refl _
          · exact le_trans hlt2.le (h2' j y (by simpa using hj) hy)
        · rename_i hlt2
          split
          · exact ⟨hfirst, hrefill _ hib⟩
          · rename_i hi2
            refine ⟨hfirst, ⟨by simpa using hne, (hs _ _).2 (Or.inr ⟨hi2, h2⟩), ?_⟩⟩
            intro j y hj hy
            rcases (hs _ _).1 hy with ⟨-, rfl⟩ | ⟨-, hy⟩
            · exact not_lt.1 hlt2
            · exact h2' j y (by simpa using hj) hy

/-! ### Sums -/

theorem addAt_spec (l : List K) (i : Nat) (v : K) (hi : i < l.length) :
    ∃ l', addAt l i v = some l' ∧ l'.length = l.length ∧
      ∀ j, l'.getD j 0 = l.getD j 0 + if j = i then v else 0 := by
  refine ⟨l.set i (l[i] + v), ?_, by simp, ?_⟩
  · simp only [addAt, List.getElem?_eq_getElem hi, Option.bind_eq_bind, Option.bind_some]
  · intro j
    rw [List.getD_eq_getElem?_getD, List.getD_eq_getElem?_getD, List.getElem?_set]
    by_cases h : j = i
    · subst h
      simp [hi]
    · rw [if_neg (Ne.symm h), if_neg h, add_zero]

theorem removalLoop_spec (rs : List (Rec K)) : ∀ acc : List K, (∀ r ∈ rs, r.i1 < acc.length) →
    ∃ acc', removalLoop rs acc = some acc' ∧ acc'.length = acc.length ∧
      ∀ j, acc'.getD j 0 =
        acc.getD j 0 + (rs.map fun r => if j = r.i1 then r.d2 - r.d1 else 0).sum := by
  induction rs with
  | nil => intro acc _; exact ⟨acc, rfl, rfl, by simp⟩
  | cons r rs ih =>
    intro acc h
    obtain ⟨a1, e1, l1, g1⟩ := addAt_spec acc r.i1 (r.d2 - r.d1) (h r (by simp))
    obtain ⟨a2, e2, l2, g2⟩ := ih a1 (fun q hq => by rw [l1]; exact h q (by simp [hq]))
    refine ⟨a2, by simp only [removalLoop, e1, Option.bind_eq_bind, Option.bind_some, e2],
      by omega, fun j => ?_⟩
    rw [g2, g1, List.map_cons, List.sum_cons, add_assoc]

/-- The change of the distance to the nearest medoid from "first and second" to the exchange of `j`. -/
def gain (d : Nat → Nat → K) (buf : List (Rec K)) (c j o : Nat) : K :=
  let r := (buf[o]?).getD ⟨0, 0, 0, 0⟩
  if j = r.i1 then min r.d2 (d c o) - r.d2 else min r.d1 (d c o) - r.d1

theorem swapGainLoop_spec (d : Nat → Nat → K) (buf : List (Rec K)) (c k : Nat) (os : List Nat) :
    ∀ (mi : List K) (xc : K), mi.length = k →
      (∀ o ∈ os, ∃ r, buf[o]? = some r ∧ r.i1 < k ∧ r.d1 ≤ r.d2) →
      ∃ mi' xc', swapGainLoop d buf c os mi xc = some (mi', xc') ∧ mi'.length = k ∧
        ∀ j, mi'.getD j 0 + xc' = mi.getD j 0 + xc + (os.map (gain d buf c j)).sum := by
  induction os with
  | nil => intro mi xc hk _; exact ⟨mi, xc, rfl, hk, by simp⟩
  | cons o os ih =>
    intro mi xc hk h
    obtain ⟨r, er, hr, hle⟩ := h o (by simp)
    have ho : ∀ q ∈ os, ∃ r, buf[q]? = some r ∧ r.i1 < k ∧ r.d1 ≤ r.d2 :=
      fun q hq => h q (by simp [hq])
    have eg : ∀ j, gain d buf c j o =
        if j = r.i1 then min r.d2 (d c o) - r.d2 else min r.d1 (d c o) - r.d1 := by
      intro j; simp only [gain, er, Option.getD_some]
    simp only [swapGainLoop, er, Option.bind_eq_bind, Option.bind_some]
    split
    · rename_i hlt
      obtain ⟨a1, e1, l1, g1⟩ := addAt_spec mi r.i1 (r.d1 - r.d2) (by omega)
      obtain ⟨a2, x2, e2, l2, g2⟩ := ih a1 (xc + (d c o - r.d1)) (by omega) ho
      refine ⟨a2, x2, by simp only [e1, Option.bind_some, e2], l2, fun j => ?_⟩
      rw [g2, g1, List.map_cons, List.sum_cons, eg]
      rw [min_eq_right hlt.le, min_eq_right (le_trans hlt.le hle)]
      split <;> ring
    · rename_i hlt
      split
      · rename_i hlt2
        obtain ⟨a1, e1, l1, g1⟩ := addAt_spec mi r.i1 (d c o - r.d2) (by omega)
        obtain ⟨a2, x2, e2, l2, g2⟩ := ih a1 xc (by omega) ho
        refine ⟨a2, x2, by simp only [e1, Option.bind_some, e2], l2, fun j => ?_⟩
        rw [g2, g1, List.map_cons, List.sum_cons, eg]
        rw [min_eq_left (not_lt.1 hlt), min_eq_right hlt2.le]
        split <;> ring
      · rename_i hlt2
        obtain ⟨a2, x2, e2, l2, g2⟩ := ih mi xc hk ho
        refine ⟨a2, x2, e2, l2, fun j => ?_⟩
        rw [g2, List.map_cons, List.sum_cons, eg]
        rw [min_eq_left (not_lt.1 hlt), min_eq_left (not_lt.1 hlt2)]
        split <;> ring

/-! ### The state -/

/-- The invariant of FasterPAM. -/
structure BufOK (d : Nat → Nat → K) (n : Nat) (s : PState K) : Prop where
  two : 2 ≤ s.medoids.length
  len : s.buf.length = n
  recs : ∀ (o : Nat) (r : Rec K), s.buf[o]? = some r → FirstTwo (dists d s.medoids o) r
  rem : removal s.medoids.length s.buf = some s.removal
  loss : s.loss = td d n s.medoids

theorem recAt {d : Nat → Nat → K} {n : Nat} {s : PState K} (h : BufOK d n s) (o : Nat) (ho : o < n) :
    ∃ r, s.buf[o]? = some r ∧ FirstTwo (dists d s.medoids o) r ∧ r.i1 < s.medoids.length ∧
      r.i2 < s.medoids.length := by
  have ho' : o < s.buf.length := by rw [h.len]; exact ho
  refine ⟨s.buf[o], List.getElem?_eq_getElem ho', h.recs _ _ (List.getElem?_eq_getElem ho'), ?_, ?_⟩
  · have := lt_of_some (h.recs _ _ (List.getElem?_eq_getElem ho')).1.2.1
    simpa [dists] using this
  · have := lt_of_some (h.recs _ _ (List.getElem?_eq_getElem ho')).2.2.1
    simpa [dists] using this

theorem buf_eq (buf : List (Rec K)) (n : Nat) (h : buf.length = n) :
    buf = (List.range n).map fun o => (buf[o]?).getD ⟨0, 0, 0, 0⟩ := by
  apply List.ext_getElem
  · simp [h]
  · intro i h1 h2
    simp [List.getElem?_eq_getElem h1]

theorem dists_set (d : Nat → Nat → K) (ms : List Nat) (j c o : Nat) :
    dists d (ms.set j c) o = (dists d ms o).set j (d c o) := by
  simp [dists, List.map_set]

theorem sum_sub_map {α : Type} (l : List α) (f g : α → K) :
    (l.map fun a => f a - g a).sum = (l.map f).sum - (l.map g).sum := by
  induction l with
  | nil => simp
  | cons a l ih => simp only [List.map_cons, List.sum_cons, ih]; ring

theorem sum_add_map {α : Type} (l : List α) (f g : α → K) :
    (l.map fun a => f a + g a).sum = (l.map f).sum + (l.map g).sum := by
  induction l with
  | nil => simp
  | cons a l ih => simp only [List.map_cons, List.sum_cons, ih]; ring

theorem td_of_recs {d : Nat → Nat → K} {n : Nat} {ms : List Nat} {buf : List (Rec K)}
    (hl : buf.length = n) (h : ∀ (o : Nat) (r : Rec K), buf[o]? = some r → FirstTwo (dists d ms o) r) :
    td d n ms = ((List.range n).map fun o => ((buf[o]?).getD ⟨0, 0, 0, 0⟩).d1).sum := by
  unfold td
  congr 1
  apply List.map_congr_left
  intro o ho
  have ho' : o < buf.length := by rw [hl]; exact List.mem_range.1 ho
  rw [List.getElem?_eq_getElem ho', Option.getD_some,
    min_smallest (h o _ (List.getElem?_eq_getElem ho')).1, Option.getD_some]

/-- `find_best_swap` computes the exact change of the total deviation, for every medoid. -/
theorem findBestSwap_spec {d : Nat → Nat → K} {n : Nat} {s : PState K} (h : BufOK d n s) (c : Nat) :
    ∃ delta i, findBestSwap d n s c = some (delta, i) ∧ i < s.medoids.length ∧
      td d n (s.medoids.set i c) = td d n s.medoids + delta ∧
      ∀ j, j < s.medoids.length → td d n s.medoids + delta ≤ td d n (s.medoids.set j c) := by
  have hrem := h.rem
  obtain ⟨rem, e0, l0, g0⟩ := removalLoop_spec s.buf (List.replicate s.medoids.length (0 : K)) (by
    intro r hr
    obtain ⟨o, ho, rfl⟩ := List.mem_iff_getElem.1 hr
    have := lt_of_some (h.recs _ _ (List.getElem?_eq_getElem ho)).1.2.1
    simpa [dists] using this)
  rw [removal, e0, Option.some.injEq] at hrem
  rw [List.length_replicate] at l0
  obtain ⟨mi, xc, e1, l1, g1⟩ := swapGainLoop_spec d s.buf c s.medoids.length (List.range n)
    s.removal 0 (by rw [← hrem]; exact l0) (fun o ho => by
      obtain ⟨r, e, hr, hi, -⟩ := recAt h o (List.mem_range.1 ho)
      exact ⟨r, e, hi, hr.le⟩)
  have key : ∀ j, j < s.medoids.length →
      td d n (s.medoids.set j c) = td d n s.medoids + (mi.getD j 0 + xc) := by
    intro j hj
    have e3 : (List.replicate s.medoids.length (0 : K)).getD j 0 = 0 := by
      rw [List.getD_eq_getElem?_getD, List.getElem?_replicate, if_pos hj]; rfl
    rw [g1, ← hrem, g0, e3, zero_add, add_zero, td_of_recs h.len h.recs]
    conv_rhs => rw [buf_eq s.buf n h.len, List.map_map]
    rw [← buf_eq s.buf n h.len, ← sum_add_map, ← sum_add_map]
    unfold td
    congr 1
    apply List.map_congr_left
    intro o ho
    obtain ⟨r, er, hr, -, -⟩ := recAt h o (List.mem_range.1 ho)
    have hjl : j < (dists d s.medoids o).length := by simpa [dists] using hj
    rw [dists_set, min_set hr j hjl, Option.getD_some]
    simp only [Function.comp, gain, er, Option.getD_some]
    split <;> ring
  have hne : mi ≠ [] := by
    rintro rfl
    have := h.two
    simp at l1
    omega
  obtain ⟨i, v, e2, hi, hmin, -⟩ := Stats.minPair_spec mi hne
  have hil := lt_of_some hi
  have hget : ∀ (j : Nat) (y : K), mi[j]? = some y → mi.getD j 0 = y := by
    intro j y hy
    rw [List.getD_eq_getElem?_getD, hy, Option.getD_some]
  refine ⟨xc + v, i, ?_, by omega, ?_, ?_⟩
  · simp only [findBestSwap, e1, Option.bind_eq_bind, Option.bind_some, e2]
  · rw [key i (by omega), hget i v hi, add_comm xc v]
  · intro j hj
    have hjl : j < mi.length := by omega
    rw [key j hj, hget j _ (List.getElem?_eq_getElem hjl)]
    have := hmin _ (List.getElem_mem hjl)
    linarith

/-! ### Exchanging a medoid -/

theorem lossLoop_spec (buf : List (Rec K)) (c : Nat) (os : List Nat) : ∀ acc : K,
    (∀ o ∈ os, o < buf.length) →
    lossLoop buf c os acc = some (acc + (os.map fun o =>
      if o = c then 0 else ((buf[o]?).getD ⟨0, 0, 0, 0⟩).d1).sum) := by
  induction os with
  | nil => intro acc _; simp [lossLoop]
  | cons o os ih =>
    intro acc h
    have h' : ∀ q ∈ os, q < buf.length := fun q hq => h q (by simp [hq])
    rw [lossLoop, List.map_cons, List.sum_cons]
    split
    · rw [ih _ h', zero_add]
    · rw [List.getElem?_eq_getElem (h o (by simp))]
      simp only [Option.bind_eq_bind, Option.bind_some, Option.getD_some]
      rw [ih _ h', add_assoc]

/-- A table of distances: nonnegative, zero on the diagonal. -/
def IsTable (d : Nat → Nat → K) (n : Nat) : Prop :=
  (∀ i o, i < n → o < n → 0 ≤ d i o) ∧ ∀ i, i < n → d i i = 0

theorem swapBuffers_spec {d : Nat → Nat → K} {n : Nat} {ms : List Nat} {buf : List (Rec K)}
    (hd : IsTable d n) (hms : ∀ m ∈ ms, m < n) (hl : buf.length = n)
    (h : ∀ (o : Nat) (r : Rec K), buf[o]? = some r → FirstTwo (dists d ms o) r)
    (c b : Nat) (hc : c < n) (hb : b < ms.length) :
    ∃ buf', swapBuffers d n (ms.set b c) buf c b = some (buf', td d n (ms.set b c)) ∧
      buf'.length = n ∧
      ∀ (o : Nat) (r : Rec K), buf'[o]? = some r → FirstTwo (dists d (ms.set b c) o) r := by
  let g : Nat → Rec K := fun o =>
    swapSample (row d (ms.set b c) o) (decide (o = c)) (d c o) b ((buf[o]?).getD ⟨0, 0, 0, 0⟩)
  have e1 : (List.range n).mapM (fun o => do
      let r ← buf[o]?
      pure (swapSample (row d (ms.set b c) o) (decide (o = c)) (d c o) b r)) =
      some ((List.range n).map g) := by
    apply KMeans.mapM_some
    intro o ho
    have ho' : o < buf.length := by rw [hl]; exact List.mem_range.1 ho
    simp only [g, List.getElem?_eq_getElem ho', Option.getD_some, Option.bind_eq_bind,
      Option.bind_some]
    rfl
  have hlen : ((List.range n).map g).length = n := by simp
  have hrec : ∀ (o : Nat) (r : Rec K), ((List.range n).map g)[o]? = some r →
      FirstTwo (dists d (ms.set b c) o) r := by
    intro o r hr
    have ho : o < n := by
      have := lt_of_some (l := (List.range n).map fun o => (g o).d1) (i := o) (x := r.d1) (by
        simp only [List.getElem?_map, Option.map_eq_some_iff] at hr ⊢
        obtain ⟨a, ha, rfl⟩ := hr
        exact ⟨a, ha, rfl⟩)
      simpa using this
    have ho' : o < buf.length := by omega
    rw [List.getElem?_map, List.getElem?_range ho, Option.map_some, Option.some.injEq] at hr
    subst hr
    simp only [g, List.getElem?_eq_getElem ho', Option.getD_some]
    show FirstTwo _ (swapSample (dists d (ms.set b c) o) _ _ _ _)
    rw [dists_set]
    refine swapSample_spec (h o _ (List.getElem?_eq_getElem ho')) b (by simpa [dists] using hb) _ _ ?_
    intro hoc
    have : o = c := of_decide_eq_true hoc
    subst this
    refine ⟨hd.2 _ ho, fun y hy => ?_⟩
    simp only [dists, List.mem_map] at hy
    obtain ⟨m, hm, rfl⟩ := hy
    exact hd.1 _ _ (hms m hm) ho
  refine ⟨(List.range n).map g, ?_, hlen, hrec⟩
  simp only [Option.bind_eq_bind] at e1
  simp only [swapBuffers, Option.bind_eq_bind, e1, Option.bind_some]
  rw [lossLoop_spec _ _ _ _ (by intro o ho; rw [hlen]; exact List.mem_range.1 ho), zero_add,
    Option.bind_some, td_of_recs hlen hrec]
  congr 3
  apply List.map_congr_left
  intro o ho
  have ho' := List.mem_range.1 ho
  split
  · rename_i hoc
    subst hoc
    rw [List.getElem?_map, List.getElem?_range ho']
    simp only [Option.map_some, Option.getD_some, g, swapSample, decide_true, if_true]
    split <;> rfl
  · rfl

theorem removal_some {ms : List Nat} {d : Nat → Nat → K} {buf : List (Rec K)}
    (h : ∀ (o : Nat) (r : Rec K), buf[o]? = some r → FirstTwo (dists d ms o) r) :
    ∃ rem, removal ms.length buf = some rem := by
  obtain ⟨rem, e0, -⟩ := removalLoop_spec buf (List.replicate ms.length (0 : K)) (by
    intro r hr
    obtain ⟨o, ho, rfl⟩ := List.mem_iff_getElem.1 hr
    have := lt_of_some (h _ _ (List.getElem?_eq_getElem ho)).1.2.1
    simpa [dists] using this)
  exact ⟨rem, e0⟩

/-- One candidate: either nothing changes, or one exchange that lowers the total deviation. -/
theorem tryCandidate_spec {d : Nat → Nat → K} {n : Nat} {s : PState K} (hd : IsTable d n)
    (hms : ∀ m ∈ s.medoids, m < n) (h : BufOK d n s) (c : Nat) (hc : c < n) :
    ∃ s', tryCandidate d n s c = some s' ∧ BufOK d n s' ∧
      ((s' = s ∧ ∀ r, s.buf[c]? = some r → c ≠ r.i1 →
          ∀ j, j < s.medoids.length → td d n s.medoids ≤ td d n (s.medoids.set j c)) ∨
        (∃ b, b < s.medoids.length ∧ s'.medoids = s.medoids.set b c ∧
          td d n s'.medoids < td d n s.medoids ∧
          ∀ j, j < s.medoids.length → td d n s'.medoids ≤ td d n (s.medoids.set j c))) := by
  obtain ⟨r, er, -, -, -⟩ := recAt h c hc
  simp only [tryCandidate, er, Option.bind_eq_bind, Option.bind_some]
  split
  · rename_i hcr
    refine ⟨s, rfl, h, Or.inl ⟨rfl, ?_⟩⟩
    intro r' er' hne
    rw [Option.some.injEq] at er'
    subst er'
    exact absurd hcr hne
  · obtain ⟨delta, b, e1, hb, htd, hbest⟩ := findBestSwap_spec h c
    simp only [e1, Option.bind_some]
    split
    · rename_i hneg
      obtain ⟨buf', e2, hl2, hr2⟩ := swapBuffers_spec hd hms h.len h.recs c b hc hb
      obtain ⟨rem, e3⟩ := removal_some hr2
      simp only [e2, Option.bind_some, e3]
      refine ⟨_, rfl, ⟨by simpa using h.two, hl2, hr2, e3, rfl⟩, Or.inr ⟨b, hb, rfl, ?_, ?_⟩⟩
      · dsimp only
        rw [htd]
        linarith
      · intro j hj
        dsimp only
        rw [htd]
        exact hbest j hj
    · rename_i hneg
      refine ⟨s, rfl, h, Or.inl ⟨rfl, ?_⟩⟩
      intro _ _ _ j hj
      have := hbest j hj
      have := not_lt.1 hneg
      linarith

/-- An exchange with a sample that is a medoid does not lower the total deviation. -/
theorem td_set_mem (d : Nat → Nat → K) (n : Nat) (ms : List Nat) (c b : Nat) (hc : c ∈ ms) :
    td d n ms ≤ td d n (ms.set b c) := by
  unfold td
  apply List.sum_le_sum
  intro o _
  have hne : dists d ms o ≠ [] := by
    intro e
    simp only [dists, List.map_eq_nil_iff] at e
    subst e
    simp at hc
  have hne' : dists d (ms.set b c) o ≠ [] := by
    simpa [dists] using hne
  obtain ⟨x, hx⟩ := Option.isSome_iff_exists.1 (List.isSome_min?_iff.2 hne)
  obtain ⟨y, hy⟩ := Option.isSome_iff_exists.1 (List.isSome_min?_iff.2 hne')
  rw [hx, hy, Option.getD_some, Option.getD_some]
  rw [List.min?_eq_some_iff] at hx hy
  apply hx.2
  have := hy.1
  simp only [dists, List.mem_map] at this ⊢
  obtain ⟨m, hm, e⟩ := this
  refine ⟨m, ?_, e⟩
  rcases List.mem_or_eq_of_mem_set hm with h' | rfl
  · exact h'
  · exact hc

/-! ### Steps -/

/-- What a pass over the candidates `cs` guarantees. -/
theorem stepLoop_spec {d : Nat → Nat → K} {n : Nat} (hd : IsTable d n) (cs : List Nat) :
    ∀ s : PState K, (∀ c ∈ cs, c < n) → (∀ m ∈ s.medoids, m < n) → BufOK d n s →
    ∃ s', stepLoop d n cs s = some s' ∧ BufOK d n s' ∧ s'.medoids.length = s.medoids.length ∧
      (∀ m ∈ s'.medoids, m < n) ∧ (s.medoids.Nodup → s'.medoids.Nodup) ∧
      td d n s'.medoids ≤ td d n s.medoids ∧
      (s'.medoids ≠ s.medoids → td d n s'.medoids < td d n s.medoids) ∧
      (s'.medoids = s.medoids → s' = s ∧ ∀ c ∈ cs, ∀ r, s.buf[c]? = some r → c ≠ r.i1 →
        ∀ j, j < s.medoids.length → td d n s.medoids ≤ td d n (s.medoids.set j c)) := by
  induction cs with
  | nil =>
    intro s _ hms h
    exact ⟨s, rfl, h, rfl, hms, id, le_refl _, fun e => absurd rfl e, fun _ => ⟨rfl, by simp⟩⟩
  | cons c cs ih =>
    intro s hcs hms h
    have hcs' : ∀ q ∈ cs, q < n := fun q hq => hcs q (by simp [hq])
    obtain ⟨s1, e1, h1, hcase⟩ := tryCandidate_spec hd hms h c (hcs c (by simp))
    rcases hcase with ⟨rfl, hopt⟩ | ⟨b, hb, em, hlt, -⟩
    · obtain ⟨s2, e2, h2, l2, hm2, hn2, hle2, hlt2, heq2⟩ := ih s1 hcs' hms h
      refine ⟨s2, by simp only [stepLoop, e1, Option.bind_eq_bind, Option.bind_some, e2], h2, l2, hm2,
        hn2, hle2, hlt2, fun e => ⟨(heq2 e).1, ?_⟩⟩
      intro q hq
      rcases List.mem_cons.1 hq with rfl | hq
      · exact hopt
      · exact (heq2 e).2 q hq
    · have hcn : c ∉ s.medoids := by
        intro hcm
        have := td_set_mem d n s.medoids c b hcm
        rw [← em] at this
        exact absurd hlt (not_lt.2 this)
      have hms1 : ∀ m ∈ s1.medoids, m < n := by
        intro m hm
        rw [em] at hm
        rcases List.mem_or_eq_of_mem_set hm with h' | rfl
        · exact hms m h'
        · exact hcs _ (by simp)
      obtain ⟨s2, e2, h2, l2, hm2, hn2, hle2, hlt2, heq2⟩ := ih s1 hcs' hms1 h1
      have hlt' : td d n s2.medoids < td d n s.medoids := lt_of_le_of_lt hle2 hlt
      refine ⟨s2, by simp only [stepLoop, e1, Option.bind_eq_bind, Option.bind_some, e2], h2,
        by rw [l2, em, List.length_set], hm2, ?_, hlt'.le, fun _ => hlt', ?_⟩
      · intro hnd
        apply hn2
        rw [em]
        exact hnd.set hcn
      · intro e
        rw [e] at hlt'
        exact absurd hlt' (lt_irrefl _)

/-! ### The constructor -/

theorem pamInit_spec (vmax : K) (eq : K → K → Bool) {d : Nat → Nat → K} {n : Nat} {ms : List Nat}
    (hk : 2 ≤ ms.length) (hv : ∀ o, o < n → ∀ m ∈ ms, d m o < vmax)
    (ht : ∀ o, o < n → NoTies eq (dists d ms o)) :
    ∃ s, pamInit vmax eq d n ms = some s ∧ s.medoids = ms ∧ BufOK d n s ∧
      s.buf = (List.range n).map fun o => second vmax eq (dists d ms o) := by
  have hne : ms ≠ [] := by rintro rfl; simp at hk
  have e1 : nthIndices vmax eq d n ms 1 =
      some ((List.range n).map fun o => (first vmax (row d ms o)).1) := by
    rw [nthIndices, if_neg (by omega), if_neg hne, if_pos rfl, nearestIndices, if_neg hne]
  have e2 : nthIndices vmax eq d n ms 2 =
      some ((List.range n).map fun o => (second vmax eq (row d ms o)).i2) := by
    rw [nthIndices, if_neg (by omega), if_neg hne, if_neg (by omega), if_pos rfl]
  have e3 : nthDistances vmax eq d n ms 1 =
      some ((List.range n).map fun o => (first vmax (row d ms o)).2) := by
    rw [nthDistances, if_neg (by omega), if_neg hne, if_pos rfl, nearestDistances, if_neg hne]
  have e4 : nthDistances vmax eq d n ms 2 =
      some ((List.range n).map fun o => (second vmax eq (row d ms o)).d2) := by
    rw [nthDistances, if_neg (by omega), if_neg hne, if_neg (by omega), if_pos rfl]
  have hs := second_first vmax eq
  have e5 : (List.range n).mapM (fun o => do
      let i1 ← ((List.range n).map fun o => (first vmax (row d ms o)).1)[o]?
      let d1 ← ((List.range n).map fun o => (first vmax (row d ms o)).2)[o]?
      let i2 ← ((List.range n).map fun o => (second vmax eq (row d ms o)).i2)[o]?
      let d2 ← ((List.range n).map fun o => (second vmax eq (row d ms o)).d2)[o]?
      pure (Rec.mk i1 d1 i2 d2)) =
      some ((List.range n).map fun o => second vmax eq (dists d ms o)) := by
    apply KMeans.mapM_some
    intro o ho
    have ho' := List.mem_range.1 ho
    simp only [List.getElem?_map, List.getElem?_range ho', Option.map_some, Option.bind_eq_bind,
      Option.bind_some]
    have := hs (row d ms o) 0 ⟨0, vmax, 0, vmax⟩
    simp only [first, second, ← this.1, ← this.2]
    rfl
  have hlen : ((List.range n).map fun o => second vmax eq (dists d ms o)).length = n := by simp
  have hrec : ∀ (o : Nat) (r : Rec K),
      ((List.range n).map fun o => second vmax eq (dists d ms o))[o]? = some r →
      FirstTwo (dists d ms o) r := by
    intro o r hr
    rw [List.getElem?_map, Option.map_eq_some_iff] at hr
    obtain ⟨a, ha, rfl⟩ := hr
    have ho : o < n := by
      by_contra hn
      rw [List.getElem?_eq_none (by simpa using hn)] at ha
      cases ha
    rw [List.getElem?_range ho, Option.some.injEq] at ha
    subst ha
    refine second_spec vmax eq _ (by simpa [dists] using hk) ?_ (ht o ho)
    intro v hv'
    simp only [dists, List.mem_map] at hv'
    obtain ⟨m, hm, rfl⟩ := hv'
    exact hv o ho m hm
  obtain ⟨rem, e6⟩ := removal_some hrec
  refine ⟨⟨ms, (List.range n).map fun o => second vmax eq (dists d ms o), rem,
    ((List.range n).map fun o => (first vmax (row d ms o)).2).sum⟩, by
    simp only [pamInit, e1, e2, e3, e4, Option.bind_eq_bind, Option.bind_some]
    simp only [Option.bind_eq_bind] at e5
    simp only [e5, Option.bind_some, e6], rfl, ⟨hk, hlen, hrec, e6, ?_⟩, rfl⟩
  dsimp only
  rw [td_of_recs hlen hrec]
  congr 1
  apply List.map_congr_left
  intro o ho
  have ho' := List.mem_range.1 ho
  rw [List.getElem?_map, List.getElem?_range ho']
  exact (hs (row d ms o) 0 ⟨0, vmax, 0, vmax⟩).2.symm

/-- Without ties the nearest two are determined. -/
theorem firstTwo_unique {eq : K → K → Bool} {l : List K} {r r' : Rec K} (ht : NoTies eq l)
    (h : FirstTwo l r) (h' : FirstTwo l r') : r = r' := by
  obtain ⟨⟨-, a1, b1⟩, ⟨hne, a2, b2⟩⟩ := h
  obtain ⟨⟨-, a1', b1'⟩, ⟨hne', a2', b2'⟩⟩ := h'
  have e1 : r.d1 = r'.d1 := le_antisymm (b1 _ _ (by simp) a1') (b1' _ _ (by simp) a1)
  have e2 : r.i1 = r'.i1 := by
    by_contra hn
    exact (ht _ _ _ _ hn a1 a1').1 e1
  simp only [List.mem_singleton] at hne hne' b2 b2'
  have e3 : r.d2 = r'.d2 := le_antisymm (b2 _ _ (by omega) a2') (b2' _ _ (by omega) a2)
  have e4 : r.i2 = r'.i2 := by
    by_contra hn
    exact (ht _ _ _ _ hn a2 a2').1 e3
  obtain ⟨i1, d1, i2, d2⟩ := r
  obtain ⟨i1', d1', i2', d2'⟩ := r'
  dsimp only at e1 e2 e3 e4
  subst e1 e2 e3 e4
  rfl

end Verif.KMedoids
