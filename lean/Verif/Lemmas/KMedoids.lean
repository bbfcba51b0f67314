import Verif.Model.KMedoids
import Verif.Spec.KMedoids
import Mathlib.Tactic.Common
import Mathlib.Order.Basic

/-
Lemmas on the loops of kmedoids/PAMUtils.hpp.
-/

namespace Verif.KMedoids

open Spec

set_option linter.unusedSectionVars false

section

variable {K : Type} [LinearOrder K]

theorem snoc_getElem? (p : List K) (v : K) (j : Nat) (y : K) :
    (p ++ [v])[j]? = some y ↔ p[j]? = some y ∨ (j = p.length ∧ y = v) := by
  rw [List.getElem?_append]
  split
  · rename_i h
    constructor
    · exact Or.inl
    · rintro (h' | ⟨h', -⟩)
      · exact h'
      · omega
  · rename_i h
    constructor
    · intro e
      have : j - p.length = 0 := by
        by_contra hn
        rw [List.getElem?_eq_none (by simp; omega)] at e
        cases e
      rw [this] at e
      simp only [List.getElem?_cons_zero, Option.some.injEq] at e
      exact Or.inr ⟨by omega, e.symm⟩
    · rintro (h' | ⟨h', rfl⟩)
      · rw [List.getElem?_eq_none (by omega)] at h'
        cases h'
      · subst h'
        simp

theorem lt_of_some {l : List K} {i : Nat} {x : K} (h : l[i]? = some x) : i < l.length := by
  by_contra hn
  rw [List.getElem?_eq_none (by omega)] at h
  cases h

/-! ### The nearest -/

/-- What `firstLoop` knows after the prefix `p`. -/
structure Inv1 (vmax : K) (p : List K) (a : Nat × K) : Prop where
  start : p = [] → a = (0, vmax)
  at1 : p ≠ [] → p[a.1]? = some a.2
  le1 : ∀ (j : Nat) (y : K), p[j]? = some y → a.2 ≤ y
  lt1 : ∀ (j : Nat) (y : K), j < a.1 → p[j]? = some y → a.2 < y

theorem firstLoop_inv (vmax : K) (l : List K) : ∀ (p : List K) (a : Nat × K),
    (∀ v ∈ l, v < vmax) → Inv1 vmax p a → Inv1 vmax (p ++ l) (firstLoop p.length l a) := by
  induction l with
  | nil => intro p a _ h; simpa [firstLoop] using h
  | cons v vs ih =>
    intro p a hv h
    obtain ⟨i1, d1⟩ := a
    have e : p ++ v :: vs = (p ++ [v]) ++ vs := by simp
    have el : p.length + 1 = (p ++ [v]).length := by simp
    have hv' : ∀ w ∈ vs, w < vmax := fun w hw => hv w (List.mem_cons_of_mem _ hw)
    rw [e, firstLoop, el]
    split
    · rename_i hlt
      refine ih _ _ hv' ⟨by simp, fun _ => by simp, ?_, ?_⟩
      · intro j y hy
        rcases (snoc_getElem? _ _ _ _).1 hy with h' | ⟨-, rfl⟩
        · exact le_trans hlt.le (h.le1 j y h')
        · exact le_refl _
      · intro j y hj hy
        rcases (snoc_getElem? _ _ _ _).1 hy with h' | ⟨rfl, -⟩
        · exact lt_of_lt_of_le hlt (h.le1 j y h')
        · exact absurd hj (lt_irrefl _)
    · rename_i hlt
      have hp : p ≠ [] := by
        intro hp
        have := h.start hp
        simp only [Prod.mk.injEq] at this
        exact hlt (by rw [this.2]; exact hv v (by simp))
      refine ih _ _ hv' ⟨by simp, fun _ => (snoc_getElem? _ _ _ _).2 (Or.inl (h.at1 hp)), ?_, ?_⟩
      · intro j y hy
        rcases (snoc_getElem? _ _ _ _).1 hy with h' | ⟨-, rfl⟩
        · exact h.le1 j y h'
        · exact not_lt.1 hlt
      · intro j y hj hy
        rcases (snoc_getElem? _ _ _ _).1 hy with h' | ⟨rfl, -⟩
        · exact h.lt1 j y hj h'
        · have := lt_of_some (h.at1 hp)
          dsimp only at this hj
          omega

theorem first_spec (vmax : K) (l : List K) (hne : l ≠ []) (hv : ∀ v ∈ l, v < vmax) :
    Smallest l [] (first vmax l).1 (first vmax l).2 ∧
      ∀ (j : Nat) (y : K), j < (first vmax l).1 → l[j]? = some y → (first vmax l).2 < y := by
  have h := firstLoop_inv vmax l [] (0, vmax) hv
    ⟨fun _ => rfl, fun h => absurd rfl h, by simp, by simp⟩
  simp only [List.nil_append, List.length_nil] at h
  exact ⟨⟨by simp, h.at1 hne, fun j y _ => h.le1 j y⟩, h.lt1⟩

/-! ### The second nearest -/

/-- What `secondLoop` knows after the prefix `p`. -/
structure Inv2 (vmax : K) (p : List K) (r : Rec K) : Prop where
  start : p = [] → r.d1 = vmax
  at1 : p ≠ [] → p[r.i1]? = some r.d1
  le1 : ∀ (j : Nat) (y : K), p[j]? = some y → r.d1 ≤ y
  start2 : p.length ≤ 1 → r.d2 = vmax
  at2 : 1 < p.length → r.i2 ≠ r.i1 ∧ p[r.i2]? = some r.d2
  le2 : ∀ (j : Nat) (y : K), j ≠ r.i1 → p[j]? = some y → r.d2 ≤ y

theorem secondLoop_inv (vmax : K) (eq : K → K → Bool) (l : List K) : ∀ (p : List K) (r : Rec K),
    (∀ v ∈ p ++ l, v < vmax) → NoTies eq (p ++ l) → Inv2 vmax p r →
      Inv2 vmax (p ++ l) (secondLoop eq p.length l r) := by
  induction l with
  | nil => intro p a _ _ h; simpa [secondLoop] using h
  | cons v vs ih =>
    intro p a hv ht h
    obtain ⟨i1, d1, i2, d2⟩ := a
    have e : p ++ v :: vs = (p ++ [v]) ++ vs := by simp
    have el : p.length + 1 = (p ++ [v]).length := by simp
    have hvv : v < vmax := hv v (by simp)
    have hpv : (p ++ v :: vs)[p.length]? = some v := by simp
    have hp : ∀ (j : Nat) (y : K), p[j]? = some y → (p ++ v :: vs)[j]? = some y := by
      intro j y hy
      rw [List.getElem?_append_left (lt_of_some hy)]
      exact hy
    rw [e] at hv ht
    rw [e, secondLoop, el]
    have hsn := snoc_getElem? p v
    have hd1 : d1 ≤ vmax := by
      by_cases hpe : p = []
      · exact le_of_eq (h.start hpe)
      · exact (hv d1 (by simp [List.mem_of_getElem? (h.at1 hpe)])).le
    split
    · rename_i hlt
      refine ih _ _ hv ht ⟨by simp, fun _ => by simp, ?_, ?_, ?_, ?_⟩
      · intro j y hy
        rcases (hsn _ _).1 hy with h' | ⟨-, rfl⟩
        · exact le_trans hlt.le (h.le1 j y h')
        · exact le_refl _
      · intro hl
        simp only [List.length_append, List.length_cons, List.length_nil] at hl
        exact h.start (List.length_eq_zero_iff.1 (by omega))
      · intro hl
        simp only [List.length_append, List.length_cons, List.length_nil] at hl
        have hpe : p ≠ [] := by rintro rfl; simp at hl
        have := lt_of_some (h.at1 hpe)
        exact ⟨by dsimp only at this ⊢; omega, (hsn _ _).2 (Or.inl (h.at1 hpe))⟩
      · intro j y hj hy
        rcases (hsn _ _).1 hy with h' | ⟨rfl, -⟩
        · exact h.le1 j y h'
        · exact absurd rfl hj
    · rename_i hlt
      have hpe : p ≠ [] := by
        intro hpe
        exact hlt (by rw [show d1 = vmax from h.start hpe]; exact hvv)
      have hi1 := lt_of_some (h.at1 hpe)
      have hne := ht p.length i1 v d1 (by dsimp only at hi1; omega) (by rw [← e]; exact hpv)
        (by rw [← e]; exact hp _ _ (h.at1 hpe))
      have hle : ∀ (j : Nat) (y : K), (p ++ [v])[j]? = some y → d1 ≤ y := by
        intro j y hy
        rcases (hsn _ _).1 hy with h' | ⟨-, rfl⟩
        · exact h.le1 j y h'
        · exact not_lt.1 hlt
      split
      · rename_i hc
        simp only [Bool.and_eq_true, decide_eq_true_eq, Bool.not_eq_true'] at hc
        refine ih _ _ hv ht ⟨by simp, fun _ => (hsn _ _).2 (Or.inl (h.at1 hpe)), hle, ?_, ?_, ?_⟩
        · intro hl
          simp only [List.length_append, List.length_cons, List.length_nil] at hl
          exact absurd (List.length_eq_zero_iff.1 (by omega)) hpe
        · intro _
          exact ⟨by dsimp only at hi1 ⊢; omega, by simp⟩
        · intro j y hj hy
          rcases (hsn _ _).1 hy with h' | ⟨-, rfl⟩
          · exact le_trans hc.1.le (h.le2 j y hj h')
          · exact le_refl _
      · rename_i hc
        simp only [Bool.and_eq_true, decide_eq_true_eq, Bool.not_eq_true', not_and] at hc
        have hc' : d2 ≤ v := by
          by_contra hn
          exact hc (not_le.1 hn) hne.2
        have hl1 : 1 < p.length := by
          by_contra hn
          have := h.start2 (by omega)
          dsimp only at this
          rw [this] at hc'
          exact absurd hvv (not_lt.2 hc')
        refine ih _ _ hv ht ⟨by simp, fun _ => (hsn _ _).2 (Or.inl (h.at1 hpe)), hle, ?_, ?_, ?_⟩
        · intro hl
          simp only [List.length_append, List.length_cons, List.length_nil] at hl
          omega
        · intro _
          exact ⟨(h.at2 hl1).1, (hsn _ _).2 (Or.inl (h.at2 hl1).2)⟩
        · intro j y hj hy
          rcases (hsn _ _).1 hy with h' | ⟨-, rfl⟩
          · exact h.le2 j y hj h'
          · exact hc'

theorem second_spec (vmax : K) (eq : K → K → Bool) (l : List K) (hk : 2 ≤ l.length)
    (hv : ∀ v ∈ l, v < vmax) (ht : NoTies eq l) :
    Smallest l [] (second vmax eq l).i1 (second vmax eq l).d1 ∧
      Smallest l [(second vmax eq l).i1] (second vmax eq l).i2 (second vmax eq l).d2 := by
  have h := secondLoop_inv vmax eq l [] ⟨0, vmax, 0, vmax⟩ hv ht
    ⟨fun _ => rfl, fun h => absurd rfl h, by simp, fun _ => rfl, by simp, by simp⟩
  simp only [List.nil_append, List.length_nil] at h
  have h2 := h.at2 (by omega)
  exact ⟨⟨by simp, h.at1 (by rintro rfl; simp at hk), fun j y _ => h.le1 j y⟩,
    ⟨by simpa [second] using h2.1, h2.2, fun j y hj => h.le2 j y (by simpa [second] using hj)⟩⟩

/-! ### The third nearest -/

/-- What `thirdLoop` knows after the prefix `p`. -/
structure Inv3 (vmax : K) (p : List K) (r : Rec3 K) : Prop where
  two : Inv2 vmax p ⟨r.i1, r.d1, r.i2, r.d2⟩
  start3 : p.length ≤ 2 → r.d3 = vmax
  at3 : 2 < p.length → r.i3 ≠ r.i1 ∧ r.i3 ≠ r.i2 ∧ p[r.i3]? = some r.d3
  le3 : ∀ (j : Nat) (y : K), j ≠ r.i1 → j ≠ r.i2 → p[j]? = some y → r.d3 ≤ y

/-- The two first fields of `thirdLoop` are computed like `secondLoop`. -/
theorem thirdLoop_two (eq : K → K → Bool) (l : List K) : ∀ (j : Nat) (r : Rec3 K),
    let t := thirdLoop eq j l r
    (⟨t.i1, t.d1, t.i2, t.d2⟩ : Rec K) = secondLoop eq j l ⟨r.i1, r.d1, r.i2, r.d2⟩ := by
  induction l with
  | nil => intro j r; rfl
  | cons v vs ih =>
    intro j r
    obtain ⟨i1, d1, i2, d2, i3, d3⟩ := r
    dsimp only
    rw [thirdLoop, secondLoop]
    split
    · exact ih _ _
    · split
      · exact ih _ _
      · split
        · exact ih _ _
        · exact ih _ _

theorem thirdLoop_inv (vmax : K) (eq : K → K → Bool) (l : List K) : ∀ (p : List K) (r : Rec3 K),
    (∀ v ∈ p ++ l, v < vmax) → NoTies eq (p ++ l) → Inv3 vmax p r →
      Inv3 vmax (p ++ l) (thirdLoop eq p.length l r) := by
  induction l with
  | nil => intro p a _ _ h; simpa [thirdLoop] using h
  | cons v vs ih =>
    intro p a hv ht h
    have e : p ++ v :: vs = (p ++ [v]) ++ vs := by simp
    have el : p.length + 1 = (p ++ [v]).length := by simp
    have hvv : v < vmax := hv v (by simp)
    have hpv : (p ++ v :: vs)[p.length]? = some v := by simp
    have hp : ∀ (j : Nat) (y : K), p[j]? = some y → (p ++ v :: vs)[j]? = some y := by
      intro j y hy
      rw [List.getElem?_append_left (lt_of_some hy)]
      exact hy
    have hvp : ∀ w ∈ p ++ [v], w < vmax := fun w hw => hv w (by
      simp only [List.mem_append, List.mem_singleton, List.mem_cons] at hw ⊢
      tauto)
    have htp : NoTies eq (p ++ [v]) := by
      intro i j x y hij hx hy
      refine ht i j x y hij ?_ ?_
      · rw [e, List.getElem?_append_left (lt_of_some hx)]; exact hx
      · rw [e, List.getElem?_append_left (lt_of_some hy)]; exact hy
    -- the first two fields
    have h2 := secondLoop_inv vmax eq [v] p _ hvp htp h.two
    obtain ⟨i1, d1, i2, d2, i3, d3⟩ := a
    rw [secondLoop] at h2
    rw [e] at hv ht
    rw [e, thirdLoop, el]
    have hsn := snoc_getElem? p v
    have hd : d1 ≤ d2 := by
      by_cases hl1 : 1 < p.length
      · exact h.two.le1 _ _ (h.two.at2 hl1).2
      · have := h.two.start2 (by omega)
        dsimp only at this
        rw [this]
        by_cases hpe : p = []
        · exact le_of_eq (h.two.start hpe)
        · exact (hvp _ (by simp [List.mem_of_getElem? (h.two.at1 hpe)])).le
    split
    · rename_i hlt
      rw [if_pos hlt, secondLoop] at h2
      refine ih _ _ hv ht ⟨h2, ?_, ?_, ?_⟩
      · intro hl
        simp only [List.length_append, List.length_cons, List.length_nil] at hl
        exact h.two.start2 (by omega)
      · intro hl
        simp only [List.length_append, List.length_cons, List.length_nil] at hl
        have := h.two.at2 (by omega)
        have hi := lt_of_some this.2
        exact ⟨by dsimp only at hi ⊢; omega, this.1, (hsn _ _).2 (Or.inl this.2)⟩
      · intro j y hj hj2 hy
        rcases (hsn _ _).1 hy with h' | ⟨rfl, -⟩
        · exact h.two.le2 j y hj2 h'
        · exact absurd rfl hj
    · rename_i hlt
      rw [if_neg hlt] at h2
      have hpe : p ≠ [] := by
        intro hpe
        exact hlt (by rw [show d1 = vmax from h.two.start hpe]; exact hvv)
      have hi1 := lt_of_some (h.two.at1 hpe)
      split
      · rename_i hc
        rw [if_pos hc, secondLoop] at h2
        simp only [Bool.and_eq_true, decide_eq_true_eq, Bool.not_eq_true'] at hc
        refine ih _ _ hv ht ⟨h2, ?_, ?_, ?_⟩
        · intro hl
          simp only [List.length_append, List.length_cons, List.length_nil] at hl
          exact h.two.start2 (by omega)
        · intro hl
          simp only [List.length_append, List.length_cons, List.length_nil] at hl
          have := h.two.at2 (by omega)
          have hi := lt_of_some this.2
          exact ⟨this.1, by dsimp only at hi ⊢; omega, (hsn _ _).2 (Or.inl this.2)⟩
        · intro j y hj hj2 hy
          rcases (hsn _ _).1 hy with h' | ⟨rfl, -⟩
          · exact h.two.le2 j y hj h'
          · exact absurd rfl hj2
      · rename_i hc
        rw [if_neg hc, secondLoop] at h2
        have hne := ht p.length i1 v d1 (by dsimp only at hi1; omega) (by rw [← e]; exact hpv)
          (by rw [← e]; exact hp _ _ (h.two.at1 hpe))
        simp only [Bool.and_eq_true, decide_eq_true_eq, Bool.not_eq_true', not_and] at hc
        have hc' : d2 ≤ v := by
          by_contra hn
          exact hc (not_le.1 hn) hne.2
        have hl1 : 1 < p.length := by
          by_contra hn
          have := h.two.start2 (by omega)
          dsimp only at this
          rw [this] at hc'
          exact absurd hvv (not_lt.2 hc')
        have hi2 := lt_of_some (h.two.at2 hl1).2
        have hne2 := ht p.length i2 v d2 (by dsimp only at hi2; omega) (by rw [← e]; exact hpv)
          (by rw [← e]; exact hp _ _ (h.two.at2 hl1).2)
        split
        · rename_i hc3
          simp only [Bool.and_eq_true, decide_eq_true_eq, Bool.not_eq_true'] at hc3
          refine ih _ _ hv ht ⟨h2, ?_, ?_, ?_⟩
          · intro hl
            simp only [List.length_append, List.length_cons, List.length_nil] at hl
            omega
          · intro _
            dsimp only at hi1 hi2 ⊢
            exact ⟨by omega, by omega, by simp⟩
          · intro j y hj hj2 hy
            rcases (hsn _ _).1 hy with h' | ⟨-, rfl⟩
            · exact le_trans hc3.1.1.le (h.le3 j y hj hj2 h')
            · exact le_refl _
        · rename_i hc3
          simp only [Bool.and_eq_true, decide_eq_true_eq, Bool.not_eq_true', not_and] at hc3
          have hc3' : d3 ≤ v := by
            by_contra hn
            exact hc3 ⟨not_le.1 hn, hne.2⟩ hne2.2
          have hl2 : 2 < p.length := by
            by_contra hn
            have := h.start3 (by omega)
            dsimp only at this
            rw [this] at hc3'
            exact absurd hvv (not_lt.2 hc3')
          refine ih _ _ hv ht ⟨h2, ?_, ?_, ?_⟩
          · intro hl
            simp only [List.length_append, List.length_cons, List.length_nil] at hl
            omega
          · intro _
            have := h.at3 hl2
            exact ⟨this.1, this.2.1, (hsn _ _).2 (Or.inl this.2.2)⟩
          · intro j y hj hj2 hy
            rcases (hsn _ _).1 hy with h' | ⟨-, rfl⟩
            · exact h.le3 j y hj hj2 h'
            · exact hc3'

theorem third_spec (vmax : K) (eq : K → K → Bool) (l : List K) (hk : 3 ≤ l.length)
    (hv : ∀ v ∈ l, v < vmax) (ht : NoTies eq l) :
    Smallest l [] (third vmax eq l).i1 (third vmax eq l).d1 ∧
      Smallest l [(third vmax eq l).i1] (third vmax eq l).i2 (third vmax eq l).d2 ∧
      Smallest l [(third vmax eq l).i1, (third vmax eq l).i2] (third vmax eq l).i3
        (third vmax eq l).d3 := by
  have h := thirdLoop_inv vmax eq l [] ⟨0, vmax, 0, vmax, 0, vmax⟩ hv ht
    ⟨⟨fun _ => rfl, fun h => absurd rfl h, by simp, fun _ => rfl, by simp, by simp⟩,
      fun _ => rfl, by simp, by simp⟩
  simp only [List.nil_append, List.length_nil] at h
  have h2 := h.two.at2 (by omega)
  have h3 := h.at3 (by omega)
  exact ⟨⟨by simp, h.two.at1 (by rintro rfl; simp at hk), fun j y _ => h.two.le1 j y⟩,
    ⟨by simpa [third] using h2.1, h2.2, fun j y hj => h.two.le2 j y (by simpa [third] using hj)⟩,
    ⟨by simp only [List.mem_cons, List.not_mem_nil, or_false, not_or]; exact ⟨h3.1, h3.2.1⟩, h3.2.2,
      fun j y hj => by
        simp only [List.mem_cons, List.not_mem_nil, or_false, not_or] at hj
        exact h.le3 j y hj.1 hj.2⟩⟩

/-- The nearest found with the second nearest is the nearest. -/
theorem second_first (vmax : K) (eq : K → K → Bool) (l : List K) : ∀ (j : Nat) (r : Rec K),
    (secondLoop eq j l r).i1 = (firstLoop j l (r.i1, r.d1)).1 ∧
      (secondLoop eq j l r).d1 = (firstLoop j l (r.i1, r.d1)).2 := by
  induction l with
  | nil => intro j r; exact ⟨rfl, rfl⟩
  | cons v vs ih =>
    intro j r
    obtain ⟨i1, d1, i2, d2⟩ := r
    rw [secondLoop, firstLoop]
    split
    · exact ih _ _
    · split
      · exact ih _ _
      · exact ih _ _

end

end Verif.KMedoids
