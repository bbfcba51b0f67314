import Verif.Lemmas.KMedoids
import Verif.Spec.Distinct

/-
The loops of kmedoids/PAMUtils.hpp keep the smallest different distances, with the first position of each.
-/

namespace Verif.KMedoids

open Spec

variable {K : Type} [LinearOrder K]

/-- Insertion into a strictly increasing list. -/
def ins (v : K) : List K → List K
  | [] => [v]
  | a :: t => if v < a then v :: a :: t else if v = a then a :: t else a :: ins v t

theorem mem_ins (v x : K) (l : List K) : x ∈ ins v l ↔ x = v ∨ x ∈ l := by
  induction l with
  | nil => simp [ins]
  | cons a t ih =>
    simp only [ins]
    split
    · simp
    · split
      · rename_i h
        subst h
        simp
      · simp only [List.mem_cons, ih]
        tauto

theorem ins_sorted (v : K) {l : List K} (h : l.Pairwise (· < ·)) : (ins v l).Pairwise (· < ·) := by
  induction l with
  | nil => simp [ins]
  | cons a t ih =>
    rw [List.pairwise_cons] at h
    simp only [ins]
    split
    · rename_i hva
      refine List.pairwise_cons.2 ⟨?_, List.pairwise_cons.2 h⟩
      intro x hx
      rcases List.mem_cons.1 hx with rfl | hx
      · exact hva
      · exact hva.trans (h.1 x hx)
    · split
      · exact List.pairwise_cons.2 h
      · rename_i h1 h2
        refine List.pairwise_cons.2 ⟨?_, ih h.2⟩
        intro x hx
        rcases (mem_ins v x t).1 hx with rfl | hx
        · exact lt_of_le_of_ne (not_lt.1 h1) (fun e => h2 e.symm)
        · exact h.1 x hx

theorem distinct_sorted (l : List K) : (distinct l).Pairwise (· < ·) := by
  have h1 : (distinct l).Pairwise (· ≤ ·) := List.pairwise_insertionSort _ _
  have h2 : (distinct l).Nodup := (List.perm_insertionSort _ _).nodup_iff.2 (List.nodup_dedup l)
  exact (h1.and h2).imp fun h => lt_of_le_of_ne h.1 h.2

theorem mem_distinct (l : List K) (x : K) : x ∈ distinct l ↔ x ∈ l := by
  rw [distinct, (List.perm_insertionSort _ _).mem_iff, List.mem_dedup]

theorem distinct_snoc (p : List K) (v : K) : distinct (p ++ [v]) = ins v (distinct p) := by
  have h1 := distinct_sorted (p ++ [v])
  have h2 := ins_sorted v (distinct_sorted p)
  refine List.Perm.eq_of_pairwise (le := (· < ·)) (fun a b _ _ h h' => absurd h (lt_asymm h')) h1 h2 ?_
  refine (List.perm_ext_iff_of_nodup (h1.imp fun h => ne_of_lt h) (h2.imp fun h => ne_of_lt h)).2 fun x => ?_
  rw [mem_distinct, mem_ins, mem_distinct]
  simp [or_comm]

/-- What the loop remembers of the value number `j`. -/
def slot (vmax : K) (p D : List K) (j : Nat) : Nat × K :=
  match D[j]? with
  | some x => (p.idxOf x, x)
  | none => (0, vmax)

/-- What `thirdLoop` knows after the prefix `p`. -/
structure DInv (vmax : K) (p : List K) (r : Rec3 K) : Prop where
  one : (r.i1, r.d1) = slot vmax p (distinct p) 0
  two : (r.i2, r.d2) = slot vmax p (distinct p) 1
  three : (r.i3, r.d3) = slot vmax p (distinct p) 2

theorem idxOf_snoc_mem {p : List K} {v x : K} (h : x ∈ p) : (p ++ [v]).idxOf x = p.idxOf x :=
  List.idxOf_append_of_mem h

theorem idxOf_snoc_new {p : List K} {v : K} (h : v ∉ p) : (p ++ [v]).idxOf v = p.length := by
  rw [List.idxOf_append_of_notMem h]
  simp

theorem slot_some {vmax : K} {p D : List K} {j : Nat} {x : K} (h : D[j]? = some x) :
    slot vmax p D j = (p.idxOf x, x) := by simp [slot, h]

theorem slot_none {vmax : K} {p D : List K} {j : Nat} (h : D[j]? = none) : slot vmax p D j = (0, vmax) := by
  simp [slot, h]

theorem thirdLoop_distinct (vmax : K) (eq : K → K → Bool) (l : List K) : ∀ (p : List K) (r : Rec3 K),
    (∀ v ∈ p ++ l, v < vmax) → (∀ v ∈ p ++ l, ∀ w ∈ p ++ l, (eq v w = true ↔ v = w)) → DInv vmax p r →
    DInv vmax (p ++ l) (thirdLoop eq p.length l r) := by
  induction l with
  | nil =>
    intro p r _ _ h
    simpa [thirdLoop] using h
  | cons v l ih =>
    rintro p ⟨i1, d1, i2, d2, i3, d3⟩ hv he ⟨h1, h2, h3⟩
    have happ : p ++ v :: l = (p ++ [v]) ++ l := by simp
    have hlen : p.length + 1 = (p ++ [v]).length := by simp
    have hvl : v < vmax := hv v (by simp)
    have hes : ∀ w ∈ p, (eq v w = true ↔ v = w) := fun w hw => he v (by simp) w (by simp [hw])
    have hlow : ∀ w ∈ p, w < vmax := fun w hw => hv w (by simp [hw])
    have next : ∀ r', DInv vmax (p ++ [v]) r' →
        DInv vmax (p ++ v :: l) (thirdLoop eq (p.length + 1) l r') := by
      intro r' h
      rw [happ, hlen]
      exact ih (p ++ [v]) r' (by rw [← happ]; exact hv) (by rw [← happ]; exact he) h
    have hs := distinct_sorted p
    have hm := mem_distinct p
    have hd' := distinct_snoc p v
    have keep : ∀ x ∈ p, (p ++ [v]).idxOf x = p.idxOf x := fun x hx => idxOf_snoc_mem hx
    have new := @idxOf_snoc_new K _ p v
    simp only [thirdLoop]
    generalize distinct p = D at h1 h2 h3 hs hm hd'
    rcases D with _ | ⟨a, _ | ⟨b, _ | ⟨c, t⟩⟩⟩
    · simp only [slot, List.getElem?_nil, Prod.mk.injEq] at h1 h2 h3
      obtain ⟨rfl, rfl⟩ := h1
      obtain ⟨rfl, rfl⟩ := h2
      obtain ⟨rfl, rfl⟩ := h3
      have hp : p = [] := by
        cases p with
        | nil => rfl
        | cons a t => exact absurd ((hm a).2 List.mem_cons_self) (by simp)
      rw [if_pos hvl]
      refine next _ ⟨?_, ?_, ?_⟩
      · rw [hd']
        subst hp
        simp [ins, slot]
      · simp [hd', ins, slot]
      · simp [hd', ins, slot]
    · simp only [slot, List.getElem?_cons_zero, List.getElem?_cons_succ, List.getElem?_nil,
        Prod.mk.injEq] at h1 h2 h3
      obtain ⟨rfl, rfl⟩ := h1
      obtain ⟨rfl, rfl⟩ := h2
      obtain ⟨rfl, rfl⟩ := h3
      have ha : d1 ∈ p := (hm d1).1 (by simp)
      by_cases c1 : v < d1
      · have hn : v ∉ p := fun h => by
          have := (hm v).2 h
          simp only [List.mem_singleton] at this
          exact absurd c1 (by rw [this]; exact lt_irrefl _)
        rw [if_pos c1]
        refine next _ ⟨?_, ?_, ?_⟩ <;> simp [hd', ins, slot, c1, new hn, keep _ ha]
      · rw [if_neg c1]
        by_cases c2 : v = d1
        · have : eq v d1 = true := (hes d1 ha).2 c2
          subst c2
          simp only [this, Bool.not_true, Bool.and_false, Bool.false_and, Bool.false_eq_true, if_false]
          refine next _ ⟨?_, ?_, ?_⟩ <;> simp [hd', ins, slot, keep _ ha]
        · have : eq v d1 = false := by
            rw [← Bool.not_eq_true]
            exact fun h => c2 ((hes d1 ha).1 h)
          have hn : v ∉ p := fun h => by
            have := (hm v).2 h
            simp only [List.mem_singleton] at this
            exact c2 this
          simp only [this, hvl, decide_true, Bool.not_false, Bool.and_true, if_true]
          refine next _ ⟨?_, ?_, ?_⟩ <;> simp [hd', ins, slot, c1, c2, new hn, keep _ ha]
    · simp only [slot, List.getElem?_cons_zero, List.getElem?_cons_succ, List.getElem?_nil,
        Prod.mk.injEq] at h1 h2 h3
      obtain ⟨rfl, rfl⟩ := h1
      obtain ⟨rfl, rfl⟩ := h2
      obtain ⟨rfl, rfl⟩ := h3
      have ha : d1 ∈ p := (hm d1).1 (by simp)
      have hb : d2 ∈ p := (hm d2).1 (by simp)
      have hab : d1 < d2 := by simpa using hs
      have hn : v ≠ d1 → v ≠ d2 → v ∉ p := fun x y h => by
        have := (hm v).2 h
        simp only [List.mem_cons, List.not_mem_nil, or_false] at this
        exact this.elim x y
      by_cases c1 : v < d1
      · rw [if_pos c1]
        have hn := hn (ne_of_lt c1) (ne_of_lt (c1.trans hab))
        refine next _ ⟨?_, ?_, ?_⟩ <;> simp [hd', ins, slot, c1, new hn, keep _ ha, keep _ hb]
      · rw [if_neg c1]
        by_cases c2 : v = d1
        · have : eq v d1 = true := (hes d1 ha).2 c2
          subst c2
          simp only [this, Bool.not_true, Bool.and_false, Bool.false_and, Bool.false_eq_true, if_false]
          refine next _ ⟨?_, ?_, ?_⟩ <;> simp [hd', ins, slot, keep _ ha, keep _ hb]
        · have e1 : eq v d1 = false := by
            rw [← Bool.not_eq_true]
            exact fun h => c2 ((hes d1 ha).1 h)
          by_cases c3 : v < d2
          · simp only [e1, c3, decide_true, Bool.not_false, Bool.and_true, if_true]
            have hn := hn c2 (ne_of_lt c3)
            refine next _ ⟨?_, ?_, ?_⟩ <;> simp [hd', ins, slot, c1, c2, c3, new hn, keep _ ha, keep _ hb]
          · by_cases c4 : v = d2
            · have : eq v d2 = true := (hes d2 hb).2 c4
              subst c4
              simp only [this, e1, c3, decide_false, Bool.false_and, Bool.not_true, Bool.and_false,
                Bool.false_eq_true, if_false]
              refine next _ ⟨?_, ?_, ?_⟩ <;> simp [hd', ins, slot, c1, c2, keep _ ha, keep _ hb]
            · have e2 : eq v d2 = false := by
                rw [← Bool.not_eq_true]
                exact fun h => c4 ((hes d2 hb).1 h)
              simp only [e1, e2, c3, hvl, decide_false, decide_true, Bool.false_and, Bool.not_false,
                Bool.and_true, Bool.false_eq_true, if_false, if_true]
              have hn := hn c2 c4
              refine next _ ⟨?_, ?_, ?_⟩ <;>
                simp [hd', ins, slot, c1, c2, c3, c4, new hn, keep _ ha, keep _ hb]
    · simp only [slot, List.getElem?_cons_zero, List.getElem?_cons_succ, Prod.mk.injEq] at h1 h2 h3
      obtain ⟨rfl, rfl⟩ := h1
      obtain ⟨rfl, rfl⟩ := h2
      obtain ⟨rfl, rfl⟩ := h3
      have ha : d1 ∈ p := (hm d1).1 (by simp)
      have hb : d2 ∈ p := (hm d2).1 (by simp)
      have hc : d3 ∈ p := (hm d3).1 (by simp)
      simp only [List.pairwise_cons, List.mem_cons, forall_eq_or_imp] at hs
      have hab : d1 < d2 := hs.1.1
      have hbc : d2 < d3 := hs.2.1.1
      have hct : ∀ x ∈ t, d3 < x := hs.2.2.1
      have hn : v ≠ d1 → v ≠ d2 → v < d3 → v ∉ p := fun x y z h => by
        have := (hm v).2 h
        simp only [List.mem_cons] at this
        rcases this with h | h | h | h
        · exact x h
        · exact y h
        · exact absurd z (by rw [h]; exact lt_irrefl _)
        · exact absurd (hct v h) (not_lt.2 z.le)
      by_cases c1 : v < d1
      · rw [if_pos c1]
        have hn := hn (ne_of_lt c1) (ne_of_lt (c1.trans hab)) (c1.trans (hab.trans hbc))
        refine next _ ⟨?_, ?_, ?_⟩ <;> simp [hd', ins, slot, c1, new hn, keep _ ha, keep _ hb]
      · rw [if_neg c1]
        by_cases c2 : v = d1
        · have : eq v d1 = true := (hes d1 ha).2 c2
          subst c2
          simp only [this, Bool.not_true, Bool.and_false, Bool.false_and, Bool.false_eq_true, if_false]
          refine next _ ⟨?_, ?_, ?_⟩ <;> simp [hd', ins, slot, keep _ ha, keep _ hb, keep _ hc]
        · have e1 : eq v d1 = false := by
            rw [← Bool.not_eq_true]
            exact fun h => c2 ((hes d1 ha).1 h)
          by_cases c3 : v < d2
          · simp only [e1, c3, decide_true, Bool.not_false, Bool.and_true, if_true]
            have hn := hn c2 (ne_of_lt c3) (c3.trans hbc)
            refine next _ ⟨?_, ?_, ?_⟩ <;> simp [hd', ins, slot, c1, c2, c3, new hn, keep _ ha, keep _ hb]
          · by_cases c4 : v = d2
            · have : eq v d2 = true := (hes d2 hb).2 c4
              subst c4
              simp only [this, e1, c3, decide_false, Bool.false_and, Bool.not_true, Bool.and_false,
                Bool.false_eq_true, if_false]
              refine next _ ⟨?_, ?_, ?_⟩ <;> simp [hd', ins, slot, c1, c2, keep _ ha, keep _ hb, keep _ hc]
            · have e2 : eq v d2 = false := by
                rw [← Bool.not_eq_true]
                exact fun h => c4 ((hes d2 hb).1 h)
              by_cases c5 : v < d3
              · simp only [e1, e2, c3, c5, decide_false, decide_true, Bool.false_and, Bool.not_false,
                  Bool.and_true, Bool.false_eq_true, if_false, if_true]
                have hn := hn c2 c4 c5
                refine next _ ⟨?_, ?_, ?_⟩ <;>
                  simp [hd', ins, slot, c1, c2, c3, c4, c5, new hn, keep _ ha, keep _ hb]
              · simp only [c3, c5, decide_false, Bool.false_and, Bool.false_eq_true, if_false]
                refine next _ ⟨?_, ?_, ?_⟩
                · simp [hd', ins, slot, c1, c2, keep _ ha]
                · simp [hd', ins, slot, c1, c2, c3, c4, keep _ hb]
                · by_cases c6 : v = d3
                  · subst c6
                    simp [hd', ins, slot, c1, c2, c3, c4, keep _ hc]
                  · simp [hd', ins, slot, c1, c2, c3, c4, c5, c6, keep _ hc]

/-- The three loops, with ties. -/
theorem third_distinct (vmax : K) (eq : K → K → Bool) (l : List K) (hv : ∀ v ∈ l, v < vmax)
    (he : ∀ v ∈ l, ∀ w ∈ l, (eq v w = true ↔ v = w)) : DInv vmax l (third vmax eq l) :=
  thirdLoop_distinct vmax eq l [] ⟨0, vmax, 0, vmax, 0, vmax⟩ (by simpa using hv) (by simpa using he)
    ⟨by simp [slot, distinct], by simp [slot, distinct], by simp [slot, distinct]⟩

end Verif.KMedoids
