import Verif.Lemmas.RefCount
import Verif.Lemmas.Dendrogram

/-
The heap after the construction and the destruction of the trees.
-/

namespace Verif.RefCount

open Verif.Dendrogram Verif.Graph
open Verif.ClosestPair (Edge)

set_option linter.unusedSectionVars false

/-! ### objects without owners -/

theorem Pos.release : ∀ (fuel : Nat) (w : List Nat) (h h' : Heap), Pos h →
    releaseLoop fuel w h = some h' → Pos h' := by
  intro fuel
  induction fuel with
  | zero =>
    intro w h h' H e
    cases w with
    | nil => simp only [releaseLoop, Option.some.injEq] at e; exact e ▸ H
    | cons => simp [releaseLoop] at e
  | succ fuel ih =>
    intro w h h' H e
    cases w with
    | nil => simp only [releaseLoop, Option.some.injEq] at e; exact e ▸ H
    | cons a w =>
      simp only [releaseLoop, Option.bind_eq_bind, Option.bind_eq_some_iff] at e
      obtain ⟨c, ec, e⟩ := e
      split at e
      · refine ih _ _ h' ?_ e
        intro x c' hx
        rw [cell_set ec] at hx
        split at hx
        · simp at hx
        · exact H x c' hx
      · refine ih _ _ h' ?_ e
        intro x c' hx
        rw [cell_set ec] at hx
        split at hx
        · simp only [Option.some.injEq] at hx
          subst hx
          dsimp only
          omega
        · exact H x c' hx

theorem Pos.make {h : Heap} (H : Pos h) : Pos (makeShared h).1 := by
  intro x c hx
  simp only [makeShared, cell_append] at hx
  split at hx
  · simp only [Option.some.injEq] at hx; subst hx; exact Nat.one_pos
  · exact H x c hx

theorem Pos.store {h h' : Heap} {a b : Nat} (H : Pos h) (e : RefCount.store h a b = some h') :
    Pos h' := by
  simp only [RefCount.store, Option.bind_eq_bind, Option.bind_eq_some_iff, Option.some.injEq] at e
  obtain ⟨c, ec, rfl⟩ := e
  intro x c' hx
  rw [cell_set ec] at hx
  split at hx
  · simp only [Option.some.injEq] at hx; subst hx; exact H a c ec
  · exact H x c' hx

theorem Pos.retain {h h' : Heap} {a : Nat} (H : Pos h) (e : RefCount.retain h a = some h') :
    Pos h' := by
  simp only [RefCount.retain, Option.bind_eq_bind, Option.bind_eq_some_iff, Option.some.injEq] at e
  obtain ⟨c, ec, rfl⟩ := e
  intro x c' hx
  rw [cell_set ec] at hx
  split at hx
  · simp only [Option.some.injEq] at hx; subst hx; exact Nat.succ_pos _
  · exact H x c' hx

/-- Objects outside of a closed set that contains the destroyed pointers do not change, and no object
gets new pointers. -/
theorem releaseLoop_frame (P : Nat → Prop) : ∀ (fuel : Nat) (w : List Nat) (h h' : Heap),
    (∀ x, P x → ∀ y ∈ strongAt h x, P y) → (∀ x ∈ w, P x) → releaseLoop fuel w h = some h' →
    h'.length = h.length ∧ (∀ x, ¬ P x → h'[x]? = h[x]?) ∧
      ∀ x, ∀ y ∈ strongAt h' x, y ∈ strongAt h x := by
  intro fuel
  induction fuel with
  | zero =>
    intro w h h' hP hw e
    cases w with
    | nil => simp only [releaseLoop, Option.some.injEq] at e; subst e; exact ⟨rfl, fun _ _ => rfl, fun _ _ h => h⟩
    | cons => simp [releaseLoop] at e
  | succ fuel ih =>
    intro w h h' hP hw e
    cases w with
    | nil => simp only [releaseLoop, Option.some.injEq] at e; subst e; exact ⟨rfl, fun _ _ => rfl, fun _ _ h => h⟩
    | cons a w =>
      have ha := hw a (by simp)
      simp only [releaseLoop, Option.bind_eq_bind, Option.bind_eq_some_iff] at e
      obtain ⟨c, ec, e⟩ := e
      have key : ∀ (o : Option Cell) (w' : List Nat), (∀ y ∈ owned o, y ∈ c.strong) →
          (∀ x ∈ w', P x) → releaseLoop fuel w' (h.set a o) = some h' →
          h'.length = h.length ∧ (∀ x, ¬ P x → h'[x]? = h[x]?) ∧
          ∀ x, ∀ y ∈ strongAt h' x, y ∈ strongAt h x := by
        intro o w' ho hw' e'
        have hs : ∀ x, ∀ y ∈ strongAt (h.set a o) x, y ∈ strongAt h x := by
          intro x y hy
          unfold strongAt at hy ⊢
          rw [cell_set ec] at hy
          by_cases hx : x = a
          · subst hx
            rw [if_pos rfl] at hy
            rw [ec]
            exact ho y hy
          · rw [if_neg hx] at hy; exact hy
        obtain ⟨h1, h2, h3⟩ := ih w' (h.set a o) h' (fun x hx y hy => hP x hx y (hs x y hy)) hw' e'
        refine ⟨by simpa using h1, ?_, fun x y hy => hs x y (h3 x y hy)⟩
        intro x hx
        rw [h2 x hx, List.getElem?_set_ne (by rintro rfl; exact hx ha)]
      split at e
      · refine key none _ (by simp [owned]) ?_ e
        intro x hx
        rcases List.mem_append.1 hx with hx | hx
        · exact hP a ha x (by simpa [strongAt, ec, owned] using hx)
        · exact hw x (by simp [hx])
      · exact key _ _ (by simp [owned]) (fun x hx => hw x (by simp [hx])) e

/-! ### k-d tree -/

theorem kdNodes_pos {K : Type} (t : KDTree.Tree K) : 0 < kdNodes t := by
  cases t <;> simp [kdNodes]

theorem strongAt_make (h : Heap) (x : Nat) : strongAt (makeShared h).1 x = strongAt h x := by
  unfold strongAt
  simp only [makeShared, cell_append]
  split
  · rename_i hx; subst hx; rw [cell_ge (le_refl _)]; rfl
  · rfl

theorem isSome_make (h : Heap) (x : Nat) : (cell (makeShared h).1 x).isSome =
    ((cell h x).isSome || decide (x = h.length)) := by
  simp only [makeShared, cell_append]
  split
  · rename_i hx; simp [hx]
  · rename_i hx; simp [hx]

theorem kdBuild_spec {K : Type} : ∀ (t : KDTree.Tree K) (h : Heap) (hs : List Nat), Acc h hs → Pos h →
    ∃ h', kdBuild h t = some (h', h.length) ∧ Acc h' (h.length :: hs) ∧ Pos h' ∧
      h'.length = h.length + kdNodes t ∧ alive h' = alive h + kdNodes t ∧
      (∀ x, x < h.length → (cell h' x).isSome = (cell h x).isSome) ∧
      (∀ x, x < h.length → strongAt h' x = strongAt h x) ∧
      ∀ x, h.length ≤ x → ∀ y ∈ strongAt h' x, x < y := by
  intro t
  induction t with
  | leaf idx box =>
    intro h hs H Q
    refine ⟨(makeShared h).1, rfl, H.make, Q.make, by simp [makeShared, kdNodes],
      by simp [makeShared, alive_append, kdNodes], ?_, fun x _ => strongAt_make h x, ?_⟩
    · intro x hx; rw [isSome_make]; simp [Nat.ne_of_lt hx]
    · intro x hx y hy
      rw [strongAt_make] at hy
      unfold strongAt at hy
      rw [cell_ge hx] at hy
      simp [owned] at hy
  | node pivot axis box l r ihl ihr =>
    intro h hs H Q
    have H1 := H.make
    have Q1 := Q.make
    have l1 : (makeShared h).1.length = h.length + 1 := by simp [makeShared]
    have a1 : alive (makeShared h).1 = alive h + 1 := by simp [makeShared, alive_append]
    obtain ⟨h2, e2, H2, Q2, l2, al2, i2, s2, d2⟩ := ihl _ _ H1 Q1
    have hA2 : (cell h2 h.length).isSome := by
      rw [i2 _ (by omega), isSome_make]; simp
    obtain ⟨h3, e3, H3, l3, al3, i3, s3⟩ := H2.store' hA2
    obtain ⟨h4, e4, H4, Q4, l4, al4, i4, s4, d4⟩ := ihr _ _ H3 (Q2.store e3)
    have hA4 : (cell h4 h.length).isSome := by
      rw [i4 _ (by omega), i3]; exact hA2
    obtain ⟨h5, e5, H5, l5, al5, i5, s5⟩ := H4.store' hA4
    have hin : ∀ x, h.length ≤ x → strongAt (makeShared h).1 x = [] := by
      intro x hx
      rw [strongAt_make]
      unfold strongAt
      rw [cell_ge hx]; rfl
    refine ⟨h5, ?_, H5, Q4.store e5, ?_, ?_, ?_, ?_, ?_⟩
    · simp only [kdBuild]
      have hm : makeShared h = ((makeShared h).1, h.length) := rfl
      rw [hm]
      simp only [e2, e3, e4, e5, Option.bind_eq_bind, Option.bind_some]
    · rw [l5, l4, l3, l2, l1, kdNodes]; omega
    · rw [al5, al4, al3, al2, a1, kdNodes]; omega
    · intro x hx
      rw [i5, i4 x (by omega), i3, i2 x (by omega), isSome_make]
      simp [Nat.ne_of_lt hx]
    · intro x hx
      rw [s5, if_neg (by omega), s4 x (by omega), s3, if_neg (by omega), s2 x (by omega),
        strongAt_make]
    · intro x hx y hy
      rw [s5] at hy
      by_cases hxa : x = h.length
      · subst hxa
        rw [if_pos rfl, s4 _ (by omega), s3, if_pos rfl, s2 _ (by omega), hin _ (le_refl _)] at hy
        simp only [List.mem_cons, List.not_mem_nil, or_false] at hy
        rcases hy with rfl | rfl <;> omega
      · rw [if_neg hxa] at hy
        by_cases hx4 : x < h3.length
        · rw [s4 x hx4, s3, if_neg hxa] at hy
          exact d2 x (by omega) y hy
        · exact d4 x (by omega) y hy

theorem alive_split (h : Heap) (n : Nat) : alive h = alive (h.take n) + alive (h.drop n) := by
  unfold alive
  rw [← List.countP_append, List.take_append_drop]

theorem alive_take {h0 h : Heap} (hle : h0.length ≤ h.length)
    (hs : ∀ x, x < h0.length → (cell h x).isSome = (cell h0 x).isSome) :
    alive (h.take h0.length) = alive h0 := by
  have : (h.take h0.length).map Option.isSome = h0.map Option.isSome := by
    apply List.ext_getElem?
    intro i
    by_cases hi : i < h0.length
    · have := hs i hi
      simp only [cell, List.getElem?_eq_getElem hi, List.getElem?_eq_getElem (lt_of_lt_of_le hi hle),
        Option.join_some] at this
      simp [List.getElem?_map, List.getElem?_take, hi, List.getElem?_eq_getElem hi,
        List.getElem?_eq_getElem (lt_of_lt_of_le hi hle), this]
    · rw [List.getElem?_eq_none (by simp; omega), List.getElem?_eq_none (by simp; omega)]
  have h2 := congrArg (List.countP id) this
  rw [List.countP_map, List.countP_map] at h2
  exact h2

/-- When the last pointer to the root is destroyed, all the nodes are. -/
theorem kd_release {h0 h : Heap} {hs : List Nat} (H0 : Acc h0 hs) (H : Acc h (h0.length :: hs))
    (Q : Pos h) (hle : h0.length ≤ h.length)
    (hold : ∀ x, x < h0.length → (cell h x).isSome = (cell h0 x).isSome)
    (hs1 : ∀ x, x < h0.length → strongAt h x = strongAt h0 x)
    (hs2 : ∀ x, h0.length ≤ x → ∀ y ∈ strongAt h x, x < y) :
    ∃ h', release h h0.length = some h' ∧ Acc h' hs ∧ alive h' = alive h0 ∧
      ∀ x, x < h0.length → h'[x]? = h[x]? := by
  obtain ⟨h', e, H'⟩ := releaseLoop_spec ((refs h).length + 1) [h0.length] h hs H (by simp; omega)
  obtain ⟨fl, ff, fs⟩ := releaseLoop_frame (fun x => h0.length ≤ x) _ _ h h'
    (fun x hx y hy => le_of_lt (lt_of_le_of_lt hx (hs2 x hx y hy))) (by simp) e
  have Q' := Q.release _ _ _ _ e
  have hno : ∀ x, h0.length ≤ x → cell h' x = none := by
    intro x
    induction x using Nat.strong_induction_on with
    | _ x ih =>
      intro hge
      by_contra hc
      obtain ⟨c, ec⟩ := Option.ne_none_iff_exists'.1 hc
      have h1 := H' x
      rw [ec] at h1
      have h2 := Q' x c ec
      have h3 : hs.count x = 0 := by
        have := H0 x
        rw [cell_ge hge] at this
        simp only [owners] at this
        omega
      have h4 : x ∈ refs h' := List.count_pos_iff.1 (by simp only [owners] at h1; omega)
      obtain ⟨b, hb⟩ := mem_refs'.1 h4
      by_cases hbl : b < h0.length
      · have := fs b x hb
        rw [hs1 b hbl] at this
        obtain ⟨c', hc'⟩ := H0.exists_of_refs (mem_refs'.2 ⟨b, this⟩)
        rw [cell_ge hge] at hc'
        simp at hc'
      · have hlt := hs2 b (by omega) x (fs b x hb)
        have := ih b hlt (by omega)
        unfold strongAt at hb
        rw [this] at hb
        simp [owned] at hb
  have hfr : ∀ x, x < h0.length → h'[x]? = h[x]? := fun x hx => ff x (by omega)
  refine ⟨h', e, H', ?_, hfr⟩
  have htake : h'.take h0.length = h.take h0.length := by
    apply List.ext_getElem?
    intro i
    rw [List.getElem?_take, List.getElem?_take]
    split
    · exact hfr i (by assumption)
    · rfl
  have hdrop : alive (h'.drop h0.length) = 0 := by
    unfold alive
    rw [List.countP_eq_zero]
    intro o ho
    obtain ⟨i, hi⟩ := List.getElem?_of_mem ho
    rw [List.getElem?_drop] at hi
    have := hno (h0.length + i) (by omega)
    rw [cell_of hi] at this
    simp [this]
  rw [alive_split h' h0.length, htake, alive_take hle hold, hdrop, Nat.add_zero]

end Verif.RefCount
