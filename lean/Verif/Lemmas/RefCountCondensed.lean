import Verif.Lemmas.RefCountLink
import Verif.Lemmas.Condensed

/-
The heap of the condensed tree, and of a call of `HDBSCAN::predict`.
-/

namespace Verif.RefCount

open Verif.Dendrogram Verif.Graph
open Verif.ClosestPair (Edge)

set_option linter.unusedSectionVars false

variable {D : Type}

/-- A new condensed node owns its single linkage node. -/
theorem makeCondensed_spec {h : Heap} {hs : List Nat} (H : Acc h hs) (p : PTree D)
    (hp : (cell h p.addr).isSome) :
    ∃ h', makeCondensed h p = some (h', h.length) ∧ Acc h' (h.length :: hs) ∧
      h'.length = h.length + 1 ∧ alive h' = alive h + 1 ∧
      (∀ x, (cell h x).isSome → (cell h' x).isSome) ∧ (cell h' h.length).isSome ∧
      ∀ x, strongAt h' x = if x = h.length then [p.addr] else strongAt h x := by
  have H1 := H.make
  have ic : (cell (makeShared h).1 h.length).isSome := by rw [isSome_make]; simp
  obtain ⟨c, ec⟩ := Option.isSome_iff_exists.1 ic
  obtain ⟨c', ec'⟩ := Option.isSome_iff_exists.1
    (show (cell (makeShared h).1 p.addr).isSome by rw [isSome_make, hp]; rfl)
  obtain ⟨h2, e2, H2, l2, al2, i2, s2⟩ := H1.assign ec ec'
  refine ⟨h2, ?_, H2, ?_, ?_, ?_, ?_, ?_⟩
  · have hm : makeShared h = ((makeShared h).1, h.length) := rfl
    unfold makeCondensed
    rw [hm]
    simp only [e2, Option.bind_eq_bind, Option.bind_some]
  · rw [l2]; simp [makeShared]
  · rw [al2]; simp [makeShared, alive_append]
  · intro x hx; rw [i2, isSome_make, hx]; rfl
  · rw [i2]; exact ic
  · intro x
    rw [s2, strongAt_make, strongAt_make]
    split
    · rename_i hx; rw [strongAt_ge (le_refl _)]
    · rfl

/-- A new condensed node that is linked to its parent. -/
theorem child_spec {h : Heap} {hs : List Nat} (H : Acc h hs) {p : PTree D}
    (hp : (cell h p.addr).isSome) {c : Nat} (hc : (cell h c).isSome) :
    ∃ h1 h2 h3, makeCondensed h p = some (h1, h.length) ∧ store h1 c h.length = some h2 ∧
      assign h2 h.length c = some h3 ∧ Acc h3 hs ∧ h3.length = h.length + 1 ∧
      alive h3 = alive h + 1 ∧ (∀ x, (cell h x).isSome → (cell h3 x).isSome) ∧
      (cell h3 h.length).isSome ∧ (∀ x, ∀ y ∈ strongAt h x, y ∈ strongAt h3 x) ∧
      h.length ∈ strongAt h3 c ∧ c ∈ strongAt h3 h.length := by
  obtain ⟨h1, e1, H1, l1, al1, i1, ic, s1⟩ := makeCondensed_spec H p hp
  obtain ⟨h2, e2, H2, l2, al2, i2, s2⟩ := H1.store' (i1 c hc)
  obtain ⟨ca, eca⟩ := Option.isSome_iff_exists.1 (show (cell h2 h.length).isSome by rw [i2]; exact ic)
  obtain ⟨cb, ecb⟩ := Option.isSome_iff_exists.1 (show (cell h2 c).isSome by rw [i2]; exact i1 c hc)
  obtain ⟨h3, e3, H3, l3, al3, i3, s3⟩ := H2.assign eca ecb
  have hne : c ≠ h.length := by
    obtain ⟨x, hx⟩ := Option.isSome_iff_exists.1 hc
    exact Nat.ne_of_lt (cell_length hx)
  refine ⟨h1, h2, h3, e1, e2, e3, H3, by omega, by omega, ?_, ?_, ?_, ?_, ?_⟩
  · intro x hx; rw [i3, i2]; exact i1 x hx
  · rw [i3, i2]; exact ic
  · intro x y hy
    have hx : x ≠ h.length := by
      rintro rfl
      rw [strongAt_ge (le_refl _)] at hy
      simp at hy
    rw [s3, if_neg hx, s2]
    split
    · rename_i hxc
      subst hxc
      rw [s1, if_neg hx]
      exact List.mem_cons_of_mem _ hy
    · rw [s1, if_neg hx]; exact hy
  · rw [s3, if_neg hne, s2, if_pos rfl]; simp
  · rw [s3, if_pos rfl]; simp

variable [Ring D]

theorem condenseHeap_spec (inv : D → D) (m : Nat) : ∀ (p : PTree D) (h : Heap) (hs : List Nat) (c : Nat)
    (nd : CNode D), Acc h hs → p.All (fun a => (cell h a).isSome) → (cell h c).isSome →
    ∃ h' k, condenseHeap m h c p = some h' ∧ (condense inv m nd p.erase).subtrees.length = k + 1 ∧
      Acc h' hs ∧ h'.length = h.length + k ∧ alive h' = alive h + k ∧
      (∀ x, (cell h x).isSome → (cell h' x).isSome) ∧
      (∀ x, ∀ y ∈ strongAt h x, y ∈ strongAt h' x) ∧
      (k = 0 → h' = h) ∧ (0 < k → ∃ b, h.length ≤ b ∧ b < h'.length ∧ c ∈ strongAt h' b) ∧
      ∀ a, h.length ≤ a → a < h'.length → ∃ b, (b = c ∨ h.length ≤ b) ∧ a ∈ strongAt h' b := by
  intro p
  induction p with
  | leaf a r =>
    intro h hs c nd H _ _
    refine ⟨h, 0, rfl, by simp [PTree.erase, condense, CTree.subtrees], H, rfl, rfl, fun _ h => h,
      fun _ _ h => h, fun _ => rfl, by omega, fun a h1 h2 => by omega⟩
  | node a r lv sz l rt ihl ihr =>
    intro h hs c nd H hall hc
    obtain ⟨_, hl, hr⟩ := hall
    simp only [PTree.erase, condense, condenseHeap, PTree.size_erase]
    by_cases hboth : m ≤ l.size ∧ m ≤ rt.size
    · rw [if_pos hboth, if_pos hboth]
      obtain ⟨h1, h2, h3, e1, e2, e3, H3, l3, al3, i3, ic3, s3, o3, q3⟩ := child_spec H hl.addr hc
      obtain ⟨h4, k4, e4, n4, H4, l4, al4, i4, s4, _, _, o4⟩ := ihl h3 hs h.length
        ⟨l.erase, inv lv, 0, false⟩ H3 (hl.mono i3) ic3
      obtain ⟨h5, h6, h7, e5, e6, e7, H7, l7, al7, i7, ic7, s7, o7, q7⟩ := child_spec H4
        (hr.mono (fun x hx => i4 x (i3 x hx))).addr (i4 c (i3 c hc))
      obtain ⟨h8, k8, e8, n8, H8, l8, al8, i8, s8, _, _, o8⟩ := ihr h7 hs h4.length
        ⟨rt.erase, inv lv, 0, false⟩ H7 (hr.mono (fun x hx => i7 x (i4 x (i3 x hx)))) ic7
      refine ⟨h8, k4 + k8 + 2, ?_, ?_, H8, by omega, by omega, ?_, ?_, by omega, ?_, ?_⟩
      · simp only [e1, e2, e3, e4, e5, e6, e7, e8, Option.bind_eq_bind, Option.bind_some]
      · simp only [CTree.subtrees, List.length_cons, List.length_append, n4, n8]; omega
      · exact fun x hx => i8 x (i7 x (i4 x (i3 x hx)))
      · exact fun x y hy => s8 x y (s7 x y (s4 x y (s3 x y hy)))
      · intro _
        exact ⟨h.length, le_refl _, by omega, s8 _ _ (s7 _ _ (s4 _ _ q3))⟩
      · intro x hx hxl
        by_cases h1x : x < h3.length
        · have : x = h.length := by omega
          subst this
          exact ⟨c, Or.inl rfl, s8 _ _ (s7 _ _ (s4 _ _ o3))⟩
        · by_cases h2x : x < h4.length
          · obtain ⟨b, hb, hxb⟩ := o4 x (by omega) h2x
            exact ⟨b, by omega, s8 _ _ (s7 _ _ hxb)⟩
          · by_cases h3x : x < h7.length
            · have : x = h4.length := by omega
              subst this
              exact ⟨c, Or.inl rfl, s8 _ _ o7⟩
            · obtain ⟨b, hb, hxb⟩ := o8 x (by omega) hxl
              exact ⟨b, by omega, hxb⟩
    · rw [if_neg hboth, if_neg hboth]
      by_cases h1 : m ≤ l.size
      · rw [if_pos h1, if_pos h1]
        exact ihl h hs c _ H hl hc
      · rw [if_neg h1, if_neg h1]
        by_cases h2 : m ≤ rt.size
        · rw [if_pos h2, if_pos h2]
          exact ihr h hs c _ H hr hc
        · rw [if_neg h2, if_neg h2]
          refine ⟨h, 0, rfl, by simp [CTree.subtrees], H, rfl, rfl, fun _ h => h,
            fun _ _ h => h, fun _ => rfl, by omega, fun a h1 h2 => by omega⟩

end Verif.RefCount
