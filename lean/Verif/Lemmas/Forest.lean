import Verif.Spec.SpanningTree
import Mathlib.Data.Finset.Card
import Mathlib.Data.Finset.Image
import Mathlib.Tactic.Common
import Mathlib.Algebra.Order.Group.Defs
import Mathlib.Algebra.Order.BigOperators.Group.List
import Mathlib.Tactic.Linarith
import Mathlib.Tactic.Abel

namespace Verif.Graph

set_option linter.unusedSectionVars false

variable {D : Type}

/-- Connected through the relation `R` and the edges. -/
def Conn (R : Nat → Nat → Prop) (es : List (Nat × Nat × D)) (a b : Nat) : Prop :=
  Relation.EqvGen (fun a b => R a b ∨ ∃ w, (a, b, w) ∈ es) a b

theorem Conn.refl {R : Nat → Nat → Prop} {es : List (Nat × Nat × D)} (a : Nat) : Conn R es a a :=
  Relation.EqvGen.refl a

theorem Conn.symm {R : Nat → Nat → Prop} {es : List (Nat × Nat × D)} {a b : Nat}
    (h : Conn R es a b) : Conn R es b a := Relation.EqvGen.symm _ _ h

theorem Conn.trans {R : Nat → Nat → Prop} {es : List (Nat × Nat × D)} {a b c : Nat}
    (h : Conn R es a b) (h' : Conn R es b c) : Conn R es a c := Relation.EqvGen.trans _ _ _ h h'

theorem Conn.edge {R : Nat → Nat → Prop} {es : List (Nat × Nat × D)} {a b : Nat} {w : D}
    (h : (a, b, w) ∈ es) : Conn R es a b := .rel _ _ (Or.inr ⟨w, h⟩)

theorem Conn.base {R : Nat → Nat → Prop} {es : List (Nat × Nat × D)} {a b : Nat}
    (h : R a b) : Conn R es a b := .rel _ _ (Or.inl h)

theorem Conn.mono {R R' : Nat → Nat → Prop} {es es' : List (Nat × Nat × D)} {a b : Nat}
    (h : Conn R es a b) (hR : ∀ a b, R a b → Conn R' es' a b)
    (hes : ∀ e ∈ es, Conn R' es' e.1 e.2.1) : Conn R' es' a b := by
  induction h with
  | rel x y h =>
    rcases h with h | ⟨w, h⟩
    · exact hR _ _ h
    · exact hes _ h
  | refl x => exact .refl x
  | symm x y _ ih => exact ih.symm
  | trans x y z _ _ ih1 ih2 => exact ih1.trans ih2

theorem linked_iff_conn {es : List (Nat × Nat × D)} {a b : Nat} :
    Linked es a b ↔ Conn (fun _ _ => False) es a b := by
  unfold Linked Conn
  simp

/-- Identify the class of `a` with the class of `b`. -/
def collapse (r : Nat → Nat) (a b : Nat) : Nat → Nat :=
  fun x => if r x = r a then r b else r x

theorem collapse_iff (r r' : Nat → Nat) (u v c d : Nat)
    (hcd : (c = r u ∧ d = r v) ∨ (c = r v ∧ d = r u))
    (hr' : ∀ x, r' x = if r x = d then c else r x) (x y : Nat) :
    r' x = r' y ↔ Relation.EqvGen (fun a b => r a = r b ∨ (a = u ∧ b = v)) x y := by
  have huv : r' u = r' v := by
    rw [hr', hr']
    rcases hcd with ⟨rfl, rfl⟩ | ⟨rfl, rfl⟩ <;> split <;> simp_all
  constructor
  · intro h
    have key : ∀ z, ∃ z', r z' = r' z ∧
        Relation.EqvGen (fun a b => r a = r b ∨ (a = u ∧ b = v)) z z' := by
      intro z
      by_cases hz : r z = d
      · rcases hcd with ⟨rfl, rfl⟩ | ⟨rfl, rfl⟩
        · refine ⟨u, by rw [hr', if_pos hz], ?_⟩
          exact Relation.EqvGen.trans _ v _ (.rel _ _ (Or.inl hz))
            (.symm _ _ (.rel _ _ (Or.inr ⟨rfl, rfl⟩)))
        · refine ⟨v, by rw [hr', if_pos hz], ?_⟩
          exact Relation.EqvGen.trans _ u _ (.rel _ _ (Or.inl hz))
            (.rel _ _ (Or.inr ⟨rfl, rfl⟩))
      · exact ⟨z, by rw [hr', if_neg hz], .refl z⟩
    obtain ⟨x', hx, hx'⟩ := key x
    obtain ⟨y', hy, hy'⟩ := key y
    have : r x' = r y' := by rw [hx, hy, h]
    exact (hx'.trans _ _ _ (.rel _ _ (Or.inl this))).trans _ _ _ (Relation.EqvGen.symm _ _ hy')
  · intro h
    induction h with
    | rel x y h =>
      rcases h with h | ⟨rfl, rfl⟩
      · rw [hr', hr', h]
      · exact huv
    | refl x => rfl
    | symm x y _ ih => exact ih.symm
    | trans x y z _ _ ih1 ih2 => exact ih1.trans ih2

/-- Number of classes met by `0, ..., n - 1`. -/
def classes (n : Nat) (r : Nat → Nat) : Nat := ((Finset.range n).image r).card

theorem classes_le {n : Nat} (r : Nat → Nat) : classes n r ≤ n := by
  unfold classes
  exact Finset.card_image_le.trans (by simp)

theorem classes_pos {n : Nat} (hn : 0 < n) (r : Nat → Nat) : 0 < classes n r := by
  unfold classes
  exact Finset.card_pos.2 ⟨r 0, Finset.mem_image.2 ⟨0, by simpa using hn, rfl⟩⟩

theorem classes_merge {n : Nat} (r r' : Nat → Nat) {u v c d : Nat} (hu : u < n) (hv : v < n)
    (hne : r u ≠ r v) (hcd : (c = r u ∧ d = r v) ∨ (c = r v ∧ d = r u))
    (hr' : ∀ x, r' x = if r x = d then c else r x) :
    classes n r' + 1 = classes n r := by
  have himg : (Finset.range n).image r' = ((Finset.range n).image r).erase d := by
    ext k
    simp only [Finset.mem_image, Finset.mem_range, Finset.mem_erase]
    constructor
    · rintro ⟨x, hx, rfl⟩
      rw [hr']
      by_cases h : r x = d
      · rw [if_pos h]
        rcases hcd with ⟨rfl, rfl⟩ | ⟨rfl, rfl⟩
        · exact ⟨hne, u, hu, rfl⟩
        · exact ⟨hne.symm, v, hv, rfl⟩
      · rw [if_neg h]; exact ⟨h, x, hx, rfl⟩
    · rintro ⟨hk, x, hx, rfl⟩
      exact ⟨x, hx, by rw [hr', if_neg hk]⟩
  unfold classes
  rw [himg]
  refine Finset.card_erase_add_one ?_
  rcases hcd with ⟨_, rfl⟩ | ⟨_, rfl⟩
  · exact Finset.mem_image.2 ⟨v, by simpa using hv, rfl⟩
  · exact Finset.mem_image.2 ⟨u, by simpa using hu, rfl⟩

theorem classes_le_collapse {n : Nat} (r : Nat → Nat) (a b : Nat) :
    classes n r ≤ classes n (collapse r a b) + 1 := by
  unfold classes
  have : (Finset.range n).image r ⊆ insert (r a) ((Finset.range n).image (collapse r a b)) := by
    intro k hk
    obtain ⟨x, hx, rfl⟩ := Finset.mem_image.1 hk
    by_cases h : r x = r a
    · rw [h]; exact Finset.mem_insert_self _ _
    · refine Finset.mem_insert_of_mem (Finset.mem_image.2 ⟨x, hx, ?_⟩)
      simp [collapse, h]
  exact (Finset.card_le_card this).trans (Finset.card_insert_le _ _)

/-- Identify the end points of all edges. -/
def collapseAll (r : Nat → Nat) (es : List (Nat × Nat × D)) : Nat → Nat :=
  es.foldl (fun r e => collapse r e.1 e.2.1) r

theorem collapseAll_snoc (r : Nat → Nat) (es : List (Nat × Nat × D)) (e : Nat × Nat × D) :
    collapseAll r (es ++ [e]) = collapse (collapseAll r es) e.1 e.2.1 := by
  simp [collapseAll]

theorem collapseAll_iff {R : Nat → Nat → Prop} {r : Nat → Nat}
    (hr : ∀ x y, r x = r y ↔ Relation.EqvGen R x y) (es : List (Nat × Nat × D)) :
    ∀ x y, collapseAll r es x = collapseAll r es y ↔ Conn R es x y := by
  induction es using List.reverseRecOn with
  | nil => intro x y; simp [collapseAll, Conn, hr]
  | append_singleton es e ih =>
    intro x y
    rw [collapseAll_snoc, collapse_iff (collapseAll r es) (collapse (collapseAll r es) e.1 e.2.1) e.1 e.2.1 (collapseAll r es e.2.1)
      (collapseAll r es e.1) (Or.inr ⟨rfl, rfl⟩) (fun x => rfl)]
    constructor
    · intro h
      induction h with
      | rel x y h =>
        rcases h with h | ⟨rfl, rfl⟩
        · refine ((ih x y).1 h).mono (fun a b h => Conn.base h) ?_
          intro e' he'
          exact Conn.edge (w := e'.2.2) (by simp [he'])
        · exact Conn.edge (w := e.2.2) (by simp)
      | refl x => exact .refl x
      | symm x y _ ih => exact ih.symm
      | trans x y z _ _ ih1 ih2 => exact ih1.trans ih2
    · intro h
      induction h with
      | rel x y h =>
        rcases h with h | ⟨w, h⟩
        · exact .rel _ _ (Or.inl ((ih x y).2 (Conn.base h)))
        · rcases List.mem_append.1 h with h | h
          · exact .rel _ _ (Or.inl ((ih x y).2 (Conn.edge h)))
          · simp only [List.mem_singleton] at h
            subst h
            exact .rel _ _ (Or.inr ⟨rfl, rfl⟩)
      | refl x => exact .refl x
      | symm x y _ ih => exact Relation.EqvGen.symm _ _ ih
      | trans x y z _ _ ih1 ih2 => exact ih1.trans _ _ _ ih2

theorem classes_le_collapseAll {n : Nat} (r : Nat → Nat) (es : List (Nat × Nat × D)) :
    classes n r ≤ classes n (collapseAll r es) + es.length := by
  induction es using List.reverseRecOn with
  | nil => simp [collapseAll]
  | append_singleton es e ih =>
    rw [collapseAll_snoc]
    have := classes_le_collapse (n := n) (collapseAll r es) e.1 e.2.1
    simp only [List.length_append, List.length_cons, List.length_nil]
    omega

/-- No edge of the list links vertices already connected by `R` and the edges before it. -/
def Indep (R : Nat → Nat → Prop) (es : List (Nat × Nat × D)) : Prop :=
  ∀ pre e post, es = pre ++ e :: post → ¬ Conn R pre e.1 e.2.1

theorem Indep.nil {R : Nat → Nat → Prop} : Indep R ([] : List (Nat × Nat × D)) := by
  intro pre e post h; simp at h

theorem indep_snoc {R : Nat → Nat → Prop} {es : List (Nat × Nat × D)} {e : Nat × Nat × D} :
    Indep R (es ++ [e]) ↔ Indep R es ∧ ¬ Conn R es e.1 e.2.1 := by
  constructor
  · intro h
    refine ⟨?_, h es e [] rfl⟩
    intro pre e' post he
    exact h pre e' (post ++ [e]) (by rw [he]; simp)
  · rintro ⟨h1, h2⟩ pre e' post he
    rcases List.eq_nil_or_concat post with rfl | ⟨p, z, rfl⟩
    · obtain ⟨rfl, he'⟩ := List.append_inj' he (by simp)
      simp only [List.cons.injEq, and_true] at he'
      subst he'
      exact h2
    · have : es ++ [e] = (pre ++ e' :: p) ++ [z] := by rw [he]; simp [List.concat_eq_append]
      obtain ⟨rfl, _⟩ := List.append_inj' this (by simp)
      exact h1 pre e' p rfl

theorem classes_indep {n : Nat} {R : Nat → Nat → Prop} {r : Nat → Nat}
    (hr : ∀ x y, r x = r y ↔ Relation.EqvGen R x y) (es : List (Nat × Nat × D))
    (hv : ∀ e ∈ es, e.1 < n ∧ e.2.1 < n) (hi : Indep R es) :
    classes n (collapseAll r es) + es.length = classes n r := by
  induction es using List.reverseRecOn with
  | nil => simp [collapseAll]
  | append_singleton es e ih =>
    obtain ⟨h1, h2⟩ := indep_snoc.1 hi
    have ih' := ih (fun e he => hv e (by simp [he])) h1
    obtain ⟨hu, hv'⟩ := hv e (by simp)
    rw [collapseAll_snoc]
    have := classes_merge (n := n) (collapseAll r es) (collapse (collapseAll r es) e.1 e.2.1) hu hv'
      (fun h => h2 ((collapseAll_iff hr es _ _).1 h))
      (c := collapseAll r es e.2.1) (d := collapseAll r es e.1) (Or.inr ⟨rfl, rfl⟩) (fun x => rfl)
    simp only [List.length_append, List.length_cons, List.length_nil]
    omega

/-- A representative function for any relation. -/
theorem exists_rep (R : Nat → Nat → Prop) :
    ∃ r : Nat → Nat, ∀ x y, r x = r y ↔ Relation.EqvGen R x y := by
  classical
  refine ⟨fun x => (Quot.mk R x).out, fun x y => ?_⟩
  constructor
  · intro h
    have := congrArg (Quot.mk R) h
    refine Quot.eqvGen_exact ?_
    simpa using this
  · intro h
    have : Quot.mk R x = Quot.mk R y := Quot.eqvGen_sound h
    simp only [this]

/-- An independent list is not longer than a connecting one. -/
theorem indep_length_le {n : Nat} (hn : 0 < n) {R : Nat → Nat → Prop} (es fs : List (Nat × Nat × D))
    (hv : ∀ e ∈ es, e.1 < n ∧ e.2.1 < n) (hi : Indep R es)
    (hc : ∀ a b, a < n → b < n → Conn R fs a b) : es.length ≤ fs.length := by
  obtain ⟨r, hr⟩ := exists_rep R
  have h1 := classes_indep hr es hv hi
  have h2 := classes_pos hn (collapseAll r es)
  have h3 := classes_le_collapseAll (n := n) r fs
  have h4 : classes n (collapseAll r fs) ≤ 1 := by
    unfold classes
    refine Finset.card_le_one.2 ?_
    intro a ha b hb
    obtain ⟨x, hx, rfl⟩ := Finset.mem_image.1 ha
    obtain ⟨y, hy, rfl⟩ := Finset.mem_image.1 hb
    exact (collapseAll_iff hr fs x y).2 (hc x y (by simpa using hx) (by simpa using hy))
  omega

/-- Connecting `n` vertices takes at least `n - 1` edges. -/
theorem connects_length {n : Nat} (es : List (Nat × Nat × D)) (hc : Connects n es) :
    n ≤ es.length + 1 := by
  have hr : ∀ x y : Nat, id x = id y ↔ Relation.EqvGen (fun _ _ => False) x y := by
    intro x y
    constructor
    · rintro h; cases h; exact .refl _
    · intro h
      induction h with
      | rel x y h => exact h.elim
      | refl x => rfl
      | symm x y _ ih => exact ih.symm
      | trans x y z _ _ ih1 ih2 => exact ih1.trans ih2
  have h3 := classes_le_collapseAll (n := n) id es
  have h4 : classes n (collapseAll id es) ≤ 1 := by
    unfold classes
    refine Finset.card_le_one.2 ?_
    intro a ha b hb
    obtain ⟨x, hx, rfl⟩ := Finset.mem_image.1 ha
    obtain ⟨y, hy, rfl⟩ := Finset.mem_image.1 hb
    exact (collapseAll_iff hr es x y).2
      (linked_iff_conn.1 (hc x y (by simpa using hx) (by simpa using hy)))
  have h5 : classes n id = n := by simp [classes]
  omega

/-- `n - 1` edges that connect `n` vertices form a spanning tree. -/
theorem isSpanningTree_of {n : Nat} {es : List (Nat × Nat × D)}
    (hv : ∀ e ∈ es, e.1 < n ∧ e.2.1 < n) (hl : es.length + 1 = n) (hc : Connects n es) :
    IsSpanningTree n es where
  vertices := hv
  length := hl
  connects := hc
  acyclic := by
    intro pre e post he hlink
    have hc' : Connects n (pre ++ post) := by
      intro a b ha hb
      have := linked_iff_conn.1 (hc a b ha hb)
      refine linked_iff_conn.2 (this.mono (fun _ _ h => h.elim) ?_)
      intro e' he'
      rw [he] at he'
      have : e' = e ∨ e' ∈ pre ++ post := by simp at he' ⊢; tauto
      rcases this with rfl | h
      · exact linked_iff_conn.1 hlink
      · exact Conn.edge (w := e'.2.2) h
    have := connects_length _ hc'
    rw [he] at hl
    simp at hl this
    omega

/-! ### comparing sums by counting -/

theorem exists_max {F : Type} [LinearOrder F] : ∀ l : List F, l ≠ [] →
    ∃ a ∈ l, ∀ b ∈ l, b ≤ a := by
  intro l
  induction l with
  | nil => intro h; exact absurd rfl h
  | cons x l ih =>
    intro _
    by_cases hl : l = []
    · subst hl; exact ⟨x, by simp, by simp⟩
    · obtain ⟨a, ha, hmax⟩ := ih hl
      rcases le_total a x with h | h
      · refine ⟨x, by simp, fun b hb => ?_⟩
        rcases List.mem_cons.1 hb with rfl | hb
        · exact le_refl _
        · exact (hmax b hb).trans h
      · refine ⟨a, by simp [ha], fun b hb => ?_⟩
        rcases List.mem_cons.1 hb with rfl | hb
        · exact h
        · exact hmax b hb

section Sum

variable {F : Type} [AddCommGroup F] [LinearOrder F] [IsOrderedAddMonoid F]

theorem count_erase_le {l : List F} {a : F} (ha : a ∈ l) (s : F) :
    ((l.erase a).filter (fun b => s ≤ b)).length + (if s ≤ a then 1 else 0) =
      (l.filter (fun b => s ≤ b)).length := by
  have hp : l.Perm (a :: l.erase a) := List.perm_cons_erase ha
  rw [(hp.filter _).length_eq]
  by_cases h : s ≤ a <;> simp [List.filter_cons, h]

/-- If for every threshold `B` has at least as many values at or above it as `A`, and the values of
`B` are not negative, then `B` has the larger sum. -/
theorem sum_le_of_counts : ∀ (m : Nat) (A B : List F), A.length = m →
    (∀ b ∈ B, 0 ≤ b) →
    (∀ s, (A.filter (fun a => s ≤ a)).length ≤ (B.filter (fun b => s ≤ b)).length) →
    A.sum ≤ B.sum := by
  intro m
  induction m with
  | zero =>
    intro A B hA hB _
    rw [List.length_eq_zero_iff.1 hA]
    simpa using List.sum_nonneg hB
  | succ m ih =>
    intro A B hA hB hc
    have hAne : A ≠ [] := by intro h; simp [h] at hA
    obtain ⟨a, ha, hamax⟩ : ∃ a ∈ A, ∀ a' ∈ A, a' ≤ a := exists_max A hAne
    have hBne : B.filter (fun b => a ≤ b) ≠ [] := by
      intro h
      have h1 := hc a
      rw [h] at h1
      have : a ∈ A.filter (fun a' => a ≤ a') := by simp [ha]
      have := List.length_pos_of_mem this
      simp only [List.length_nil] at h1
      omega
    obtain ⟨b0, hb0⟩ := List.exists_mem_of_ne_nil _ hBne
    have hBne' : B ≠ [] := by
      intro h; simp [h] at hb0
    obtain ⟨b, hb, hbmax⟩ := exists_max B hBne'
    have hab : a ≤ b := by
      simp only [List.mem_filter, decide_eq_true_eq] at hb0
      exact hb0.2.trans (hbmax b0 hb0.1)
    have hrec := ih (A.erase a) (B.erase b) (by rw [List.length_erase_of_mem ha, hA]; rfl)
      (fun c hc => hB c (List.mem_of_mem_erase hc)) (by
        intro s
        have h1 := count_erase_le ha s
        have h2 := count_erase_le hb s
        have h3 := hc s
        by_cases hs : s ≤ a
        · simp only [hs, hs.trans hab, if_true] at h1 h2; omega
        · have : (A.erase a).filter (fun b => s ≤ b) = [] := by
            rw [List.filter_eq_nil_iff]
            intro c hc
            simp only [decide_eq_true_eq]
            exact fun h => hs (h.trans (hamax c (List.mem_of_mem_erase hc)))
          rw [this]; simp)
    have e1 : A.sum = a + (A.erase a).sum := by
      rw [(List.perm_cons_erase ha).sum_eq, List.sum_cons]
    have e2 : B.sum = b + (B.erase b).sum := by
      rw [(List.perm_cons_erase hb).sum_eq, List.sum_cons]
    rw [e1, e2]
    exact add_le_add hab hrec

end Sum

end Verif.Graph
