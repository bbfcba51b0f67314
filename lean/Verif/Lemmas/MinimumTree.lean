import Verif.Lemmas.Forest
import Mathlib.Data.List.Perm.Basic
import Mathlib.Data.List.Count
import Mathlib.Data.List.Sort

/-
Minimum spanning trees: the edges below a threshold link exactly the samples that a chain of close
samples links (exchange argument), and the multiset of the weights is unique (counting argument).
-/

namespace Verif.Graph

set_option linter.unusedSectionVars false

variable {D : Type}

theorem linked_mono {es fs : List (Nat × Nat × D)} (h : ∀ e ∈ es, e ∈ fs) {a b : Nat}
    (hl : Linked es a b) : Linked fs a b :=
  linked_iff_conn.2 ((linked_iff_conn.1 hl).mono (fun _ _ h => h.elim)
    (fun e he => Conn.edge (w := e.2.2) (h e he)))

theorem Linked.symm {es : List (Nat × Nat × D)} {a b : Nat} (h : Linked es a b) : Linked es b a :=
  Relation.EqvGen.symm _ _ h

theorem Linked.trans {es : List (Nat × Nat × D)} {a b c : Nat} (h : Linked es a b)
    (h' : Linked es b c) : Linked es a c := Relation.EqvGen.trans _ _ _ h h'

theorem Linked.refl {es : List (Nat × Nat × D)} (a : Nat) : Linked es a a := Relation.EqvGen.refl a

theorem Linked.edge {es : List (Nat × Nat × D)} {e : Nat × Nat × D} (h : e ∈ es) :
    Linked es e.1 e.2.1 := .rel _ _ ⟨e.2.2, h⟩

/-- One more edge links what was linked, or what its two ends were linked to. -/
theorem linked_cons {es : List (Nat × Nat × D)} {e : Nat × Nat × D} {a b : Nat}
    (h : Linked (e :: es) a b) :
    Linked es a b ∨ (Linked es a e.1 ∧ Linked es e.2.1 b) ∨ (Linked es a e.2.1 ∧ Linked es e.1 b) := by
  unfold Linked at h
  induction h with
  | rel x y h =>
    obtain ⟨w, h⟩ := h
    rcases List.mem_cons.1 h with h | h
    · subst h
      exact Or.inr (Or.inl ⟨Linked.refl _, Linked.refl _⟩)
    · exact Or.inl (Linked.edge h)
  | refl x => exact Or.inl (Linked.refl x)
  | symm x y _ ih =>
    rcases ih with h | ⟨h, h'⟩ | ⟨h, h'⟩
    · exact Or.inl h.symm
    · exact Or.inr (Or.inr ⟨h'.symm, h.symm⟩)
    · exact Or.inr (Or.inl ⟨h'.symm, h.symm⟩)
  | trans x y z _ _ ih1 ih2 =>
    rcases ih1 with h | ⟨h, h'⟩ | ⟨h, h'⟩ <;> rcases ih2 with k | ⟨k, k'⟩ | ⟨k, k'⟩
    · exact Or.inl (h.trans k)
    · exact Or.inr (Or.inl ⟨h.trans k, k'⟩)
    · exact Or.inr (Or.inr ⟨h.trans k, k'⟩)
    · exact Or.inr (Or.inl ⟨h, h'.trans k⟩)
    · exact Or.inr (Or.inl ⟨h, k'⟩)
    · exact Or.inl (h.trans k')
    · exact Or.inr (Or.inr ⟨h, h'.trans k⟩)
    · exact Or.inl (h.trans k')
    · exact Or.inr (Or.inr ⟨h, k'⟩)

/-- The first of the edges `H` that links `a` to `b` when added to `L`. -/
theorem exists_critical : ∀ (H L : List (Nat × Nat × D)) {a b : Nat}, ¬ Linked L a b →
    Linked (H ++ L) a b → ∃ H1 h H2, H = H1 ++ h :: H2 ∧ ¬ Linked (H2 ++ L) a b ∧
      Linked (h :: (H2 ++ L)) a b := by
  intro H
  induction H with
  | nil => intro L a b h h'; exact absurd h' h
  | cons e H ih =>
    intro L a b h h'
    by_cases h2 : Linked (H ++ L) a b
    · obtain ⟨H1, x, H2, rfl, h3, h4⟩ := ih L h h2
      exact ⟨e :: H1, x, H2, rfl, h3, h4⟩
    · exact ⟨[], e, H, rfl, h2, h'⟩

theorem filter_split (p : Nat × Nat × D → Bool) (es : List (Nat × Nat × D)) :
    (es.filter (fun e => !p e) ++ es.filter p).Perm es := by
  refine List.Perm.trans List.perm_append_comm ?_
  exact List.filter_append_perm p es

theorem acyclic_perm {n : Nat} {es fs : List (Nat × Nat × D)} (h : IsSpanningTree n es)
    (hp : fs.Perm es) : IsSpanningTree n fs := by
  refine isSpanningTree_of (fun e he => h.vertices e (hp.mem_iff.1 he))
    (by rw [hp.length_eq]; exact h.length) ?_
  intro a b ha hb
  exact linked_mono (fun e he => hp.mem_iff.2 he) (h.connects a b ha hb)

section Min

variable [AddCommGroup D] [LinearOrder D] [IsOrderedAddMonoid D]

theorem total_perm {es fs : List (Nat × Nat × D)} (hp : es.Perm fs) : total es = total fs :=
  (hp.map _).sum_eq

/-- Exchange argument: two samples whose weight satisfies the downward closed `P` are linked by edges
of the tree that satisfy it. -/
theorem IsMinimum.bottleneck {n : Nat} {wt : Nat → Nat → D} {T : List (Nat × Nat × D)}
    (h : IsMinimum n wt T) (P : D → Bool) (hP : ∀ v w, v ≤ w → P w = true → P v = true) {a b : Nat}
    (ha : a < n) (hb : b < n) (hab : P (wt a b) = true) :
    Linked (T.filter (fun e => P e.2.2)) a b := by
  by_contra hno
  have hperm := filter_split (fun e => P e.2.2) T
  have hT' := acyclic_perm h.tree hperm
  obtain ⟨H1, x, H2, hH, h1, h2⟩ := exists_critical (T.filter (fun e => !P e.2.2))
    (T.filter (fun e => P e.2.2)) hno (hT'.connects a b ha hb)
  have hx : x ∈ T ∧ P x.2.2 = false := by
    have : x ∈ T.filter (fun e => !P e.2.2) := by rw [hH]; simp
    simpa using List.mem_filter.1 this
  rw [hH] at hperm hT'
  generalize T.filter (fun e => P e.2.2) = L at *
  -- the ends of `x` are linked to `a` and `b` without `x`
  have hends : (Linked (H2 ++ L) a x.1 ∧ Linked (H2 ++ L) x.2.1 b) ∨
      (Linked (H2 ++ L) a x.2.1 ∧ Linked (H2 ++ L) x.1 b) := by
    rcases linked_cons h2 with h3 | h3 | h3
    · exact absurd h3 h1
    · exact Or.inl h3
    · exact Or.inr h3
  set S : List (Nat × Nat × D) := (a, b, wt a b) :: (H1 ++ (H2 ++ L)) with hS
  have hpT : (x :: (H1 ++ (H2 ++ L))).Perm T := by
    refine List.Perm.trans ?_ hperm
    rw [List.append_assoc, List.cons_append]
    exact List.perm_middle.symm
  have hSt : IsSpanningTree n S := by
    refine isSpanningTree_of ?_ ?_ ?_
    · intro e he
      rcases List.mem_cons.1 he with rfl | he
      · exact ⟨ha, hb⟩
      · exact h.tree.vertices e (hpT.mem_iff.1 (List.mem_cons_of_mem _ he))
    · have := hpT.length_eq
      have h3 := h.tree.length
      simp only [hS, List.length_cons] at this ⊢
      omega
    · intro u v hu hv
      have h3 := linked_iff_conn.1 (h.tree.connects u v hu hv)
      refine linked_iff_conn.2 (h3.mono (fun _ _ h => h.elim) ?_)
      intro e he
      rw [← linked_iff_conn]
      rcases List.mem_cons.1 (hpT.mem_iff.2 he) with rfl | he
      · have hsub : ∀ e ∈ H2 ++ L, e ∈ S := fun e he => by
          rw [hS]; exact List.mem_cons_of_mem _ (List.mem_append_right _ he)
        have hab' : Linked S a b := Linked.edge (e := (a, b, wt a b)) (by simp [hS])
        rcases hends with ⟨k1, k2⟩ | ⟨k1, k2⟩
        · exact ((linked_mono hsub k1).symm.trans hab').trans (linked_mono hsub k2).symm
        · exact ((linked_mono hsub k2).trans hab'.symm).trans (linked_mono hsub k1)
      · exact Linked.edge (by rw [hS]; exact List.mem_cons_of_mem _ he)
  have hle := h.minimal S hSt (by
    intro e he
    rcases List.mem_cons.1 he with rfl | he
    · rfl
    · exact h.weights e (hpT.mem_iff.1 (List.mem_cons_of_mem _ he)))
  rw [← total_perm hpT] at hle
  simp only [total, hS, List.map_cons, List.sum_cons] at hle
  have hle' : x.2.2 ≤ wt a b := le_of_add_le_add_right hle
  have := hP _ _ hle' hab
  rw [hx.2] at this
  exact absurd this (by simp)

/-- The edges below a threshold link exactly what chains of samples below the threshold link. -/
theorem IsMinimum.linked_iff {n : Nat} {wt : Nat → Nat → D} {T : List (Nat × Nat × D)}
    (h : IsMinimum n wt T) (P : D → Bool) (hP : ∀ v w, v ≤ w → P w = true → P v = true) (a b : Nat) :
    Linked (T.filter (fun e => P e.2.2)) a b ↔ Reach n (fun a b => P (wt a b) = true) a b := by
  constructor
  · intro h1
    unfold Linked at h1
    induction h1 with
    | rel x y h1 =>
      obtain ⟨w, hw⟩ := h1
      obtain ⟨h2, h3⟩ := List.mem_filter.1 hw
      have h4 := h.weights _ h2
      have h5 := h.tree.vertices _ h2
      dsimp only at h3 h4 h5
      exact .rel _ _ ⟨h5.1, h5.2, by show P (wt x y) = true; rw [← h4]; exact h3⟩
    | refl x => exact .refl x
    | symm x y _ ih => exact .symm _ _ ih
    | trans x y z _ _ ih1 ih2 => exact .trans _ _ _ ih1 ih2
  · intro h1
    unfold Reach at h1
    induction h1 with
    | rel x y h1 => exact h.bottleneck P hP h1.1 h1.2.1 h1.2.2
    | refl x => exact Linked.refl x
    | symm x y _ ih => exact ih.symm
    | trans x y z _ _ ih1 ih2 => exact ih1.trans ih2

/-- Acyclic lists that link the same vertices have the same length. -/
theorem length_eq_of_linked {n : Nat} {es fs : List (Nat × Nat × D)}
    (hve : ∀ e ∈ es, e.1 < n ∧ e.2.1 < n) (hvf : ∀ e ∈ fs, e.1 < n ∧ e.2.1 < n)
    (hie : Indep (fun _ _ => False) es) (hif : Indep (fun _ _ => False) fs)
    (h : ∀ a b, Linked es a b ↔ Linked fs a b) : es.length = fs.length := by
  obtain ⟨r, hr⟩ := exists_rep (fun _ _ => False)
  have h1 := classes_indep hr es hve hie
  have h2 := classes_indep hr fs hvf hif
  have h3 : classes n (collapseAll r es) = classes n (collapseAll r fs) := by
    have hiff : ∀ x y, collapseAll r es x = collapseAll r es y ↔
        collapseAll r fs x = collapseAll r fs y := by
      intro x y
      rw [collapseAll_iff hr es, collapseAll_iff hr fs, ← linked_iff_conn, ← linked_iff_conn, h]
    unfold classes
    refine Finset.card_bij' (fun k _ => collapseAll r fs (Function.invFun (collapseAll r es) k))
      (fun k _ => collapseAll r es (Function.invFun (collapseAll r fs) k)) ?_ ?_ ?_ ?_
    · intro k hk
      obtain ⟨x, hx, rfl⟩ := Finset.mem_image.1 hk
      have := Function.invFun_eq (f := collapseAll r es) ⟨x, rfl⟩
      rw [(hiff _ _).1 this]
      exact Finset.mem_image_of_mem _ hx
    · intro k hk
      obtain ⟨x, hx, rfl⟩ := Finset.mem_image.1 hk
      have := Function.invFun_eq (f := collapseAll r fs) ⟨x, rfl⟩
      rw [(hiff _ _).2 this]
      exact Finset.mem_image_of_mem _ hx
    · intro k hk
      obtain ⟨x, hx, rfl⟩ := Finset.mem_image.1 hk
      have h4 := Function.invFun_eq (f := collapseAll r es) ⟨x, rfl⟩
      rw [(hiff _ _).1 h4]
      have h5 := Function.invFun_eq (f := collapseAll r fs) ⟨x, rfl⟩
      exact (hiff _ _).2 h5
    · intro k hk
      obtain ⟨x, hx, rfl⟩ := Finset.mem_image.1 hk
      have h4 := Function.invFun_eq (f := collapseAll r fs) ⟨x, rfl⟩
      rw [(hiff _ _).2 h4]
      have h5 := Function.invFun_eq (f := collapseAll r es) ⟨x, rfl⟩
      exact (hiff _ _).1 h5
  omega

theorem IsSpanningTree.indep_filter {n : Nat} {T : List (Nat × Nat × D)} (h : IsSpanningTree n T)
    (p : Nat × Nat × D → Bool) : Indep (fun _ _ => False) (T.filter p) := by
  intro pre e post he hc
  have hmem : e ∈ T := (List.mem_filter.1 (by rw [he]; simp : e ∈ T.filter p)).1
  -- `pre` is a sublist of what precedes an occurrence of `e`
  obtain ⟨l1, l2, hT, h1, h2⟩ := List.filter_eq_append_iff.1 he
  obtain ⟨m1, m2, hl2, h3, h4, h5⟩ := List.filter_eq_cons_iff.1 h2
  refine h.acyclic (l1 ++ m1) e m2 (by rw [hT, hl2]; simp) ?_
  refine linked_mono ?_ (linked_iff_conn.2 hc)
  intro f hf
  rw [← h1] at hf
  simp [(List.mem_filter.1 hf).1]

/-- The multiset of the weights of a minimum spanning tree is unique. -/
theorem IsMinimum.weights_perm {n : Nat} {wt : Nat → Nat → D} {T S : List (Nat × Nat × D)}
    (hT : IsMinimum n wt T) (hS : IsMinimum n wt S) :
    (T.map (fun e => e.2.2)).Perm (S.map (fun e => e.2.2)) := by
  have key : ∀ P : D → Bool, (∀ v w, v ≤ w → P w = true → P v = true) →
      (T.filter (fun e => P e.2.2)).length = (S.filter (fun e => P e.2.2)).length := by
    intro P hP
    refine length_eq_of_linked (n := n)
      (fun e he => hT.tree.vertices e (List.mem_filter.1 he).1)
      (fun e he => hS.tree.vertices e (List.mem_filter.1 he).1) (hT.tree.indep_filter _)
      (hS.tree.indep_filter _) ?_
    intro a b
    rw [hT.linked_iff P hP, hS.linked_iff P hP]
  have hcount : ∀ (U : List (Nat × Nat × D)) (v : D), (U.map (fun e => e.2.2)).count v +
      (U.filter (fun e => decide (e.2.2 < v))).length =
      (U.filter (fun e => decide (e.2.2 ≤ v))).length := by
    intro U v
    induction U with
    | nil => rfl
    | cons e U ih =>
      simp only [List.map_cons, List.count_cons, List.filter_cons, decide_eq_true_eq, beq_iff_eq]
      rcases lt_trichotomy e.2.2 v with h | h | h
      · rw [if_neg h.ne, if_pos h, if_pos h.le, List.length_cons, List.length_cons]; omega
      · rw [if_pos h, if_neg h.not_lt, if_pos h.le, List.length_cons]; omega
      · rw [if_neg h.ne', if_neg h.not_gt, if_neg (not_le.2 h)]; omega
  rw [List.perm_iff_count]
  intro v
  have h1 := hcount T v
  have h2 := hcount S v
  have h3 := key (fun w => decide (w < v)) (fun a b hab hb => by
    have := of_decide_eq_true hb; exact decide_eq_true (lt_of_le_of_lt hab this))
  have h4 := key (fun w => decide (w ≤ v)) (fun a b hab hb => by
    have := of_decide_eq_true hb; exact decide_eq_true (hab.trans this))
  omega

end Min

end Verif.Graph
