import Verif.Lemmas.Boruvka
import Verif.Spec.Reach

/-
What `make_tree` can choose when some pairs have weights that are not below `infinity`: edges below it only.
-/

namespace Verif.Boruvka

open Verif.KDTree Verif.Buffer Verif.Search Verif.ClosestPair Verif.Graph

set_option linter.unusedSectionVars false

variable {K : Type} [LinearOrder K] {D : Type} [LinearOrder D]
variable {x : Nat → Nat → K} {gap : K → K → D} {dist : Nat → Nat → D}
  {weight : Nat → Nat → D → Option D} {wt : Nat → Nat → D} {inf : D} {t : KDTree.Tree K} {n : Nat}
  {near : D → D → Prop}

/-- A chosen edge: the default edge, or a pair of samples with its weight, below `inf`. -/
def Below (wt : Nat → Nat → D) (inf : D) (n : Nat) (e : Edge D) : Prop :=
  (e.1 = e.2.1 ∧ e.1 < n) ∨ e.1 < n ∧ e.2.1 < n ∧ e.2.2 = wt e.1 e.2.1 ∧ wt e.1 e.2.1 < inf

theorem shortestFrom_below (ht : GoodTree x x gap dist n near t) (hall : ∀ i, i < n → i ∈ t.indices)
    (hw : ∀ q i, q < n → i < n → weight q i (dist q i) = some (wt q i))
    {f : Forest D} {r : Nat → Nat} (h : FInv n f r) (h2 : 1 < f.comps.length) {k : Nat}
    {c : List Nat} (hkc : (k, c) ∈ f.comps) {u : UF.State} (hu : UF.SInv n u r) :
    ∃ u' e, shortestFrom x x gap dist weight inf t k c u (defaultEdge inf) = some (u', e) ∧
      UF.SInv n u' r ∧ Below wt inf n e := by
  obtain ⟨hkn, hrk⟩ := (h.keys k).1 (List.mem_map.2 ⟨_, hkc, rfl⟩)
  have hmem := h.mem k c hkc
  obtain ⟨j, hj, hrj, hjk⟩ := h.exists_other h2 k
  obtain ⟨u', e, e1, hu', hcase, _, _⟩ := shortestFrom_spec ht inf weight wt hkn
    ⟨j, hall j hj, by rw [hrk, hrj]; exact hjk.symm⟩ c u (defaultEdge inf) hu
    (fun q hq i hi => hw q i ((hmem q).1 hq).1 (ht.valid i hi))
  refine ⟨u', e, e1, hu', ?_⟩
  rcases hcase with rfl | ⟨q, hq, i, hi, rfl, _, hlt, _⟩
  · exact Or.inl ⟨rfl, by simp only [defaultEdge]; omega⟩
  · exact Or.inr ⟨((hmem q).1 hq).1, ht.valid i hi, rfl, hlt⟩

theorem closestEdges_below (ht : GoodTree x x gap dist n near t) (hall : ∀ i, i < n → i ∈ t.indices)
    (hw : ∀ q i, q < n → i < n → weight q i (dist q i) = some (wt q i))
    {f : Forest D} {r : Nat → Nat} (h : FInv n f r) (h2 : 1 < f.comps.length) :
    ∀ (L : List (Nat × List Nat)) (u : UF.State), (∀ p ∈ L, p ∈ f.comps) → UF.SInv n u r →
      ∃ u' es, closestEdges x gap dist weight inf t L u = some (u', es) ∧ UF.SInv n u' r ∧
        ∀ p ∈ es, Below wt inf n p.2 := by
  intro L
  induction L with
  | nil => intro u _ hu; exact ⟨u, [], rfl, hu, by simp⟩
  | cons p L ih =>
    intro u hL hu
    obtain ⟨k, c⟩ := p
    obtain ⟨u1, e, e1, hu1, hb⟩ := shortestFrom_below (inf := inf) ht hall hw h h2 (hL (k, c) (by simp)) hu
    obtain ⟨u2, es, e2, hu2, hes⟩ := ih u1 (fun p hp => hL p (by simp [hp])) hu1
    refine ⟨u2, (k, e) :: es, ?_, hu2, ?_⟩
    · simp only [closestEdges, e1, Option.bind_eq_bind, Option.bind_some, e2]
    · intro p hp
      rcases List.mem_cons.1 hp with rfl | hp
      · exact hb
      · exact hes p hp

/-- State of the loop: the chosen edges are below `inf`. -/
structure BelowInv (wt : Nat → Nat → D) (inf : D) (n : Nat) (f : Forest D) (r : Nat → Nat) : Prop where
  inv : FInv n f r
  edges : ∀ e ∈ f.mst, e.1 < n ∧ e.2.1 < n ∧ e.2.2 = wt e.1 e.2.1 ∧ wt e.1 e.2.1 < inf

theorem merge_below {f : Forest D} {r : Nat → Nat} (h : BelowInv wt inf n f r) {e : Edge D}
    (he : Below wt inf n e) :
    ∃ f' r', mergeComponents f e = some f' ∧ BelowInv wt inf n f' r' := by
  have hlt : e.1 < n ∧ e.2.1 < n := by
    rcases he with ⟨h1, h2⟩ | ⟨h1, h2, _⟩
    · exact ⟨h2, h1 ▸ h2⟩
    · exact ⟨h1, h2⟩
  obtain ⟨f', r', e1, h1, _, _, hcase⟩ := mergeComponents_spec h.inv hlt.1 hlt.2
  refine ⟨f', r', e1, h1, ?_⟩
  rcases hcase with ⟨_, hm, _⟩ | ⟨hne, hm⟩
  · rw [hm]; exact h.edges
  · intro a ha
    rw [hm] at ha
    rcases List.mem_append.1 ha with ha | ha
    · exact h.edges a ha
    · simp only [List.mem_singleton] at ha
      subst ha
      rcases he with ⟨h1, _⟩ | he
      · exact absurd (by rw [h1]) hne
      · exact he

theorem fold_below : ∀ (es : List (Nat × Edge D)) (f : Forest D) (r : Nat → Nat),
    BelowInv wt inf n f r → (∀ p ∈ es, Below wt inf n p.2) →
    ∃ f' r', es.foldlM (fun f e => mergeComponents f e.2) f = some f' ∧ BelowInv wt inf n f' r' := by
  intro es
  induction es with
  | nil => intro f r h _; exact ⟨f, r, rfl, h⟩
  | cons p es ih =>
    intro f r h hes
    obtain ⟨f1, r1, e1, h1⟩ := merge_below h (hes p (by simp))
    obtain ⟨f2, r2, e2, h2⟩ := ih f1 r1 h1 (fun p hp => hes p (by simp [hp]))
    refine ⟨f2, r2, ?_, h2⟩
    rw [List.foldlM_cons, e1]
    exact e2

/-- One round. -/
theorem step_below (ht : GoodTree x x gap dist n near t) (hall : ∀ i, i < n → i ∈ t.indices)
    (hw : ∀ q i, q < n → i < n → weight q i (dist q i) = some (wt q i)) {ord : Orders D} (hord : ord.Valid)
    (round : Nat) {f : Forest D} {r : Nat → Nat} (h : BelowInv wt inf n f r) (h2 : 1 < f.comps.length) :
    ∃ f' r', (if f.comps.length = 2 then dualComponentStep x gap dist weight inf t ord round f
        else stepSequential x gap dist weight inf t ord round f) = some f' ∧ BelowInv wt inf n f' r' := by
  have hpc := hord.comps round f.comps
  by_cases h3 : f.comps.length = 2
  · rw [if_pos h3]
    unfold dualComponentStep
    cases hc : ord.comps round f.comps with
    | nil => rw [hc] at hpc; have := hpc.length_eq; simp at this; omega
    | cons p rest =>
      rw [hc] at hpc
      have hmem : smallest rest p ∈ f.comps := by
        refine hpc.mem_iff.1 ?_
        rcases smallest_mem rest p with h | h
        · rw [h]; simp
        · simp [h]
      obtain ⟨u1, e, e1, hu1, hb⟩ := shortestFrom_below (inf := inf) (k := (smallest rest p).1)
        (c := (smallest rest p).2) ht hall hw h.inv h2 hmem h.inv.uf
      obtain ⟨f', r', e2, hf'⟩ := merge_below (f := { f with uf := u1 }) ⟨h.inv.with_uf hu1, h.edges⟩ hb
      refine ⟨f', r', ?_, hf'⟩
      simp only [e1, Option.bind_eq_bind, Option.bind_some, e2]
  · rw [if_neg h3]
    obtain ⟨u1, es, e1, hu1, hes⟩ := closestEdges_below (inf := inf) ht hall hw h.inv h2
      (ord.comps round f.comps) f.uf (fun p hp => hpc.mem_iff.1 hp) h.inv.uf
    obtain ⟨f', r', e2, hf'⟩ := fold_below (ord.edges round es) { f with uf := u1 } r
      ⟨h.inv.with_uf hu1, h.edges⟩ (fun p hp => hes p ((hord.edges round es).mem_iff.1 hp))
    refine ⟨f', r', ?_, hf'⟩
    simp only [stepSequential, e1, Option.bind_eq_bind, Option.bind_some, e2]

theorem BelowInv.joined {f : Forest D} {r : Nat → Nat} (h : BelowInv wt inf n f r)
    (hsymm : ∀ a b, wt a b = wt b a) (h1 : f.comps.length ≤ 1) : JoinedBelow n wt inf := by
  intro a b ha hb
  have hrep : r a = r b := by
    have hc := h.inv.comps_length
    unfold classes at hc
    have hle : ((Finset.range n).image r).card ≤ 1 := by omega
    exact Finset.card_le_one.1 hle _ (Finset.mem_image_of_mem _ (by simpa using ha)) _
      (Finset.mem_image_of_mem _ (by simpa using hb))
  have hl := linked_iff_conn.2 ((h.inv.linked a b).1 hrep)
  unfold Linked at hl
  have hs : ∀ i j, Relation.ReflTransGen (fun i j => i < n ∧ j < n ∧ wt i j < inf) i j →
      Relation.ReflTransGen (fun i j => i < n ∧ j < n ∧ wt i j < inf) j i := by
    intro i j hij
    induction hij with
    | refl => exact Relation.ReflTransGen.refl
    | tail _ h1 ih => exact Relation.ReflTransGen.head ⟨h1.2.1, h1.1, by rw [hsymm]; exact h1.2.2⟩ ih
  refine Relation.EqvGen.rec (motive := fun a b _ => Relation.ReflTransGen _ a b) ?_ ?_ ?_ ?_ hl
  · rintro i j ⟨w, hw⟩
    obtain ⟨h1, h2, _, h4⟩ := h.edges _ hw
    exact Relation.ReflTransGen.single ⟨h1, h2, h4⟩
  · intro i; exact Relation.ReflTransGen.refl
  · intro i j _ hij; exact hs i j hij
  · intro i j k _ _ h1 h2; exact h1.trans h2

/-- The loop ends only when the samples are joined by pairs whose weights are below `inf`. -/
theorem makeLoop_joined (ht : GoodTree x x gap dist n near t) (hall : ∀ i, i < n → i ∈ t.indices)
    (hw : ∀ q i, q < n → i < n → weight q i (dist q i) = some (wt q i)) (hsymm : ∀ a b, wt a b = wt b a)
    {ord : Orders D} (hord : ord.Valid) : ∀ (fuel round : Nat) (f f' : Forest D) (r : Nat → Nat),
    BelowInv wt inf n f r → makeLoop x gap dist weight inf t ord fuel round f = some f' →
    JoinedBelow n wt inf := by
  intro fuel
  induction fuel with
  | zero => intro round f f' r _ h; simp [makeLoop] at h
  | succ fuel ih =>
    intro round f f' r h he
    unfold makeLoop at he
    by_cases h2 : f.comps.length > 1
    · rw [if_pos h2] at he
      obtain ⟨f1, r1, e1, h1⟩ := step_below ht hall hw hord round h h2
      by_cases h3 : f.comps.length = 2
      · rw [if_pos h3] at e1 he
        simp only [e1, Option.bind_eq_bind, Option.bind_some] at he
        exact ih _ _ _ _ h1 he
      · rw [if_neg h3] at e1 he
        simp only [e1, Option.bind_eq_bind, Option.bind_some] at he
        exact ih _ _ _ _ h1 he
    · exact h.joined hsymm (by omega)

/-- The body of the `while` loop of `make_tree` (BoruvkasAlgorithm.hpp:435-445, 447-457), `m` times. -/
def rounds (x : Nat → Nat → K) (gap : K → K → D) (dist : Nat → Nat → D)
    (weight : Nat → Nat → D → Option D) (inf : D) (t : KDTree.Tree K) (ord : Orders D) :
    Nat → Nat → Forest D → Option (Forest D)
  | 0, _, f => some f
  | m + 1, round, f => do
    let f ← if f.comps.length = 2 then dualComponentStep x gap dist weight inf t ord round f
      else stepSequential x gap dist weight inf t ord round f
    rounds x gap dist weight inf t ord m (round + 1) f

/-- When the samples are not joined below `inf`, any number of rounds is executed, without undefined
behaviour, and the loop condition holds after them. -/
theorem rounds_defined (ht : GoodTree x x gap dist n near t) (hall : ∀ i, i < n → i ∈ t.indices)
    (hw : ∀ q i, q < n → i < n → weight q i (dist q i) = some (wt q i)) (hsymm : ∀ a b, wt a b = wt b a)
    (hj : ¬ JoinedBelow n wt inf) {ord : Orders D} (hord : ord.Valid) :
    ∀ (m round : Nat) (f : Forest D) (r : Nat → Nat), BelowInv wt inf n f r →
    ∃ f', rounds x gap dist weight inf t ord m round f = some f' ∧ 1 < f'.comps.length := by
  intro m
  induction m with
  | zero =>
    intro round f r h
    refine ⟨f, rfl, ?_⟩
    by_contra hc
    exact hj (h.joined hsymm (by omega))
  | succ m ih =>
    intro round f r h
    have h2 : 1 < f.comps.length := by
      by_contra hc
      exact hj (h.joined hsymm (by omega))
    obtain ⟨f1, r1, e1, h1⟩ := step_below ht hall hw hord round h h2
    obtain ⟨f', e', h'⟩ := ih (round + 1) f1 r1 h1
    refine ⟨f', ?_, h'⟩
    unfold rounds
    by_cases h3 : f.comps.length = 2
    · rw [if_pos h3] at e1 ⊢
      simp only [e1, Option.bind_eq_bind, Option.bind_some, e']
    · rw [if_neg h3] at e1 ⊢
      simp only [e1, Option.bind_eq_bind, Option.bind_some, e']

theorem FInv.below {f : Forest D} {r : Nat → Nat} (h : FInv n f r) (hm : f.mst = []) :
    BelowInv wt inf n f r := ⟨h, by rw [hm]; simp⟩

/-- With samples joined below `inf` every component has an edge below `inf` to another one. -/
theorem exists_exit {dist : Nat → Nat → D} (hj : JoinedBelow n dist inf) (r : Nat → Nat) {k : Nat}
    (hk : k < n) (hr : r k = k) (hex : ∃ j, j < n ∧ r j ≠ k) :
    ∃ q j, q < n ∧ j < n ∧ r q = k ∧ r j ≠ k ∧ dist q j < inf := by
  obtain ⟨j, hjn, hjr⟩ := hex
  by_contra hno
  have hall : ∀ b, Relation.ReflTransGen (fun i j => i < n ∧ j < n ∧ dist i j < inf) k b → r b = k := by
    intro b hb
    induction hb with
    | refl => exact hr
    | tail _ hs ih =>
      by_contra hne
      exact hno ⟨_, _, hs.1, hs.2.1, ih, hne, hs.2.2⟩
  exact hjr (hall j (hj k j hk hjn))

end Verif.Boruvka
