import Verif.Lemmas.Boruvka

/-
The first round of Borůvka's algorithm when the edge chosen by a sample may be light for its other
end only (three nearest neighbours, BoruvkasAlgorithm.hpp:281-324).
-/

namespace Verif.Boruvka

open Verif.KDTree Verif.Buffer Verif.Search Verif.ClosestPair Verif.Graph

set_option linter.unusedSectionVars false

variable {K : Type} [LinearOrder K] {D : Type} [LinearOrder D]

theorem indep_filter {R : Nat → Nat → Prop} {l : List (Edge D)} (h : Indep R l)
    (p : Edge D → Bool) : Indep R (l.filter p) := by
  induction l using List.reverseRecOn with
  | nil => exact h
  | append_singleton l e ih =>
    obtain ⟨h1, h2⟩ := indep_snoc.1 h
    rw [List.filter_append]
    by_cases he : p e = true
    · simp only [List.filter_cons, he, if_true, List.filter_nil]
      refine indep_snoc.2 ⟨ih h1, fun hc => h2 (hc.mono (fun a b h => Conn.base h) ?_)⟩
      intro a ha
      exact Conn.edge (w := a.2.2) (List.mem_filter.1 ha).1
    · simp only [Bool.not_eq_true] at he
      simp only [List.filter_cons, he, Bool.false_eq_true, if_false, List.filter_nil, List.append_nil]
      exact ih h1

/-- Following the oriented edges of `l` from `x` leads to `u`. -/
inductive Follow (tail head : Edge D → Nat) (l : List (Edge D)) (u : Nat) : Nat → Prop
  | base : Follow tail head l u u
  | step (a : Edge D) (h : a ∈ l) (hr : Follow tail head l u (head a)) :
      Follow tail head l u (tail a)

/-- A forest whose edges can be oriented, one edge leaving each vertex at most, in such a way that
`R` has no pair at the tail of an edge, is independent modulo `R`. -/
theorem oriented_indep {R : Nat → Nat → Prop} (hR : ∀ x y, R x y → R y x) {l : List (Edge D)}
    (tail head : Edge D → Nat)
    (hor : ∀ a ∈ l, (tail a = a.1 ∧ head a = a.2.1) ∨ (tail a = a.2.1 ∧ head a = a.1))
    (hclosed : ∀ a ∈ l, ∀ y, ¬ R (tail a) y)
    (huniq : ∀ a ∈ l, ∀ b ∈ l, tail a = tail b → head a = head b)
    (hi : Indep NoRel l) : Indep R l := by
  intro pre e post hl hconn
  have hpre : ∀ a ∈ pre, a ∈ l := fun a ha => by rw [hl]; simp [ha]
  have he : e ∈ l := by rw [hl]; simp
  have hno := hi pre e post hl
  have hconnEdge : ∀ a ∈ pre, Conn NoRel pre (tail a) (head a) := by
    intro a ha
    have h1 : Conn NoRel pre a.1 a.2.1 := Conn.edge (w := a.2.2) ha
    rcases hor a (hpre a ha) with ⟨h2, h3⟩ | ⟨h2, h3⟩
    · rw [h2, h3]; exact h1
    · rw [h2, h3]; exact h1.symm
  have hfollow : ∀ x, Follow tail head pre (tail e) x → Conn NoRel pre x (tail e) := by
    intro x hx
    induction hx with
    | base => exact Conn.refl _
    | step a ha _ ih => exact (hconnEdge a ha).trans ih
  have hnoE : ¬ Conn NoRel pre (head e) (tail e) := by
    intro h
    rcases hor e he with ⟨h2, h3⟩ | ⟨h2, h3⟩
    · rw [h2, h3] at h; exact hno h.symm
    · rw [h2, h3] at h; exact hno h
  have hstep : ∀ a ∈ pre, (Follow tail head pre (tail e) (tail a) ↔
      Follow tail head pre (tail e) (head a)) := by
    intro a ha
    refine ⟨fun h => ?_, fun h => .step a ha h⟩
    generalize ht : tail a = x at h
    cases h with
    | base =>
      have h1 := huniq a (hpre a ha) e he ht
      refine absurd ?_ hnoE
      rw [← h1, ← ht]
      exact (hconnEdge a ha).symm
    | step b hb hr =>
      rw [huniq a (hpre a ha) b (hpre b hb) ht]
      exact hr
  have hgen : ∀ x y, R x y → ¬ Follow tail head pre (tail e) x := by
    intro x y hxy hx
    cases hx with
    | base => exact hclosed e he y hxy
    | step a ha _ => exact hclosed a (hpre a ha) y hxy
  have hinv : ∀ x y, Conn R pre x y →
      (Follow tail head pre (tail e) x ↔ Follow tail head pre (tail e) y) := by
    intro x y h
    induction h with
    | rel x y h =>
      rcases h with h | ⟨w, h⟩
      · exact ⟨fun hx => absurd hx (hgen x y h), fun hy => absurd hy (hgen y x (hR x y h))⟩
      · have h1 := hstep _ h
        rcases hor _ (hpre _ h) with ⟨h2, h3⟩ | ⟨h2, h3⟩
        · rw [h2, h3] at h1; exact h1
        · rw [h2, h3] at h1; exact h1.symm
    | refl x => exact Iff.rfl
    | symm x y _ ih => exact ih.symm
    | trans x y z _ _ ih1 ih2 => exact ih1.trans ih2
  have h1 := hinv _ _ hconn
  refine hnoE (hfollow _ ?_)
  rcases hor e he with ⟨h2, h3⟩ | ⟨h2, h3⟩
  · rw [h3]; rw [h2] at h1 ⊢; exact h1.1 .base
  · rw [h3]; rw [h2] at h1 ⊢; exact h1.2 .base

section First

variable {ι : Type} {G : ι → Nat → Nat → Prop} {bad : ι → D → Bool}
  {x : Nat → Nat → K} {gap : K → K → D} {dist : Nat → Nat → D}
  {weight : Nat → Nat → D → Option D} {wt : Nat → Nat → D} {inf : D} {t : KDTree.Tree K} {n : Nat}
  {near : D → D → Prop}

/-- `i` may be picked as the sample nearest to `q`. -/
def Picked (dist : Nat → Nat → D) (near : D → D → Prop) (n q i : Nat) : Prop :=
  i < n ∧ i ≠ q ∧ ∀ b, b < n → b ≠ q → ∃ d', near (dist q b) d' ∧ dist q i ≤ d'

/-- The first round: the weights of the edges picked are bad only if nothing of `G` happens at their
first end, or at their second end, which then picks the same edge. -/
theorem firstRound_spec
    (hs : Setting x gap dist weight wt inf t n near (fun _ _ => False)
      (fun (_ : Unit) _ _ => False) (fun _ _ => true))
    {ord : Orders D} (hord : ord.Valid) (round : Nat) {f : Forest D}
    (hf : FInv n f id) (hm : f.mst = []) (h2 : 1 < f.comps.length)
    (hG : ∀ s x y, G s x y → G s y x)
    (hpick : ∀ s q i, q < n → Picked dist near n q i → bad s (wt q i) = true →
      (∀ y, ¬ G s q y) ∨ ((∀ y, ¬ G s i y) ∧ ∀ p, Picked dist near n i p → p = q)) :
    ∃ f' r', stepSequential x gap dist weight inf t ord round f = some f' ∧
      LoopInv wt G bad n f' r' ∧ 2 * classes n r' ≤ n ∧
      ∀ q, q < n → ∃ i, Picked dist near n q i ∧ r' q = r' i := by
  have hl0 : LoopInv wt (fun (_ : Unit) _ _ => False) (fun _ _ => true) n f id :=
    ⟨hf, fun s => by rw [hm]; exact Indep.nil, by simp [hm]⟩
  have hpc := hord.comps round f.comps
  obtain ⟨u, es, e1, hu, hkeys, hok⟩ := closestEdges_spec hs hf (fun _ _ h => h.elim) h2
    (ord.comps round f.comps) f.uf (fun p hp => hpc.mem_iff.1 hp) hf.uf
  have hkp : (es.map Prod.fst).Perm (f.comps.map Prod.fst) := by rw [hkeys]; exact hpc.map _
  obtain ⟨f', r', e2, hl, hhalf, hco, hjoin, acc, hacc1, hacc2⟩ :=
    mergeEdges_spec (f := { f with uf := u }) hs.symm
      ⟨hf.with_uf hu, hl0.indep, hl0.weights⟩ (fun p hp => (hok p hp).1) hkp (hord.edges round es)
  have hmem : ∀ a ∈ f'.mst, (a.1, a) ∈ es := by
    intro a ha
    rw [hacc1] at ha
    simp only [hm, List.nil_append] at ha
    obtain ⟨k, hk⟩ := hacc2 a ha
    have h3 : a.1 = k := (hok _ hk).1.1.ru
    rw [h3]; exact hk
  have hPick : ∀ k e, (k, e) ∈ es → e.1 = k ∧ Picked dist near n k e.2.1 := by
    intro k e h
    obtain ⟨⟨h3, h4⟩, h5⟩ := hok _ h
    have h6 : e.1 = k := h3.ru
    refine ⟨h6, h3.v_lt, h3.rv, fun b hb hne => ?_⟩
    have h7 := h5 b hb hne
    dsimp only at h7
    rw [h6] at h7
    exact h7
  have hkey : ∀ q, q < n → ∃ e, (q, e) ∈ es := by
    intro q hq
    have h3 : q ∈ f.comps.map Prod.fst := (hf.keys q).2 ⟨hq, rfl⟩
    obtain ⟨⟨_, e⟩, hp, rfl⟩ := List.mem_map.1 (hkp.mem_iff.2 h3)
    exact ⟨e, hp⟩
  have hnd : (es.map Prod.fst).Nodup := hkp.nodup_iff.2 hf.nodup
  refine ⟨f', r', by simp only [stepSequential, e1, Option.bind_eq_bind, Option.bind_some, e2],
    ⟨hl.inv, fun s => ?_, hl.weights⟩, ?_, ?_⟩
  · classical
    have hall : ∀ a ∈ f'.mst.filter (fun a => bad s a.2.2),
        (a.1, a) ∈ es ∧ a.1 < n ∧ a.2.1 < n ∧ ((∀ y, ¬ G s a.1 y) ∨
          ((∀ y, ¬ G s a.2.1 y) ∧ ∀ p, Picked dist near n a.2.1 p → p = a.1)) := by
      intro a ha
      obtain ⟨h3, h4⟩ := List.mem_filter.1 ha
      have h5 := hmem a h3
      have h6 := (hok _ h5).1
      refine ⟨h5, h6.1.u_lt, h6.1.v_lt, ?_⟩
      have h7 : a.2.2 = wt a.1 a.2.1 := h6.2
      exact hpick s a.1 a.2.1 h6.1.u_lt (hPick _ _ h5).2 (by rw [← h7]; exact h4)
    refine oriented_indep (hG s) (fun a => if ∀ y, ¬ G s a.1 y then a.1 else a.2.1)
      (fun a => if ∀ y, ¬ G s a.1 y then a.2.1 else a.1) ?_ ?_ ?_ (indep_filter ?_ _)
    · intro a _
      by_cases h : ∀ y, ¬ G s a.1 y
      · left; simp only [if_pos h, and_self]
      · right; simp only [if_neg h, and_self]
    · intro a ha
      obtain ⟨_, _, _, h3⟩ := hall a ha
      by_cases h : ∀ y, ¬ G s a.1 y
      · simp only [if_pos h]; exact h
      · simp only [if_neg h]
        exact (h3.resolve_left h).1
    · intro a ha b hb hab
      obtain ⟨ha1, ha2, ha3, ha4⟩ := hall a ha
      obtain ⟨hb1, hb2, hb3, hb4⟩ := hall b hb
      by_cases h : ∀ y, ¬ G s a.1 y
      · by_cases h' : ∀ y, ¬ G s b.1 y
        · rw [if_pos h, if_pos h'] at hab ⊢
          have := List.inj_on_of_nodup_map hnd ha1 hb1 hab
          exact congrArg (fun p => p.2.2.1) this
        · rw [if_pos h, if_neg h'] at hab ⊢
          refine (hb4.resolve_left h').2 _ ?_
          rw [← hab]
          exact (hPick _ _ ha1).2
      · by_cases h' : ∀ y, ¬ G s b.1 y
        · rw [if_neg h, if_pos h'] at hab ⊢
          refine ((ha4.resolve_left h).2 _ ?_).symm
          rw [hab]
          exact (hPick _ _ hb1).2
        · rw [if_neg h, if_neg h'] at hab ⊢
          obtain ⟨e, hek⟩ := hkey _ ha3
          have h3 := (hPick _ _ hek).2
          rw [← (ha4.resolve_left h).2 _ h3]
          rw [hab] at h3
          exact (hb4.resolve_left h').2 _ h3
    · have := hl.indep ()
      simpa using this
  · have : classes n id = n := by simp [classes]
    rw [this] at hhalf
    exact hhalf
  · intro q hq
    obtain ⟨e, hek⟩ := hkey q hq
    obtain ⟨h3, h4⟩ := hPick _ _ hek
    have h5 := hjoin _ hek
    dsimp only at h5
    rw [h3] at h5
    exact ⟨_, h4, h5⟩

/-- The whole loop when the pairs `J` are joined by the first round. -/
theorem makeLoop_three
    (hs0 : Setting x gap dist weight wt inf t n near (fun _ _ => False)
      (fun (_ : Unit) _ _ => False) (fun _ _ => true)) {J : Nat → Nat → Prop}
    (hs : Setting x gap dist weight wt inf t n near J G bad) (hn : 2 < n)
    {ord : Orders D} (hord : ord.Valid)
    (hpick : ∀ s q i, q < n → Picked dist near n q i → bad s (wt q i) = true →
      (∀ y, ¬ G s q y) ∨ ((∀ y, ¬ G s i y) ∧ ∀ p, Picked dist near n i p → p = q))
    (hJ : ∀ q i, J q i → i < n ∧ ∀ p, Picked dist near n i p → p = q)
    (fuel : Nat) (hfuel : Nat.log 2 n < fuel) :
    ∃ f0 f', Forest.init n = some f0 ∧
      makeLoop x gap dist weight inf t ord fuel 0 f0 = some f' ∧
      IsSpanningTree n f'.mst ∧ (∀ e ∈ f'.mst, e.2.2 = wt e.1 e.2.1) ∧
      ∀ s, Indep (G s) (f'.mst.filter (fun a => bad s a.2.2)) := by
  obtain ⟨f0, e0, h0, hm0⟩ := FInv.init (D := D) (show 0 < n by omega)
  have hcl : f0.comps.length = n := by
    rw [h0.comps_length]; simp [classes]
  obtain ⟨f1, r1, e1, hl1, hhalf, hp1⟩ := firstRound_spec (G := G) (bad := bad) hs0 hord 0 h0 hm0
    (by omega) hs.symm hpick
  obtain ⟨m, rfl⟩ : ∃ m, fuel = m + 1 := ⟨fuel - 1, by omega⟩
  have hJ1 : ∀ q i, J q i → r1 q = r1 i := by
    intro q i h
    obtain ⟨hi, h3⟩ := hJ q i h
    obtain ⟨p, h4, h5⟩ := hp1 i hi
    rw [h3 p h4] at h5
    exact h5.symm
  have hlt : classes n r1 < 2 ^ m := by
    have h3 : n < 2 ^ (m + 1) := lt_of_lt_of_le (Nat.lt_pow_succ_log_self (by norm_num) n)
      (Nat.pow_le_pow_right (by norm_num) hfuel)
    rw [Nat.pow_succ] at h3
    omega
  obtain ⟨f', r', e2, hl, hone⟩ := makeLoop_spec hs (by omega) hord m 1 f1 r1 hl1 hJ1 hlt
  refine ⟨f0, f', e0, ?_, isSpanningTree_of hl.inv.verts ?_ ?_, hl.weights, hl.indep⟩
  · unfold makeLoop
    rw [if_pos (by omega), if_neg (by omega)]
    simp only [e1, Option.bind_eq_bind, Option.bind_some, e2]
  · have := hl.inv.count; omega
  · intro a b ha hb
    refine linked_iff_conn.2 ((hl.inv.linked a b).1 ?_)
    unfold classes at hone
    exact Finset.card_le_one.1 hone.le _ (Finset.mem_image_of_mem _ (by simpa using ha)) _
      (Finset.mem_image_of_mem _ (by simpa using hb))

end First

end Verif.Boruvka
