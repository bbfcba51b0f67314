import Verif.Spec.Dendrogram
import Verif.Lemmas.Boruvka

namespace Verif.Dendrogram

open Verif.ClosestPair (Edge)
open Verif.Graph
open Verif.Boruvka (NoRel SInv_rep_rep)

set_option linter.unusedSectionVars false

variable {D : Type}

theorem STree.self_mem_subtrees (t : STree D) : t ∈ t.subtrees := by
  cases t <;> simp [STree.subtrees]

theorem STree.leaves_of_subtree {t : STree D} : ∀ s ∈ t.subtrees, ∀ i ∈ s.leaves, i ∈ t.leaves := by
  induction t with
  | leaf i => intro s hs; simp [STree.subtrees] at hs; subst hs; simp
  | node c lv sz l r ihl ihr =>
    intro s hs i hi
    simp only [STree.subtrees, List.mem_cons, List.mem_append] at hs
    simp only [STree.leaves, List.mem_append]
    rcases hs with rfl | hs | hs
    · simpa [STree.leaves] using hi
    · exact Or.inl (ihl s hs i hi)
    · exact Or.inr (ihr s hs i hi)

theorem STree.leaf_mem_subtrees {t : STree D} : ∀ i ∈ t.leaves, STree.leaf i ∈ t.subtrees := by
  induction t with
  | leaf j => intro i hi; simp [STree.leaves] at hi; subst hi; simp [STree.subtrees]
  | node c lv sz l r ihl ihr =>
    intro i hi
    simp only [STree.leaves, List.mem_append] at hi
    simp only [STree.subtrees, List.mem_cons, List.mem_append]
    rcases hi with hi | hi
    · exact Or.inr (Or.inl (ihl i hi))
    · exact Or.inr (Or.inr (ihr i hi))

theorem STree.leaves_ne_nil (t : STree D) : t.leaves ≠ [] := by
  induction t with
  | leaf i => simp [STree.leaves]
  | node c lv sz l r ihl ihr => simp [STree.leaves, ihl]

theorem good_leaf [LE D] [Zero D] (i : Nat) : Good (STree.leaf i : STree D) := by
  constructor
  · simp [STree.leaves]
  · intro s hs; simp [STree.subtrees] at hs; subst hs; simp [STree.size, STree.leaves]
  · intro s hs; simp [STree.subtrees] at hs; subst hs; simp [STree.children]
  · intro s hs; simp [STree.subtrees] at hs; subst hs; simp [STree.representative, STree.leaves]

theorem good_node [LE D] [Zero D] {l r : STree D} (hl : Good l) (hr : Good r)
    (hd : ∀ i ∈ l.leaves, i ∉ r.leaves) {c : Nat} {w : D} (hlw : l.level ≤ w) (hrw : r.level ≤ w)
    (hc : c ∈ l.leaves ∨ c ∈ r.leaves) : Good (STree.node c w (l.size + r.size) l r) := by
  constructor
  · rw [STree.leaves, List.nodup_append]
    refine ⟨hl.nodup, hr.nodup, ?_⟩
    intro a ha b hb hab
    exact hd a ha (hab ▸ hb)
  · intro s hs
    simp only [STree.subtrees, List.mem_cons, List.mem_append] at hs
    rcases hs with rfl | hs | hs
    · rw [STree.leaves, List.length_append, ← hl.size l l.self_mem_subtrees,
        ← hr.size r r.self_mem_subtrees]
      rfl
    · exact hl.size s hs
    · exact hr.size s hs
  · intro s hs
    simp only [STree.subtrees, List.mem_cons, List.mem_append] at hs
    rcases hs with rfl | hs | hs
    · intro x hx
      simp only [STree.children, List.mem_cons, List.not_mem_nil, or_false] at hx
      rcases hx with rfl | rfl
      · exact hlw
      · exact hrw
    · exact hl.height s hs
    · exact hr.height s hs
  · intro s hs
    simp only [STree.subtrees, List.mem_cons, List.mem_append] at hs
    rcases hs with rfl | hs | hs
    · simp only [STree.representative, STree.leaves, List.mem_append]; exact hc
    · exact hl.rep s hs
    · exact hr.rep s hs

theorem lookup_of_mem {nodes : List (Nat × STree D)} (hn : (nodes.map Prod.fst).Nodup) {k : Nat}
    {t : STree D} (h : (k, t) ∈ nodes) : lookup nodes k = some t := by
  induction nodes with
  | nil => simp at h
  | cons p m ih =>
    simp only [List.map_cons, List.nodup_cons] at hn
    unfold lookup
    rcases List.mem_cons.1 h with rfl | h
    · simp
    · have hne : p.1 ≠ k := by
        rintro rfl
        exact hn.1 (List.mem_map.2 ⟨_, h, rfl⟩)
      have := ih hn.2 h
      unfold lookup at this
      simp only [List.find?_cons, beq_eq_false_iff_ne.2 hne]
      exact this

variable [AddCommGroup D] [LinearOrder D]

/-- Invariant of `build`: `P` are the processed edges and `r` the representatives. -/
structure BInv (n : Nat) (P : List (Edge D)) (st : UF.State × List (Nat × STree D)) (r : Nat → Nat) :
    Prop where
  uf : UF.SInv n st.1 r
  nodup : (st.2.map Prod.fst).Nodup
  keys : ∀ k, k ∈ st.2.map Prod.fst ↔ k < n ∧ r k = k
  mem : ∀ k t, (k, t) ∈ st.2 → ∀ x, x ∈ t.leaves ↔ x < n ∧ r x = k
  good : ∀ k t, (k, t) ∈ st.2 → Good t
  rep : ∀ k t, (k, t) ∈ st.2 → t.representative = k
  level : ∀ k t, (k, t) ∈ st.2 → ∀ c, 0 ≤ c → (∀ e ∈ P, e.2.2 ≤ c) → t.level ≤ c
  linked : ∀ a b, r a = r b ↔ Conn NoRel P a b
  under : ∀ c, 0 ≤ c → ∀ a b, a < n → b < n →
    ((∃ k t, (k, t) ∈ st.2 ∧ t.Under c a b) ↔ Conn NoRel (P.filter (fun e => e.2.2 ≤ c)) a b)
  weight : ∀ k t, (k, t) ∈ st.2 → ∀ s ∈ t.subtrees, s.children ≠ [] → ∃ e ∈ P, e.2.2 = s.level
  strict : P.Pairwise (fun a b => a.2.2 < b.2.2) → ∀ k t, (k, t) ∈ st.2 → t.Strict

theorem conn_nil {R : Nat → Nat → Prop} (hR : ∀ a b, ¬ R a b) {a b : Nat} :
    Conn R ([] : List (Edge D)) a b ↔ a = b := by
  constructor
  · intro h
    induction h with
    | rel x y h => rcases h with h | ⟨w, h⟩
                   · exact (hR _ _ h).elim
                   · simp at h
    | refl x => rfl
    | symm x y _ ih => exact ih.symm
    | trans x y z _ _ ih1 ih2 => exact ih1.trans ih2
  · rintro rfl; exact .refl _

theorem BInv.init (n : Nat) :
    BInv n ([] : List (Edge D)) (UF.init n, (List.range n).map (fun i => (i, STree.leaf i))) id := by
  have hmem : ∀ k (t : STree D), (k, t) ∈ (List.range n).map (fun i => (i, STree.leaf i)) →
      k < n ∧ t = .leaf k := by
    intro k t h
    simp only [List.mem_map, List.mem_range, Prod.mk.injEq] at h
    obtain ⟨i, hi, rfl, rfl⟩ := h
    exact ⟨hi, rfl⟩
  refine { uf := UF.Inv.init n, nodup := ?_, keys := ?_, mem := ?_, good := ?_, rep := ?_,
           level := ?_, linked := ?_, under := ?_, weight := ?_, strict := ?_ }
  · simp only [List.map_map, Function.comp_def, List.map_id']; exact List.nodup_range
  · intro k; simp
  · intro k t h x
    obtain ⟨hk, rfl⟩ := hmem k t h
    simp only [STree.leaves, List.mem_singleton, id]
    constructor
    · rintro rfl; exact ⟨hk, rfl⟩
    · exact fun h => h.2
  · intro k t h
    obtain ⟨_, rfl⟩ := hmem k t h
    exact good_leaf k
  · intro k t h
    obtain ⟨_, rfl⟩ := hmem k t h
    rfl
  · intro k t h c hc _
    obtain ⟨_, rfl⟩ := hmem k t h
    exact hc
  · intro a b; rw [conn_nil (by simp [NoRel])]; rfl
  · intro c hc a b ha hb
    rw [List.filter_nil, conn_nil (by simp [NoRel])]
    constructor
    · rintro ⟨k, t, h, s, hs, _, h1, h2⟩
      obtain ⟨_, rfl⟩ := hmem k t h
      simp only [STree.subtrees, List.mem_singleton] at hs
      subst hs
      simp only [STree.leaves, List.mem_singleton] at h1 h2
      rw [h1, h2]
    · rintro rfl
      exact ⟨a, .leaf a, by simp [ha], .leaf a, by simp [STree.subtrees], hc, by simp [STree.leaves],
        by simp [STree.leaves]⟩
  · intro k t h s hs hc
    obtain ⟨_, rfl⟩ := hmem k t h
    simp only [STree.subtrees, List.mem_singleton] at hs
    subst hs
    exact absurd rfl hc
  · intro _ k t h s hs c hc
    obtain ⟨_, rfl⟩ := hmem k t h
    simp only [STree.subtrees, List.mem_singleton] at hs
    subst hs
    simp [STree.children] at hc

/-- Adding an edge to the processed ones, in terms of classes. -/
theorem conn_snoc {r r' : Nat → Nat} {P : List (Edge D)} {e : Edge D}
    (hl : ∀ a b, r a = r b ↔ Conn NoRel P a b) {c d : Nat}
    (hcd : (c = r e.1 ∧ d = r e.2.1) ∨ (c = r e.2.1 ∧ d = r e.1))
    (hr' : ∀ x, r' x = if r x = d then c else r x) (a b : Nat) :
    r' a = r' b ↔ Conn NoRel (P ++ [e]) a b := by
  rw [collapse_iff r r' e.1 e.2.1 c d hcd hr']
  constructor
  · intro h'
    induction h' with
    | rel x y h' =>
      rcases h' with h' | ⟨rfl, rfl⟩
      · refine ((hl x y).1 h').mono (fun _ _ h => h.elim) ?_
        intro e' he'
        exact Conn.edge (w := e'.2.2) (by simp [he'])
      · exact Conn.edge (w := e.2.2) (by simp)
    | refl x => exact .refl x
    | symm x y _ ih => exact ih.symm
    | trans x y z _ _ ih1 ih2 => exact ih1.trans ih2
  · intro h'
    induction h' with
    | rel x y h' =>
      rcases h' with h' | ⟨w, h'⟩
      · exact h'.elim
      · rcases List.mem_append.1 h' with h' | h'
        · exact .rel _ _ (Or.inl ((hl x y).2 (Conn.edge h')))
        · simp only [List.mem_singleton] at h'
          subst h'
          exact .rel _ _ (Or.inr ⟨rfl, rfl⟩)
    | refl x => exact .refl x
    | symm x y _ ih => exact Relation.EqvGen.symm _ _ ih
    | trans x y z _ _ ih1 ih2 => exact ih1.trans _ _ _ ih2

theorem BInv.step {n : Nat} {P : List (Edge D)} {st : UF.State × List (Nat × STree D)}
    {r : Nat → Nat} (h : BInv n P st r) {e : Edge D} (hu : e.1 < n) (hv : e.2.1 < n)
    (hw : 0 ≤ e.2.2) (hmax : ∀ e' ∈ P, e'.2.2 ≤ e.2.2) :
    ∃ st' r', buildStep st e = some st' ∧ BInv n (P ++ [e]) st' r' := by
  obtain ⟨u, nodes⟩ := st
  obtain ⟨u1, e1, inv1, _⟩ := UF.find_spec h.uf hu
  obtain ⟨u2, e2, inv2, _⟩ := UF.find_spec inv1 hv
  obtain ⟨u3, c, d, e3, hcd, inv3⟩ := UF.merge_spec inv2 hu hv
  have hlink : ∀ a b, (fun x => if r x = d then c else r x) a =
      (fun x => if r x = d then c else r x) b ↔ Conn NoRel (P ++ [e]) a b :=
    conn_snoc (D := D) h.linked hcd (fun _ => rfl)
  by_cases heq : r e.1 = r e.2.1
  · -- nothing is merged
    have hc1 : c = r e.1 := by rcases hcd with ⟨h, _⟩ | ⟨h, _⟩ <;> simp [h, heq]
    have hc2 : c = r e.2.1 := hc1.trans heq
    have hd : d = c := by
      rcases hcd with ⟨h, h'⟩ | ⟨h, h'⟩
      · rw [h', hc2]
      · rw [h', hc1]
    have hr' : (fun x => if r x = d then c else r x) = r := by
      funext x
      split
      · rename_i hx; rw [hx, hd]
      · rfl
    rw [hr'] at inv3 hlink
    refine ⟨(u3, nodes), r, ?_, ?_⟩
    · simp only [buildStep, e1, e2, e3, Option.bind_eq_bind, Option.bind_some]
      rw [if_neg (by simp [← hc1, ← hc2])]
    · refine { uf := inv3, nodup := h.nodup, keys := h.keys, mem := h.mem, good := h.good,
               rep := h.rep, level := ?_, linked := hlink, under := ?_,
               weight := fun k t hk s hs hc => by
                 obtain ⟨e', he', hw'⟩ := h.weight k t hk s hs hc
                 exact ⟨e', by simp [he'], hw'⟩
               strict := fun hP => h.strict (List.pairwise_append.1 hP).1 }
      · intro k t hk b hb hP
        exact h.level k t hk b hb (fun e' he' => hP e' (by simp [he']))
      · intro b hb x y hx hy
        rw [h.under b hb x y hx hy, List.filter_append]
        constructor
        · intro h'
          exact h'.mono (fun _ _ h => h.elim) (fun e' he' =>
            Conn.edge (w := e'.2.2) (List.mem_append_left _ he'))
        · intro h'
          refine h'.mono (fun _ _ h => h.elim) ?_
          intro e' he'
          rcases List.mem_append.1 he' with he' | he'
          · exact Conn.edge (w := e'.2.2) he'
          · simp only [List.mem_filter, List.mem_singleton, decide_eq_true_eq] at he'
            obtain ⟨rfl, hle⟩ := he'
            have hall : P.filter (fun e => decide (e.2.2 ≤ b)) = P := by
              rw [List.filter_eq_self]
              intro e'' he''
              simpa using (hmax e'' he'').trans hle
            rw [hall]
            exact (h.linked _ _).1 heq
  · -- two trees are joined
    have hne : ¬ (c = r e.1 ∧ c = r e.2.1) := fun hh => heq (hh.1.symm.trans hh.2)
    have hr1 : r e.1 < n ∧ r (r e.1) = r e.1 := ⟨UF.Inv.rep_lt h.uf hu, SInv_rep_rep h.uf hu⟩
    have hr2 : r e.2.1 < n ∧ r (r e.2.1) = r e.2.1 := ⟨UF.Inv.rep_lt h.uf hv, SInv_rep_rep h.uf hv⟩
    obtain ⟨⟨_, t1⟩, ht1, hk1⟩ := List.mem_map.1 ((h.keys _).2 hr1)
    obtain ⟨⟨_, t2⟩, ht2, hk2⟩ := List.mem_map.1 ((h.keys _).2 hr2)
    dsimp only at hk1 hk2
    subst hk1 hk2
    have hl1 := lookup_of_mem h.nodup ht1
    have hl2 := lookup_of_mem h.nodup ht2
    dsimp only at hl1 hl2
    have hcdne : c ≠ d := by
      rcases hcd with ⟨rfl, rfl⟩ | ⟨rfl, rfl⟩
      · exact heq
      · exact fun h => heq h.symm
    have hcn : c < n ∧ r c = c := by
      rcases hcd with ⟨rfl, rfl⟩ | ⟨rfl, rfl⟩
      · exact hr1
      · exact hr2
    have hset : ∀ x, (r x = r e.1 ∨ r x = r e.2.1) ↔ (r x = c ∨ r x = d) := by
      intro x
      rcases hcd with ⟨rfl, rfl⟩ | ⟨rfl, rfl⟩
      · exact Iff.rfl
      · exact or_comm
    have hfilter : ∀ k (t : STree D), (k, t) ∈ nodes.filter
        (fun p => p.1 != r e.1 && p.1 != r e.2.1) ↔ (k, t) ∈ nodes ∧ k ≠ c ∧ k ≠ d := by
      intro k t
      simp only [List.mem_filter, Bool.and_eq_true, bne_iff_ne]
      rcases hcd with ⟨rfl, rfl⟩ | ⟨rfl, rfl⟩
      · exact Iff.rfl
      · exact ⟨fun h => ⟨h.1, h.2.2, h.2.1⟩, fun h => ⟨h.1, h.2.2, h.2.1⟩⟩
    have hm1 := h.mem _ t1 ht1
    have hm2 := h.mem _ t2 ht2
    have hlv1 := h.level _ t1 ht1 e.2.2 hw hmax
    have hlv2 := h.level _ t2 ht2 e.2.2 hw hmax
    have hleaves : ∀ x, x ∈ (STree.node c e.2.2 (t1.size + t2.size) t1 t2).leaves ↔
        x < n ∧ (if r x = d then c else r x) = c := by
      intro x
      simp only [STree.leaves, List.mem_append, hm1, hm2]
      have := hset x
      by_cases hxd : r x = d
      · simp only [if_pos hxd]; simp only [hxd] at this ⊢; tauto
      · simp only [if_neg hxd]; tauto
    have hgood : Good (STree.node c e.2.2 (t1.size + t2.size) t1 t2) := by
      refine good_node (h.good _ t1 ht1) (h.good _ t2 ht2) ?_ hlv1 hlv2 ?_
      · intro i hi hi'
        exact heq (((hm1 i).1 hi).2.symm.trans ((hm2 i).1 hi').2)
      · have := (hleaves c).2 ⟨hcn.1, by rw [hcn.2, if_neg hcdne]⟩
        simpa [STree.leaves] using this
    refine ⟨(u3, (c, STree.node c e.2.2 (t1.size + t2.size) t1 t2) ::
      nodes.filter (fun p => p.1 != r e.1 && p.1 != r e.2.1)),
      fun x => if r x = d then c else r x, ?_, ?_⟩
    · simp only [buildStep, e1, e2, e3, Option.bind_eq_bind, Option.bind_some]
      rw [if_pos (by
        by_contra hcon
        push_neg at hcon
        exact hne hcon)]
      simp only [hl1, hl2, Option.bind_some]
    · have hmemiff : ∀ k (t : STree D), (k, t) ∈ (c, STree.node c e.2.2 (t1.size + t2.size) t1 t2) ::
          nodes.filter (fun p => p.1 != r e.1 && p.1 != r e.2.1) ↔
          (k = c ∧ t = STree.node c e.2.2 (t1.size + t2.size) t1 t2) ∨
          ((k, t) ∈ nodes ∧ k ≠ c ∧ k ≠ d) := by
        intro k t
        rw [List.mem_cons, hfilter, Prod.mk.injEq]
      refine { uf := inv3, nodup := ?_, keys := ?_, mem := ?_, good := ?_, rep := ?_, level := ?_,
               linked := hlink, under := ?_, weight := ?_, strict := ?_ }
      · simp only [List.map_cons, List.nodup_cons]
        constructor
        · intro hmem
          obtain ⟨⟨k, t⟩, hp, hk⟩ := List.mem_map.1 hmem
          dsimp only at hk
          exact ((hfilter k t).1 hp).2.1 hk
        · exact List.Nodup.sublist (List.Sublist.map _ List.filter_sublist) h.nodup
      · intro k
        constructor
        · intro hk
          obtain ⟨⟨k', t⟩, hp, hk'⟩ := List.mem_map.1 hk
          dsimp only at hk'
          subst hk'
          rcases (hmemiff _ _).1 hp with ⟨rfl, _⟩ | ⟨hp, h1, h2⟩
          · exact ⟨hcn.1, by rw [hcn.2, if_neg hcdne]⟩
          · obtain ⟨h3, h4⟩ := (h.keys _).1 (List.mem_map.2 ⟨_, hp, rfl⟩)
            refine ⟨h3, ?_⟩
            dsimp only at h4 ⊢
            rw [h4, if_neg h2]
        · rintro ⟨h1, h2⟩
          by_cases hk : r k = d
          · rw [if_pos hk] at h2
            subst h2
            exact absurd (hcn.2.symm.trans hk) hcdne
          · rw [if_neg hk] at h2
            by_cases hkc : k = c
            · subst hkc
              exact List.mem_map.2 ⟨_, (hmemiff _ _).2 (Or.inl ⟨rfl, rfl⟩), rfl⟩
            · obtain ⟨⟨k', t⟩, hp, hk'⟩ := List.mem_map.1 ((h.keys k).2 ⟨h1, h2⟩)
              dsimp only at hk'
              subst hk'
              exact List.mem_map.2 ⟨_, (hmemiff _ _).2
                (Or.inr ⟨hp, hkc, fun hh => hk (h2.trans hh)⟩), rfl⟩
      · intro k t hp x
        rcases (hmemiff _ _).1 hp with ⟨rfl, rfl⟩ | ⟨hp, h1, h2⟩
        · exact hleaves x
        · rw [h.mem k t hp]
          by_cases hxd : r x = d
          · rw [if_pos hxd, hxd]
            constructor
            · rintro ⟨_, h3⟩; exact absurd h3.symm h2
            · rintro ⟨_, h3⟩; exact absurd h3.symm h1
          · rw [if_neg hxd]
      · intro k t hp
        rcases (hmemiff _ _).1 hp with ⟨rfl, rfl⟩ | ⟨hp, h1, h2⟩
        · exact hgood
        · exact h.good k t hp
      · intro k t hp
        rcases (hmemiff _ _).1 hp with ⟨rfl, rfl⟩ | ⟨hp, h1, h2⟩
        · rfl
        · exact h.rep k t hp
      · intro k t hp b hb hP
        rcases (hmemiff _ _).1 hp with ⟨rfl, rfl⟩ | ⟨hp, h1, h2⟩
        · exact hP e (by simp)
        · exact h.level k t hp b hb (fun e' he' => hP e' (by simp [he']))
      · intro b hb x y hx hy
        by_cases hbw : e.2.2 ≤ b
        · -- all edges count: the classes
          have hall : (P ++ [e]).filter (fun e => decide (e.2.2 ≤ b)) = P ++ [e] := by
            rw [List.filter_eq_self]
            intro e' he'
            rcases List.mem_append.1 he' with he' | he'
            · simpa using (hmax e' he').trans hbw
            · simp only [List.mem_singleton] at he'
              subst he'; simpa using hbw
          rw [hall, ← hlink x y]
          dsimp only
          constructor
          · rintro ⟨k, t, hp, s, hs, _, hxs, hys⟩
            have hxt := STree.leaves_of_subtree s hs x hxs
            have hyt := STree.leaves_of_subtree s hs y hys
            rcases (hmemiff _ _).1 hp with ⟨rfl, rfl⟩ | ⟨hp, h1, h2⟩
            · rw [((hleaves x).1 hxt).2, ((hleaves y).1 hyt).2]
            · rw [((h.mem k t hp x).1 hxt).2, ((h.mem k t hp y).1 hyt).2]
          · intro hxy
            by_cases hxc : (if r x = d then c else r x) = c
            · refine ⟨c, _, (hmemiff _ _).2 (Or.inl ⟨rfl, rfl⟩), _, STree.self_mem_subtrees _, hbw,
                (hleaves x).2 ⟨hx, hxc⟩, (hleaves y).2 ⟨hy, hxy ▸ hxc⟩⟩
            · have hxd : r x ≠ d := fun hh => hxc (by rw [if_pos hh])
              rw [if_neg hxd] at hxc hxy
              have hyd : r y ≠ d := by
                intro hh
                rw [if_pos hh] at hxy
                exact hxc hxy
              rw [if_neg hyd] at hxy
              obtain ⟨⟨k', t⟩, hp, hk'⟩ := List.mem_map.1
                ((h.keys (r x)).2 ⟨UF.Inv.rep_lt h.uf hx, SInv_rep_rep h.uf hx⟩)
              dsimp only at hk'
              subst hk'
              refine ⟨r x, t, (hmemiff _ _).2 (Or.inr ⟨hp, hxc, hxd⟩), t, STree.self_mem_subtrees _,
                h.level _ t hp b hb (fun e' he' => (hmax e' he').trans hbw),
                (h.mem _ t hp x).2 ⟨hx, rfl⟩, (h.mem _ t hp y).2 ⟨hy, hxy.symm⟩⟩
        · -- the new edge and the new node do not count
          have hsame : (P ++ [e]).filter (fun e => decide (e.2.2 ≤ b)) =
              P.filter (fun e => decide (e.2.2 ≤ b)) := by
            rw [List.filter_append]
            simp [hbw]
          rw [hsame, ← h.under b hb x y hx hy]
          constructor
          · rintro ⟨k, t, hp, s, hs, hsl, hxs, hys⟩
            rcases (hmemiff _ _).1 hp with ⟨rfl, rfl⟩ | ⟨hp, h1, h2⟩
            · simp only [STree.subtrees, List.mem_cons, List.mem_append] at hs
              rcases hs with rfl | hs | hs
              · exact absurd hsl hbw
              · exact ⟨_, t1, ht1, s, hs, hsl, hxs, hys⟩
              · exact ⟨_, t2, ht2, s, hs, hsl, hxs, hys⟩
            · exact ⟨k, t, hp, s, hs, hsl, hxs, hys⟩
          · rintro ⟨k, t, hp, s, hs, hsl, hxs, hys⟩
            by_cases hk1 : k = r e.1
            · subst hk1
              have : t = t1 := Option.some.inj ((lookup_of_mem h.nodup hp).symm.trans hl1)
              subst this
              exact ⟨c, _, (hmemiff _ _).2 (Or.inl ⟨rfl, rfl⟩), s,
                by simp [STree.subtrees, hs], hsl, hxs, hys⟩
            · by_cases hk2 : k = r e.2.1
              · subst hk2
                have : t = t2 := Option.some.inj ((lookup_of_mem h.nodup hp).symm.trans hl2)
                subst this
                exact ⟨c, _, (hmemiff _ _).2 (Or.inl ⟨rfl, rfl⟩), s,
                  by simp [STree.subtrees, hs], hsl, hxs, hys⟩
              · refine ⟨k, t, (hmemiff _ _).2 (Or.inr ⟨hp, ?_⟩), s, hs, hsl, hxs, hys⟩
                rcases hcd with ⟨rfl, rfl⟩ | ⟨rfl, rfl⟩
                · exact ⟨hk1, hk2⟩
                · exact ⟨hk2, hk1⟩
      · intro k t hp s hs hch
        rcases (hmemiff _ _).1 hp with ⟨rfl, rfl⟩ | ⟨hp, _, _⟩
        · simp only [STree.subtrees, List.mem_cons, List.mem_append] at hs
          rcases hs with rfl | hs | hs
          · exact ⟨e, by simp, rfl⟩
          · obtain ⟨e', he', hw'⟩ := h.weight _ t1 ht1 s hs hch
            exact ⟨e', by simp [he'], hw'⟩
          · obtain ⟨e', he', hw'⟩ := h.weight _ t2 ht2 s hs hch
            exact ⟨e', by simp [he'], hw'⟩
        · obtain ⟨e', he', hw'⟩ := h.weight k t hp s hs hch
          exact ⟨e', by simp [he'], hw'⟩
      · intro hP k t hp
        obtain ⟨hP1, _, hP2⟩ := List.pairwise_append.1 hP
        rcases (hmemiff _ _).1 hp with ⟨rfl, rfl⟩ | ⟨hp, _, _⟩
        · intro s hs x hx hch
          simp only [STree.subtrees, List.mem_cons, List.mem_append] at hs
          rcases hs with rfl | hs | hs
          · simp only [STree.children, List.mem_cons, List.not_mem_nil, or_false] at hx
            rcases hx with rfl | rfl
            · obtain ⟨e', he', hw'⟩ := h.weight _ x ht1 x (STree.self_mem_subtrees _) hch
              rw [← hw']
              exact hP2 e' he' e (by simp)
            · obtain ⟨e', he', hw'⟩ := h.weight _ x ht2 x (STree.self_mem_subtrees _) hch
              rw [← hw']
              exact hP2 e' he' e (by simp)
          · exact h.strict hP1 _ t1 ht1 s hs x hx hch
          · exact h.strict hP1 _ t2 ht2 s hs x hx hch
        · exact h.strict hP1 k t hp

theorem build_fold {n : Nat} : ∀ (es P : List (Edge D)) (st : UF.State × List (Nat × STree D))
    (r : Nat → Nat), BInv n P st r → (∀ e ∈ es, e.1 < n ∧ e.2.1 < n) → (∀ e ∈ es, 0 ≤ e.2.2) →
    (P ++ es).Pairwise (fun a b => a.2.2 ≤ b.2.2) →
    ∃ st' r', es.foldlM buildStep st = some st' ∧ BInv n (P ++ es) st' r' := by
  intro es
  induction es with
  | nil => intro P st r h _ _ _; exact ⟨st, r, rfl, by simpa using h⟩
  | cons e es ih =>
    intro P st r h hv hw hs
    have hmax : ∀ e' ∈ P, e'.2.2 ≤ e.2.2 := by
      intro e' he'
      exact (List.pairwise_append.1 hs).2.2 e' he' e (by simp)
    obtain ⟨st1, r1, e1, h1⟩ := h.step (hv e (by simp)).1 (hv e (by simp)).2 (hw e (by simp)) hmax
    have hs' : (P ++ [e] ++ es).Pairwise (fun a b => a.2.2 ≤ b.2.2) := by simpa using hs
    obtain ⟨st2, r2, e2, h2⟩ := ih (P ++ [e]) st1 r1 h1 (fun e he => hv e (by simp [he]))
      (fun e he => hw e (by simp [he])) hs'
    refine ⟨st2, r2, ?_, by simpa using h2⟩
    rw [List.foldlM_cons, e1]
    exact e2

/-- The tree built from the sorted edges of a spanning tree. -/
theorem build_strict {n : Nat} {mst es : List (Edge D)} (ht : IsSpanningTree n mst)
    (hp : es.Perm mst) (hw : ∀ e ∈ es, 0 ≤ e.2.2) (hs : es.Pairwise (fun a b => a.2.2 ≤ b.2.2)) :
    ∃ t, build es = some t ∧ Good t ∧ (∀ x, x ∈ t.leaves ↔ x < n) ∧
      (∀ c, 0 ≤ c → ∀ a b, a < n → b < n →
        (t.Under c a b ↔ Linked (es.filter (fun e => e.2.2 ≤ c)) a b)) ∧
      (es.Pairwise (fun a b => a.2.2 < b.2.2) → t.Strict) ∧
      ∀ s ∈ t.subtrees, s.children ≠ [] → ∃ e ∈ es, e.2.2 = s.level := by
  have hn : es.length + 1 = n := by rw [hp.length_eq]; exact ht.length
  have hv : ∀ e ∈ es, e.1 < n ∧ e.2.1 < n := fun e he => ht.vertices e (hp.mem_iff.1 he)
  have hcon : Connects n es := by
    intro a b ha hb
    have := ht.connects a b ha hb
    unfold Linked at this ⊢
    have hfun : (fun a b => ∃ w, (a, b, w) ∈ es) = (fun a b => ∃ w, (a, b, w) ∈ mst) := by
      funext a b
      exact propext ⟨fun ⟨w, h⟩ => ⟨w, hp.mem_iff.1 h⟩, fun ⟨w, h⟩ => ⟨w, hp.mem_iff.2 h⟩⟩
    rw [hfun]; exact this
  obtain ⟨⟨u, nodes⟩, r, e1, h⟩ := build_fold (n := n) es []
    (UF.init n, (List.range n).map (fun i => (i, STree.leaf i))) id
    (BInv.init n) hv hw (by simpa using hs)
  rw [List.nil_append] at h
  have hone : ∀ x, x < n → r x = r 0 := fun x hx =>
    (h.linked x 0).2 (linked_iff_conn.1 (hcon x 0 hx (by omega)))
  have hk0 : r 0 ∈ nodes.map Prod.fst :=
    (h.keys _).2 ⟨UF.Inv.rep_lt h.uf (by omega), SInv_rep_rep h.uf (by omega)⟩
  have hkeys : ∀ k ∈ nodes.map Prod.fst, k = r 0 := by
    intro k hk
    obtain ⟨h1, h2⟩ := (h.keys k).1 hk
    rw [← h2, hone k h1]
  cases nodes with
  | nil => simp at hk0
  | cons p rest =>
    obtain ⟨k, t⟩ := p
    have hrest : rest = [] := by
      cases rest with
      | nil => rfl
      | cons q rest =>
        have h1 := hkeys k (by simp)
        have h2 := hkeys q.1 (by simp)
        have := h.nodup
        simp only [List.map_cons, List.nodup_cons, List.mem_cons, not_or] at this
        exact absurd (h1.trans h2.symm) this.1.1
    subst hrest
    have hk : k = r 0 := hkeys k (by simp)
    refine ⟨t, ?_, h.good k t (by simp), ?_, ?_, fun hP => h.strict hP k t (by simp),
      h.weight k t (by simp)⟩
    · simp only [build, hn, e1, Option.bind_eq_bind, Option.bind_some, List.head?_cons]
    · intro x
      rw [h.mem k t (by simp)]
      exact ⟨fun h => h.1, fun hx => ⟨hx, by rw [hone x hx, hk]⟩⟩
    · intro c hc a b ha hb
      rw [linked_iff_conn]
      refine Iff.trans ?_ (h.under c hc a b ha hb)
      constructor
      · intro hu; exact ⟨k, t, by simp, hu⟩
      · rintro ⟨k', t', hp, hu⟩
        simp only [List.mem_singleton, Prod.mk.injEq] at hp
        rw [← hp.2]; exact hu

theorem build_spec {n : Nat} {mst es : List (Edge D)} (ht : IsSpanningTree n mst)
    (hp : es.Perm mst) (hw : ∀ e ∈ es, 0 ≤ e.2.2) (hs : es.Pairwise (fun a b => a.2.2 ≤ b.2.2)) :
    ∃ t, build es = some t ∧ Good t ∧ (∀ x, x ∈ t.leaves ↔ x < n) ∧
      ∀ c, 0 ≤ c → ∀ a b, a < n → b < n →
        (t.Under c a b ↔ Linked (es.filter (fun e => e.2.2 ≤ c)) a b) := by
  obtain ⟨t, h1, h2, h3, h4, _⟩ := build_strict ht hp hw hs
  exact ⟨t, h1, h2, h3, h4⟩

end Verif.Dendrogram
