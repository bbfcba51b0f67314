import Verif.Model.BoruvkaDual
import Verif.Lemmas.Boruvka
import Verif.Lemmas.DualTreeMany

/-
Lemmas on `make_tree_2`.
-/

namespace Verif.Boruvka

open Verif.KDTree Verif.Buffer Verif.Search Verif.DualTree Verif.Graph

set_option linter.unusedSectionVars false

variable {K D ι : Type} [LinearOrder K] [LinearOrder D] {build : List Nat → Option (List Nat × KDTree.Tree K)}
  {env : Env K D UF.State} {cand : Nat → Nat → Option D} {t : KDTree.Tree K} {n : Nat}
  {wt : Nat → Nat → D} {G : ι → Nat → Nat → Prop} {bad : ι → D → Bool}

/-- What `make_tree_2` needs from the search. -/
structure DualSetting (build : List Nat → Option (List Nat × KDTree.Tree K)) (env : Env K D UF.State)
    (cand : Nat → Nat → Option D) (t : KDTree.Tree K) (n : Nat) (wt : Nat → Nat → D)
    (G : ι → Nat → Nat → Prop) (bad : ι → D → Bool) : Prop where
  symm : ∀ s x y, G s x y → G s y x
  search : ∀ (k : Nat) (c : List Nat) (r : Nat → Nat) (u : UF.State), k < n → r k = k →
    (∀ x, x ∈ c ↔ x < n ∧ r x = k) → (∃ j, j < n ∧ r j ≠ k) → UF.SInv n u r →
    ∃ c' tq u' e, build c = some (c', tq) ∧ (∀ x, x ∈ c' ↔ x ∈ c) ∧
      dualSearch (ufEnv env cand k) u tq t = some (u', e) ∧ UF.SInv n u' r ∧
      ChosenOk n r G bad k e ∧ e.2.2 = wt e.1 e.2.1

theorem dualEdges_spec (hs : DualSetting build env cand t n wt G bad) {f : Forest D} {r : Nat → Nat}
    (h : FInv n f r) (h2 : 1 < f.comps.length) :
    ∀ (L : List (Nat × List Nat)) (u : UF.State), (∀ p ∈ L, p ∈ f.comps) → UF.SInv n u r →
      ∃ u' cs es, dualEdges build env cand t L u = some (u', cs, es) ∧ UF.SInv n u' r ∧
        cs.map Prod.fst = L.map Prod.fst ∧ (∀ k c, (k, c) ∈ cs → ∃ c0, (k, c0) ∈ L ∧ ∀ x, x ∈ c ↔ x ∈ c0) ∧
        es.map Prod.fst = L.map Prod.fst ∧
        ∀ p ∈ es, ChosenOk n r G bad p.1 p.2 ∧ p.2.2.2 = wt p.2.1 p.2.2.1 := by
  intro L
  induction L with
  | nil => intro u _ hu; exact ⟨u, [], [], rfl, hu, rfl, by simp, rfl, by simp⟩
  | cons p L ih =>
    intro u hL hu
    obtain ⟨k, c⟩ := p
    have hkc := hL (k, c) (by simp)
    obtain ⟨hkn, hrk⟩ := (h.keys k).1 (List.mem_map.2 ⟨_, hkc, rfl⟩)
    obtain ⟨j, hj, hrj, hjk⟩ := h.exists_other h2 k
    obtain ⟨c', tq, u1, e, e0, hc', e1, hu1, hok, hw⟩ := hs.search k c r u hkn hrk (h.mem k c hkc)
      ⟨j, hj, by rw [hrj]; exact hjk⟩ hu
    obtain ⟨u2, cs, es, e2, hu2, hcs, hcm, hm, hall⟩ := ih u1 (fun p hp => hL p (by simp [hp])) hu1
    refine ⟨u2, (k, c') :: cs, (k, e) :: es, ?_, hu2, by simp [hcs], ?_, by simp [hm], ?_⟩
    · simp only [dualEdges, e0, e1, Option.bind_eq_bind, Option.bind_some, e2]
    · intro k1 c1 hk1
      rcases List.mem_cons.1 hk1 with h1 | h1
      · cases h1
        exact ⟨c, by simp, hc'⟩
      · obtain ⟨c0, h3, h4⟩ := hcm k1 c1 h1
        exact ⟨c0, by simp [h3], h4⟩
    · intro p hp
      rcases List.mem_cons.1 hp with rfl | hp
      · exact ⟨hok, hw⟩
      · exact hall p hp

theorem stepDualTree_spec (hs : DualSetting build env cand t n wt G bad) {ord : Orders D}
    (hord : ord.Valid) (round : Nat) {f : Forest D} {r : Nat → Nat} (h : LoopInv wt G bad n f r)
    (h2 : 1 < f.comps.length) :
    ∃ f' r', stepDualTree build env cand t ord round f = some f' ∧
      LoopInv wt G bad n f' r' ∧ 2 * classes n r' ≤ classes n r := by
  have hpc := hord.comps round f.comps
  obtain ⟨u, cs, es, e1, hu, hcs, hcm, hkeys, hok⟩ := dualEdges_spec hs h.inv h2 (ord.comps round f.comps) f.uf
    (fun p hp => hpc.mem_iff.1 hp) h.inv.uf
  have hperm : (cs.map Prod.fst).Perm (f.comps.map Prod.fst) := by rw [hcs]; exact hpc.map _
  have hinv : FInv n { f with comps := cs, uf := u } r :=
    { uf := hu, nodup := hperm.nodup_iff.2 h.inv.nodup,
      keys := fun k => by
        show k ∈ cs.map Prod.fst ↔ _
        rw [hperm.mem_iff]; exact h.inv.keys k
      mem := fun k c hkc x => by
        obtain ⟨c0, h3, h4⟩ := hcm k c hkc
        rw [h4]
        exact h.inv.mem k c0 (hpc.mem_iff.1 h3) x
      linked := h.inv.linked, count := h.inv.count, verts := h.inv.verts }
  obtain ⟨f', r', e2, h3, h4, _⟩ := mergeEdges_spec (f := { f with comps := cs, uf := u }) hs.symm
    ⟨hinv, h.indep, h.weights⟩ hok (by rw [hkeys, ← hcs]) (hord.edges round es)
  exact ⟨f', r', by simp only [stepDualTree, e1, Option.bind_eq_bind, Option.bind_some, e2], h3, h4⟩

theorem dualLoop_spec (hs : DualSetting build env cand t n wt G bad) (hn : 0 < n)
    {ord : Orders D} (hord : ord.Valid) : ∀ (fuel round : Nat) (f : Forest D) (r : Nat → Nat),
    LoopInv wt G bad n f r → classes n r < 2 ^ fuel →
    ∃ f' r', dualLoop build env cand t ord fuel round f = some f' ∧
      LoopInv wt G bad n f' r' ∧ classes n r' = 1 := by
  intro fuel
  induction fuel with
  | zero =>
    intro round f r h hlt
    have := classes_pos hn r
    simp at hlt; omega
  | succ fuel ih =>
    intro round f r h hlt
    unfold dualLoop
    have hpos := classes_pos hn r
    have hcl := h.inv.comps_length
    by_cases h1 : f.comps.length > 1
    · rw [if_pos h1]
      obtain ⟨f1, r1, e1, hl1, hhalf⟩ := stepDualTree_spec hs hord round h h1
      obtain ⟨f', r', e2, hl2, hone⟩ := ih (round + 1) f1 r1 hl1 (by
        rw [Nat.pow_succ] at hlt; omega)
      refine ⟨f', r', ?_, hl2, hone⟩
      simp only [e1, Option.bind_eq_bind, Option.bind_some, e2]
    · rw [if_neg h1]
      exact ⟨f, r, rfl, h, by omega⟩

/-- The main loop from the initial forest: a spanning tree with the expected weights. -/
theorem dualLoop_tree (hs : DualSetting build env cand t n wt G bad) (hn : 0 < n)
    {ord : Orders D} (hord : ord.Valid) (fuel : Nat) (hfuel : Nat.log 2 n < fuel) :
    ∃ f0 f', Forest.init n = some f0 ∧
      dualLoop build env cand t ord fuel 0 f0 = some f' ∧
      IsSpanningTree n f'.mst ∧ (∀ e ∈ f'.mst, e.2.2 = wt e.1 e.2.1) ∧
      ∀ s, Indep (G s) (f'.mst.filter (fun a => bad s a.2.2)) := by
  obtain ⟨f0, e0, h0, hm0⟩ := FInv.init (D := D) hn
  obtain ⟨f', r', e1, hl, hone⟩ := dualLoop_spec hs hn hord fuel 0 f0 id
    ⟨h0, fun s => by rw [hm0]; exact Indep.nil, by simp [hm0]⟩
    (lt_of_le_of_lt (classes_le id)
      (lt_of_lt_of_le (Nat.lt_pow_succ_log_self (by norm_num) n)
        (Nat.pow_le_pow_right (by norm_num) hfuel)))
  refine ⟨f0, f', e0, e1, isSpanningTree_of hl.inv.verts ?_ ?_, hl.weights, hl.indep⟩
  · have := hl.inv.count; omega
  · intro a b ha hb
    refine linked_iff_conn.2 ((hl.inv.linked a b).1 ?_)
    unfold classes at hone
    exact Finset.card_le_one.1 hone.le _ (Finset.mem_image_of_mem _ (by simpa using ha)) _
      (Finset.mem_image_of_mem _ (by simpa using hb))

/-- More fuel does not change the result. -/
theorem dualLoop_mono {ord : Orders D} : ∀ {fuel : Nat} (fuel' round : Nat) (f f' : Forest D), fuel ≤ fuel' →
    dualLoop build env cand t ord fuel round f = some f' →
    dualLoop build env cand t ord fuel' round f = some f' := by
  intro fuel
  induction fuel with
  | zero => intro fuel' round f f' _ h; cases h
  | succ fuel ih =>
    intro fuel' round f f' hle h
    obtain ⟨m, rfl⟩ : ∃ m, fuel' = m + 1 := ⟨fuel' - 1, by omega⟩
    unfold dualLoop at h ⊢
    split at h
    · rename_i h1
      rw [if_pos h1]
      cases hs : stepDualTree build env cand t ord round f with
      | none => rw [hs] at h; cases h
      | some g =>
        rw [hs] at h
        exact ih m (round + 1) g f' (by omega) h
    · rename_i h1
      rw [if_neg h1]
      exact h

/-- The search of core distances succeeds. -/
theorem coreDistances_some {x : Nat → Nat → K} {gap : K → K → D} {dist : Nat → Nat → D} {inf : D} {k : Nat}
    (hk : 1 ≤ k) (hk2 : k < 2 ^ 64) (t : KDTree.Tree K) (n : Nat) :
    ∃ core, coreDistances x gap dist inf t n k = some core := by
  have hsp : ∀ t : KDTree.Tree K, t.SplitBy (fun _ _ _ => True) (fun _ _ _ => True) := by
    intro t
    induction t with
    | leaf => trivial
    | node p a box l r ihl ihr => exact ⟨fun _ _ => trivial, fun _ _ => trivial, ihl, ihr⟩
  have h1 : ∀ q, ∃ v, coreDistance x gap dist inf t k q = some v := by
    intro q
    obtain ⟨b, _, e, _⟩ := search_result (sim_static x (x q) gap (candAll (dist q)))
      (near := fun _ _ => True) (fun _ => trivial)
      (L := fun _ _ _ => True) (R := fun _ _ _ => True) (fun _ _ _ _ _ _ _ _ => trivial) (inf := inf) hk2
      (Or.inl (by omega)) t (hsp t) (fun _ _ => trivial) (Buffer.mk inf k) trivial rfl
    exact ⟨b.furthestDistance, by simp only [coreDistance, e, Option.bind_eq_bind, Option.bind_some]⟩
  have h2 : ∀ l : List Nat, ∃ core, l.mapM (coreDistance x gap dist inf t k) = some core := by
    intro l
    induction l with
    | nil => exact ⟨[], rfl⟩
    | cons q l ih =>
      obtain ⟨v, hv⟩ := h1 q
      obtain ⟨core, hc⟩ := ih
      exact ⟨v :: core, by simp [List.mapM_cons, hv, hc]⟩
  exact h2 _

end Verif.Boruvka
