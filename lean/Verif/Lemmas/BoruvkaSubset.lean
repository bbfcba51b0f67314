import Verif.Lemmas.Boruvka

/-
Borůvka's algorithm on a k-d tree over part of the samples: the forest has all samples, the queries only find
samples of the tree.
-/

namespace Verif.Boruvka

open Verif.KDTree Verif.Buffer Verif.Search Verif.ClosestPair Verif.Graph

set_option linter.unusedSectionVars false

variable {K : Type} [LinearOrder K] {D : Type} [LinearOrder D]

/-- What is needed from the search and the weights. -/
structure SubSetting (x : Nat → Nat → K) (gap : K → K → D) (dist : Nat → Nat → D)
    (weight : Nat → Nat → D → Option D) (wt : Nat → Nat → D) (inf : D) (t : KDTree.Tree K) (n : Nat)
    (near : D → D → Prop) : Prop where
  tree : GoodTree x x gap dist n near t
  weight_eq : ∀ q i, q < n → i < n → weight q i (dist q i) = some (wt q i)
  wt_lt : ∀ q i, q < n → i < n → wt q i < inf

/-- The edge `e` was chosen for the component with representative `k`. -/
structure SubChosen (n : Nat) (r : Nat → Nat) (wt dist : Nat → Nat → D) (near : D → D → Prop)
    (t : KDTree.Tree K) (k : Nat) (e : Edge D) : Prop where
  u_lt : e.1 < n
  ru : r e.1 = k
  v_mem : e.2.1 ∈ t.indices
  rv : r e.2.1 ≠ k
  weight : e.2.2 = wt e.1 e.2.1
  nearest : ∀ b ∈ t.indices, r b ≠ k → ∃ d', near (dist e.1 b) d' ∧ dist e.1 e.2.1 ≤ d'

/-- No pairs. -/
abbrev NoG : Unit → Nat → Nat → Prop := fun _ _ _ => False

/-- No weight is bad. -/
abbrev noBad : Unit → D → Bool := fun _ _ => false

variable {x : Nat → Nat → K} {gap : K → K → D} {dist : Nat → Nat → D}
  {weight : Nat → Nat → D → Option D} {wt : Nat → Nat → D} {inf : D} {t : KDTree.Tree K} {n : Nat}
  {near : D → D → Prop}

theorem shortestFrom_sub (hs : SubSetting x gap dist weight wt inf t n near) {f : Forest D}
    {r : Nat → Nat} (h : FInv n f r) {k : Nat} {c : List Nat} (hkc : (k, c) ∈ f.comps)
    (hex : ∃ j ∈ t.indices, r j ≠ k) {u : UF.State} (hu : UF.SInv n u r) :
    ∃ u' e, shortestFrom x x gap dist weight inf t k c u (defaultEdge inf) = some (u', e) ∧
      UF.SInv n u' r ∧ SubChosen n r wt dist near t k e := by
  obtain ⟨hkn, hrk⟩ := (h.keys k).1 (List.mem_map.2 ⟨_, hkc, rfl⟩)
  have hmem := h.mem k c hkc
  have hcn : ∀ q ∈ c, q < n := fun q hq => ((hmem q).1 hq).1
  obtain ⟨j, hj, hjk⟩ := hex
  obtain ⟨u', e, e1, hu', hcase, hle, hall⟩ := shortestFrom_spec hs.tree inf weight wt hkn
    ⟨j, hj, by rw [hrk]; exact hjk.symm⟩ c u (defaultEdge inf) hu
    (fun q hq i hi => hs.weight_eq q i (hcn q hq) (hs.tree.valid i hi))
  refine ⟨u', e, e1, hu', ?_⟩
  rcases hcase with rfl | ⟨q, hq, i, hi, rfl, hri, _, hnear⟩
  · obtain ⟨i, hi, _, h1, _⟩ := hall k ((hmem k).2 ⟨hkn, hrk⟩)
    exact absurd (hs.wt_lt k i hkn (hs.tree.valid i hi)) (not_lt.2 h1)
  · exact { u_lt := hcn q hq, ru := ((hmem q).1 hq).2, v_mem := hi,
            rv := fun hc => hri (by rw [hrk]; exact hc.symm), weight := rfl,
            nearest := fun b hb hrb => hnear b hb (by rw [hrk]; exact hrb.symm) }

theorem closestEdges_sub (hs : SubSetting x gap dist weight wt inf t n near) {f : Forest D}
    {r : Nat → Nat} (h : FInv n f r) (hex : ∀ k, ∃ j ∈ t.indices, r j ≠ k) :
    ∀ (L : List (Nat × List Nat)) (u : UF.State), (∀ p ∈ L, p ∈ f.comps) → UF.SInv n u r →
      ∃ u' es, closestEdges x gap dist weight inf t L u = some (u', es) ∧ UF.SInv n u' r ∧
        es.map Prod.fst = L.map Prod.fst ∧ ∀ p ∈ es, SubChosen n r wt dist near t p.1 p.2 := by
  intro L
  induction L with
  | nil => intro u _ hu; exact ⟨u, [], rfl, hu, rfl, by simp⟩
  | cons p L ih =>
    intro u hL hu
    obtain ⟨k, c⟩ := p
    obtain ⟨u1, e, e1, hu1, hok⟩ := shortestFrom_sub hs h (hL (k, c) (by simp)) (hex k) hu
    obtain ⟨u2, es, e2, hu2, hm, hall⟩ := ih u1 (fun p hp => hL p (by simp [hp])) hu1
    refine ⟨u2, (k, e) :: es, ?_, hu2, by simp [hm], ?_⟩
    · simp only [closestEdges, e1, Option.bind_eq_bind, Option.bind_some, e2]
    · intro p hp
      rcases List.mem_cons.1 hp with rfl | hp
      · exact hok
      · exact hall p hp

theorem indep_noBad {f : Forest D} (s : Unit) : Indep (NoG s) (f.mst.filter (fun a => noBad s a.2.2)) := by
  have : f.mst.filter (fun a => noBad s a.2.2) = [] := by
    rw [List.filter_eq_nil_iff]; intro a _; simp
  rw [this]; exact Indep.nil

theorem SubChosen.ok (hs : SubSetting x gap dist weight wt inf t n near) {r : Nat → Nat} {k : Nat} {e : Edge D}
    (h : SubChosen n r wt dist near t k e) : ChosenOk n r NoG (noBad (D := D)) k e where
  u_lt := h.u_lt
  v_lt := hs.tree.valid _ h.v_mem
  ru := h.ru
  rv := h.rv
  closed := by intro s hb; simp at hb

/-- State of the main loop. -/
structure SubInv (wt : Nat → Nat → D) (t : KDTree.Tree K) (n : Nat) (f : Forest D) (r : Nat → Nat) : Prop where
  inv : FInv n f r
  edges : ∀ e ∈ f.mst, e.2.2 = wt e.1 e.2.1 ∧ e.2.1 ∈ t.indices

theorem stepSequential_sub (hs : SubSetting x gap dist weight wt inf t n near) {ord : Orders D}
    (hord : ord.Valid) (round : Nat) {f : Forest D} {r : Nat → Nat} (h : SubInv wt t n f r)
    (hex : ∀ k, ∃ j ∈ t.indices, r j ≠ k) :
    ∃ (f' : Forest D) (r' : Nat → Nat) (acc : List (Edge D)) (es : List (Nat × Edge D)), stepSequential x gap dist weight inf t ord round f = some f' ∧
      SubInv wt t n f' r' ∧ 2 * classes n r' ≤ classes n r ∧ (∀ x y, r x = r y → r' x = r' y) ∧
      f'.mst = f.mst ++ acc ∧ (∀ a ∈ acc, ∃ k, (k, a) ∈ es) ∧
      (es.map Prod.fst).Perm (f.comps.map Prod.fst) ∧
      (∀ p ∈ es, SubChosen n r wt dist near t p.1 p.2 ∧ r' p.2.1 = r' p.2.2.1) := by
  have hpc := hord.comps round f.comps
  obtain ⟨u, es, e1, hu, hkeys, hok⟩ := closestEdges_sub hs h.inv hex (ord.comps round f.comps)
    f.uf (fun p hp => hpc.mem_iff.1 hp) h.inv.uf
  have hkp : (es.map Prod.fst).Perm (f.comps.map Prod.fst) := by rw [hkeys]; exact hpc.map _
  obtain ⟨f', r', e2, h3, h4, h5, h6, acc, h7, h8⟩ := mergeEdges_spec (G := NoG) (bad := noBad (D := D)) (wt := wt)
    (f := { f with uf := u }) (fun _ _ _ h => h)
    ⟨h.inv.with_uf hu, fun s => indep_noBad s, fun e he => (h.edges e he).1⟩
    (fun p hp => ⟨(hok p hp).ok hs, (hok p hp).weight⟩) hkp (hord.edges round es)
  refine ⟨f', r', acc, es, by simp only [stepSequential, e1, Option.bind_eq_bind, Option.bind_some, e2],
    ⟨h3.inv, fun e he => ⟨h3.weights e he, ?_⟩⟩, h4, h5, h7, h8, hkp, fun p hp => ⟨hok p hp, h6 p hp⟩⟩
  rw [h7] at he
  rcases List.mem_append.1 he with he | he
  · exact (h.edges e he).2
  · obtain ⟨k, hk⟩ := h8 e he
    exact (hok _ hk).v_mem

theorem dualComponentStep_sub (hs : SubSetting x gap dist weight wt inf t n near)
    {ord : Orders D} (hord : ord.Valid) (round : Nat) {f : Forest D} {r : Nat → Nat}
    (h : SubInv wt t n f r) (hex : ∀ k, ∃ j ∈ t.indices, r j ≠ k) (h2 : f.comps.length = 2) :
    ∃ f' r' acc, dualComponentStep x gap dist weight inf t ord round f = some f' ∧
      SubInv wt t n f' r' ∧ 2 * classes n r' ≤ classes n r ∧ (∀ x y, r x = r y → r' x = r' y) ∧
      f'.mst = f.mst ++ acc := by
  have hpc := hord.comps round f.comps
  unfold dualComponentStep
  cases hc : ord.comps round f.comps with
  | nil =>
    rw [hc] at hpc
    have := hpc.length_eq
    simp at this; omega
  | cons p rest =>
    rw [hc] at hpc
    have hmem : smallest rest p ∈ f.comps := by
      refine hpc.mem_iff.1 ?_
      rcases smallest_mem rest p with h | h
      · rw [h]; simp
      · simp [h]
    obtain ⟨u, e, e1, hu, hok⟩ := shortestFrom_sub (k := (smallest rest p).1)
      (c := (smallest rest p).2) hs h.inv hmem (hex _) h.inv.uf
    have hne : r e.1 ≠ r e.2.1 := fun hc => hok.rv (hc ▸ hok.ru)
    obtain ⟨f', r', e2, hf', hco, _, hcase⟩ := mergeComponents_spec (h.inv.with_uf hu) hok.u_lt
      (hs.tree.valid _ hok.v_mem)
    have hm : f'.mst = f.mst ++ [e] := by
      rcases hcase with ⟨hc, _⟩ | ⟨_, hm⟩
      · exact absurd hc hne
      · exact hm
    refine ⟨f', r', [e], by simp only [e1, Option.bind_eq_bind, Option.bind_some, e2], ⟨hf', ?_⟩, ?_, hco, hm⟩
    · intro e' he
      rw [hm] at he
      rcases List.mem_append.1 he with he | he
      · exact h.edges e' he
      · rw [List.mem_singleton.1 he]
        exact ⟨hok.weight, hok.v_mem⟩
    · have h3 := hf'.count
      have h4 := h.inv.count
      have h5 := h.inv.comps_length
      rw [hm] at h3
      simp only [List.length_append, List.length_cons, List.length_nil] at h3
      omega

/-- Every component has a sample of the tree. -/
def Touched (t : KDTree.Tree K) (n : Nat) (r : Nat → Nat) : Prop := ∀ a < n, ∃ j ∈ t.indices, r j = r a

theorem Touched.others {f : Forest D} {r : Nat → Nat} (h : FInv n f r) (hq : Touched t n r)
    (h2 : 1 < f.comps.length) (k : Nat) : ∃ j ∈ t.indices, r j ≠ k := by
  obtain ⟨b, hb, hrb, hbk⟩ := h.exists_other h2 k
  obtain ⟨j, hj, hjb⟩ := hq b hb
  exact ⟨j, hj, by rw [hjb, hrb]; exact hbk⟩

theorem makeLoop_sub (hs : SubSetting x gap dist weight wt inf t n near) (hn : 0 < n)
    {ord : Orders D} (hord : ord.Valid) : ∀ (fuel round : Nat) (f : Forest D) (r : Nat → Nat),
    SubInv wt t n f r → Touched t n r → classes n r < 2 ^ fuel →
    ∃ f' r' acc, makeLoop x gap dist weight inf t ord fuel round f = some f' ∧
      SubInv wt t n f' r' ∧ classes n r' = 1 ∧ f'.mst = f.mst ++ acc := by
  intro fuel
  induction fuel with
  | zero =>
    intro round f r h hq hlt
    have := classes_pos hn r
    simp at hlt; omega
  | succ fuel ih =>
    intro round f r h hq hlt
    unfold makeLoop
    have hpos := classes_pos hn r
    have hcl := h.inv.comps_length
    by_cases h1 : f.comps.length > 1
    · rw [if_pos h1]
      have hstep : ∃ f1 r1 acc, (if f.comps.length = 2 then
            dualComponentStep x gap dist weight inf t ord round f
          else stepSequential x gap dist weight inf t ord round f) = some f1 ∧
          SubInv wt t n f1 r1 ∧ 2 * classes n r1 ≤ classes n r ∧
          (∀ x y, r x = r y → r1 x = r1 y) ∧ f1.mst = f.mst ++ acc := by
        by_cases h2 : f.comps.length = 2
        · rw [if_pos h2]
          exact dualComponentStep_sub hs hord round h (hq.others h.inv h1) h2
        · rw [if_neg h2]
          obtain ⟨f1, r1, acc, es, a1, a2, a3, a4, a5, _⟩ :=
            stepSequential_sub hs hord round h (hq.others h.inv h1)
          exact ⟨f1, r1, acc, a1, a2, a3, a4, a5⟩
      obtain ⟨f1, r1, acc, e1, hl1, hhalf, hco, hacc⟩ := hstep
      obtain ⟨f', r', acc', e2, hl2, hone, hacc'⟩ := ih (round + 1) f1 r1 hl1
        (fun a ha => by obtain ⟨j, hj, hja⟩ := hq a ha; exact ⟨j, hj, hco _ _ hja⟩)
        (by rw [Nat.pow_succ] at hlt; omega)
      refine ⟨f', r', acc ++ acc', ?_, hl2, hone, by rw [hacc', hacc, List.append_assoc]⟩
      by_cases h2 : f.comps.length = 2
      · rw [if_pos h2] at e1 ⊢
        simp only [e1, Option.bind_eq_bind, Option.bind_some, e2]
      · rw [if_neg h2] at e1 ⊢
        simp only [e1, Option.bind_eq_bind, Option.bind_some, e2]
    · rw [if_neg h1]
      exact ⟨f, r, [], rfl, h, by omega, by simp⟩

/-- Edges among which a vertex has no edge do not link it. -/
theorem conn_isolated {es : List (Edge D)} {a : Nat} (h : ∀ e ∈ es, e.1 ≠ a ∧ e.2.1 ≠ a) {u v : Nat}
    (hc : Conn NoRel es u v) : u = a ↔ v = a := by
  induction hc with
  | rel x y h' =>
    rcases h' with h' | ⟨w, h'⟩
    · exact h'.elim
    · exact ⟨fun e => ((h _ h').1 e).elim, fun e => ((h _ h').2 e).elim⟩
  | refl x => exact Iff.rfl
  | symm x y _ ih => exact ih.symm
  | trans x y z _ _ ih1 ih2 => exact ih1.trans ih2

/-- The main loop from the initial forest, for a tree over at least two samples. -/
theorem makeLoop_sub_tree (hs : SubSetting x gap dist weight wt inf t n near)
    (h2 : ∃ i ∈ t.indices, ∃ j ∈ t.indices, i ≠ j) {ord : Orders D} (hord : ord.Valid) (fuel : Nat)
    (hfuel : Nat.log 2 n < fuel) :
    ∃ f0 f', Forest.init n = some f0 ∧
      makeLoop x gap dist weight inf t ord fuel 0 f0 = some f' ∧
      IsSpanningTree n f'.mst ∧ (∀ e ∈ f'.mst, e.2.2 = wt e.1 e.2.1 ∧ e.2.1 ∈ t.indices) ∧
      ∀ a < n, a ∉ t.indices → ∃ i ∈ t.indices, (a, i, wt a i) ∈ f'.mst ∧
        ∀ b ∈ t.indices, ∃ d', near (dist a b) d' ∧ dist a i ≤ d' := by
  obtain ⟨i0, hi0, j0, hj0, hij⟩ := h2
  have hn2 : 2 ≤ n := by
    have := hs.tree.valid i0 hi0
    have := hs.tree.valid j0 hj0
    omega
  have hn : 0 < n := by omega
  obtain ⟨f0, e0, h0, hm0⟩ := FInv.init (D := D) hn
  have hlog := lt_of_le_of_lt (classes_le (n := n) id) (lt_of_lt_of_le (Nat.lt_pow_succ_log_self (by norm_num) n)
    (Nat.pow_le_pow_right (by norm_num : 0 < 2) hfuel))
  have hc0 : classes n id = n := by have := h0.count; rw [hm0] at this; simpa using this
  have hinv0 : SubInv wt t n f0 id := ⟨h0, by simp [hm0]⟩
  have key : ∃ f' r', makeLoop x gap dist weight inf t ord fuel 0 f0 = some f' ∧
      SubInv wt t n f' r' ∧ classes n r' = 1 ∧
      ∀ a < n, a ∉ t.indices → ∃ i ∈ t.indices, (a, i, wt a i) ∈ f'.mst ∧
        ∀ b ∈ t.indices, ∃ d', near (dist a b) d' ∧ dist a i ≤ d' := by
    by_cases hall : ∀ a < n, a ∈ t.indices
    · obtain ⟨f', r', acc, a1, a2, a3, _⟩ := makeLoop_sub hs hn hord fuel 0 f0 id hinv0
        (fun a ha => ⟨a, hall a ha, rfl⟩) hlog
      exact ⟨f', r', a1, a2, a3, fun a ha h => absurd (hall a ha) h⟩
    · push Not at hall
      obtain ⟨a0, ha0, hna0⟩ := hall
      -- three samples at least, hence the first round is over all components
      have hn3 : 3 ≤ n := by
        have hsub : ({i0, j0, a0} : Finset Nat) ⊆ Finset.range n := by
          intro z hz
          simp only [Finset.mem_insert, Finset.mem_singleton] at hz
          rw [Finset.mem_range]
          rcases hz with rfl | rfl | rfl
          · exact hs.tree.valid _ hi0
          · exact hs.tree.valid _ hj0
          · exact ha0
        have := Finset.card_le_card hsub
        rw [Finset.card_range, Finset.card_insert_of_notMem (by
          simp only [Finset.mem_insert, Finset.mem_singleton, not_or]
          exact ⟨hij, fun e => hna0 (e ▸ hi0)⟩), Finset.card_pair (show j0 ≠ a0 from fun e => hna0 (e ▸ hj0))] at this
        exact this
      have hlen : f0.comps.length = n := by rw [h0.comps_length, hc0]
      obtain ⟨fuel, rfl⟩ : ∃ k, fuel = k + 1 := ⟨fuel - 1, by omega⟩
      obtain ⟨f1, r1, acc, es, e1, hl1, hhalf, hco, hacc, haccs, hkp, hok⟩ := stepSequential_sub hs hord 0 hinv0
        (fun k => by
          by_cases hk : i0 = k
          · exact ⟨j0, hj0, fun e => hij (hk.trans e.symm)⟩
          · exact ⟨i0, hi0, hk⟩)
      have hchosen : ∀ a < n, ∃ e, (a, e) ∈ es ∧ e.1 = a := by
        intro a ha
        have : a ∈ es.map Prod.fst := hkp.mem_iff.2 ((h0.keys a).2 ⟨ha, rfl⟩)
        obtain ⟨⟨_, e⟩, hp, rfl⟩ := List.mem_map.1 this
        exact ⟨e, hp, (hok _ hp).1.ru⟩
      have htouch : Touched t n r1 := by
        intro a ha
        obtain ⟨e, he, hea⟩ := hchosen a ha
        have := hok _ he
        exact ⟨e.2.1, this.1.v_mem, by rw [← this.2]; exact congrArg r1 hea⟩
      obtain ⟨f', r', acc', e2, hl2, hone, hacc'⟩ := makeLoop_sub hs hn hord fuel 1 f1 r1 hl1 htouch (by
        rw [Nat.pow_succ] at hlog
        omega)
      refine ⟨f', r', ?_, hl2, hone, ?_⟩
      · unfold makeLoop
        rw [if_pos (by omega), if_neg (by omega)]
        simp only [e1, Option.bind_eq_bind, Option.bind_some, e2]
      · intro a ha hna
        obtain ⟨e, he, hea⟩ := hchosen a ha
        obtain ⟨hch, hjoin⟩ := hok _ he
        dsimp only at hch hjoin
        -- the edge chosen for the sample is in the forest: no other edge has it as an end
        have hin : e ∈ f1.mst := by
          by_contra hnin
          have hiso : ∀ e' ∈ f1.mst, e'.1 ≠ a ∧ e'.2.1 ≠ a := by
            intro e' he'
            have hm := he'
            rw [hacc, hm0, List.nil_append] at he'
            obtain ⟨k, hk⟩ := haccs e' he'
            have hc' := (hok _ hk).1
            refine ⟨fun h => hnin ?_, fun h => hna (h ▸ hc'.v_mem)⟩
            have hka : k = a := by
              have := hc'.ru
              simp only [id] at this
              rw [← this, h]
            subst hka
            have hnd : (es.map Prod.fst).Nodup := hkp.nodup_iff.2 h0.nodup
            have := List.inj_on_of_nodup_map hnd hk he rfl
            have h5 : e' = e := congrArg Prod.snd this
            exact h5 ▸ hm
          have := conn_isolated hiso ((hl1.inv.linked _ _).1 hjoin)
          have h3 := this.1 hea
          exact hna (h3 ▸ hch.v_mem)
        have hne : ∀ b ∈ t.indices, b ≠ a := fun b hb h => hna (h ▸ hb)
        refine ⟨e.2.1, hch.v_mem, ?_, ?_⟩
        · rw [hacc']
          refine List.mem_append_left _ ?_
          have : e = (a, e.2.1, wt a e.2.1) := by
            refine Prod.ext hea (Prod.ext rfl ?_)
            rw [hch.weight, hea]
          rw [← this]; exact hin
        · intro b hb
          have := hch.nearest b hb (hne b hb)
          rwa [hea] at this
  obtain ⟨f', r', e1, hl, hone, hout⟩ := key
  refine ⟨f0, f', e0, e1, isSpanningTree_of hl.inv.verts ?_ ?_, hl.edges, hout⟩
  · have := hl.inv.count; omega
  · intro a b ha hb
    refine linked_iff_conn.2 ((hl.inv.linked a b).1 ?_)
    unfold classes at hone
    exact Finset.card_le_one.1 hone.le _ (Finset.mem_image_of_mem _ (by simpa using ha)) _
      (Finset.mem_image_of_mem _ (by simpa using hb))

/-- A component that holds all samples of the tree: its query reads an element of an empty buffer. -/
theorem shortestFrom_sub_none (hs : SubSetting x gap dist weight wt inf t n near) {u : UF.State}
    {r : Nat → Nat} (hu : UF.SInv n u r) {k : Nat} (hk : k < n) (hall : ∀ j ∈ t.indices, r k = r j)
    {c : List Nat} (hc : c ≠ []) (e : Edge D) :
    shortestFrom x x gap dist weight inf t k c u e = none := by
  cases c with
  | nil => exact absurd rfl hc
  | cons q qs =>
    simp only [shortestFrom, nearestOther_none hs.tree inf hu hk q hall, Option.bind_eq_bind, Option.bind_none]

/-- The queries of the round, when one of the components holds all samples of the tree. -/
theorem closestEdges_sub_none (hs : SubSetting x gap dist weight wt inf t n near) {f : Forest D}
    {r : Nat → Nat} (h : FInv n f r) {k0 : Nat} (hk0 : k0 < n) (hr0 : r k0 = k0)
    (hall : ∀ j ∈ t.indices, r j = k0) :
    ∀ (L : List (Nat × List Nat)) (u : UF.State), (∀ p ∈ L, p ∈ f.comps) → k0 ∈ L.map Prod.fst → UF.SInv n u r →
      closestEdges x gap dist weight inf t L u = none := by
  intro L
  induction L with
  | nil => intro u _ hm; simp at hm
  | cons p L ih =>
    intro u hL hm hu
    obtain ⟨k, c⟩ := p
    by_cases hk : k = k0
    · subst hk
      have hmem := (h.mem k c (hL _ (by simp)) k).2 ⟨hk0, hr0⟩
      have := shortestFrom_sub_none hs hu hk0 (fun j hj => by rw [hr0, hall j hj])
        (List.ne_nil_of_mem hmem) (defaultEdge inf)
      simp only [closestEdges, this, Option.bind_eq_bind, Option.bind_none]
    · by_cases hne : t.indices = []
      · obtain ⟨hkn, hrk⟩ := (h.keys k).1 (List.mem_map.2 ⟨_, hL (k, c) (by simp), rfl⟩)
        have hmem := (h.mem k c (hL _ (by simp)) k).2 ⟨hkn, hrk⟩
        have := shortestFrom_sub_none hs hu hkn (by simp [hne]) (List.ne_nil_of_mem hmem) (defaultEdge inf)
        simp only [closestEdges, this, Option.bind_eq_bind, Option.bind_none]
      obtain ⟨j, hj⟩ := List.exists_mem_of_ne_nil _ hne
      obtain ⟨u1, e, e1, hu1, _⟩ := shortestFrom_sub hs h (hL (k, c) (by simp))
        ⟨j, hj, by rw [hall j hj]; exact fun e => hk e.symm⟩ hu
      have := ih u1 (fun p hp => hL p (by simp [hp])) (by
        simp only [List.map_cons, List.mem_cons] at hm
        rcases hm with hm | hm
        · exact absurd hm.symm hk
        · exact hm) hu1
      simp only [closestEdges, e1, Option.bind_eq_bind, Option.bind_some, this, Option.bind_none]

/-- A tree over at most one sample, three samples or more: no run of the main loop has a defined result. -/
theorem makeLoop_sub_single (hs : SubSetting x gap dist weight wt inf t n near) (hn : 3 ≤ n)
    (hi : t.indices.length ≤ 1) {ord : Orders D} (hord : ord.Valid) (fuel : Nat) :
    ∃ f0 : Forest D, Forest.init n = some f0 ∧
      makeLoop x gap dist weight inf t ord fuel 0 f0 = none := by
  obtain ⟨f0, e0, h0, hm0⟩ := FInv.init (D := D) (show 0 < n by omega)
  refine ⟨f0, e0, ?_⟩
  have hc0 : classes n id = n := by have := h0.count; rw [hm0] at this; simpa using this
  have hlen : f0.comps.length = n := by rw [h0.comps_length, hc0]
  obtain ⟨i, hin, hall⟩ : ∃ i, i < n ∧ ∀ j ∈ t.indices, j = i := by
    cases h : t.indices with
    | nil => exact ⟨0, by omega, by simp⟩
    | cons i l =>
      rw [h] at hi
      have : l = [] := by
        rw [← List.length_eq_zero_iff]
        simp only [List.length_cons] at hi
        omega
      subst this
      exact ⟨i, hs.tree.valid i (by simp [h]), by simp⟩
  have hpc := hord.comps 0 f0.comps
  cases fuel with
  | zero => rfl
  | succ fuel =>
    unfold makeLoop
    rw [if_pos (by omega), if_neg (by omega)]
    have := closestEdges_sub_none hs h0 hin rfl hall
      (ord.comps 0 f0.comps) f0.uf (fun p hp => hpc.mem_iff.1 hp)
      ((hpc.map Prod.fst).mem_iff.2 ((h0.keys i).2 ⟨hin, rfl⟩)) h0.uf
    simp only [stepSequential, this, Option.bind_eq_bind, Option.bind_none]

end Verif.Boruvka
