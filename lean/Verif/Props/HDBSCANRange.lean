import Verif.Model.HDBSCANRange
import Verif.Props.CondensedRounding
import Verif.Props.HDBSCAN
import Verif.Props.ReachabilityRange

/-
Property C128: HDBSCAN from the samples to the labels in a floating format of bounded range.
-/

namespace Verif.HDBSCAN

open Verif.KDTree Verif.Search Verif.Sorting Verif.Distances Verif.ClosestPair Verif.Graph
  Verif.Boruvka Verif.Dendrogram Verif.Rounding

set_option linter.unusedSectionVars false

/-! ### sizes of the clusters of a cut -/

theorem Cut_mem {t : CTree ℝ} {cs : List (CTree ℝ)} (h : Cut t cs) : ∀ c ∈ cs, c ∈ t.subtrees := by
  induction h with
  | here t => intro c hc; rw [List.mem_singleton.1 hc]; exact CTree.self_mem_subtrees _
  | children n _ _ iha ihb =>
    intro c hc
    rcases List.mem_append.1 hc with h | h
    · simp [CTree.subtrees, iha c h]
    · simp [CTree.subtrees, ihb c h]

/-- Each label of a cut is carried by `min_cluster_size` samples, or by all of them. -/
theorem count_of_cut (inv : ℝ → ℝ) (m : Nat) {root : STree ℝ} (hg : Good root) {n : Nat}
    (hn : ∀ x, x ∈ root.leaves ↔ x < n) {cs : List (CTree ℝ)} (hc : Cut (condenseRoot inv m root) cs)
    {flat : List Nat} (hL : Labels n flat cs) :
    (∀ v ∈ flat, v ≤ cs.length) ∧ ∀ v, 1 ≤ v → v ≤ cs.length → min m n ≤ flat.count v := by
  constructor
  · intro v hv
    obtain ⟨i, hi⟩ := List.mem_iff_getElem?.1 hv
    cases v with
    | zero => omega
    | succ j =>
      obtain ⟨c, hc, _⟩ := (hL.positive i j).1 hi
      exact (List.getElem?_eq_some_iff.1 hc).1
  · intro v hv1 hvK
    obtain ⟨j, rfl⟩ : ∃ j, v = j + 1 := ⟨v - 1, by omega⟩
    have hj : cs[j]? = some cs[j] := by simp
    have hc := Cut_mem hc cs[j] (List.getElem_mem _)
    have hcl := C35_clusters inv m root hg
    have hnod : cs[j].samples.Nodup := STree.nodup_subtree hg.nodup _ (hcl.2.1 _ hc)
    refine le_trans ?_ (count_labels hL.length (j + 1) cs[j].samples hnod
      (fun i hi => (hL.positive i j).2 ⟨cs[j], hj, hi⟩))
    have key : ∀ t : CTree ℝ, (∀ n l r, CTree.split n l r ∈ t.subtrees →
        m ≤ l.samples.length ∧ m ≤ r.samples.length) → ∀ c ∈ t.subtrees,
        c = t ∨ m ≤ c.samples.length := by
      intro t
      induction t with
      | leaf nd => intro _ c hc; left; simpa [CTree.subtrees] using hc
      | split nd l r ihl ihr =>
        intro hsp c hc
        have h0 := hsp nd l r (CTree.self_mem_subtrees _)
        simp only [CTree.subtrees, List.mem_cons, List.mem_append] at hc
        rcases hc with hc | hc | hc
        · exact Or.inl hc
        · right
          rcases ihl (fun n a b h => hsp n a b (by simp [CTree.subtrees, h])) c hc with rfl | h
          · exact h0.1
          · exact h
        · right
          rcases ihr (fun n a b h => hsp n a b (by simp [CTree.subtrees, h])) c hc with rfl | h
          · exact h0.2
          · exact h
    rcases key _ (fun n l r h => ⟨(hcl.2.2.1 n l r h).1, (hcl.2.2.1 n l r h).2.1⟩) _ hc with h | h
    · rw [h, CTree.samples, hcl.1]
      have : root.leaves.Perm (List.range n) := by
        rw [List.perm_ext_iff_of_nodup hg.nodup List.nodup_range]
        intro x; rw [hn, List.mem_range]
      rw [this.length_eq, List.length_range]
      exact min_le_right _ _
    · exact (min_le_left _ _).trans h

/-! ### the weights as numbers -/

theorem IsSpanningTree_finite {n : Nat} {T : List (Edge (WithTop ℝ))} (h : IsSpanningTree n T) :
    IsSpanningTree n (T.map finiteEdge) := by
  refine isSpanningTree_of ?_ ?_ ?_
  · intro e he
    obtain ⟨e', he', rfl⟩ := List.mem_map.1 he
    exact h.vertices e' he'
  · simpa using h.length
  · intro a b ha hb
    have := h.connects a b ha hb
    unfold Linked at this ⊢
    clear ha hb
    induction this with
    | rel u v h => obtain ⟨w, hw⟩ := h; exact .rel _ _ ⟨w.untopD 0, List.mem_map.2 ⟨_, hw, rfl⟩⟩
    | refl u => exact .refl _
    | symm u v _ ih => exact ih.symm
    | trans u v w _ _ ih1 ih2 => exact ih1.trans _ _ _ ih2

variable {p : Nat} {emax : ℤ} (R : RoundingE p emax)

/-- The spanning tree of `make_tree` for any neighbour count: its weights are finite computed distances. -/
theorem tree_any (hp : 1 ≤ p) (hE : (p : ℤ) + 1 ≤ emax) (h4 : 4 ≤ emax) (heven : Even emax)
    (n : Nat) (hn : 0 < n) (eps : ℝ) (he : 0 ≤ eps) (he1 : eps ≤ 1) (nf : Nat) (x : Nat → Nat → ℝ)
    (hx : ∀ i a, IsFloatE p emax (x i a)) (o : Order) (ho : o.Sums nf)
    (policy : List Nat → Nat → Box ℝ → Nat) (bucketSize maxDepth : Nat)
    (hpol : ∀ idx d box, policy idx d box < nf) (vmax vlowest : ℝ)
    (hj : JoinedBelow n (distsE R o x) ⊤)
    (ord : Orders (WithTop ℝ)) (hord : ord.Valid) (k : Nat) (hk2 : k < 2 ^ 64)
    (hr : ∀ q, q < n → min k n ≤ inReach R o x n q) :
    ∃ idx' t T, make (eqE R eps) x policy bucketSize maxDepth nf vmax vlowest (List.range n) =
        some (idx', t) ∧
      (∀ fuel, Nat.log 2 n + 1 ≤ fuel →
        makeTree x (gapE R) (distsE R o x) ⊤ t ord n k fuel = some T) ∧
      IsSpanningTree n T ∧
      ∀ e ∈ T, ∃ d : ℝ, e.2.2 = (d : WithTop ℝ) ∧ distsE R o x e.1 e.2.1 ≤ d ∧
        ∃ i j, i < n ∧ j < n ∧ distsE R o x i j = (d : WithTop ℝ) := by
  by_cases hk : 1 < k
  · obtain ⟨idx', t, T, core, e1, h1, hT, hc, hw, -⟩ := C127_spanning_tree R hp hE h4 heven n hn eps he he1 nf x hx o
      ho policy bucketSize maxDepth hpol vmax vlowest hj ord hord k hk hk2 hr
    refine ⟨idx', t, T, e1, h1, hT, fun e he' => ?_⟩
    obtain ⟨hw1, hw2⟩ := hw e he'
    obtain ⟨hv1, hv2⟩ := hT.vertices e he'
    obtain ⟨d, hd⟩ := WithTop.ne_top_iff_exists.1 hw2.ne
    refine ⟨d, hd.symm, ?_, ?_⟩
    · rw [hd, hw1]; exact le_max_right _ _
    · have hcm : ∀ q, q < n → ∃ i j, i < n ∧ j < n ∧ distsE R o x i j = core q := by
        intro q hq
        obtain ⟨j, hj, hjv⟩ := List.mem_map.1 (hc q hq).2.1
        exact ⟨q, j, hq, by simpa using hj, hjv⟩
      rw [hd, hw1]
      rcases max_choice (max (core e.1) (core e.2.1)) (distsE R o x e.1 e.2.1) with h | h <;> rw [h]
      · rcases max_choice (core e.1) (core e.2.1) with h | h <;> rw [h]
        · exact hcm _ hv1
        · exact hcm _ hv2
      · exact ⟨e.1, e.2.1, hv1, hv2, rfl⟩
  · obtain ⟨idx', t, T, e1, h1, hT, hw, -⟩ := C123_spanning_tree R hp hE h4 heven n hn eps he he1 nf x hx o
      ho policy bucketSize maxDepth hpol vmax vlowest hj ord hord k (by omega)
    refine ⟨idx', t, T, e1, h1, hT, fun e he' => ?_⟩
    obtain ⟨hw1, hw2⟩ := hw e he'
    obtain ⟨hv1, hv2⟩ := hT.vertices e he'
    obtain ⟨d, hd⟩ := WithTop.ne_top_iff_exists.1 hw2.ne
    exact ⟨d, hd.symm, by rw [hd, hw1], e.1, e.2.1, hv1, hv2, by rw [hd, hw1]⟩

theorem epsilon_le_one (hp : 1 ≤ p) : epsilon p ≤ 1 := by
  unfold epsilon
  exact zpow_le_one_of_nonpos₀ (by norm_num) (by omega)

theorem epsilon_nonneg : 0 ≤ epsilon p := (two_zpow_pos _).le

/-- **C128.** In a format with overflow and gradual underflow, for samples joined by pairs at a finite computed
distance and with `k` samples (or all) in reach of each: `predict` ends within `log2 n` rounds; the labels are
those of a cut of the cluster hierarchy of the dendrogram of the spanning tree it has found, with noise 0 and each
label `1, ..., K` on at least `min_cluster_size` samples (or all); and no allowed cut of that hierarchy has
stabilities, computed exactly, that exceed those of the selected one by more than twice the rounding error. -/
theorem C128_predict {fl : ℝ → ℝ} (hp : 2 ≤ p) (hE : 2 * (p : ℤ) + 6 ≤ emax) (heven : Even emax)
    (hfl : Computes R fl) (fused : Bool)
    (n : Nat) (hn : 0 < n) (hnp : n ≤ 2 ^ p) (nf : Nat) (x : Nat → Nat → ℝ)
    (hx : ∀ i a, IsFloatE p emax (x i a)) (o : Order) (ho : o.Sums nf)
    (policy : List Nat → Nat → Box ℝ → Nat) (bucketSize maxDepth : Nat)
    (hpol : ∀ idx d box, policy idx d box < nf) (vmax vlowest : ℝ)
    (hj : JoinedBelow n (distsE R o x) ⊤)
    (ord : Orders (WithTop ℝ)) (hord : ord.Valid) (sort : List (Edge ℝ) → List (Edge ℝ))
    (hsort : SortsByWeight sort) (k : Nat) (hk2 : k < 2 ^ 64)
    (hr : ∀ q, q < n → min k n ≤ inReach R o x n q) (m : Nat) (allow ret : Bool)
    (Λ : ℝ) (hΛ0 : tiny emax ≤ Λ)
    (hΛ : ∀ i j, i < n → j < n → ∀ d : ℝ, distsE R o x i j = (d : WithTop ℝ) → |divOne (epsilon p) d| ≤ Λ) :
    ∃ idx' t T root flat cs,
      make (eqE R (epsilon p)) x policy bucketSize maxDepth nf vmax vlowest (List.range n) = some (idx', t) ∧
      (∀ fuel, Nat.log 2 n + 1 ≤ fuel →
        makeTree x (gapE R) (distsE R o x) ⊤ t ord n k fuel = some T ∧
        predictF fl fused (epsilon p) x (gapE R) (distsE R o x) t ord sort n k m allow ret fuel = some flat) ∧
      IsSpanningTree n T ∧ (∀ e ∈ T, 0 ≤ e.2.2 ∧ e.2.2 < ⊤) ∧
      (∀ c : ℝ, 0 ≤ c → ∀ a b, a < n → b < n →
        (root.Under c a b ↔ Linked (T.filter (fun e => e.2.2 ≤ (c : WithTop ℝ))) a b)) ∧
      Cut (condenseRoot (divOne (epsilon p)) m root) cs ∧ Labels n flat cs ∧
      (∀ v ∈ flat, v ≤ cs.length) ∧ (∀ v, 1 ≤ v → v ≤ cs.length → min m n ≤ flat.count v) ∧
      (ret = true → ∀ c ∈ cs, c.isLeaf = true) ∧
      (ret = false → Allowed allow (condenseRoot (divOne (epsilon p)) m root) cs ∧
        ∀ cs', Cut (condenseRoot (divOne (epsilon p)) m root) cs' →
          Allowed allow (condenseRoot (divOne (epsilon p)) m root) cs' →
          totalStability cs' ≤ totalStability cs + 2 * stabilityErr p Λ (3 + 2 * n) n) := by
  obtain ⟨idx', t, T, e1, h1, hT, hw⟩ := tree_any R (by omega) (by omega) (by omega) heven n hn (epsilon p)
    epsilon_nonneg (epsilon_le_one (by omega)) nf x hx o ho policy bucketSize maxDepth hpol vmax vlowest hj ord hord
    k hk2 hr
  have hw0 : ∀ e ∈ T, ∃ d : ℝ, e.2.2 = (d : WithTop ℝ) ∧ 0 ≤ d ∧ |divOne (epsilon p) d| ≤ Λ := by
    intro e he
    obtain ⟨d, hd, hle, i, j, hi, hj, hij⟩ := hw e he
    refine ⟨d, hd, ?_, hΛ i j hi hj d hij⟩
    have := (distsE_nonneg R (by omega) (by omega) o x e.1 e.2.1).trans hle
    exact_mod_cast this
  have hT' := IsSpanningTree_finite hT
  have hpos : ∀ e ∈ T.map finiteEdge, 0 ≤ e.2.2 ∧ |divOne (epsilon p) e.2.2| ≤ Λ := by
    intro e he
    obtain ⟨e', he', rfl⟩ := List.mem_map.1 he
    obtain ⟨d, hd, h0⟩ := hw0 e' he'
    simpa only [finiteEdge, hd, WithTop.untopD_coe] using h0
  have hperm := hsort.perm (T.map finiteEdge)
  obtain ⟨root, hb, hg, hl, hu, -, hlev⟩ := build_strict hT' hperm
    (fun e he => (hpos e (hperm.mem_iff.1 he)).1) (hsort.sorted _)
  have hlv : ∀ s ∈ root.subtrees, |divOne (epsilon p) s.level| ≤ Λ := by
    intro s hs
    by_cases hc : s.children = []
    · have : s.level = 0 := by
        cases s with
        | leaf i => rfl
        | node _ _ _ l r => simp [STree.children] at hc
      rw [this, divOne, if_pos (by rw [abs_zero]; exact epsilon_nonneg), abs_zero]
      exact (two_zpow_pos _).le.trans hΛ0
    · obtain ⟨e, he, hel⟩ := hlev s hs hc
      rw [← hel]
      exact (hpos e (hperm.mem_iff.1 he)).2
  have hflat : ∃ flat cs,
      extractFlat (condensedTreeF fl fused (epsilon p) m allow ret root) = some flat ∧
      Cut (condenseRoot (divOne (epsilon p)) m root) cs ∧ Labels n flat cs ∧
      (ret = true → ∀ c ∈ cs, c.isLeaf = true) ∧
      (ret = false → Allowed allow (condenseRoot (divOne (epsilon p)) m root) cs ∧
        ∀ cs', Cut (condenseRoot (divOne (epsilon p)) m root) cs' →
          Allowed allow (condenseRoot (divOne (epsilon p)) m root) cs' →
          totalStability cs' ≤ totalStability cs + 2 * stabilityErr p Λ (3 + 2 * n) n) := by
    cases ret with
    | true =>
      obtain ⟨flat, cs, a1, a2, a3, a4, -⟩ := C126_labels (floatArith fl fused)
        (fun level => fl (divOne (epsilon p) level)) (divOne (epsilon p)) m allow true root hg n hl
      exact ⟨flat, cs, a1, a2, a3, a4, by simp⟩
    | false =>
      obtain ⟨flat, cs, a1, a2, a3, a4, a5⟩ :=
        C126_near_optimal hp hE hfl fused m allow root hg n hl hnp Λ hΛ0 hlv
      exact ⟨flat, cs, a1, a2, a3, by simp, fun _ => ⟨a4, a5⟩⟩
  obtain ⟨flat, cs, a1, a2, a3, a4, a5⟩ := hflat
  obtain ⟨c1, c2⟩ := count_of_cut _ m hg hl a2 a3
  refine ⟨idx', t, T, root, flat, cs, e1, fun fuel hf => ⟨h1 fuel hf, ?_⟩, hT, ?_, ?_, a2, a3, c1, c2, a4, a5⟩
  · simp only [predictF, h1 fuel hf, Option.bind_eq_bind, Option.bind_some, hb, a1]
  · intro e he
    obtain ⟨d, hd, h0, -⟩ := hw0 e he
    rw [hd]
    exact ⟨by exact_mod_cast h0, WithTop.coe_lt_top _⟩
  · intro c hc a b ha hb'
    rw [hu c hc a b ha hb']
    have hiff : ∀ u v, (∃ w, (u, v, w) ∈ (sort (T.map finiteEdge)).filter (fun e => e.2.2 ≤ c)) ↔
        ∃ w, (u, v, w) ∈ T.filter (fun e => e.2.2 ≤ (c : WithTop ℝ)) := by
      intro u v
      constructor
      · rintro ⟨w, hw'⟩
        obtain ⟨h5, h6⟩ := List.mem_filter.1 hw'
        obtain ⟨e, he, hee⟩ := List.mem_map.1 (hperm.mem_iff.1 h5)
        obtain ⟨d, hd, -⟩ := hw0 e he
        obtain ⟨e1, e2, e3⟩ := e
        simp only at hd
        simp only [finiteEdge, hd, WithTop.untopD_coe, Prod.mk.injEq] at hee
        obtain ⟨rfl, rfl, rfl⟩ := hee
        refine ⟨e3, List.mem_filter.2 ⟨he, ?_⟩⟩
        simp only [decide_eq_true_eq] at h6 ⊢
        rw [hd]
        exact_mod_cast h6
      · rintro ⟨w, hw'⟩
        obtain ⟨h5, h6⟩ := List.mem_filter.1 hw'
        obtain ⟨d, hd, -⟩ := hw0 _ h5
        simp only at hd
        subst hd
        refine ⟨d, List.mem_filter.2 ⟨hperm.mem_iff.2 (List.mem_map.2 ⟨_, h5, rfl⟩), ?_⟩⟩
        simp only [decide_eq_true_eq] at h6 ⊢
        exact_mod_cast h6
    unfold Linked
    have : (fun u v => ∃ w, (u, v, w) ∈ (sort (T.map finiteEdge)).filter (fun e => e.2.2 ≤ c)) =
        fun u v => ∃ w, (u, v, w) ∈ T.filter (fun e => e.2.2 ≤ (c : WithTop ℝ)) :=
      funext fun u => funext fun v => propext (hiff u v)
    rw [this]

/-- **C128**, in every other situation with two samples or more: `predict` never ends. -/
theorem C128_ends_iff {fl : ℝ → ℝ} (hp : 2 ≤ p) (hE : 2 * (p : ℤ) + 6 ≤ emax) (heven : Even emax)
    (hfl : Computes R fl) (fused : Bool)
    (n : Nat) (hn : 1 < n) (hnp : n ≤ 2 ^ p) (nf : Nat) (x : Nat → Nat → ℝ)
    (hx : ∀ i a, IsFloatE p emax (x i a)) (o : Order) (ho : o.Sums nf)
    (policy : List Nat → Nat → Box ℝ → Nat) (bucketSize maxDepth : Nat)
    (hpol : ∀ idx d box, policy idx d box < nf) (vmax vlowest : ℝ)
    (ord : Orders (WithTop ℝ)) (hord : ord.Valid) (sort : List (Edge ℝ) → List (Edge ℝ))
    (hsort : SortsByWeight sort) (k : Nat) (hk2 : k < 2 ^ 64) (m : Nat) (allow ret : Bool) :
    ∃ idx' t, make (eqE R (epsilon p)) x policy bucketSize maxDepth nf vmax vlowest (List.range n) =
        some (idx', t) ∧
      ((∃ fuel flat, predictF fl fused (epsilon p) x (gapE R) (distsE R o x) t ord sort n k m allow ret fuel =
          some flat) ↔
        JoinedBelow n (distsE R o x) ⊤ ∧ ∀ q, q < n → min k n ≤ inReach R o x n q) := by
  obtain ⟨idx', t, e1, hiff⟩ := C127_ends_iff R (by omega) (by omega) (by omega) heven n hn (epsilon p)
    epsilon_nonneg (epsilon_le_one (by omega)) nf x hx o ho policy bucketSize maxDepth hpol vmax vlowest ord hord
    k hk2
  refine ⟨idx', t, e1, ?_, ?_⟩
  · rintro ⟨fuel, flat, h⟩
    refine hiff.1 ⟨fuel, ?_⟩
    cases hm : makeTree x (gapE R) (distsE R o x) ⊤ t ord n k fuel with
    | none => simp [predictF, hm] at h
    | some T => exact ⟨T, rfl⟩
  · rintro ⟨hj, hr⟩
    have hB : tiny emax ≤ (2 : ℝ) ^ ((p : ℤ) - 1) := zpow_le_zpow_right₀ (by norm_num) (by omega)
    obtain ⟨_, t', _, _, flat, _, e2, h, -⟩ := C128_predict R hp hE heven hfl fused n (by omega) hnp nf x hx o ho policy
      bucketSize maxDepth hpol vmax vlowest hj ord hord sort hsort k hk2 hr m allow ret _ hB
      (fun _ _ _ _ d _ => divOne_le d)
    obtain ⟨rfl, rfl⟩ := Prod.mk.inj (Option.some.inj (e1.symm.trans e2))
    exact ⟨_, flat, (h _ le_rfl).2⟩

/-! ### bounded data -/

/-- No computed distance overflows when the coordinates are bounded by `B`. -/
theorem finite_of_bounded (hp : 1 ≤ p) (hE : 2 ≤ emax) {n nf : Nat} {x : Nat → Nat → ℝ}
    (hx : ∀ i a, IsFloatE p emax (x i a)) {o : Order} (ho : o.Sums nf) {B : ℝ}
    (hxB : ∀ i a, i < n → a < nf → |x i a| ≤ B)
    (hB : (1 + unit p) ^ (nf + 3) * (nf * (2 * B) ^ 2 + (nf + 1) * (2 : ℝ) ^ (emin p emax - 1)) <
      (2 : ℝ) ^ emax) {i j : Nat} (hi : i < n) (hj : j < n) : distsE R o x i j < ⊤ := by
  have h1 := (sumU_error R hp ho (u := x j) (v := x i) (fun k _ => hx j k) (fun k _ => hx i k)).1
  have h2 : trueDist nf (x j) (x i) ^ 2 ≤ nf * (2 * B) ^ 2 := by
    unfold trueDist
    rw [Real.sq_sqrt (List.sum_nonneg (by
      intro a ha
      obtain ⟨b, _, rfl⟩ := List.mem_map.1 ha
      positivity))]
    have h3 : ∀ a ∈ (List.range nf).map (fun k => (x j k - x i k) ^ 2), a ≤ (2 * B) ^ 2 := by
      intro a ha
      obtain ⟨b, hb, rfl⟩ := List.mem_map.1 ha
      have hb' : b < nf := by simpa using hb
      have h5 := abs_le.1 (hxB i b hi hb')
      have h6 := abs_le.1 (hxB j b hj hb')
      exact sq_le_sq' (by linarith) (by linarith)
    have h4 := List.sum_le_card_nsmul _ _ h3
    simpa using h4
  have h3 : 0 ≤ (1 + unit p) ^ (nf + 3) := by
    have := Rounding.unit_pos (p := p)
    positivity
  have h4 : sumU R o (x j) (x i) < (2 : ℝ) ^ emax :=
    (h1.trans (mul_le_mul_of_nonneg_left (by linarith) h3)).trans_lt hB
  unfold distsE
  rw [distE_eq R hp hE, if_pos h4]
  exact WithTop.coe_lt_top _

/-- **C128** for bounded coordinates: `predict` always ends. -/
theorem C128_bounded {fl : ℝ → ℝ} (hp : 2 ≤ p) (hE : 2 * (p : ℤ) + 6 ≤ emax) (heven : Even emax)
    (hfl : Computes R fl) (fused : Bool)
    (n : Nat) (hn : 1 < n) (hnp : n ≤ 2 ^ p) (nf : Nat) (x : Nat → Nat → ℝ)
    (hx : ∀ i a, IsFloatE p emax (x i a)) (o : Order) (ho : o.Sums nf) (B : ℝ)
    (hxB : ∀ i a, i < n → a < nf → |x i a| ≤ B)
    (hB : (1 + unit p) ^ (nf + 3) * (nf * (2 * B) ^ 2 + (nf + 1) * (2 : ℝ) ^ (emin p emax - 1)) <
      (2 : ℝ) ^ emax)
    (policy : List Nat → Nat → Box ℝ → Nat) (bucketSize maxDepth : Nat)
    (hpol : ∀ idx d box, policy idx d box < nf) (vmax vlowest : ℝ)
    (ord : Orders (WithTop ℝ)) (hord : ord.Valid) (sort : List (Edge ℝ) → List (Edge ℝ))
    (hsort : SortsByWeight sort) (k : Nat) (hk2 : k < 2 ^ 64) (m : Nat) (allow ret : Bool) :
    ∃ idx' t fuel flat, make (eqE R (epsilon p)) x policy bucketSize maxDepth nf vmax vlowest (List.range n) =
        some (idx', t) ∧
      predictF fl fused (epsilon p) x (gapE R) (distsE R o x) t ord sort n k m allow ret fuel = some flat := by
  obtain ⟨idx', t, e, h⟩ := C128_ends_iff R hp hE heven hfl fused n hn hnp nf x hx o ho policy bucketSize maxDepth hpol
    vmax vlowest ord hord sort hsort k hk2 m allow ret
  have hf : ∀ i j, i < n → j < n → distsE R o x i j < ⊤ := fun i j hi hj =>
    finite_of_bounded R (by omega) (by omega) hx ho hxB hB hi hj
  obtain ⟨fuel, flat, hh⟩ := h.2 ⟨fun a b ha hb => .single ⟨ha, hb, hf a b ha hb⟩, fun q hq => by
    have : inReach R o x n q = n := by
      unfold inReach
      rw [List.filter_eq_self.2 (fun i hi => decide_eq_true (hf q i hq (by simpa using hi))), List.length_range]
    rw [this]
    exact min_le_right _ _⟩
  exact ⟨idx', t, fuel, flat, e, hh⟩

/-! ### concrete cases -/

/-- **C128**, in double precision, on the samples 0, `2 ^ 511` and `2 ^ 512`: HDBSCAN with two neighbours labels
them, and with three neighbours it never ends. -/
theorem C128_three_counterexample (R : RoundingE 53 1024) (fused : Bool)
    (policy : List Nat → Nat → Box ℝ → Nat) (bucketSize maxDepth : Nat)
    (hpol : ∀ idx d box, policy idx d box < 1) (vmax vlowest : ℝ)
    (ord : Orders (WithTop ℝ)) (hord : ord.Valid) (sort : List (Edge ℝ) → List (Edge ℝ))
    (hsort : SortsByWeight sort) (m : Nat) (allow ret : Bool) :
    ∃ idx' t, make (eqE R (epsilon 53)) spread policy bucketSize maxDepth 1 vmax vlowest (List.range 3) =
        some (idx', t) ∧
      (∃ fuel flat, predictF R.rnd fused (epsilon 53) spread (gapE R) (distsE R order1 spread) t ord sort 3 2 m
        allow ret fuel = some flat) ∧
      ∀ fuel, predictF R.rnd fused (epsilon 53) spread (gapE R) (distsE R order1 spread) t ord sort 3 3 m
        allow ret fuel = none := by
  obtain ⟨r0, r1, r2⟩ := spread_inReach R
  obtain ⟨idx', t, e1, h1⟩ := C128_ends_iff R (by norm_num) (by norm_num) (by decide) (fun _ _ => rfl) fused 3
    (by norm_num) (by norm_num) 1 spread spread_isFloat order1 order1_sums policy bucketSize maxDepth
    hpol vmax vlowest ord hord sort hsort 2 (by norm_num) m allow ret
  obtain ⟨_, t', e2, h2⟩ := C128_ends_iff R (by norm_num) (by norm_num) (by decide) (fun _ _ => rfl) fused 3
    (by norm_num) (by norm_num) 1 spread spread_isFloat order1 order1_sums policy bucketSize maxDepth
    hpol vmax vlowest ord hord sort hsort 3 (by norm_num) m allow ret
  obtain ⟨rfl, rfl⟩ := Prod.mk.inj (Option.some.inj (e1.symm.trans e2))
  refine ⟨idx', t, e1, h1.2 ⟨spread_joined R, fun q hq => ?_⟩, fun fuel => ?_⟩
  · have : q = 0 ∨ q = 1 ∨ q = 2 := by omega
    rcases this with rfl | rfl | rfl <;> omega
  · cases hf : predictF R.rnd fused (epsilon 53) spread (gapE R) (distsE R order1 spread) t ord sort 3 3 m
        allow ret fuel with
    | none => rfl
    | some flat =>
      have := (h2.1 ⟨fuel, flat, hf⟩).2 0 (by norm_num)
      omega

end Verif.HDBSCAN
