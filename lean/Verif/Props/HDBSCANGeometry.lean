import Verif.Lemmas.TreeRename
import Verif.Props.SingleLinkage
import Verif.Props.DBSCANGeometry

/-
Property C91: the clusters of HDBSCAN do not depend on the order of the samples, and depend on the
samples only through their distances, up to a common factor.
-/

namespace Verif.HDBSCAN

open Verif.KDTree Verif.Search Verif.Sorting Verif.Distances Verif.ClosestPair Verif.Graph
  Verif.Boruvka Verif.Dendrogram Verif.Rank Verif.Rounding

set_option linter.unusedSectionVars false

/-! ### renaming the vertices of trees -/

section Graph

variable {D : Type}

/-- An edge with its vertices renamed and its weight changed. -/
def renameEdge (σ : Equiv.Perm Nat) (φ : D → D) (e : Edge D) : Edge D := (σ e.1, σ e.2.1, φ e.2.2)

theorem linked_rename (σ : Equiv.Perm Nat) (φ : D → D) (es : List (Edge D)) (a b : Nat) :
    Linked (es.map (renameEdge σ φ)) (σ a) (σ b) ↔ Linked es a b := by
  constructor
  · intro h
    have key : ∀ u v, Linked (es.map (renameEdge σ φ)) u v → Linked es (σ.symm u) (σ.symm v) := by
      intro u v h
      induction h with
      | rel u v h =>
        obtain ⟨w, hw⟩ := h
        obtain ⟨e, he, heq⟩ := List.mem_map.1 hw
        simp only [renameEdge, Prod.mk.injEq] at heq
        rw [← heq.1, ← heq.2.1, σ.symm_apply_apply, σ.symm_apply_apply]
        exact Linked.edge he
      | refl u => exact Linked.refl _
      | symm u v _ ih => exact ih.symm
      | trans u v w _ _ ih1 ih2 => exact ih1.trans ih2
    simpa using key _ _ h
  · intro h
    induction h with
    | rel u v h =>
      obtain ⟨w, hw⟩ := h
      exact Linked.edge (e := (σ u, σ v, φ w)) (List.mem_map.2 ⟨_, hw, rfl⟩)
    | refl u => exact Linked.refl _
    | symm u v _ ih => exact ih.symm
    | trans u v w _ _ ih1 ih2 => exact ih1.trans ih2

theorem spanning_rename {n : Nat} {σ : Equiv.Perm Nat} (hσ : ∀ i, σ i < n ↔ i < n) (φ : D → D)
    {es : List (Edge D)} (h : IsSpanningTree n es) : IsSpanningTree n (es.map (renameEdge σ φ)) where
  vertices := by
    intro e he
    obtain ⟨e0, h0, rfl⟩ := List.mem_map.1 he
    exact ⟨(hσ _).2 (h.vertices e0 h0).1, (hσ _).2 (h.vertices e0 h0).2⟩
  length := by rw [List.length_map]; exact h.length
  connects := by
    intro a b ha hb
    have h1 : σ.symm a < n := by rw [← hσ]; simpa using ha
    have h2 : σ.symm b < n := by rw [← hσ]; simpa using hb
    simpa using (linked_rename σ φ es _ _).2 (h.connects _ _ h1 h2)
  acyclic := by
    intro pre e post heq hl
    obtain ⟨pre0, rest, h1, h2, h3⟩ := List.map_eq_append_iff.1 heq
    obtain ⟨e0, post0, h4, h5, h6⟩ := List.map_eq_cons_iff.1 h3
    subst h2 h5 h6
    rw [← List.map_append] at hl
    exact h.acyclic pre0 e0 post0 (by rw [h1, h4]) ((linked_rename σ φ _ _ _).1 hl)

end Graph

theorem total_rename (σ : Equiv.Perm Nat) (s : ℝ) (es : List (Edge ℝ)) :
    total (es.map (renameEdge σ (s * ·))) = s * total es := by
  unfold total
  rw [List.map_map, ← List.sum_map_mul_left]
  rfl

theorem symm_lt {n : Nat} {σ : Equiv.Perm Nat} (hσ : ∀ i, σ i < n ↔ i < n) (i : Nat) :
    σ.symm i < n ↔ i < n := by
  rw [← hσ]; simp

/-- Minimum spanning trees stay minimum when vertices are renamed and weights scaled. -/
theorem minimum_rename {n : Nat} {σ : Equiv.Perm Nat} (hσ : ∀ i, σ i < n ↔ i < n) {s : ℝ} (hs : 0 < s)
    {wt wt' : Nat → Nat → ℝ} (hwt : ∀ a b, a < n → b < n → wt' (σ a) (σ b) = s * wt a b)
    {T : List (Edge ℝ)} (h : IsMinimum n wt T) : IsMinimum n wt' (T.map (renameEdge σ (s * ·))) where
  tree := spanning_rename hσ _ h.tree
  weights := by
    intro e he
    obtain ⟨e0, h0, rfl⟩ := List.mem_map.1 he
    have hv := h.tree.vertices e0 h0
    show s * e0.2.2 = wt' (σ e0.1) (σ e0.2.1)
    rw [hwt _ _ hv.1 hv.2, h.weights e0 h0]
  minimal := by
    intro fs hfs hw
    have h1 := h.minimal (fs.map (renameEdge σ.symm (s⁻¹ * ·)))
      (spanning_rename (symm_lt hσ) _ hfs) (by
        intro e he
        obtain ⟨e0, h0, rfl⟩ := List.mem_map.1 he
        have hv := hfs.vertices e0 h0
        have h2 := hwt _ _ ((symm_lt hσ _).2 hv.1) ((symm_lt hσ _).2 hv.2)
        rw [Equiv.apply_symm_apply, Equiv.apply_symm_apply] at h2
        show s⁻¹ * e0.2.2 = wt (σ.symm e0.1) (σ.symm e0.2.1)
        rw [hw e0 h0, h2, inv_mul_cancel_left₀ hs.ne'])
    rw [total_rename] at h1 ⊢
    rw [← mul_inv_cancel_left₀ hs.ne' (total fs)]
    exact mul_le_mul_of_nonneg_left h1 hs.le

theorem reach_rename {n : Nat} {σ : Equiv.Perm Nat} (hσ : ∀ i, σ i < n ↔ i < n)
    {close close' : Nat → Nat → Prop} (hc : ∀ a b, a < n → b < n → (close' (σ a) (σ b) ↔ close a b))
    (a b : Nat) : Reach n close' (σ a) (σ b) ↔ Reach n close a b := by
  constructor
  · intro h
    have key : ∀ u v, Reach n close' u v → Reach n close (σ.symm u) (σ.symm v) := by
      intro u v h
      induction h with
      | rel u v h =>
        refine .rel _ _ ⟨(symm_lt hσ _).2 h.1, (symm_lt hσ _).2 h.2.1, ?_⟩
        rw [← hc _ _ ((symm_lt hσ _).2 h.1) ((symm_lt hσ _).2 h.2.1)]
        simpa using h.2.2
      | refl u => exact .refl _
      | symm u v _ ih => exact .symm _ _ ih
      | trans u v w _ _ ih1 ih2 => exact .trans _ _ _ ih1 ih2
    simpa using key _ _ h
  · intro h
    induction h with
    | rel u v h => exact .rel _ _ ⟨(hσ _).2 h.1, (hσ _).2 h.2.1, (hc _ _ h.1 h.2.1).2 h.2.2⟩
    | refl u => exact .refl _
    | symm u v _ ih => exact .symm _ _ ih
    | trans u v w _ _ ih1 ih2 => exact .trans _ _ _ ih1 ih2

theorem sorted_strict {U : List (Edge ℝ)} {f : List (Edge ℝ) → List (Edge ℝ)} (hf : SortsByWeight f)
    (hU : (U.map (fun e => e.2.2)).Nodup) : (f U).Pairwise (fun a b => a.2.2 < b.2.2) := by
  have h1 : ((f U).map (fun e => e.2.2)).Nodup := ((hf.perm U).map _).nodup_iff.2 hU
  have h2 : (f U).Pairwise (fun a b => a.2.2 ≠ b.2.2) := List.pairwise_map.1 h1
  exact (hf.sorted U).imp₂ (fun a b hab hne => lt_of_le_of_ne hab hne) h2

theorem linked_perm {U es : List (Edge ℝ)} (hp : es.Perm U) (c : ℝ) (a b : Nat) :
    Linked (es.filter (fun e => e.2.2 ≤ c)) a b ↔ Linked (U.filter (fun e => e.2.2 ≤ c)) a b :=
  ⟨linked_mono (fun _ he => (hp.filter _).mem_iff.1 he),
    linked_mono (fun _ he => (hp.filter _).mem_iff.2 he)⟩

/-- The labels made from minimum spanning trees of two weighted graphs, one obtained from the other by
renaming the vertices and scaling the weights, describe the same clusters. -/
theorem sameClusters_rename {n : Nat} {σ : Equiv.Perm Nat} (hσ : ∀ i, σ i < n ↔ i < n) {s k : ℝ}
    (hs : 0 < s) (hk : 0 < k) {wt wt' : Nat → Nat → ℝ}
    (hwt : ∀ a b, a < n → b < n → wt' (σ a) (σ b) = s * wt a b)
    {T T' : List (Edge ℝ)} (h : IsMinimum n wt T) (h' : IsMinimum n wt' T') (hw : ∀ a b, 0 ≤ wt a b)
    (hw' : ∀ a b, 0 ≤ wt' a b)
    (hd : (T.map (fun e => e.2.2)).Nodup) {sort sort' : List (Edge ℝ) → List (Edge ℝ)}
    (hs1 : SortsByWeight sort) (hs2 : SortsByWeight sort') (inv : ℝ → ℝ)
    (hinv : ∀ a b, a < n → b < n → inv (s * wt a b) = k * inv (wt a b)) (m : Nat)
    (allow ret : Bool) :
    ∃ t t' f f', build (sort T) = some t ∧ build (sort' T') = some t' ∧
      extractFlat (condensedTree inv m allow ret t) = some f ∧
      extractFlat (condensedTree inv m allow ret t') = some f' ∧ SameClustersVia σ f f' := by
  have hd' : (T'.map (fun e => e.2.2)).Nodup := by
    refine ((minimum_rename hσ hs hwt h).weights_perm h').nodup_iff.1 ?_
    have : (T.map (renameEdge σ (s * ·))).map (fun e => e.2.2) = (T.map (fun e => e.2.2)).map (s * ·) := by
      rw [List.map_map, List.map_map]; rfl
    rw [this]
    exact hd.map (mul_right_injective₀ hs.ne')
  obtain ⟨t, e1, g1, l1, u1, s1, v1⟩ := build_strict h.tree (hs1.perm T)
    (fun e he => by rw [h.weights e ((hs1.perm T).mem_iff.1 he)]; exact hw _ _) (hs1.sorted T)
  obtain ⟨t', e2, g2, l2, u2, s2, _⟩ := build_strict h'.tree (hs2.perm T')
    (fun e he => by rw [h'.weights e ((hs2.perm T').mem_iff.1 he)]; exact hw' _ _) (hs2.sorted T')
  have hmem : ∀ i, i ∈ (t.rename σ s).leaves ↔ i < n := by
    intro i
    rw [STree.leaves_rename, List.mem_map]
    constructor
    · rintro ⟨j, hj, rfl⟩; exact (hσ j).2 ((l1 j).1 hj)
    · intro hi; exact ⟨σ.symm i, (l1 _).2 ((symm_lt hσ i).2 hi), σ.apply_symm_apply i⟩
  have hiso : Iso (t.rename σ s) t' := by
    refine iso_of_under _ _ (g1.rename σ.injective hs) g2 ((s1 (sorted_strict hs1 hd)).rename hs)
      (s2 (sorted_strict hs2 hd')) (fun i => (hmem i).trans (l2 i).symm) ?_
    intro c hc a b ha hb
    rw [hmem] at ha hb
    obtain ⟨a, rfl⟩ := σ.surjective a
    obtain ⟨b, rfl⟩ := σ.surjective b
    obtain ⟨c, rfl⟩ : ∃ c0, c = s * c0 := ⟨c / s, (mul_div_cancel₀ c hs.ne').symm⟩
    have hc' : 0 ≤ c := nonneg_of_mul_nonneg_right hc hs
    rw [STree.under_rename σ.injective hs, u1 c hc' a b ((hσ a).1 ha) ((hσ b).1 hb),
      u2 _ hc _ _ ha hb, linked_perm (hs1.perm T), linked_perm (hs2.perm T'),
      (C79_threshold h c a b).1, (C79_threshold h' _ _ _).1]
    refine (reach_rename hσ (fun a b ha hb => ?_) a b).symm
    rw [hwt a b ha hb]
    exact mul_le_mul_iff_right₀ hs
  obtain ⟨f, cs, a1, _, a2, _, _, _, ns, a3, a4⟩ := extract_full inv m allow ret t g1 n l1
  obtain ⟨f', cs', b1, _, b2, _, _, _, ns', b3, b4⟩ := extract_full inv m allow ret t' g2 n l2
  refine ⟨t, t', f, f', e1, e2, a1, b1, ?_⟩
  have hc := condensedTree_iso inv m allow ret hiso
  rw [condensedTree_rename (k := k) hk inv m allow ret t (fun u hu hne => by
    obtain ⟨e, he, hlv⟩ := v1 u hu hne
    rw [(hs1.perm T).mem_iff] at he
    have hv := h.tree.vertices e he
    rw [← hlv, h.weights e he]
    exact hinv _ _ hv.1 hv.2)] at hc
  have a5 := shallowest_rename (σ := σ) (s := s) (k := k) (condensedTree inv m allow ret t)
  rw [a3, Option.map_some] at a5
  have hmn : ∀ c ∈ cs, ∃ nd ∈ ns, nd.slink = c.root.slink := by
    intro c hc
    have : c.root.slink ∈ ns.map (fun n => n.slink) := by rw [a4]; exact List.mem_map.2 ⟨c, hc, rfl⟩
    exact List.mem_map.1 this
  have hmn' : ∀ nd ∈ ns', ∃ c ∈ cs', c.root.slink = nd.slink := by
    intro nd hn
    have : nd.slink ∈ cs'.map (fun c => c.root.slink) := by rw [← b4]; exact List.mem_map.2 ⟨nd, hn, rfl⟩
    exact List.mem_map.1 this
  have hnm : ∀ nd ∈ ns, ∃ c ∈ cs, c.root.slink = nd.slink := by
    intro nd hn
    have : nd.slink ∈ cs.map (fun c => c.root.slink) := by rw [← a4]; exact List.mem_map.2 ⟨nd, hn, rfl⟩
    exact List.mem_map.1 this
  have hnm' : ∀ c ∈ cs', ∃ nd ∈ ns', nd.slink = c.root.slink := by
    intro c hc
    have : c.root.slink ∈ ns'.map (fun n => n.slink) := by rw [b4]; exact List.mem_map.2 ⟨c, hc, rfl⟩
    exact List.mem_map.1 this
  refine sameClustersVia_of hσ a2 b2 ?_ ?_
  · intro c hcc
    obtain ⟨nd, hn, h1⟩ := hmn c hcc
    obtain ⟨nd', hn', h2⟩ := shallowest_iso hc a5 b3 (nd.rename σ s k) (List.mem_map_of_mem hn)
    obtain ⟨d, hdd, h3⟩ := hmn' nd' hn'
    refine ⟨d, hdd, fun i => ?_⟩
    unfold CTree.samples
    rw [h3, ← h1, ← h2.leaves (σ i)]
    show _ ↔ σ i ∈ (nd.slink.rename σ s).leaves
    rw [STree.leaves_rename, List.mem_map_of_injective σ.injective]
  · intro d hdd
    obtain ⟨nd', hn', h1⟩ := hnm' d hdd
    obtain ⟨nd, hn, h2⟩ := shallowest_iso hc.symm b3 a5 nd' hn'
    obtain ⟨nd0, hn0, rfl⟩ := List.mem_map.1 hn
    obtain ⟨c, hcc, h3⟩ := hnm nd0 hn0
    refine ⟨c, hcc, fun i => ?_⟩
    unfold CTree.samples
    rw [h3, ← h1, h2.leaves (σ i)]
    show _ ↔ σ i ∈ (nd0.slink.rename σ s).leaves
    rw [STree.leaves_rename, List.mem_map_of_injective σ.injective]

/-! ### C91 -/

theorem isKth_rename {n k : Nat} {σ : Equiv.Perm Nat} (hσ : ∀ i, σ i < n ↔ i < n) {s : ℝ} (hs : 0 < s)
    {d d' : Nat → ℝ} (hd : ∀ i, i < n → d' (σ i) = s * d i) {v : ℝ}
    (h : IsKth k ((List.range n).map d) v) : IsKth k ((List.range n).map d') (s * v) := by
  have hp : ((List.range n).map d').Perm (((List.range n).map d).map (s * ·)) := by
    have h1 : (List.range n).Perm ((List.range n).map σ) := by
      rw [List.perm_ext_iff_of_nodup List.nodup_range (List.nodup_range.map σ.injective)]
      intro i
      rw [List.mem_map]
      constructor
      · intro hi
        exact ⟨σ.symm i, List.mem_range.2 ((symm_lt hσ i).2 (List.mem_range.1 hi)), σ.apply_symm_apply i⟩
      · rintro ⟨j, hj, rfl⟩; exact List.mem_range.2 ((hσ j).2 (List.mem_range.1 hj))
    refine (h1.map d').trans (List.Perm.of_eq ?_)
    rw [List.map_map, List.map_map]
    exact List.map_congr_left fun i hi => hd i (List.mem_range.1 hi)
  refine ⟨?_, ?_, ?_⟩
  · rw [hp.mem_iff]; exact List.mem_map_of_mem h.mem
  · rw [(hp.filter _).length_eq, List.filter_map, List.length_map]
    refine h.le.trans (le_of_eq (congrArg List.length (List.filter_congr fun a _ => ?_)))
    simp only [Function.comp, decide_eq_decide]
    exact (mul_le_mul_iff_right₀ hs).symm
  · rw [(hp.filter _).length_eq, List.filter_map, List.length_map]
    refine lt_of_eq_of_lt (congrArg List.length (List.filter_congr fun a _ => ?_)) h.lt
    simp only [Function.comp, decide_eq_decide]
    exact mul_lt_mul_iff_right₀ hs

/-- **C91** (partial: at most three neighbours, distinct weights as in C80, see `C80_ties`, and
distances on which the division by the level scales, see `C91_small_counterexample`).  Let the sample
`σ i` of a second data set be the sample `i` of a first one, such that all distances are those of the
first, multiplied by `s`.  Then `predict` finds the same clusters and the same noise in both, whatever
dimensions, trees, orders of the hash maps and sorts. -/
theorem C91_geometry_partial (n : Nat) (hn : 0 < n) (nf nf' : Nat)
    (x x' : Nat → Nat → ℝ) (dist dist' : Nat → Nat → ℝ)
    (hd : ∀ q i, euclidean (row nf (x i)) (row nf (x q)) = some (dist q i))
    (hd' : ∀ q i, euclidean (row nf' (x' i)) (row nf' (x' q)) = some (dist' q i))
    (σ : Equiv.Perm Nat) (hσ : ∀ i, σ i < n ↔ i < n) (s : ℝ) (hs : 0 < s)
    (hdd : ∀ a b, a < n → b < n → dist' (σ a) (σ b) = s * dist a b)
    (policy policy' : List Nat → Nat → Box ℝ → Nat) (bucketSize maxDepth bucketSize' maxDepth' : Nat)
    (hpol : ∀ idx d box, policy idx d box < nf) (hpol' : ∀ idx d box, policy' idx d box < nf')
    (vmax vlowest inf : ℝ) (hinf : ∀ q i, q < n → i < n → dist q i < inf)
    (hinf' : ∀ q i, q < n → i < n → dist' q i < inf)
    (ord ord' : Orders ℝ) (hord : ord.Valid) (hord' : ord'.Valid) (k : Nat) (hk : k ≤ 3)
    (core : Nat → ℝ)
    (hcore : 1 < k → ∀ q, q < n → IsKth (min k n) ((List.range n).map (dist q)) (core q))
    (sort sort' : List (Edge ℝ) → List (Edge ℝ)) (hsort : SortsByWeight sort)
    (hsort' : SortsByWeight sort') (inv : ℝ → ℝ) (κ : ℝ) (hκ : 0 < κ)
    (hinv : ∀ a b, a < n → b < n →
      inv (s * reachDist k core dist a b) = κ * inv (reachDist k core dist a b))
    (minSize : Nat) (allow ret : Bool)
    (S : List (Edge ℝ)) (hS : IsMinimum n (reachDist k core dist) S)
    (hdis : (S.map (fun e => e.2.2)).Nodup) :
    ∃ idx idx' t t' f f',
      make (eqEps 0) x policy bucketSize maxDepth nf vmax vlowest (List.range n) = some (idx, t) ∧
      make (eqEps 0) x' policy' bucketSize' maxDepth' nf' vmax vlowest (List.range n) =
        some (idx', t') ∧
      (∀ fuel, Nat.log 2 n + 1 ≤ fuel →
        predict x (fun v w => |v - w|) dist inf t ord sort inv n k minSize allow ret fuel = some f ∧
        predict x' (fun v w => |v - w|) dist' inf t' ord' sort' inv n k minSize allow ret fuel =
          some f') ∧
      SameClustersVia σ f f' := by
  obtain ⟨idx, t, T, h1, h2, h3⟩ := makeTree_minimum n hn nf x dist hd policy bucketSize maxDepth hpol
    vmax vlowest inf hinf ord hord k hk core hcore
  obtain ⟨idx', t', T', h1', h2', h3'⟩ := makeTree_minimum n hn nf' x' dist' hd' policy' bucketSize'
    maxDepth' hpol' vmax vlowest inf hinf' ord' hord' k hk (fun q => s * core (σ.symm q)) (by
      intro h q hq
      have hq' := (symm_lt hσ q).2 hq
      refine isKth_rename hσ hs (fun i hi => ?_) (hcore h _ hq')
      rw [← hdd _ _ hq' hi, σ.apply_symm_apply])
  have hwt : ∀ a b, a < n → b < n → reachDist k (fun q => s * core (σ.symm q)) dist' (σ a) (σ b) =
      s * reachDist k core dist a b := by
    intro a b ha hb
    simp only [reachDist, σ.symm_apply_apply, hdd a b ha hb]
    split
    · rfl
    · rw [mul_max_of_nonneg _ _ hs.le, mul_max_of_nonneg _ _ hs.le]
  obtain ⟨r, r', f, f', e1, e2, e3, e4, e5⟩ := sameClusters_rename hσ hs hκ hwt h3 h3'
    (reachDist_nonneg hd k core) (reachDist_nonneg hd' k _) ((hS.weights_perm h3).nodup_iff.1 hdis)
    hsort hsort' inv hinv minSize allow ret
  refine ⟨idx, idx', t, t', f, f', h1, h1', fun fuel hf => ⟨?_, ?_⟩, e5⟩
  · simp only [predict, h2 fuel hf, Option.bind_eq_bind, Option.bind_some, e1, e3]
  · simp only [predict, h2' fuel hf, Option.bind_eq_bind, Option.bind_some, e2, e4]

/-- **C91**, reordering: when the samples are given in another order `predict` finds the same clusters,
whatever the function `inv`. -/
theorem C91_reorder_partial (n : Nat) (hn : 0 < n) (nf : Nat)
    (x x' : Nat → Nat → ℝ) (dist dist' : Nat → Nat → ℝ)
    (hd : ∀ q i, euclidean (row nf (x i)) (row nf (x q)) = some (dist q i))
    (hd' : ∀ q i, euclidean (row nf (x' i)) (row nf (x' q)) = some (dist' q i))
    (σ : Equiv.Perm Nat) (hσ : ∀ i, σ i < n ↔ i < n) (hx : ∀ i, i < n → x' (σ i) = x i)
    (policy policy' : List Nat → Nat → Box ℝ → Nat) (bucketSize maxDepth bucketSize' maxDepth' : Nat)
    (hpol : ∀ idx d box, policy idx d box < nf) (hpol' : ∀ idx d box, policy' idx d box < nf)
    (vmax vlowest inf : ℝ) (hinf : ∀ q i, q < n → i < n → dist q i < inf)
    (ord ord' : Orders ℝ) (hord : ord.Valid) (hord' : ord'.Valid) (k : Nat) (hk : k ≤ 3)
    (core : Nat → ℝ)
    (hcore : 1 < k → ∀ q, q < n → IsKth (min k n) ((List.range n).map (dist q)) (core q))
    (sort sort' : List (Edge ℝ) → List (Edge ℝ)) (hsort : SortsByWeight sort)
    (hsort' : SortsByWeight sort') (inv : ℝ → ℝ) (minSize : Nat) (allow ret : Bool)
    (S : List (Edge ℝ)) (hS : IsMinimum n (reachDist k core dist) S)
    (hdis : (S.map (fun e => e.2.2)).Nodup) :
    ∃ idx idx' t t' f f',
      make (eqEps 0) x policy bucketSize maxDepth nf vmax vlowest (List.range n) = some (idx, t) ∧
      make (eqEps 0) x' policy' bucketSize' maxDepth' nf vmax vlowest (List.range n) =
        some (idx', t') ∧
      (∀ fuel, Nat.log 2 n + 1 ≤ fuel →
        predict x (fun v w => |v - w|) dist inf t ord sort inv n k minSize allow ret fuel = some f ∧
        predict x' (fun v w => |v - w|) dist' inf t' ord' sort' inv n k minSize allow ret fuel =
          some f') ∧
      SameClustersVia σ f f' := by
  have hdd : ∀ a b, a < n → b < n → dist' (σ a) (σ b) = dist a b := by
    intro a b ha hb
    have h := hd' (σ a) (σ b)
    rw [hx a ha, hx b hb, hd a b] at h
    exact (Option.some.inj h).symm
  refine C91_geometry_partial n hn nf nf x x' dist dist' hd hd' σ hσ 1 one_pos
    (fun a b ha hb => by rw [one_mul]; exact hdd a b ha hb) policy policy' bucketSize maxDepth bucketSize'
    maxDepth' hpol hpol' vmax vlowest inf hinf ?_ ord ord' hord hord' k hk core hcore sort sort' hsort hsort'
    inv 1 one_pos (fun a b _ _ => by rw [one_mul, one_mul]) minSize allow ret S hS hdis
  intro q i hq hi
  have h := hdd _ _ ((symm_lt hσ q).2 hq) ((symm_lt hσ i).2 hi)
  rw [σ.apply_symm_apply, σ.apply_symm_apply] at h
  rw [h]
  exact hinf _ _ ((symm_lt hσ q).2 hq) ((symm_lt hσ i).2 hi)

/-- `common::division(1, v)` (common/Utils.hpp:431-440) with the tolerance `eps` of
`common::equality`. -/
def divEps {F : Type} [Field F] [LinearOrder F] (eps v : F) : F := if |v| ≤ eps then 0 else 1 / v

/-- The division scales unless the tolerance separates a value from its multiple. -/
theorem divEps_scale {eps s v : ℝ} (he : 0 ≤ eps) (hs : 0 < s) (hv : v = 0 ∨ (eps < v ∧ eps < s * v)) :
    divEps eps (s * v) = s⁻¹ * divEps eps v := by
  rcases hv with rfl | ⟨h1, h2⟩
  · simp [divEps, he]
  · have h3 : ¬ |v| ≤ eps := not_le.2 (h1.trans_le (le_abs_self v))
    have h4 : ¬ |s * v| ≤ eps := not_le.2 (h2.trans_le (le_abs_self _))
    simp only [divEps, if_neg h3, if_neg h4]
    field_simp

/-- **C91**, translation and scaling: moving the data and changing the unit of length by a factor `s`
does not change clusters and noise as long as the distances that are not 0 exceed the tolerance before
and after.  Reordering is included. -/
theorem C91_affine_partial (eps : ℝ) (he : 0 ≤ eps) (n : Nat) (hn : 0 < n) (nf : Nat)
    (x x' : Nat → Nat → ℝ) (dist dist' : Nat → Nat → ℝ)
    (hd : ∀ q i, euclidean (row nf (x i)) (row nf (x q)) = some (dist q i))
    (hd' : ∀ q i, euclidean (row nf (x' i)) (row nf (x' q)) = some (dist' q i))
    (σ : Equiv.Perm Nat) (hσ : ∀ i, σ i < n ↔ i < n) (s : ℝ) (hs : 0 < s) (v : Nat → ℝ)
    (hx : ∀ i, i < n → x' (σ i) = fun a => s * x i a + v a)
    (policy policy' : List Nat → Nat → Box ℝ → Nat) (bucketSize maxDepth bucketSize' maxDepth' : Nat)
    (hpol : ∀ idx d box, policy idx d box < nf) (hpol' : ∀ idx d box, policy' idx d box < nf)
    (vmax vlowest inf : ℝ) (hinf : ∀ q i, q < n → i < n → dist q i < inf)
    (hinf' : ∀ q i, q < n → i < n → s * dist q i < inf)
    (ord ord' : Orders ℝ) (hord : ord.Valid) (hord' : ord'.Valid) (k : Nat) (hk : k ≤ 3)
    (core : Nat → ℝ)
    (hcore : 1 < k → ∀ q, q < n → IsKth (min k n) ((List.range n).map (dist q)) (core q))
    (sort sort' : List (Edge ℝ) → List (Edge ℝ)) (hsort : SortsByWeight sort)
    (hsort' : SortsByWeight sort')
    (hbig : ∀ a b, a < n → b < n → reachDist k core dist a b = 0 ∨
      (eps < reachDist k core dist a b ∧ eps < s * reachDist k core dist a b))
    (minSize : Nat) (allow ret : Bool)
    (S : List (Edge ℝ)) (hS : IsMinimum n (reachDist k core dist) S)
    (hdis : (S.map (fun e => e.2.2)).Nodup) :
    ∃ idx idx' t t' f f',
      make (eqEps 0) x policy bucketSize maxDepth nf vmax vlowest (List.range n) = some (idx, t) ∧
      make (eqEps 0) x' policy' bucketSize' maxDepth' nf vmax vlowest (List.range n) =
        some (idx', t') ∧
      (∀ fuel, Nat.log 2 n + 1 ≤ fuel →
        predict x (fun v w => |v - w|) dist inf t ord sort (divEps eps) n k minSize allow ret fuel =
          some f ∧
        predict x' (fun v w => |v - w|) dist' inf t' ord' sort' (divEps eps) n k minSize allow ret fuel =
          some f') ∧
      SameClustersVia σ f f' := by
  have hdd : ∀ a b, a < n → b < n → dist' (σ a) (σ b) = s * dist a b := by
    intro a b ha hb
    have h := hd' (σ a) (σ b)
    rw [hx a ha, hx b hb] at h
    exact DBSCAN.euclidean_affine s hs v (x b) (x a) (hd a b) h
  refine C91_geometry_partial n hn nf nf x x' dist dist' hd hd' σ hσ s hs hdd policy policy' bucketSize
    maxDepth bucketSize' maxDepth' hpol hpol' vmax vlowest inf hinf ?_ ord ord' hord hord' k hk core hcore
    sort sort' hsort hsort' (divEps eps) s⁻¹ (inv_pos.2 hs)
    (fun a b ha hb => divEps_scale he hs (hbig a b ha hb)) minSize allow ret S hS hdis
  intro q i hq hi
  have h := hdd _ _ ((symm_lt hσ q).2 hq) ((symm_lt hσ i).2 hi)
  rw [σ.apply_symm_apply, σ.apply_symm_apply] at h
  rw [h]
  exact hinf' _ _ ((symm_lt hσ q).2 hq) ((symm_lt hσ i).2 hi)

/-! ### concrete cases -/

/-- `predict` for samples on a line with one neighbour, `min_cluster_size` 3 and the tolerance of the
division for `float`, 2 to the power of -23. -/
def linePredict (pos : List ℚ) : Option (List Nat) :=
  let x : Nat → Nat → ℚ := fun i _ => pos.getD i 0
  (make eqExact x (fun _ _ _ => 0) 16 0 1 0 0 (List.range pos.length)).bind fun p =>
    predict x (fun v w => |v - w|) (fun a b => |x a 0 - x b 0|) 1000 p.2 idOrdersQ sortUp
      (divEps (1 / 2 ^ 23)) pos.length 1 3 false false 5

/-- **C91 is false of the code below the tolerance of `common::division`**: three groups of three samples
are found at scale 1 but not at scale 2 to the power of -30, where every lambda is replaced by 0 and two
of the groups are returned as one cluster. -/
theorem C91_small_counterexample :
    linePredict [0, 1, 3, 10, 12, 13, 100, 102, 105] = some [2, 2, 2, 3, 3, 3, 1, 1, 1] ∧
    linePredict ([0, 1, 3, 10, 12, 13, 100, 102, 105].map (· / 2 ^ 30)) =
      some [2, 2, 2, 2, 2, 2, 1, 1, 1] := by
  constructor <;> decide +kernel

/-- The same groups in another order, scaled by 2 and moved by 5: the same clusters, other numbers. -/
example : linePredict ([12, 105, 0, 10, 1, 3, 100, 102, 13].map (· * 2 + 5)) =
    some [2, 1, 3, 2, 3, 3, 1, 1, 2] := by
  decide +kernel

theorem lineX_bounds (i : Nat) : 0 ≤ lineX i 0 ∧ lineX i 0 ≤ 7 := by
  unfold lineX
  rcases i with _ | _ | _ | _ | i <;> simp <;> norm_num

/-- The samples 7, 1, 3, 0 on a line, scaled by 2 and moved by 1. -/
noncomputable def lineX' : Nat → Nat → ℝ := fun i _ => 2 * lineX (Equiv.swap 0 3 i) 0 + 1

/-- C91 applies to `lineX` and `lineX'`, with one neighbour and tolerance 1/2. -/
example (ord ord' : Orders ℝ) (hord : ord.Valid) (hord' : ord'.Valid)
    (sort : List (Edge ℝ) → List (Edge ℝ)) (hsort : SortsByWeight sort) :
    ∃ idx idx' t t' f f',
      make (eqEps 0) lineX (fun _ _ _ => 0) 1 8 1 0 0 (List.range 4) = some (idx, t) ∧
      make (eqEps 0) lineX' (fun _ _ _ => 0) 2 3 1 0 0 (List.range 4) = some (idx', t') ∧
      (∀ fuel, Nat.log 2 4 + 1 ≤ fuel →
        predict lineX (fun v w => |v - w|) (fun q i => |lineX i 0 - lineX q 0|) 100 t ord sort
          (divEps (1 / 2)) 4 1 2 true false fuel = some f ∧
        predict lineX' (fun v w => |v - w|) (fun q i => |lineX' i 0 - lineX' q 0|) 100 t' ord' sort
          (divEps (1 / 2)) 4 1 2 true false fuel = some f') ∧
      SameClustersVia (Equiv.swap 0 3) f f' := by
  have hinf : ∀ q i, |lineX i 0 - lineX q 0| < 50 := by
    intro q i
    have := lineX_bounds q; have := lineX_bounds i
    rw [abs_lt]; constructor <;> linarith
  obtain ⟨_, _, S, _, _, hS⟩ := makeTree_minimum 4 (by norm_num) 1 lineX
    (fun q i => |lineX i 0 - lineX q 0|) lineX_dist (fun _ _ _ => 0) 1 8 (fun _ _ _ => one_pos) 0 0 100
    (fun q i _ _ => (hinf q i).trans (by norm_num)) ord hord 1 (by norm_num) (fun _ => 0)
    (fun h => absurd h (by norm_num))
  refine C91_affine_partial (1 / 2) (by norm_num) 4 (by norm_num) 1 lineX lineX'
    (fun q i => |lineX i 0 - lineX q 0|) (fun q i => |lineX' i 0 - lineX' q 0|) lineX_dist ?_
    (Equiv.swap 0 3) ?_ 2 (by norm_num) (fun _ => 1) ?_ (fun _ _ _ => 0) (fun _ _ _ => 0) 1 8 2 3
    (fun _ _ _ => one_pos) (fun _ _ _ => one_pos) 0 0 100 (fun q i _ _ => (hinf q i).trans (by norm_num))
    (fun q i _ _ => by have := hinf q i; linarith) ord ord' hord hord' 1 (by norm_num) (fun _ => 0)
    (fun h => absurd h (by norm_num)) sort sort hsort hsort ?_ 2 true false S hS
    (nodup_of_distinct hS.tree hS.weights ?_)
  · intro q i
    rw [euclidean_eq (by simp [row])]
    simp only [row, List.range_one, List.map_cons, List.map_nil, List.zipWith_cons_cons,
      List.zipWith_nil_right, List.sum_cons, List.sum_nil, add_zero, Real.sqrt_mul_self_eq_abs]
  · intro i
    rw [Equiv.swap_apply_def]
    split
    · omega
    · split <;> omega
  · intro i _
    funext a
    simp only [lineX', Equiv.swap_apply_self]
    rfl
  · intro a b ha hb
    have hc : ∀ a, a < 4 → lineX a 0 = ((([0, 1, 3, 7] : List ℤ).getD a 0 : ℤ) : ℝ) := by
      intro a ha
      have : a = 0 ∨ a = 1 ∨ a = 2 ∨ a = 3 := by omega
      rcases this with rfl | rfl | rfl | rfl <;> simp [lineX]
    have hq : ∀ a b : Fin 4,
        |([0, 1, 3, 7] : List ℤ).getD b 0 - ([0, 1, 3, 7] : List ℤ).getD a 0| = 0 ∨
        1 ≤ |([0, 1, 3, 7] : List ℤ).getD b 0 - ([0, 1, 3, 7] : List ℤ).getD a 0| := by decide +kernel
    simp only [reachDist, if_pos (le_refl 1), hc a ha, hc b hb]
    rcases hq ⟨a, ha⟩ ⟨b, hb⟩ with h | h
    · left; exact_mod_cast h
    · right
      have h' : (1 : ℝ) ≤ |((([0, 1, 3, 7] : List ℤ).getD b 0 : ℤ) : ℝ) -
        ((([0, 1, 3, 7] : List ℤ).getD a 0 : ℤ) : ℝ)| := by exact_mod_cast h
      constructor <;> linarith
  · intro a b a' b' ha hb ha' hb' h1 h2 h3
    rw [reachDist, reachDist, if_pos le_rfl, if_pos le_rfl] at h3
    exact lineX_distinct a b a' b' ha hb ha' hb' h1 h2 h3

end Verif.HDBSCAN
